{"id": "C01", "title": "Bit decomposition is exact", "statement": "decompose_into_n_bits(value, n) returns exactly n entries, each 0 or 1, whose weighted sum with weights 2^i (least significant first) is value; it raises exactly when value is negative or value >= 2^n.", "quantifier": "every integer value and every n", "why_tests_cant": "unbounded integers and widths; tests check three literals", "anchors": ["zksk/primitives/rangeproof.py:decompose_into_n_bits"]}
{"id": "C02", "title": "Residual sub-challenge closes the sum", "statement": "For any list of sub-challenges and any global challenge, the residual challenge r satisfies (sum of sub-challenges + r) = challenge modulo 2^k, and -2^k < r <= 0. A list of sub-challenges has residual 0 exactly when it sums to the challenge modulo 2^k.", "quantifier": "all integer lists (any length, signs, sizes), all challenges, all k", "why_tests_cant": "the arithmetic must hold for every list length and sign", "anchors": ["zksk/composition.py:_find_residual_challenge", "zksk/utils/groups.py:sum_bn_array"]}
{"id": "C03", "title": "Secret identifiers are canonical", "statement": "The identifiers given to the secrets of a statement depend only on the pattern of equal names: two positions get the same identifier iff their secrets have the same name, and the identifiers, in order of first occurrence, are 0,1,2,...", "quantifier": "all lists of secrets and all namings", "why_tests_cant": "equality patterns are unbounded", "anchors": ["zksk/composition.py:_assign_secret_ids"]}
{"id": "C04", "title": "Expression evaluation", "statement": "Expression.eval returns the sum of value*base over all terms when every secret has a value and all bases share a group, and raises IncompleteValuesError exactly when some secret has no value. * with anything but a secret and + with anything but an expression raise InvalidExpression.", "quantifier": "all expressions built from * and +, all secret values, all groups", "why_tests_cant": "sizes and values unbounded", "anchors": ["zksk/expr.py:Expression.eval", "zksk/expr.py:Secret.__mul__"]}
{"id": "C05", "title": "wsum_secrets pairs secrets and bases in order", "statement": "wsum_secrets(secrets, bases) returns an expression whose secrets and bases are exactly the given lists in order; it raises ValueError iff the lengths differ and IndexError iff both are empty.", "quantifier": "all lists", "why_tests_cant": "length unbounded", "anchors": ["zksk/expr.py:wsum_secrets", "zksk/expr.py:Expression.__add__"]}
{"id": "C06", "title": "Adding expressions must not change the operands", "statement": "Evaluating e1 + e2 should leave e1 and e2 unchanged, so an expression can be reused in several statements. (Expected to be violated: __add__ extends the left operand in place.)", "quantifier": "all programs that build expressions, i.e. all histories of * and + over a heap of expression objects", "why_tests_cant": "aliasing only shows across histories that reuse an object", "anchors": ["zksk/expr.py:Expression.__add__"]}
{"id": "C07", "title": "Conjunction/disjunction operators flatten", "statement": "a & b & c has the same flat list of subproofs for either association; & never flattens a disjunction and | never flattens a conjunction; fewer than two subproofs raises ValueError.", "quantifier": "all statement trees", "why_tests_cant": "tree shapes are unbounded", "anchors": ["zksk/composition.py:ComposableProofStmt.__and__", "zksk/composition.py:ComposableProofStmt.__or__", "zksk/composition.py:AndProofStmt.__init__", "zksk/composition.py:OrProofStmt.__init__"]}
{"id": "C08", "title": "Names of secrets do not matter", "statement": "The statement identifier of a statement tree is unchanged by any injective renaming of its secrets, hence a proof made with one naming is checked the same way by a verifier using another naming.", "quantifier": "all statement trees and all injective renamings", "why_tests_cant": "ranges over all trees and renamings", "anchors": ["zksk/composition.py:ComposableProofStmt.get_proof_id", "zksk/composition.py:_CommonComposedStmtMixin.get_proof_id"]}
{"id": "C09", "title": "The statement identifier determines the statement", "statement": "Two statement trees with the same identifier have the same shape, the same bases, left-hand sides and order of terms, and the same pattern of shared secrets; consequently they have identical verification equations.", "quantifier": "all pairs of statement trees", "why_tests_cant": "pairs of unbounded trees", "anchors": ["zksk/composition.py:get_proof_id", "zksk/primitives/dlrep.py:DLRep.get_proof_id", "zksk/extended.py:ExtendedProofStmt.get_proof_id"]}
{"id": "C10", "title": "A proof for another statement is never accepted", "statement": "verify never returns True for a NIZK whose statement hash differs from the hash of the verifier's own statement: it raises StatementMismatch (or an earlier exception while digesting the precommitment).", "quantifier": "all statements, all NIZKs", "why_tests_cant": "adversarial input space", "anchors": ["zksk/base.py:Verifier.verify_nizk", "zksk/composition.py:ComposableProofStmt.check_statement"]}
{"id": "C11", "title": "Acceptance criterion of NIZK verification", "statement": "verify returns True exactly when: the precommitments are digested, the statement hash matches, validation passes, responses of re-occurring secrets agree, the recomputation of the commitment succeeds, and the challenge equals the Fiat-Shamir hash of (statement, precommitment, recomputed commitment, message).", "quantifier": "all statements, NIZKs and messages", "why_tests_cant": "adversarial input space", "anchors": ["zksk/base.py:Verifier.verify_nizk", "zksk/base.py:build_fiat_shamir_challenge"]}
{"id": "C12", "title": "Message binding", "statement": "A NIZK accepted for a message m is accepted for a different message m' only if the hash function maps the two different challenge inputs (ending in m and m') to the same value: the challenge input is an injective function of (statement, precommitment, commitment, message).", "quantifier": "all statements, NIZKs, pairs of messages", "why_tests_cant": "all messages", "anchors": ["zksk/base.py:build_fiat_shamir_challenge"]}
{"id": "C13", "title": "Completeness of DLRep (non-interactive)", "statement": "If the secret values satisfy lhs = sum x_i G_i then prove() succeeds and verify() of its result with the same message returns True, whatever the random draws.", "quantifier": "all groups, all lists of bases/secrets including repeated secrets, all values (any integers, not only reduced), all random draws, all messages", "why_tests_cant": "randomness and sizes unbounded", "anchors": ["zksk/primitives/dlrep.py", "zksk/base.py:Prover.get_nizk_proof"]}
{"id": "C14", "title": "Completeness of composed statements (non-interactive)", "statement": "For every tree of And/Or/DLRep statements, if prove() returns a proof and the values used on the branch actually proved satisfy that branch (same value for re-occurring secrets), verify() returns True.", "quantifier": "all trees of any depth and width, all random draws and branch choices, all messages", "why_tests_cant": "trees and randomness unbounded", "anchors": ["zksk/composition.py", "zksk/base.py"]}
{"id": "C15", "title": "Completeness of the interactive protocol", "statement": "The three-move protocol (precommit, commit, challenge, response, verify) between an honest prover and verifier accepts, for every challenge.", "quantifier": "all trees, all challenges, all randomness", "why_tests_cant": "challenge space is 2^128", "anchors": ["zksk/utils/debug.py:SigmaProtocol.verify", "zksk/base.py:Verifier.verify", "zksk/base.py:Verifier.send_challenge"]}
{"id": "C16", "title": "Wrong secrets are rejected", "statement": "If the DLRep prover runs with values that do not satisfy lhs = sum x_i G_i, in a group of prime order, the verifier rejects for every challenge that is nonzero modulo the order.", "quantifier": "all wrong values, all challenges nonzero mod order, all randomness", "why_tests_cant": "all wrong witnesses", "anchors": ["zksk/primitives/dlrep.py:DLRepProver.compute_response", "zksk/primitives/dlrep.py:DLRep.recompute_commitment"]}
{"id": "C17", "title": "Special soundness of DLRep", "statement": "From two accepting transcripts with the same commitment and challenges whose difference is invertible modulo the order, the quotient of response and challenge differences satisfies the statement, with one value per re-occurring secret.", "quantifier": "all adversarial responses and challenges", "why_tests_cant": "adversarial", "anchors": ["zksk/primitives/dlrep.py:DLRep.recompute_commitment", "zksk/primitives/dlrep.py:DLRepVerifier.check_responses_consistency"]}
{"id": "C18", "title": "Special soundness of And with shared secrets", "statement": "From two accepting transcripts of a conjunction (any nesting of And), one single assignment of values to secrets satisfies all conjuncts simultaneously: a re-occurring secret has the same value everywhere.", "quantifier": "all And/DLRep trees, all adversarial transcripts", "why_tests_cant": "adversarial, unbounded trees", "anchors": ["zksk/composition.py:AndVerifier.check_responses_consistency"]}
{"id": "C19", "title": "Soundness of Or", "statement": "A verifier that accepts an or-proof should be convinced that the prover knows a witness for at least one disjunct. (Expected to be violated: neither the number of sub-challenges nor their range is checked, so accepted proofs can be produced from public data only.) Under the extra hypothesis that exactly one sub-challenge per disjunct is given and each is in the honest range, witness extraction works for every And/Or tree.", "quantifier": "all trees, all adversarial transcripts", "why_tests_cant": "adversarial", "anchors": ["zksk/composition.py:OrProofStmt.recompute_commitment"]}
{"id": "C20", "title": "Or sub-challenges must add up", "statement": "recompute_commitment of an or-statement returns normally only if the listed sub-challenges sum to the challenge modulo 2^128; otherwise it raises InconsistentChallengeError.", "quantifier": "all challenge lists", "why_tests_cant": "adversarial", "anchors": ["zksk/composition.py:OrProofStmt.recompute_commitment"]}
{"id": "C21", "title": "Inconsistent responses for one secret are rejected", "statement": "In any conjunction, if two occurrences of the same secret (not inside an or-clause) are given different responses, verification does not accept (ValidationError).", "quantifier": "all And trees, all responses", "why_tests_cant": "adversarial", "anchors": ["zksk/composition.py:AndVerifier.check_responses_consistency", "zksk/base.py:Verifier.pre_verification_validation"]}
{"id": "C22", "title": "Simulated transcripts satisfy the verification equations", "statement": "Every transcript produced by simulate() passes verify_simulation_consistency.", "quantifier": "all trees of And/Or/DLRep, all random draws and challenges", "why_tests_cant": "randomness and trees unbounded", "anchors": ["zksk/composition.py:ComposableProofStmt.simulate", "zksk/composition.py:ComposableProofStmt.verify_simulation_consistency"]}
{"id": "C23", "title": "Simulated transcripts are not proofs", "statement": "A simulated transcript is accepted by verify only if its (freely drawn) challenge happens to equal the Fiat-Shamir hash of its own commitment.", "quantifier": "all trees, all random draws", "why_tests_cant": "randomness", "anchors": ["zksk/composition.py:ComposableProofStmt.simulate", "zksk/base.py:Verifier.verify_nizk"]}
{"id": "C24", "title": "Perfect honest-verifier zero-knowledge without Or", "statement": "For DLRep and And statements and every fixed challenge, there is a bijection between the prover's randomness and the simulator's randomness under which the honest transcript and the simulated transcript are equal: the two distributions coincide.", "quantifier": "all Or-free trees, all witnesses, all challenges", "why_tests_cant": "a statement about distributions over all randomness", "anchors": ["zksk/primitives/dlrep.py:DLRep.simulate_proof", "zksk/composition.py:AndProofStmt.simulate_proof"]}
{"id": "C25", "title": "Or-proofs hide which clause is true", "statement": "The transcript of an or-proof should not reveal which disjunct was really proved. (Expected to be violated: the sub-challenge of the clause really proved is never positive and those of simulated clauses are never negative.)", "quantifier": "all or-statements, all secrets, all randomness", "why_tests_cant": "statement about all runs", "anchors": ["zksk/composition.py:OrProver.compute_response", "zksk/composition.py:_find_residual_challenge"]}
{"id": "C26", "title": "Verification depends on responses modulo the order only (malleability)", "statement": "Adding the group order to a response (consistently over a re-occurring secret) does not change the result of verification: responses are not required to be reduced.", "quantifier": "all DLRep statements, all NIZKs", "why_tests_cant": "adversarial", "anchors": ["zksk/primitives/dlrep.py:DLRep.recompute_commitment"]}
{"id": "C27", "title": "Secrets inside and outside an or-clause are refused", "statement": "When proving, a conjunction raises InvalidSecretsError exactly when some or-clause reachable through conjunctions contains a secret that also occurs elsewhere in the conjunction. With primitives in the tree: if a secret object of such a disjunction also belongs to another part of the conjunction, prove() does not return a proof; the secrets of a primitive are those that all statements it constructs have. The interactive prover of such a statement never commits, also with randomizers given by the caller, and SigmaProtocol.verify() with any verifier does not return.", "quantifier": "all trees of representations; second part: all trees with extended statements, all values, random draws and earlier uses of the objects", "why_tests_cant": "tree shapes unbounded", "anchors": ["zksk/composition.py:AndProofStmt.validate_secrets_reoccurence", "zksk/composition.py:OrProofStmt.validate_secrets_reoccurence"]}
{"id": "C28", "title": "Shared secrets need groups of equal order", "statement": "When proving, a composed statement raises GroupMismatchError exactly when some secret occurs with two bases whose groups have different orders. With primitives in the tree: if a secret object is multiplied with elements of groups of different orders in two leaves, prove() does not return a proof; for a primitive this is asked of all statements it constructs. The interactive prover of such a statement never commits, also with randomizers given by the caller, and SigmaProtocol.verify() with any verifier does not return. If get_proof_id() of the prover's statement succeeds, the exception of commit() is GroupMismatchError.", "quantifier": "all trees of representations; second part: all non-empty compositions with extended statements whose representations have as many secrets as bases, all values and random draws", "why_tests_cant": "unbounded", "anchors": ["zksk/composition.py:_CommonComposedStmtMixin.validate_group_orders"]}
{"id": "C29", "title": "The verifier re-checks composition rules", "statement": "A verifier given a statement violating the composition rules (secret inside and outside an or-clause, mismatched orders) should refuse. (Expected to be violated: only provers run validate_composition.)", "quantifier": "all statements", "why_tests_cant": "adversarial", "anchors": ["zksk/composition.py:AndProver.internal_commit", "zksk/base.py:Verifier.pre_verification_validation"]}
{"id": "C30", "title": "An or-prover proves only an unmarked clause", "statement": "If get_prover of an or-statement returns a prover, the chosen clause was not marked as simulated and its own get_prover succeeded; it returns None exactly when the statement is marked simulated or every unmarked clause declines.", "quantifier": "all or-statements over clauses, all random choices", "why_tests_cant": "random choice", "anchors": ["zksk/composition.py:OrProofStmt.get_prover"]}
{"id": "C31", "title": "Or picks a clause for which all secrets are known", "statement": "The documentation promises that an or-proof chooses only among the clauses whose secrets were provided. (Expected to be violated: a conjunction with missing secrets raises ValueError and extended statements always return a prover.)", "quantifier": "all or-statements, all sets of known secrets, all random choices", "why_tests_cant": "random choice", "anchors": ["zksk/composition.py:OrProofStmt.get_prover", "zksk/composition.py:AndProofStmt.get_prover", "zksk/extended.py:ExtendedProofStmt.get_prover"]}
{"id": "C32", "title": "Proving twice", "statement": "If prove() succeeds on a statement, calling prove() again on the same statement object with the same secrets should succeed again. (Expected to be violated for or-statements: obtaining a DLRep prover marks that clause as simulated.)", "quantifier": "all statements, all histories of calls", "why_tests_cant": "history", "anchors": ["zksk/primitives/dlrep.py:DLRep.get_prover", "zksk/composition.py:ComposableProofStmt.set_simulated"]}
{"id": "C33", "title": "Serialization round trip", "statement": "deserialize(serialize(nizk)) is accepted by verify exactly when nizk is.", "quantifier": "all NIZKs, all statements", "why_tests_cant": "all nested data", "anchors": ["zksk/base.py:NIZK.serialize", "zksk/base.py:NIZK.deserialize"]}
{"id": "C34", "title": "Completeness of DLNotEqual", "statement": "If H0 = x h0 and H1 != x h1 then, for every blinder nonzero modulo the prime order, the proof is accepted; if H1 = x h1 the precommitment is the identity and verification raises ValidationError.", "quantifier": "all points, secrets, randomness", "why_tests_cant": "randomness", "anchors": ["zksk/primitives/dl_notequal.py"]}
{"id": "C35", "title": "Soundness of DLNotEqual", "statement": "In a group of prime order with h0 not the identity, any assignment satisfying the constructed statement together with validation yields x with H0 = x h0 and H1 != x h1; if binding, x is the shared secret.", "quantifier": "all precommitments and witnesses", "why_tests_cant": "adversarial", "anchors": ["zksk/primitives/dl_notequal.py:DLNotEqual.construct_stmt", "zksk/primitives/dl_notequal.py:DLNotEqual.validate"]}
{"id": "C36", "title": "Completeness of the power-of-two range proof", "statement": "For 0 <= x < 2^n with n >= 2 and com = x G + r H, prove() yields a proof whose precommitment validates and which verifies.", "quantifier": "all x, n, r, groups, randomness", "why_tests_cant": "unbounded", "anchors": ["zksk/primitives/rangeproof.py:PowerTwoRangeStmt"]}
{"id": "C37", "title": "Soundness of the power-of-two range proof", "statement": "Acceptance should imply the commitment opens to a value in [0,2^n). (Expected to be violated: extra bit commitments beyond n are added into the value but never proved to be bits.) With exactly n bit commitments, any witness of the constructed statement opens com to a value in [0,2^n).", "quantifier": "all precommitments and witnesses", "why_tests_cant": "adversarial", "anchors": ["zksk/primitives/rangeproof.py:PowerTwoRangeStmt.validate", "zksk/primitives/rangeproof.py:PowerTwoRangeStmt.construct_stmt"]}
{"id": "C38", "title": "Arithmetic of the generic range reduction", "statement": "With num_bits and offset computed by RangeStmt for a < b: x is in [a,b) iff both x-a and x-a+offset are in [0,2^num_bits).", "quantifier": "all integers a < b and x", "why_tests_cant": "unbounded integers", "anchors": ["zksk/primitives/rangeproof.py:GenericRangeStmtMaker.__call__"]}
{"id": "C39", "title": "RangeStmt works for every non-empty range", "statement": "For every a < b and a <= x < b, a range proof can be produced. (Expected to be violated for b - a <= 2, where the constructed conjunction has fewer than two subproofs and ValueError is raised.)", "quantifier": "all a < b", "why_tests_cant": "unbounded", "anchors": ["zksk/primitives/rangeproof.py:PowerTwoRangeStmt.construct_stmt"]}
{"id": "C40", "title": "An out-of-range value cannot be honestly proved", "statement": "For x outside [a,b) the honest prover of RangeStmt raises an exception in precommit.", "quantifier": "all x,a,b", "why_tests_cant": "unbounded", "anchors": ["zksk/primitives/rangeproof.py:PowerTwoRangeStmt.precommit"]}
{"id": "C41", "title": "BBS+ signatures verify", "statement": "For every key, message list that fits the generators, and randomness with gamma+e invertible, commit -> sign -> obtain_signature gives a signature accepted by verify_signature, with or without blinding.", "quantifier": "all keys, messages, randomness", "why_tests_cant": "unbounded", "anchors": ["zksk/primitives/bbsplus.py"]}
{"id": "C42", "title": "BBS+ signatures bind all messages", "statement": "A signature accepted for a message list should not be accepted for a list with extra messages. (Expected to be violated when there are more messages than generators: the extra messages are silently dropped.)", "quantifier": "all message lists", "why_tests_cant": "unbounded", "anchors": ["zksk/primitives/bbsplus.py:BBSPlusSignature.verify_signature", "zksk/pairings.py:G1Group.wsum"]}
{"id": "C43", "title": "Signature creator reuse", "statement": "A BBSPlusSignatureCreator used for several commit/obtain rounds should give a valid signature for the last commitment. (Expected to be violated: an unblinded commit after a blinded one keeps the stale blinding factor.)", "quantifier": "all histories of commit calls", "why_tests_cant": "history", "anchors": ["zksk/primitives/bbsplus.py:BBSPlusSignatureCreator"]}
{"id": "C44", "title": "Completeness of the BBS+ signature proof", "statement": "For a valid signature on the messages, the values chosen by the prover satisfy the constructed statement for every randomness.", "quantifier": "all keys, signatures, messages, randomness", "why_tests_cant": "unbounded", "anchors": ["zksk/primitives/bbsplus.py:BBSPlusSignatureStmt"]}
{"id": "C45", "title": "Soundness of the BBS+ signature proof", "statement": "Any witness of the constructed statement yields, when g1,g2 are independent, a signature (A2 - r1 g2, e, s) accepted by verify_signature on the secret messages.", "quantifier": "all witnesses and precommitments", "why_tests_cant": "adversarial", "anchors": ["zksk/primitives/bbsplus.py:BBSPlusSignatureStmt.construct_stmt"]}
{"id": "C46", "title": "make_generators is deterministic and prefix-stable", "statement": "With an integer seed make_generators(n) depends only on (group, seed) and is a prefix of make_generators(m) for n <= m; generator i of seed s is generator 0 of seed s+i. Points are hashed from the least number of bytes with at least random_bits bits.", "quantifier": "all n, m, seeds", "why_tests_cant": "unbounded", "anchors": ["zksk/utils/groups.py:make_generators"]}
{"id": "C47", "title": "Verification does not depend on earlier verifications", "statement": "Whether a NIZK is accepted does not depend on precommitments left in the statement object by earlier verify, prove or simulate calls.", "quantifier": "all statements with extended leaves in any state, all NIZKs", "why_tests_cant": "history", "anchors": ["zksk/extended.py:ExtendedVerifier.process_precommitment", "zksk/base.py:Verifier.verify_nizk"]}
{"id": "C48", "title": "Or over extended statements with empty precommitments", "statement": "Primitives that keep the default (empty-list) precommitment can be used in or-proofs. (Expected to be violated: an or-prover drops precommitments that are all falsy, so the verifier never constructs the inner statements.)", "quantifier": "all such statements", "why_tests_cant": "all randomness", "anchors": ["zksk/composition.py:OrProver.precommit", "zksk/extended.py:ExtendedProofStmt.precommit"]}
{"id": "C49", "title": "Proving a satisfied statement never fails", "statement": "For every And/Or/DLRep statement that obeys the composition rules and for which the values given (in the dictionary or at construction) satisfy every clause not marked as simulated, with one value per secret, prove() returns a proof, for every sequence of random draws, and verify() of the result returns True.", "quantifier": "all trees of any depth and width, all values, all random draws and branch choices, all messages", "why_tests_cant": "a test fixes one statement, one random tape and one branch choice; exceptions raised only for some tree shapes, markings or branch choices go unnoticed", "anchors": ["zksk/composition.py:191-198", "zksk/composition.py:441-483", "zksk/composition.py:577-659", "zksk/composition.py:738-754", "zksk/composition.py:847-889", "zksk/primitives/dlrep.py:108-139", "zksk/primitives/dlrep.py:205-248", "zksk/base.py:135-166"]}
{"id": "C50", "title": "RangeOnlyStmt objects cannot be rebuilt by a verifier", "statement": "RangeOnlyStmt(a,b,x) raises IncompleteValuesError when x has no value; every construction commits with its own random number, so a proof made for one object gets a verdict from another one (same bases, range and value) only if both drew the same number, unless the statement hash collides.", "quantifier": "all a, b, x, randomness, proofs", "why_tests_cant": "quantifies over all randomness and proofs", "anchors": ["zksk/primitives/rangeproof.py:GenericRangeOnlyStmtMaker.__call__"]}
{"id": "C51", "title": "Soundness of the generic range proof", "statement": "For independent g, h whose order is at least 4(b-a): whatever the precommitment, if validation passes and the plain statement the verifier makes of it is true, the value of x modulo the order lies in [a,b). Hence, if all prime factors of the order are large, whoever convinces the interactive verifier of RangeStmt for two of the 2^128 challenges has an opening of the commitment to a value in [a,b), computed from their two responses for x; and a commitment to a value outside [a,b) convinces for at most one challenge. With a random hash function, whoever asks k questions and makes a proof that is accepted for more than the fraction (k+1)(beta+gamma)/|answers| of the tables of answers (beta, gamma: answers per residue modulo the order and modulo 2^128) has such an opening too. (Holds only if there are exactly num_bits bit commitments, and, for accepted proofs, one sub-challenge per clause in the honest range, which the code does not check.)", "quantifier": "all ranges, precommitments, witnesses", "why_tests_cant": "adversarial precommitments", "anchors": ["zksk/primitives/rangeproof.py:GenericRangeStmtMaker.__call__", "zksk/primitives/rangeproof.py:PowerTwoRangeStmt.validate"]}
{"id": "C52", "title": "Range statements accept values at proof time", "statement": "Like other statements, a RangeStmt built while its secrets have no value can be proved by passing their values to prove(). (Expected to be violated: is_prover is fixed at construction, precommit() then raises AttributeError.)", "quantifier": "all ranges, secrets, dictionaries", "why_tests_cant": "unbounded; the tests always set the values before building the statement", "anchors": ["zksk/primitives/rangeproof.py:PowerTwoRangeStmt.__init__", "zksk/primitives/rangeproof.py:PowerTwoRangeStmt.precommit"]}
{"id": "C53", "title": "When a BBS+ proof cannot be made", "statement": "prove() raises for every BBSPlusSignatureStmt that has no message secrets (although such signatures exist and verify), and for every one made without a signature object, even if the values of all secrets are passed to prove().", "quantifier": "all keys, signatures, dictionaries, heaps, randomness", "why_tests_cant": "failure for all inputs; the tests always use at least three messages and a signature", "anchors": ["zksk/primitives/bbsplus.py:BBSPlusSignatureStmt.precommit", "zksk/primitives/bbsplus.py:BBSPlusSignatureStmt.__init__"]}
{"id": "C54", "title": "Completeness with extended statements", "statement": "Take any composition of representations and extended statements (also inside Or) whose classes can simulate, and, where the clause may be proved, can precommit and construct a true statement, and whose internal secrets belong to one place each. Classes that cannot simulate, or whose precommitment is falsy but not None (such as the default, the empty list), may be used anywhere except inside disjunctions. Then prove() succeeds; it changes only the internal secrets; and for every object the verifier may have for the same statement, verify() returns True when all precommitments pass validate(), and otherwise raises the error of validate(). An interactive run is accepted when the class produces only valid precommitments.", "quantifier": "all compositions, classes of extended statements, heaps, dictionaries, randomness, messages", "why_tests_cant": "unbounded compositions and arbitrary classes; the tests have a handful of compositions of the provided primitives", "anchors": ["zksk/extended.py:ExtendedProver", "zksk/extended.py:ExtendedVerifier", "zksk/composition.py:AndProofStmt", "zksk/composition.py:OrProofStmt", "zksk/base.py:Prover.get_nizk_proof"]}
{"id": "C55", "title": "Interactive proofs of extended statements on their own", "statement": "The interactive protocol can be run on every extended statement, whatever statement construct_stmt() returns. (Violated: ExtendedVerifier.send_challenge passes the keyword ignore_statement_hash_checks, which only the verifier of a conjunction accepts; when construct_stmt() returns a single representation or a disjunction, every run ends with an exception, a TypeError when the statements agree.)", "quantifier": "all extended statements, provers, heaps, randomness", "why_tests_cant": "the primitives under test all construct conjunctions", "anchors": ["zksk/extended.py:ExtendedVerifier.send_challenge", "zksk/base.py:Verifier.send_challenge", "zksk/composition.py:AndVerifier.send_challenge"]}
{"id": "C56", "title": "A false range clause does not prevent other clauses from being proved", "statement": "In a disjunction with a true clause, a range clause about a known value that is out of range can be simulated, so that a proof can be produced. (Violated: construct_stmt() decomposes the value whenever it is known, so simulating the clause raises; no statement that contains such a clause anywhere can be proved, even if the clause is marked as simulated.)", "quantifier": "all statements containing such a clause, heaps, dictionaries, randomness", "why_tests_cant": "the tests simulate range clauses only with values in range or without values", "anchors": ["zksk/primitives/rangeproof.py:PowerTwoRangeStmt.construct_stmt", "zksk/composition.py:OrProver.setup_simulations"]}
{"id": "C57", "title": "Proofs of BBS+ signatures are complete", "statement": "If BBSPlusSignatureStmt is given a signature that verify_signature() accepts on at least one message, and the message secrets have the signed values, then prove() succeeds whatever the randomness, verify() with the same message is True for a verifier whose object has the same public key but no signature, and the interactive protocol ends with acceptance.", "quantifier": "all pairings, public keys of any length, valid signatures, non-empty message lists, message strings, random draws, simulated flags, verifier heaps that tell the secrets apart by name", "why_tests_cant": "tests sign a few fixed messages with one key; the claim is about every valid signature, number of messages and every sequence of random draws (including zero blinding factors)", "anchors": ["zksk/primitives/bbsplus.py:229-324", "zksk/extended.py:30-140", "zksk/base.py:300-420"]}
{"id": "C58", "title": "Soundness of conjunctions that contain primitives", "statement": "In a conjunction, nested in any way, of representations, DLNotEqual statements and BBS+ signature statements with shared secrets, whoever can answer two challenges for the same precommitment and commitment knows one single assignment of values to the secrets for which all conjuncts are true at once: the representations hold, lhs0 = x*g and lhs1 != x*h for the value x of the shared secret (if bind is set), and there is a valid signature on the values of the message secrets. The same for any extended statements whose constructed statements imply what they are meant to say.", "quantifier": "all conjunctions, stores, precommitments, commitments, pairs of challenges whose difference is invertible modulo the exponent of the groups, pairs of accepted responses", "why_tests_cant": "soundness is about all provers, also those that do not follow the protocol; that a secret is the same in a representation and inside a primitive cannot be observed in honest runs", "anchors": ["zksk/extended.py:ExtendedProofStmt.full_validate", "zksk/extended.py:ExtendedVerifier", "zksk/composition.py:AndProofStmt.check_responses_consistency", "zksk/composition.py:AndVerifier", "zksk/primitives/dlrep_notequal.py:DLNotEqual", "zksk/primitives/bbsplus.py:BBSPlusSignatureStmt"]}
{"id": "C59", "title": "Witness indistinguishability without Or", "statement": "If a DLRep or And statement is true for several values of its secrets (as for Pedersen commitments), proofs do not tell which of them the prover knows: for every message there is a bijection between the random numbers of two such provers under which prove() returns the very same NIZK; likewise for transcripts of the interactive protocol and every challenge.", "quantifier": "all Or-free trees, all pairs of witnesses, messages, hash functions, challenges", "why_tests_cant": "a statement about distributions over all randomness", "anchors": ["zksk/primitives/dlrep.py:DLRepProver", "zksk/composition.py:AndProver", "zksk/base.py:Prover.get_nizk_proof"]}
{"id": "C60", "title": "Range proofs do not reveal the committed value", "statement": "A proof that a committed value lies in a range (PowerTwoRangeStmt, RangeStmt) reveals nothing about the value beyond the range: neither the precommitment (the commitments to the bits) nor the responses depend on which value in the range it is. (Expected to be violated: each bit is shown by an or-proof whose sub-challenges have different signs for the proved and the simulated clause, so that the bits can be read off.)", "quantifier": "all range statements, values, randomizers, messages, random numbers, hash functions", "why_tests_cant": "tests check that proofs verify; what a proof reveals concerns all proofs and what can be computed from them", "anchors": ["zksk/primitives/rangeproof.py:PowerTwoRangeStmt", "zksk/primitives/rangeproof.py:RangeStmt", "zksk/composition.py:OrProver.compute_response", "zksk/composition.py:_find_residual_challenge"]}
{"id": "C61", "title": "Simulated precommitments are distributed as real ones", "statement": "For the primitives PowerTwoRangeStmt, DLNotEqual and BBSPlusSignatureStmt, simulate_precommit() returns what precommit() returns on a true statement, with the same probabilities, whatever the values of the secrets are when it is called: the random numbers of the two can be matched one to one such that the results are equal.", "quantifier": "all such statement objects over groups of prime order (range: any order), all values and randomizers that open the commitment, all heaps of the simulator", "why_tests_cant": "equality of distributions over all random numbers; tests compare nothing but types", "anchors": ["zksk/extended.py:ExtendedProofStmt.simulate_precommit", "zksk/primitives/rangeproof.py:PowerTwoRangeStmt.simulate_precommit", "zksk/primitives/dl_notequal.py:DLNotEqual.simulate_precommit", "zksk/primitives/bbsplus.py:BBSPlusSignatureStmt.simulate_precommit"]}
{"id": "C62", "title": "Perfect honest-verifier zero-knowledge with primitives, without Or", "statement": "For DLNotEqual statements (in a cyclic group of prime order), BBSPlusSignatureStmt statements, and conjunctions (nested in any way) of representations and such primitives that are true, and every fixed challenge: an honest interactive run and simulate() give the same precommitment, statement id, commitment, responses with the same probabilities. The simulator works on an object that has the public part of the statement only: no value of a secret, no signature. (One difference is recorded: a conjunction's prover sends no precommitment if all parts have none, the simulator sends a list of Nones. Inside of or-proofs this difference is not harmless, see C92.)", "quantifier": "all such statement objects and heaps, all true values, all challenges, all random numbers, all hash functions", "why_tests_cant": "equality of distributions over all random numbers; tests compare no distributions", "anchors": ["zksk/composition.py:ComposableProofStmt.simulate", "zksk/composition.py:AndProofStmt.simulate_proof", "zksk/composition.py:AndProver.compute_response", "zksk/extended.py:ExtendedProofStmt.simulate_proof", "zksk/extended.py:ExtendedProver", "zksk/primitives/dl_notequal.py:DLNotEqual", "zksk/primitives/bbsplus.py:BBSPlusSignatureStmt"]}
{"id": "C63", "title": "BBS+ proofs are unlinkable; witness indistinguishability with primitives, without Or", "statement": "If two provers have statements (DLNotEqual, BBSPlusSignatureStmt, conjunctions of representations and these) with the same public part but different values of the secrets or different signatures, then interactive runs and non-interactive proofs of the first have exactly the distribution of those of the second. In particular a proof of possession of a BBS+ signature does not tell which of several signatures under the key was used, nor its messages.", "quantifier": "all such pairs of statement objects, heaps, explicit values, messages, hash functions, all random numbers", "why_tests_cant": "equality of distributions of two provers over all random numbers", "anchors": ["zksk/composition.py:ComposableProofStmt.prove", "zksk/base.py:Prover.get_nizk_proof", "zksk/extended.py:ExtendedProver", "zksk/primitives/bbsplus.py:BBSPlusSignatureStmt", "zksk/primitives/dl_notequal.py:DLNotEqual"]}
{"id": "C64", "title": "simulate() and verify_simulation_consistency on compositions with primitives, including Or", "statement": "simulate() succeeds on every composition by And and Or of representations, DLNotEqual, PowerTwoRangeStmt (verifier side) and BBSPlusSignatureStmt, true or false, changes no secret and uses the challenge it is given. The transcript passes verify_simulation_consistency on any verifier's object for the same statement, unless validate() of a part refuses its simulated precommitment, in which case that exception is raised. Presented as a proof it is accepted only if its challenge is the Fiat-Shamir hash of its own parts. In general verify_simulation_consistency returns exactly whether the statement hash matches, equal secrets have equal responses, and the commitment is the one recomputed from challenge and responses; a wrong statement hash raises StatementMismatch.", "quantifier": "all such statements nested to any depth, all transcripts, challenges, random numbers, hash functions, messages, verifier objects", "why_tests_cant": "all nestings of And/Or over primitives, all transcripts", "anchors": ["zksk/composition.py:ComposableProofStmt.verify_simulation_consistency", "zksk/composition.py:ComposableProofStmt.simulate", "zksk/composition.py:OrProofStmt.simulate_proof", "zksk/extended.py:ExtendedProofStmt.simulate_proof"]}
{"id": "C65", "title": "The clause of an or-proof that is proved is drawn uniformly", "statement": "get_prover() of an Or takes one random number r and tries first the clause at position r mod k among the k clauses not marked as simulated, whatever the kinds of clauses; if that clause does not decline, the resulting prover proves it. If the values given satisfy all these clauses, get_prover() succeeds and every one of them is chosen with probability exactly 1/k, independently of the witness.", "quantifier": "all lists of clauses, marks, dictionaries, heaps, random numbers", "why_tests_cant": "a distribution over all random numbers; tests see single runs", "anchors": ["zksk/composition.py:OrProofStmt.get_prover"]}
{"id": "C66", "title": "Completeness of every composition of the library's statements", "statement": "Let a statement be composed by And and Or, nested in any way, of DLRep, DLNotEqual, PowerTwoRangeStmt and BBSPlusSignatureStmt over groups of one order, each with internal secrets of its own, and let everything except Or-clauses marked as simulated be true for the values the prover has (a range statement made with a value for x needs that value in range even if it is only simulated). Then prove() succeeds for every message and all random numbers, and verify() on any verifier's object for the same statement returns True; only with DLNotEqual parts it may instead raise ValidationError, when a blinder is zero. Without DLNotEqual the interactive protocol also ends with acceptance. No secret outside the internal ones is changed beyond storing the explicit values.", "quantifier": "all such statements nested to any depth, all groups, keys, values, messages, random numbers, hash functions, verifier objects", "why_tests_cant": "all nestings and all values; the tests combine primitives only pairwise with fixed values", "anchors": ["zksk/composition.py:AndProofStmt", "zksk/composition.py:OrProofStmt", "zksk/extended.py:ExtendedProofStmt", "zksk/primitives/dl_notequal.py:DLNotEqual", "zksk/primitives/rangeproof.py:PowerTwoRangeStmt", "zksk/primitives/bbsplus.py:BBSPlusSignatureStmt"]}
{"id": "C67", "title": "Exactly what accepted proofs show about disjunctions", "statement": "Two accepted answers to different challenges for one commitment show exactly that the part of the statement outside all disjunctions is true; nothing follows about the clauses of disjunctions, since verify() does not compare the number of sub-challenges with the number of clauses. In particular whoever knows the secrets outside the disjunctions has an accepted non-interactive proof with explicitly given responses, for every statement and every precommitment that passes validation: PowerTwoRangeStmt accepts a proof with the right number of bit commitments for every commitment, and RangeStmt accepts one from anybody who can open the commitment, to whatever value.", "quantifier": "all statements of any nesting, extended or not, all groups, messages, hash functions, commitments, ranges with more than two elements", "why_tests_cant": "tests only try proofs made by the library's own provers", "anchors": ["zksk/composition.py:OrVerifier", "zksk/composition.py:OrProofStmt.recompute_commitment", "zksk/primitives/rangeproof.py:PowerTwoRangeStmt", "zksk/primitives/rangeproof.py:RangeStmt"]}
{"id": "C68", "title": "Requests for blind signatures reveal only the number of messages", "statement": "What the issuer receives from commit(messages, zkp=True), i.e. commitment and proof, is distributed in the same way for any two message lists of the same length; the number of messages is visible from the number of responses. Without zkp the request is a function of the messages alone and hides nothing.", "quantifier": "all keys whose generators are multiples of the second one, message lists, creators, stores, random-number distributions uniform below the order; any property of the request the issuer may look for", "why_tests_cant": "equality of distributions over all randomness and all message lists", "anchors": ["zksk/primitives/bbsplus.py:82-111", "zksk/primitives/bbsplus.py:43-67"]}
{"id": "C69", "title": "Non-interactive proofs are sound against provers who query the hash function", "statement": "The verdict of verify() is the comparison of the challenge with the hash of one byte string (identifier, precommitment, recomputed commitment, message). Whoever can, for one such string, make accepted proofs for two answers of the hash function whose difference is invertible modulo the order knows values for which the statement is true (representations, conjunctions, DLNotEqual, BBS+). If the part of a statement outside disjunctions is false, then for every string asked at most one residue of the answer modulo the (prime) order can lead to an accepted proof, whatever the prover does afterwards. With disjunctions and extended parts: the same if the two answers also differ modulo 2^128 and the proofs give one sub-challenge per clause in the range of honest provers.", "quantifier": "all statements, stores, hash functions, questions, proofs with precommitments that are not raw bytes, messages", "why_tests_cant": "quantifies over all provers, hash functions and proofs", "anchors": ["zksk/base.py:69-91", "zksk/base.py:233-263"]}
{"id": "C70", "title": "Soundness of blind issuance", "statement": "Whoever can make proofs that verify_blinding() accepts for one commitment, for two answers of the hash function to the same question, knows a blinding number s1 and messages (one less than responses) such that the commitment is s1*g1 + sum m_i*g_(i+2); and every signature by the issuer on the commitment becomes by adding s1 a signature accepted by verify_signature() on exactly these messages. A commitment without proof gets no verdict.", "quantifier": "all keys, commitments, stores, hash functions, pairs of accepted proofs, all randomness of the issuer", "why_tests_cant": "quantifies over all malicious requests and all issuer randomness", "anchors": ["zksk/primitives/bbsplus.py:54-67", "zksk/primitives/bbsplus.py:113-129", "zksk/primitives/bbsplus.py:194-209"]}
{"id": "C71", "title": "Non-interactive proofs are zero-knowledge when the hash function can be programmed", "statement": "Whoever may choose one answer of the hash function makes accepted proofs of every composition that can be simulated, true or false, without secrets: simulate() for the challenge that the answer stands for gives a proof for which verify() asks exactly one byte string, and which it accepts when that string is answered by the chosen answer (provided validate() of the extended parts accepts the simulated precommitment). For conjunctions these proofs are those of the prover: for every answer the random numbers of the prover translate one-to-one into those of the simulator so that prove() makes the same proof; and for every hash function prove() makes each proof exactly as often as the simulator does with the answer of the hash function to the question of that proof. In particular proofs of BBS+ signatures show nothing about signature and messages.", "quantifier": "all compositions, hash functions, answers, messages, stores, values of the secrets; all proofs and all random tapes", "why_tests_cant": "equality of distributions over all random tapes, for all hash functions and statements", "anchors": ["zksk/base.py:233-263", "zksk/base.py:69-91", "zksk/composition.py:300-308", "zksk/primitives/dlrep.py:158-197"]}
{"id": "C72", "title": "Verification does not depend on which Secret objects the verifier made", "statement": "Prover and verifier are different processes with Secret objects of their own. If two statements are the same up to which Secret objects are used, then verify() does the same on both, for every proof and message: the same verdict or the same exception, when corresponding secrets have the same values, and the same names up to an injective renaming; likewise verify_simulation_consistency() and the interactive protocol, with every prover. Hence the honest proofs of every composition of the library's statements (representations, DLNotEqual, PowerTwoRangeStmt, BBSPlusSignatureStmt), and of RangeStmt with at least three elements, are accepted by every verifier who writes the same statement with its own secrets and tells them apart by name; the names need not be those of the prover.", "quantifier": "all statements, replacements of secret objects (also identifying some), stores, proofs, messages and provers", "why_tests_cant": "all proofs, also malformed ones, and all ways of choosing secret objects", "anchors": ["zksk/expr.py:95-145", "zksk/base.py:206-263", "zksk/composition.py:71-89", "zksk/primitives/dlrep.py:40-53", "zksk/extended.py:219-245", "zksk/primitives/rangeproof.py:219-241"]}
{"id": "C73", "title": "Proofs of the right form do not crash the verifier", "statement": "For every statement, if the precommitment and the responses of a proof have the number and types of parts that the statement calls for, then whatever the numbers and points in it, whatever the challenge, statement hash and message, verify() decides: it returns True or False, or raises StatementMismatch, ValidationError or InconsistentChallengeError. In particular for DLNotEqual with any point of the group as precommitment and any integers as responses; for PowerTwoRangeStmt with any point for every bit, any integer, and any sub-challenges and responses; and for BBSPlusSignatureStmt with any two points of G1 and any integers. Without the right form this does not hold: if the responses are None, verify() raises TypeError.", "quantifier": "all statements over well-formed representations, proofs of the right form, messages and hash functions", "why_tests_cant": "proofs are chosen by somebody else: all numbers, points, hashes and messages, and compositions of any depth", "anchors": ["zksk/base.py:206-263", "zksk/composition.py:200-216", "zksk/composition.py:419-440", "zksk/composition.py:686-703", "zksk/composition.py:732-736", "zksk/composition.py:920-938", "zksk/extended.py:120-121", "zksk/extended.py:239-245", "zksk/primitives/dlrep.py:30-53", "zksk/primitives/dlrep.py:172-177"]}
{"id": "C74", "title": "A statement object verifies its own proofs", "statement": "The round trip nizk = stmt.prove(secrets, message); stmt.verify(nizk, message) with one and the same object: for every composition with & and | of representation, inequality, power-of-two range and signature proofs whose secrets have suitable values, prove() succeeds, and the object, although prove() has stored precommitments, constructed statements, known values and marks of simulated clauses in it and assigned new values to its secrets, accepts the proof; only with inequality proofs in it may verify() instead raise ValidationError (when a blinding is zero). The same holds of RangeStmt(com, g, h, a, b, x, r) and RangeOnlyStmt(a, b, x) for every range with at least three elements and every value in it, and there verify() returns True.", "quantifier": "all compositions, groups, values of secrets, ranges with at least three elements, messages, random numbers and hash functions", "why_tests_cant": "the state that prove() leaves behind depends on the structure, on which clause of each disjunction was chosen at random and on the values; tests try a few statements with a few draws", "anchors": ["zksk/composition.py:191-205", "zksk/composition.py:441-483", "zksk/composition.py:519-521", "zksk/extended.py:99-115", "zksk/extended.py:137-144", "zksk/extended.py:165-211", "zksk/extended.py:214-225", "zksk/primitives/dlrep.py:30-53", "zksk/primitives/rangeproof.py:168-241", "zksk/primitives/rangeproof.py:244-306"]}
{"id": "C75", "title": "commit() uses the randomizers given by the caller", "statement": "For every composition with & and | of representation proofs whose secrets have suitable values, and every dictionary of randomizers, complete or not, also with secrets that do not occur in the statement: prover.commit(randomizers_dict) succeeds, the answer to every challenge is accepted, and for a secret outside disjunctions whose randomizer m was given, the answer to challenge c is x*c + m modulo the order of the group, at every place where the secret occurs. A disjunction ignores the dictionary, and an empty dictionary is the same as none. Consequently a randomizer given in two runs with different challenges reveals the secret: it is the difference of the answers divided by the difference of the challenges.", "quantifier": "all compositions of representations, groups, values, dictionaries of randomizers, random numbers and challenges", "why_tests_cant": "dictionaries may cover any part of the secrets, and compositions have any depth; tests fix one", "anchors": ["zksk/base.py:122-133", "zksk/composition.py:244-268", "zksk/composition.py:605-626", "zksk/composition.py:867-883", "zksk/primitives/dlrep.py:205-228"]}
{"id": "C76", "title": "simulate_proof() uses the responses given by the caller", "statement": "For every composition with & and | of representation proofs, every dictionary of responses, complete or not, and every challenge or none: simulate_proof(responses_dict, challenge) succeeds without knowing any secret, the transcript has the challenge asked for, the verifier accepts its commitment, challenge and responses, and every occurrence outside disjunctions of a secret in the dictionary has the given response. (The comment in the code that incomplete dictionaries make it misbehave is not true of the code.)", "quantifier": "all compositions of representations, groups, dictionaries of responses, challenges and random numbers", "why_tests_cant": "dictionaries may cover any part of the secrets, and compositions have any depth; tests fix one", "anchors": ["zksk/composition.py:244-268", "zksk/composition.py:523-558", "zksk/composition.py:782-817", "zksk/primitives/dlrep.py:179-199"]}
{"id": "C77", "title": "Witness indistinguishability for all compositions of representations, with Or", "statement": "For every composition with & and | of representation proofs: if two provers can prove the same clauses (the same clauses of disjunctions are marked as simulated, and of the others each one can be proved by both or by none of them), with whatever values of the secrets, then interactive runs (for every challenge) and the proofs returned by prove() have exactly the same distribution for both. So a proof depends at most on which clauses can be proved, not on the values. (That it does depend on which clauses can be proved is C25 and C60.)", "quantifier": "all compositions of representations, pairs of statement objects with the same public part, heaps, dictionaries, true values, messages, challenges, hash functions, all random numbers", "why_tests_cant": "equality of distributions of two provers over all random numbers", "anchors": ["zksk/composition.py:OrProofStmt.get_prover", "zksk/composition.py:OrProver", "zksk/composition.py:AndProver", "zksk/primitives/dlrep.py:DLRepProver", "zksk/base.py:Prover.get_nizk_proof"]}
{"id": "C78", "title": "Statements may share parts: composition, verification and a first proof do not notice", "statement": "And(), Or(), & and | make shallow copies, so composed statements can have their list of parts, and copies of a representation their dictionary of values, in common. Nevertheless: (a) the object they return is the statement composed of what the arguments are at that moment, DLRep() returns a statement with only its own values, and all other statement objects stay as they are; (b) after any sequence of calls (constructors, get_prover, prove, simulate, set_simulated) on any objects each statement object is still the same statement and verify() of it gives the same result for every proof; (c) prove() of an object that obeys the composition rules, with values that make its unmarked part true, succeeds whatever it shares with itself or with others, and the proof is accepted by everybody who builds the same statement.", "quantifier": "all heaps of statement objects (compositions of representations of any depth and any sharing), all sequences of calls that return or raise, values, random numbers, messages, proofs", "why_tests_cant": "graphs of shared objects and sequences of calls are unbounded", "anchors": ["zksk/composition.py:115-149", "zksk/composition.py:410-417", "zksk/composition.py:709-723", "zksk/composition.py:OrProofStmt.get_prover", "zksk/composition.py:AndProofStmt.get_prover", "zksk/primitives/dlrep.py:108-139", "zksk/primitives/dlrep.py:84-106"]}
{"id": "C79", "title": "Composed statements do not interfere with each other", "statement": "'We make a shallow copy of each subproof so they don't mess up each other' (zksk/composition.py:414): if a statement that is built with others into several compositions can be proved as part of each of them, then proving one composition does not prevent proving another one. (False of the code: the copies of a disjunction have the same list of clauses, and making a prover marks the clause it is made of, so a disjunction with one provable clause can be proved in one of the compositions only. It holds for compositions that have no part in common, in particular for And() and Or() of representations, and for all statements without disjunctions.)", "quantifier": "all heaps of statement objects, sequences of calls that return or raise, values, random numbers", "why_tests_cant": "graphs of shared objects and sequences of calls are unbounded", "anchors": ["zksk/composition.py:414-417", "zksk/composition.py:720-723", "zksk/primitives/dlrep.py:126", "zksk/composition.py:285-292"]}
{"id": "C80", "title": "A prover keeps the values it was made with", "statement": "After get_prover(values) has returned a prover, and the prover has committed, its response to a challenge does not depend on what is called on statement objects in the meantime. (False of the code: the prover refers to the dictionary of the statement, which get_prover of the statement or of a copy of it overwrites; after get_prover with another value the first prover gives responses that are not accepted. It holds, and the response to every challenge is accepted if the values make the statement true, if provers are only made of objects without a representation that has one of these dictionaries; the response does not change either if get_prover is called with the same dictionary.)", "quantifier": "all heaps of statement objects, provers, sequences of calls that return or raise, challenges", "why_tests_cant": "any sequence of calls on any objects sharing parts may come between commitment and response", "anchors": ["zksk/primitives/dlrep.py:108-139", "zksk/primitives/dlrep.py:230-248", "zksk/base.py:94-110"]}
{"id": "C81", "title": "A failed attempt to prove does no harm", "statement": "If prove() or get_prover() of a statement fails because values are missing (it raises, or there is no prover), then prove() with the values of all secrets succeeds afterwards, as it would have without the failed attempts. (False of the code: looking for a prover of a disjunction of representations marks its clauses even if their values are missing; once it has failed, every later prove() raises AttributeError, whatever values are given. It holds for statements without disjunctions, after any number of failed attempts.)", "quantifier": "all heaps of statement objects (compositions of representations with any sharing), sequences of failed attempts, dictionaries, random numbers", "why_tests_cant": "any number of failed attempts with any values may come before, on any graph of shared objects", "anchors": ["zksk/primitives/dlrep.py:121-133", "zksk/composition.py:441-483", "zksk/composition.py:738-754", "zksk/composition.py:191-198", "zksk/expr.py:177-193"]}
{"id": "C82", "title": "The wrapped pairing groups are additive groups with a bilinear pairing", "statement": "For every BilinearGroupPair made without argument, at every time: points of G1, G2 and GT add up and multiply with every integer (negative ones and zero included, although bplib's power function is not assumed to work for zero) as in additive groups, == compares elements, points of different groups do not add; generator(), infinite(), order(), sum() and wsum() of the groups return the generator, zero, the order, the sum and the weighted sum, whatever has been called before (the cached points stay right, also after calls that raised); (m*p).pair(n*q) == (m*n)*p.pair(q).", "quantifier": "all bplib groups satisfying the stated assumptions, programs creating any number of pairs and calling any methods, points, integers, lists", "why_tests_cant": "all integers, points, lists and sequences of calls", "anchors": ["zksk/pairings.py:35-120", "zksk/pairings.py:123-199", "zksk/pairings.py:202-287"]}
{"id": "C83", "title": "A group pair can be made of a given bplib group", "statement": "BilinearGroupPair(bp_group) is a pair whose groups are those of bp_group. (False of the code: the constructor stores no group if one is given; every method of the groups, and pairing, raises AttributeError from then on. Without argument the pair uses BpGroup().)", "quantifier": "all bplib groups, programs", "why_tests_cant": "every later call on the pair, in any program", "anchors": ["zksk/pairings.py:21-26"]}
{"id": "C84", "title": "Primitives that only override construct_stmt work, simulations included", "statement": "A subclass of ExtendedProofStmt that overrides only construct_stmt can be used like every other statement; as the documentation says, simulations are automatically enabled. (The second half is false of the code: the inherited simulate_precommit raises StatementSpecError, so simulate() of any composition with such a part raises, nothing can be proved if two clauses of a disjunction use such classes, and if one clause does, it is the proved one in every proof. Outside of disjunctions honest proofs are accepted.)", "quantifier": "all such classes, compositions, heaps, messages, random draws", "why_tests_cant": "all classes and compositions, all randomness", "anchors": ["zksk/extended.py:48-80", "docs/new_primitives.rst:138-143", "zksk/extended.py:142-144", "zksk/composition.py:577-586"]}
{"id": "C85", "title": "The tutorial's ElGamal proof proves knowledge of plaintext and randomness", "statement": "If (c1, c2) = (r G, r H + m G) for the values r and m of the two secrets, then prove() of AdditiveElgamalPlaintextProof succeeds and every verifier with an object for the same ciphertext and key and Secret objects of its own accepts, also in the interactive protocol. Conversely from accepted answers to two challenges with the same commitment one computes r and m such that (c1, c2) = (r G, r H + m G), namely u(y - y') for the responses; in conjunctions, secrets that are shared have one value for all the ciphertexts and representations.", "quantifier": "all ciphertexts, keys, groups, messages, randomizers, random draws, responses", "why_tests_cant": "soundness is a statement about all provers, completeness about all draws", "anchors": ["examples/primitive_knowledge_elgamal.py:44-53"]}
{"id": "C86", "title": "The tutorial's DLNotEqual is the one of the library without bind", "statement": "prove(), verify(), simulate() and the interactive protocol of the tutorial's DLNotEqual return the same as those of the library's DLNotEqual with bind=False, for the same points and secrets; so it is complete (H0 = x h0 and H1 != x h1 are accepted except for the blinder 0) and sound (two accepted answers: there is an x with H0 = x h0 and H1 != x h1).", "quantifier": "all points, secrets, heaps, messages, random draws, proofs", "why_tests_cant": "equality of two classes on all inputs", "anchors": ["examples/primitive_dl_notequal.py:14-47", "zksk/primitives/dl_notequal.py:47-107"]}
{"id": "C87", "title": "Composed statements proved with wrong values are rejected", "statement": "A prover of a statement composed of representations that runs with arbitrary values (one per secret) commits and answers every challenge without an exception, and verify() of the answer is True exactly if for every representation really proved the challenge that it answers annihilates lhs - sum x_i G_i; that challenge is the challenge itself outside of disjunctions, and in the clause of a disjunction that is really proved what remains of it after the simulated clauses. In groups of prime order a conjunction with one false representation is therefore rejected for every challenge that is not zero modulo the orders. A non-interactive proof made with such values is accepted only if the challenge is zero modulo an order, or two different lists of commitments have the same Fiat-Shamir challenge.", "quantifier": "all compositions of representations, groups, values, random draws, challenges, messages, hash functions", "why_tests_cant": "exact condition for all values, compositions and challenges; tests try a wrong value and see one rejection", "anchors": ["zksk/base.py:212-231", "zksk/composition.py:605-659", "zksk/composition.py:867-889", "zksk/primitives/dlrep.py:205-248"]}
{"id": "C88", "title": "Conversations over one extended statement object do not disturb each other", "statement": "Several provers and verifiers may be obtained from one extended statement object (get_prover(), get_verifier()). Each of them should send and answer what it would with a statement object of its own, whatever the others do. This holds for prove() and verify() of the statement, for a verifier as long as nobody else stores a precommitment in the statement object between process_precommitment() and verify(), and for a prover as long as nobody else does between precommit() and commit(). It is false otherwise. The precommitment and the constructed statement are attributes of the shared object: a prover of a DLNotEqual statement that talks to two verifiers of one object can choose the precommitment after it has seen the challenge of the first verifier, which then accepts also when the logarithms are equal; and a prover sends a statement hash that its verifier refuses if between its precommit() and its commit() another prover sends a precommitment, a verifier receives one (usable or not), or prove() or verify() of the statement is called. Whatever is called on the other objects, a verifier returns no verdict unless it has sent a challenge.", "quantifier": "all extended statement classes, all sequences of calls on any number of provers and verifiers, all random draws; for the attack all DLNotEqual statements over a group of prime order, with and without bind, and all challenges that are not zero modulo the order", "why_tests_cant": "tests use one prover and one verifier per statement object and one order of calls; the claim is about every interleaving", "anchors": ["zksk/extended.py:82-97", "zksk/extended.py:99-140", "zksk/extended.py:160-162", "zksk/extended.py:185-245", "zksk/base.py:122-133", "zksk/base.py:206-231", "zksk/primitives/dl_notequal.py:63-107"]}
{"id": "C89", "title": "A statement may occur at several places of a composition", "statement": "And and Or copy their arguments, so that a statement may be used at several places: the composition should be verified like the one with a separate object at every place. This holds for every expression in which each composition is used where it is made, however often the leaf statements (DLRep or extended) are used, and more generally whenever no extended statement object is at two places; for non-interactive proofs and for conversations. It is false when a composition with an extended part is used twice: the copies are shallow and have the extended statement object in common, and the precommitment and the constructed statement are attributes of that object, so after process_precommitment() every place sees what the last place stored. With c = And(p, d1, d2, ...), a DLNotEqual statement p and representations d1, d2, ..., the verifier of c | c | ... | c and of c & c & ... & c reaches exactly the verdict that separate objects reach when each p receives the last precommitment, whatever the other precommitments are. A conversation that is right for separate objects is therefore accepted only if every precommitment of p multiplied by the challenge of its place equals the last one multiplied by that challenge.", "quantifier": "all expressions over DLRep and extended statements, all proofs and messages; for the negative part all DLNotEqual statements, any representations beside it, any number of copies, all conversations that the verifier with separate objects accepts", "why_tests_cant": "a test fixes one composition and the messages of a few runs; the claim is about all expressions and all messages", "anchors": ["zksk/composition.py:410-417", "zksk/composition.py:419-439", "zksk/composition.py:673-702", "zksk/composition.py:706-736", "zksk/composition.py:920-947", "zksk/extended.py:137-140", "zksk/extended.py:219-245", "zksk/base.py:206-263", "zksk/primitives/dl_notequal.py:75-99"]}
{"id": "C90", "title": "A statement may be used twice in a conjunction", "statement": "If a prover can prove a statement p, it can prove p & p, and the proof is accepted. This holds for statements made of discrete-logarithm representations by conjunction. If p is made of representations with at least one disjunction, p & p is refused by its own prover: the secrets of the disjunction occur outside of it, and prove() raises InvalidSecretsError instead of returning a proof; with primitives in p no proof is returned either. The property is also false for DLNotEqual and for the proof of knowledge of a BBS+ signature. The two copies of p in p & p have the internal secrets of p in common; precommit() of the second copy gives them new values while the representations of the first copy keep the old ones, and both use one randomizer per secret. So the honest prover returns a proof with two different responses for one secret, and verify() raises an exception, except when the two blinders happen to be equal or the challenge (or the secret of DLNotEqual) is zero modulo the group order.", "quantifier": "positive part: all conjunctions of representations over groups of one order, all values that satisfy them, all random draws, all verifiers that build the same statement; negative part: all compositions with a disjunction (reached through conjunctions) that has a secret, all values and random draws; all DLNotEqual and BBS+ statements over groups of prime order, all proofs of p & p the prover returns, all verifiers", "why_tests_cant": "tests in the repository reuse extended statement objects only in different clauses of a disjunction; that every run fails, for all draws, is not visible from a few runs", "anchors": ["zksk/composition.py:115-131", "zksk/composition.py:720-723", "zksk/composition.py:847-889", "zksk/extended.py:172-211", "zksk/primitives/dl_notequal.py:46-92", "zksk/primitives/bbsplus.py:257-313", "zksk/primitives/dlrep.py:230-248", "zksk/base.py:206-210", "zksk/composition.py:494-517"]}
{"id": "C91", "title": "A primitive may be made of other primitives", "statement": "A class derived from ExtendedProofStmt may return, from construct_stmt, a composition that contains further extended statements (DLNotEqual, BBS+, range statements): prove() makes a proof and verify() accepts it. (Violated: every verifier raises an exception for every proof of a statement with such a part, no conversation ends with a verdict, and simulate() raises if the inner statement is made by construct_stmt. What holds: if construct_stmt returns compositions of representations, the loop over the provers of the constructed statement changes nothing.)", "quantifier": "all subclasses whose construct_stmt returns a composition with an extended part whatever the precommitment, all compositions containing such a statement at any place, all proofs, messages, heaps, hash functions, provers; for the part that holds: all statements whose extended parts construct compositions of representations, all random draws and values", "why_tests_cant": "The repository has no such primitive, and its tests cannot range over all proofs; that no proof of any form whatever gets through is a statement about all inputs of verify().", "anchors": ["zksk/extended.py:165-211", "zksk/extended.py:214-245", "zksk/extended.py:123-144", "zksk/base.py:206-263", "docs/new_primitives.rst:111-132"]}
{"id": "C92", "title": "The precommitment of an or-proof does not show which clause was proved", "statement": "The precommitment in a proof of a disjunction says nothing about which of the clauses was really proved. (Violated if a clause is a conjunction or disjunction of representations: the precommitment has an entry for such a clause, a list of Nones, exactly if the clause was simulated, and None if it was proved. So the proved clause can be read off every proof, even if the signs of the sub-challenges of C25 were repaired. What holds: with bare representations as clauses there is no precommitment.)", "quantifier": "all disjunctions whose clauses are of any kind, all clauses that are conjunctions of representations or of disjunctions of bare representations (nested in any way) or such disjunctions, all provers, messages, secrets, heaps, hash functions, random draws", "why_tests_cant": "the tests check that proofs are accepted; what can be read off every possible proof is a statement about all secrets and all randomness", "anchors": ["zksk/composition.py:523-556", "zksk/composition.py:577-603", "zksk/composition.py:782-818", "zksk/composition.py:847-865"]}
{"id": "C93", "title": "Zero knowledge up to which clauses can be proved, for all compositions of representations", "statement": "For every composition with & and | of representation proofs and every challenge known in advance, somebody who is told for which secrets the prover has values, but has any other numbers instead of them, can make the runs without the prover: with get_prover (which looks only for which secrets there is a value), and with simulate_proof of the representations in place of commit and compute_response. The precommitments, hashes, commitments and responses have exactly the same distribution as in runs with the prover, and no exception occurs. So nothing is shown in addition to which clauses can be proved.", "quantifier": "all compositions of representations, heaps, dictionaries, true values of the prover, numbers of the outsider, challenges, hash functions, all random numbers", "why_tests_cant": "equality of distributions over all random numbers, for all values", "anchors": ["zksk/composition.py:OrProofStmt.get_prover", "zksk/composition.py:OrProver", "zksk/composition.py:AndProver", "zksk/primitives/dlrep.py:DLRepProver", "zksk/primitives/dlrep.py:DLRep.simulate_proof"]}
{"id": "C94", "title": "Non-interactive proofs of disjunctions are zero-knowledge up to which clauses can be proved, when the hash function can be programmed", "statement": "For every composition with & and | of representation proofs, somebody who is told for which secrets the prover has values, but has any other numbers instead of them, and who may choose one answer of the hash function, makes the proofs of prove() without the prover: for every answer the random numbers can be matched one to one such that prove() makes the very same proof when the hash function gives that answer to the outsider's question. For every hash function, prove() makes each proof exactly as often as the outsider makes it with the answer the hash function gives to the question that goes with it.", "quantifier": "all compositions of representations, heaps, dictionaries, true values of the prover, numbers of the outsider, messages, hash functions, answers, all random numbers", "why_tests_cant": "equality of distributions over all random numbers, for all values and all hash functions", "anchors": ["zksk/base.py:Prover.get_nizk_proof", "zksk/base.py:build_fiat_shamir_challenge", "zksk/composition.py:OrProofStmt.get_prover", "zksk/composition.py:OrProver", "zksk/primitives/dlrep.py:DLRepProver", "zksk/primitives/dlrep.py:DLRep.simulate_proof"]}
{"id": "C95", "title": "A composition with one statement at several places can be proved", "statement": "And and Or copy their arguments 'so they don't mess up each other' (zksk/composition.py:414), so proving a composition in which a statement is used at several places should be like proving the composition with a separate object at every place: the same proofs from the same random numbers, the same errors, accepted by the verifier alike. This holds for every expression in which each composition is used where it is made, however often the leaf statements (DLRep or extended) are used, and more generally whenever every leaf is a different object; for prove(), for conversations and for simulate(), which then store nothing in other objects. It is false when a composition with an extended part is used twice: with c = And(p, d), p a DLNotEqual statement, the clauses of c | c have the same object p. The simulation of one clause and the proof of the other store different precommitments in it; the proof carries the hash of the statement with the precommitment of the proved clause at both places, the verifier sees the last one at both places, so an honest proof can be rejected, whichever clause is proved.", "quantifier": "all compositions of representations and extended statements whose leaves are objects, all states of the objects, all dictionaries of values, messages, challenges, heaps and random tapes", "why_tests_cant": "Tests build few statements and rarely use a composition twice; that objects at different places do not interact has to be shown for all compositions and all orders in which get_prover, setup_simulations and precommit visit them.", "anchors": ["zksk/composition.py:414-417", "zksk/composition.py:441-483", "zksk/composition.py:577-603", "zksk/composition.py:720-723", "zksk/composition.py:738-754", "zksk/composition.py:847-865", "zksk/extended.py:99-158", "zksk/extended.py:194-211"]}
{"id": "C96", "title": "Proofs of compositions with primitives and disjunctions are zero-knowledge up to which clauses are marked", "statement": "For every composition with & and |, nested in any way, of representation proofs, DLNotEqual, BBSPlusSignatureStmt and, in clauses marked as simulated, PowerTwoRangeStmt made without the value, over groups of one prime order, in which everything but the marked clauses is true: somebody who is told which clauses are marked, but has any other numbers instead of the values of the secrets, no signature, and never calls precommit(), makes the interactive runs of the prover (precommitment, statement id, commitment, response) with exactly the same probabilities, given the challenge in advance; and makes the proofs of prove() with exactly the same probabilities when one answer of the hash function can be chosen. Neither the prover nor they fail.", "quantifier": "all such compositions, objects and heaps, true values of the prover, numbers of the outsider, challenges, messages, hash functions, answers, all random numbers", "why_tests_cant": "equality of distributions over all random numbers, for all values, compositions and hash functions", "anchors": ["zksk/base.py:Prover.get_nizk_proof", "zksk/composition.py:OrProofStmt.get_prover", "zksk/composition.py:OrProver", "zksk/composition.py:AndProver", "zksk/extended.py:ExtendedProofStmt.simulate_proof", "zksk/extended.py:ExtendedProofStmt.prepare_simulate_proof", "zksk/extended.py:ExtendedProver", "zksk/primitives/dl_notequal.py:DLNotEqual", "zksk/primitives/bbsplus.py:BBSPlusSignatureStmt", "zksk/primitives/rangeproof.py:PowerTwoRangeStmt.simulate_precommit"]}
{"id": "C97", "title": "Proofs of compositions with primitives and disjunctions do not depend on the values or signatures used", "statement": "If two provers have statement objects for the same composition, with & and | nested in any way, of representation proofs, DLNotEqual, BBSPlusSignatureStmt and, in clauses marked as simulated, PowerTwoRangeStmt made without the value, over groups of one prime order, with the same clauses marked, but with different values of the secrets or different signatures, each making everything but the marked clauses true, then for every challenge the interactive runs of the one have exactly the distribution of those of the other, and for every message and hash function prove() makes each non-interactive proof equally often.", "quantifier": "all such compositions, pairs of provers' objects, heaps and explicit values, challenges, messages, hash functions, all random numbers", "why_tests_cant": "equality of distributions of two provers over all random numbers, for all compositions", "anchors": ["zksk/base.py:Prover.get_nizk_proof", "zksk/composition.py:ComposableProofStmt.prove", "zksk/composition.py:OrProofStmt.get_prover", "zksk/composition.py:OrProver", "zksk/composition.py:AndProver", "zksk/extended.py:ExtendedProver", "zksk/primitives/dl_notequal.py:DLNotEqual", "zksk/primitives/bbsplus.py:BBSPlusSignatureStmt"]}
{"id": "C98", "title": "Commitments of honest provers cannot be predicted", "statement": "For every composition with & and | of representation proofs and extended statements (DLNotEqual, PowerTwoRangeStmt, BBSPlusSignatureStmt, or any other whose private methods just draw random numbers) in which, whichever clauses are proved, some representation has a secret that occurs once in it and whose base has at least q multiples: whatever commitment somebody expects, the honest prover sends it for at most one in q of all random numbers. Therefore, whatever questions S to the hash function somebody has asked or answered beforehand, the honest prover's prove() depends on the answers to them for at most |S| in q of all random numbers. (If all secrets of a representation occur several times the commitment may be constant: x*g + x*(-g).)", "quantifier": "all compositions, heaps, values, expected commitments, challenges, messages, hash functions, finite sets of questions and other answers to them, all random numbers", "why_tests_cant": "a bound on the probability over all random numbers, for all statements and all guesses", "anchors": ["zksk/base.py:Prover.commit", "zksk/base.py:Prover.get_nizk_proof", "zksk/composition.py:ComposableProofStmt.update_randomizers", "zksk/composition.py:AndProver.internal_commit", "zksk/composition.py:OrProver.internal_commit", "zksk/extended.py:ExtendedProver.internal_commit", "zksk/primitives/dlrep.py:DLRepProver.internal_commit", "zksk/primitives/dlrep.py:DLRep.get_randomizers"]}
{"id": "C99", "title": "Primitives proved with wrong values are rejected", "statement": "A prover who runs the library's own code with wrong values for a primitive does not get an accepted proof. DLNotEqual whose second discrete logarithm is the same as the first (lhs1 = x*h): whatever prove() returns, verify() does not return True. PowerTwoRangeStmt and RangeStmt whose values do not open the commitment (com != x*g + r*h): whatever prove() returns, verify() does not return True. Both also hold when the inequality or the PowerTwoRangeStmt is a part of a conjunction, nested in any way, with representations and other primitives that do not use the secret as one of their internal ones: verify() does not return True. DLNotEqual with lhs0 != x*g in a group of prime order: an accepted proof has a challenge that is zero modulo the order, or two different commitments have the same Fiat-Shamir challenge. BBSPlusSignatureStmt with values of e, s, messages that do not satisfy the equation of the signature: an accepted proof has such a challenge or such a collision, or the value of e differs from that of the signature object and the randomized A1 of the precommitment happens to be the neutral element.", "quantifier": "all groups, points, values, dictionaries of values passed to prove(), heaps, messages, hash functions, random numbers, and all verifier's objects of the same statement", "why_tests_cant": "tests use one wrong value of one statement with one run; the claim is about all values and all random numbers, and names the exact exceptional cases", "anchors": ["zksk/primitives/dl_notequal.py:DLNotEqual.precommit", "zksk/primitives/dl_notequal.py:DLNotEqual.construct_stmt", "zksk/primitives/dl_notequal.py:DLNotEqual.validate", "zksk/primitives/rangeproof.py:PowerTwoRangeStmt.precommit", "zksk/primitives/rangeproof.py:PowerTwoRangeStmt.validate", "zksk/primitives/rangeproof.py:RangeStmt", "zksk/primitives/bbsplus.py:BBSPlusSignatureStmt.precommit", "zksk/primitives/bbsplus.py:BBSPlusSignatureStmt.construct_stmt", "zksk/extended.py:ExtendedVerifier.process_precommitment", "zksk/base.py:Verifier.verify_nizk"]}
{"id": "C100", "title": "The example scripts run to their end", "statement": "The scripts examples/andproof.py, orproof.py, simple_dlrep.py, two_level_proof.py and expressions.py raise no exception and all their assertions hold: verifier.verify(response) is True in each of the interactions, the statements they call equivalent have the same get_proof_id(), and the statement with two secrets of equal value has another identifier than the one that repeats a secret. stmt.verify(nizk) in the last line of simple_dlrep.py is True. In expressions.py both calls of get_prover() return a prover, and expr.eval() is 5 * g.", "quantifier": "all groups, all points of the group in the place of the generators, all hash functions and encodings, all random numbers; andproof.py for names of secrets that differ for x0, x1 of the last part, simple_dlrep.py for names that differ for x0 and x1", "why_tests_cant": "one run of a script uses one group, one sequence of random numbers and one choice of the really proved clause", "anchors": ["examples/andproof.py", "examples/orproof.py", "examples/simple_dlrep.py", "examples/two_level_proof.py", "examples/expressions.py", "zksk/base.py:Verifier.send_challenge", "zksk/base.py:Verifier.verify", "zksk/composition.py:AndProofStmt.get_prover", "zksk/composition.py:OrProofStmt.get_prover", "zksk/expr.py:Expression.eval"]}
{"id": "C101", "title": "Zero knowledge with a random hash function", "statement": "Let the answers of the hash function be random (each question of a finite set Q gets a uniform answer from Ans). Somebody asks the hash function up to k questions, later ones depending on earlier answers, is then shown a proof, and may then ask without limit. They cannot tell well whether it was made by prove() of an honest prover with that hash function, or by an outsider without the values of the secrets, who is told a random answer a, calls simulate_proof with the corresponding challenge, and afterwards has one question answered by a. If no question was asked before, yes is said exactly equally often in both cases. With k earlier questions, the numbers of cases differ by at most k/B of all cases, where B is the number of multiples of the base of a secret that is proved (the group order q for the library's statements in groups of prime order).", "quantifier": "all observers (any function of all answers of the hash function and the proof), all finite sets of questions that contain those of the outsider, all sets of answers, all statements as in C94 (compositions of representations) and C96 (compositions with DLNotEqual, BBS+ signatures, and range proofs in marked clauses), all values, messages and heaps; encodings that are unique (Readable)", "why_tests_cant": "the claim is about the distribution over all hash functions and all random numbers, and about all observers", "anchors": ["zksk/base.py:Prover.get_nizk_proof", "zksk/base.py:build_fiat_shamir_challenge", "zksk/composition.py:ComposableProofStmt.prove", "zksk/composition.py:OrProofStmt.get_prover", "zksk/primitives/dlrep.py:DLRep.simulate_proof", "zksk/extended.py:ExtendedProofStmt.simulate_proof"]}
{"id": "C102", "title": "Soundness with a random hash function", "statement": "Let the answers of the hash function be random (each question of a finite set Q gets a uniform answer from Ans, no residue modulo the group order q belonging to more than beta answers). Somebody asks the hash function up to k questions, later ones depending on earlier answers, and then makes a proof and a message. If the statement is false (for a statement with disjunctions: its part outside them), verify() accepts for at most a fraction (k+1)*beta/|Ans| of the tables of answers. If verify() accepts more often than that for a conjunction of representations, nested in any way, then there are a table and one changed answer to one question such that the proofs made in both cases are accepted and u*(y-y') for their responses y, y' are values for which the statement is true; and for conjunctions with DLNotEqual and BBS+ signatures there are values for which every part is true: inequalities hold, and signatures are valid on the messages. For compositions with disjunctions, and with extended parts in them, the same holds with beta+gamma instead of beta (gamma: how many answers share a residue modulo 2^128) against attackers whose proofs give one sub-challenge per clause in the range of honest provers; verify() does not check this (C19).", "quantifier": "all attackers (any function of the answers to at most k adaptive questions), all finite sets of questions that contain the ones of their proofs, all sets of answers, all statements of the kind, groups of prime order (of at least 129 bits for disjunctions); encodings that are unique (Readable); precommitments not raw bytes, and for primitives as they come out of decoding", "why_tests_cant": "the claim is about all strategies of a cheating prover and about the fraction of all hash functions for which they succeed", "anchors": ["zksk/base.py:Verifier.verify_nizk", "zksk/base.py:build_fiat_shamir_challenge", "zksk/composition.py:ComposableProofStmt.verify", "zksk/primitives/dlrep.py:DLRep.recompute_commitment", "zksk/primitives/dl_notequal.py:DLNotEqual", "zksk/primitives/bbsplus.py:BBSPlusSignatureStmt"]}
{"id": "C103", "title": "Soundness of the interactive protocol", "statement": "Somebody sends a precommitment, a statement hash and a commitment to a verifier of the interactive protocol, gets the random 128-bit challenge, and answers as they like. If the statement is false (for a statement with disjunctions: its part outside them), at most ceil(2^128/q) of the 2^128 challenges make the verifier accept, q being the group order. If more challenges than that are accepted for a conjunction of representations, nested in any way, then two of them are such that u*(y-y') for the two responses y, y' are values for which the statement is true; the same holds for conjunctions with DLNotEqual and BBS+ signatures, where inequalities hold and signatures are valid on the messages. For compositions with disjunctions and extended parts, two accepted challenges suffice against those who give one sub-challenge per clause in the range of honest provers. The verifier does not check that: whoever knows just the secrets outside the disjunctions convinces them for all 2^128 challenges, even if all clauses of the disjunctions are false.", "quantifier": "all strategies of the other side (any messages, any function from challenges to answers), all statements of the kind, groups of prime order (with large prime factors for disjunctions), all heaps of the verifier", "why_tests_cant": "the claim is about all strategies of a cheating prover and counts 2^128 challenges", "anchors": ["zksk/utils/debug.py:SigmaProtocol.verify", "zksk/base.py:Verifier.send_challenge", "zksk/base.py:Verifier.verify", "zksk/composition.py:AndVerifier.send_challenge", "zksk/extended.py:ExtendedVerifier.process_precommitment"]}
{"id": "C104", "title": "Sub-challenges of honest provers", "statement": "Every proof that prove() returns, every answer of a prover in the interactive protocol (to any challenge), and every transcript of simulate() gives exactly one sub-challenge per clause in every disjunction, however deeply nested, and each sub-challenge lies strictly between -2^128 and 2^128. For statements with extended parts this holds for the disjunctions inside what the verifier constructs too, whenever the verifier gets past the comparison of statement hashes, unless two different identifiers have the same hash. So the condition under which disjunctions are sound (C19, C102, C103), which verify() does not check, would cost no honest proof if it did.", "quantifier": "all statements, dictionaries, heaps and random draws; no assumption on the truth of the statement; verifiers with heaps and statements of their own", "why_tests_cant": "the residual challenge is computed modulo 2^128 from random sub-challenges and nested simulations; that no run leaves the range is a claim about all draws and all nestings", "anchors": ["zksk/composition.py:OrProver.compute_response", "zksk/composition.py:OrProver.setup_simulations", "zksk/composition.py:OrProofStmt.simulate_proof", "zksk/composition.py:AndProofStmt.simulate_proof", "zksk/composition.py:_find_residual_challenge", "zksk/extended.py:ExtendedProver.compute_response"]}
{"id": "C105", "title": "Everybody can change accepted proofs", "statement": "Let M be a number that kills the group, like its order. Adding multiples of M to the responses of a proof (the same multiple for all occurrences of a secret outside or-clauses; each or-clause may have its own multiples) and multiples of M*2^128 to the sub-challenges of disjunctions does not change a verdict of verify(), nor an acceptance in the interactive protocol, where the challenge may also be raised by a multiple of M*2^128. So from every accepted proof of a statement in which a secret occurs infinitely many other accepted proofs for the same message can be made, with the same challenge, precommitment and statement hash, without knowing any secret.", "quantifier": "all compositions of representations and extended statements whose representations have as many secrets as bases, all proofs (also by dishonest provers), all heaps, hash functions, messages and multiples", "why_tests_cant": "claims about all proofs, all nestings and infinitely many changes of them", "anchors": ["zksk/base.py:Verifier.verify_nizk", "zksk/primitives/dlrep.py:DLRep.recompute_commitment", "zksk/primitives/dlrep.py:DLRepVerifier.check_responses_consistency", "zksk/composition.py:OrProofStmt.recompute_commitment", "zksk/composition.py:AndProofStmt.recompute_commitment", "zksk/composition.py:OrVerifier.check_responses_consistency", "zksk/composition.py:AndVerifier.check_responses_consistency"]}
