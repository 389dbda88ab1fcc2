{
 "claims": [
  {
   "property": "C01",
   "status": "proved",
   "theorems": [
    "Zksk.Props.C01_decompose_correct",
    "Zksk.Props.C01_decompose_total"
   ],
   "note": "All integers and all n."
  },
  {
   "property": "C02",
   "status": "proved",
   "theorems": [
    "Zksk.Props.C02_residual_closes",
    "Zksk.Props.C02_residual_zero_iff"
   ],
   "note": "All lists, challenges and bit lengths."
  },
  {
   "property": "C03",
   "status": "proved",
   "theorems": [
    "Zksk.Props.C03_statement_ids",
    "Zksk.Props.C03_ids_consecutive",
    "Zksk.Props.C03_ids_by_name",
    "Zksk.Props.C03_ids_canonical"
   ],
   "note": "Identifiers in the identifier of any statement, and the identifier map for all lists of names."
  },
  {
   "property": "C04",
   "status": "proved",
   "theorems": [
    "Zksk.Props.C04_eval_value",
    "Zksk.Props.C04_eval_incomplete",
    "Zksk.Props.C04_any_program",
    "Zksk.Props.C04_operands"
   ],
   "note": "Expressions live in a heap of mutable objects; proved for written-out formulas and for every object of every program."
  },
  {
   "property": "C05",
   "status": "proved",
   "theorems": [
    "Zksk.Props.C05_wsum_lists",
    "Zksk.Props.C05_wsum_errors"
   ],
   "note": "Full."
  },
  {
   "property": "C06",
   "status": "partial",
   "theorems": [
    "Zksk.Props.C06_left_operand_changed",
    "Zksk.Props.C06_statement_changed",
    "Zksk.Props.C06_others_unchanged_partial",
    "Zksk.Props.C06_written_out_partial"
   ],
   "note": "The property is false of the code: the left operand of + is always changed. What remains true is proved in the _partial theorems."
  },
  {
   "property": "C07",
   "status": "proved",
   "theorems": [
    "Zksk.Props.C07_and_flat",
    "Zksk.Props.C07_or_flat",
    "Zksk.Props.C07_and_assoc",
    "Zksk.Props.C07_or_assoc",
    "Zksk.Props.C07_constructors"
   ],
   "note": "all trees over any leaf type"
  },
  {
   "property": "C08",
   "status": "proved",
   "theorems": [
    "Zksk.Props.C08_id_invariant",
    "Zksk.Props.C08_id_pattern",
    "Zksk.Props.C08_verify_invariant",
    "Zksk.Props.C72_renaming"
   ],
   "note": "identifier: general statements; equal verification result: plain statements (And/Or/DLRep), and all compositions of the library's statements (C72_renaming)"
  },
  {
   "property": "C09",
   "status": "proved",
   "theorems": [
    "Zksk.Props.C09_id_determines",
    "Zksk.Props.C09_same_equations",
    "Zksk.Props.C09_same_verification",
    "Zksk.Props.C09_values_matter"
   ],
   "note": "C09_values_matter: equal identifiers do not imply equal consistency checks if same-named Secret objects carry different values"
  },
  {
   "property": "C10",
   "status": "proved",
   "theorems": [
    "Zksk.Props.C10_mismatch",
    "Zksk.Props.C10_mismatch_plain",
    "Zksk.Props.C10_verdict_needs_hash",
    "Zksk.Props.C10_no_replay"
   ],
   "note": ""
  },
  {
   "property": "C100",
   "status": "proved",
   "theorems": [
    "Zksk.Props.C100_two_level",
    "Zksk.Props.C100_or",
    "Zksk.Props.C100_simple",
    "Zksk.Props.C100_and",
    "Zksk.Props.C100_expressions"
   ],
   "note": "The two scripts that define primitives (primitive_*.py) are the subject of C85 and C86."
  },
  {
   "property": "C101",
   "status": "proved",
   "theorems": [
    "Zksk.Props.C101_later",
    "Zksk.Props.C101_before",
    "Zksk.Props.C101_later_stmt",
    "Zksk.Props.C101_before_stmt",
    "Zksk.Props.C101_library_later",
    "Zksk.Props.C101_library_before"
   ],
   "note": "Exact equality without earlier questions, k in B with k earlier questions; for compositions of representations, for compositions with extended parts under the hypotheses of C96 and C98, and for the statements of the library."
  },
  {
   "property": "C102",
   "status": "proved",
   "theorems": [
    "Zksk.Props.C102_false",
    "Zksk.Props.C102_knowledge",
    "Zksk.Props.C102_primitives",
    "Zksk.Props.C102_disjunctions",
    "Zksk.Props.C102_extended"
   ],
   "note": "adaptive attackers with at most k questions; the extractor's running time is not modelled: a pair of accepted runs is shown to exist. Disjunctions: against attackers whose sub-challenges are in range, which verify() does not check (C19)."
  },
  {
   "property": "C103",
   "status": "proved",
   "theorems": [
    "Zksk.Props.C103_false",
    "Zksk.Props.C103_knowledge",
    "Zksk.Props.C103_primitives",
    "Zksk.Props.C103_extended",
    "Zksk.Props.C103_forgery"
   ],
   "note": "Counts over the verifier's 2^128 challenges. C103_extended has the condition on sub-challenges that the English states; C103_forgery shows that it is needed."
  },
  {
   "property": "C104",
   "status": "proved",
   "theorems": [
    "Zksk.Props.C104_prove_plain",
    "Zksk.Props.C104_interactive_plain",
    "Zksk.Props.C104_simulate_plain",
    "Zksk.Props.C104_prove",
    "Zksk.Props.C104_interactive",
    "Zksk.Props.C104_simulate",
    "Zksk.Props.C104_in_range"
   ],
   "note": "Plain statements: no hypotheses at all. Extended statements: for every verifier that reaches a verdict, or else a collision of the hash function. Ranged (SpecSound) implies InRange, the condition of C19/C102/C103 (C104_in_range)."
  },
  {
   "property": "C105",
   "status": "proved",
   "theorems": [
    "Zksk.Props.C105_changed",
    "Zksk.Props.C105_changed_core",
    "Zksk.Props.C105_infinitely_many",
    "Zksk.Props.C105_interactive"
   ],
   "note": "Raised (SpecMalleable.lean) lists the allowed changes; M is any integer with M*x = 0 for all points."
  },
  {
   "property": "C11",
   "status": "proved",
   "theorems": [
    "Zksk.Props.C11_acceptance",
    "Zksk.Props.C11_acceptance_plain"
   ],
   "note": "general statements with extended leaves"
  },
  {
   "property": "C12",
   "status": "partial",
   "theorems": [
    "Zksk.Props.C12_message_binding",
    "Zksk.Props.C12_collision",
    "Zksk.Props.C12_input_injective_partial",
    "Zksk.Props.C12_precommitment_malleable"
   ],
   "note": "message binding proved; injectivity of the challenge input holds for precommitments that are not raw bytes and is refuted for raw bytes by C12_precommitment_malleable"
  },
  {
   "property": "C13",
   "status": "proved",
   "theorems": [
    "Zksk.Props.C13_dlrep_complete"
   ],
   "note": "prove() succeeds and verify() is True for all draws, messages and values; hypotheses: all points in one group whose order annihilates the bases, dictionary without duplicate keys."
  },
  {
   "property": "C14",
   "status": "proved",
   "theorems": [
    "Zksk.Props.C14_composed_complete"
   ],
   "note": "All And/Or/DLRep trees; verifier may have its own secret objects. Statements with extended leaves are treated with C34, C36, C44."
  },
  {
   "property": "C15",
   "status": "proved",
   "theorems": [
    "Zksk.Props.C15_interactive_complete",
    "Zksk.Props.C15_every_challenge"
   ],
   "note": "SigmaProtocol accepts for all draws; every integer challenge is answered correctly."
  },
  {
   "property": "C16",
   "status": "proved",
   "theorems": [
    "Zksk.Props.C16_wrong_secrets_rejected"
   ],
   "note": "Interactive rejection for every challenge nonzero mod the prime order and all random draws."
  },
  {
   "property": "C17",
   "status": "proved",
   "theorems": [
    "Zksk.Props.C17_dlrep_extraction"
   ],
   "note": ""
  },
  {
   "property": "C18",
   "status": "proved",
   "theorems": [
    "Zksk.Props.C18_and_extraction"
   ],
   "note": ""
  },
  {
   "property": "C19",
   "status": "partial",
   "theorems": [
    "Zksk.Props.C19_extraction_partial",
    "Zksk.Props.C19_forgery_extra_challenge",
    "Zksk.Props.C19_forgery_multiple_of_order",
    "Zksk.Props.C19_false_statement_accepted",
    "Zksk.Props.C19_extended_partial"
   ],
   "note": "Violated by the code: two universal forgeries for every disjunction, including false statements. Extraction holds under the two checks the code omits."
  },
  {
   "property": "C20",
   "status": "proved",
   "theorems": [
    "Zksk.Props.C20_sum",
    "Zksk.Props.C20_raises"
   ],
   "note": ""
  },
  {
   "property": "C21",
   "status": "proved",
   "theorems": [
    "Zksk.Props.C21_never_accepts",
    "Zksk.Props.C21_raises"
   ],
   "note": ""
  },
  {
   "property": "C22",
   "status": "proved",
   "theorems": [
    "Zksk.Props.C22_simulation_consistent",
    "Zksk.Props.C22_simulation_exists"
   ],
   "note": ""
  },
  {
   "property": "C23",
   "status": "proved",
   "theorems": [
    "Zksk.Props.C23_simulation_not_proof"
   ],
   "note": "Exact criterion."
  },
  {
   "property": "C24",
   "status": "proved",
   "theorems": [
    "Zksk.Props.C24_transcripts_coincide",
    "Zksk.Props.C24_same_distribution"
   ],
   "note": "Explicit permutation of the random block under which honest and simulated transcripts are equal, and the resulting equality of counts. The precommitment field differs in form (None against a nested list of None) and does not depend on the secrets."
  },
  {
   "property": "C25",
   "status": "partial",
   "theorems": [
    "Zksk.Props.C25_challenge_signs",
    "Zksk.Props.C25_negative_reveals",
    "Zksk.Props.C25_clauses_distinguished",
    "Zksk.Props.C25_every_disjunction"
   ],
   "note": "The property is false of the code; the theorems prove the leak for all runs: the sub-challenge of the clause really proved is never positive, the others are never negative; also for disjunctions at any depth and inside of primitives. That nothing else than which clauses can be proved is shown is C93 (C77 for proofs)."
  },
  {
   "property": "C26",
   "status": "proved",
   "theorems": [
    "Zksk.Props.C26_responses_mod_order"
   ],
   "note": "Same verdict or same exception."
  },
  {
   "property": "C27",
   "status": "proved",
   "theorems": [
    "Zksk.Props.C27_conjunction_check",
    "Zksk.Props.C27_prove_refuses",
    "Zksk.Props.C27_with_primitives",
    "Zksk.Props.C27_interactive"
   ],
   "note": "GroupMismatchError has priority if both rules are violated. With primitives (C27_with_primitives) the theorem says that no proof is returned, not which exception is raised; secrets that only some of the statements constructed by a primitive have, and secrets of different objects with the same name, are not covered there. The interactive theorem (C27_interactive) is about commit() with or without precommit() before, with any state in between."
  },
  {
   "property": "C28",
   "status": "proved",
   "theorems": [
    "Zksk.Props.C27_conjunction_check",
    "Zksk.Props.C28_disjunction_check",
    "Zksk.Props.C27_prove_refuses",
    "Zksk.Props.C28_prove_refuses",
    "Zksk.Props.C28_with_primitives",
    "Zksk.Props.C28_interactive",
    "Zksk.Props.C28_interactive_error"
   ],
   "note": "With primitives (C28_with_primitives) the theorem says that no proof is returned, not which exception is raised, and secrets of different objects with the same name are not covered there. The interactive theorem (C28_interactive) is about commit() with or without precommit() before, with any state in between. C28_interactive_error names the exception of commit(), provided that get_proof_id() of the prover's statement succeeds."
  },
  {
   "property": "C29",
   "status": "partial",
   "theorems": [
    "Zksk.Props.C29_prover_checks_partial",
    "Zksk.Props.C29_rules_not_rechecked",
    "Zksk.Props.C29_true_statements_accepted"
   ],
   "note": "Violated by the code: every true statement has an accepted proof, composable or not. What holds: proofs returned by prove() are for statements whose top-level composition obeys the rules."
  },
  {
   "property": "C30",
   "status": "proved",
   "theorems": [
    "Zksk.Props.C30_chosen_clause",
    "Zksk.Props.C30_none_only_if",
    "Zksk.Props.C30_none_if",
    "Zksk.Props.C30_none_iff"
   ],
   "note": "The first three for clauses of any kind, the last exact characterisation for statements over representations."
  },
  {
   "property": "C31",
   "status": "partial",
   "theorems": [
    "Zksk.Props.C31_known_clause_partial",
    "Zksk.Props.C31_unknown_clause_raises",
    "Zksk.Props.C31_extended_never_declines"
   ],
   "note": "Violated by the code for conjunctions and extended statements as clauses; holds for disjunctions nested over representations."
  },
  {
   "property": "C32",
   "status": "partial",
   "theorems": [
    "Zksk.Props.C32_conjunctions_partial",
    "Zksk.Props.C32_reuse_partial",
    "Zksk.Props.C32_or_used_up"
   ],
   "note": "Violated for disjunctions of bare representations (each proof uses up an unmarked clause). Over all histories of prove() and verify() it holds for statements without disjunctions, and for compositions of the statements of the library in which every disjunction has an unmarked clause that is not a bare representation."
  },
  {
   "property": "C33",
   "status": "partial",
   "theorems": [
    "Zksk.Props.C33_verdict_partial",
    "Zksk.Props.C33_verdict_core",
    "Zksk.Props.C33_tuple_challenges",
    "Zksk.Props.C33_tuple_precommitment",
    "Zksk.Props.C33_pairings",
    "Zksk.Props.C33_points_apart"
   ],
   "note": "False as stated (three violations, proved): msgpack turns tuples into lists, which makes a refused NIZK with tuple sub-challenges acceptable and changes the identifier of an extended statement with a tuple precommitment; decoding points of pairing groups makes new groups, so BBS+ proofs never get a verdict after deserialization. Proved: the verdict is preserved for precommitments without tuples and pairing points, and reflected if sub-challenges come as lists. The byte formats of msgpack/petlib.pack are parameters with the laws Faithful."
  },
  {
   "property": "C34",
   "status": "proved",
   "theorems": [
    "Zksk.Props.C34_complete"
   ],
   "note": "All heaps, dictionaries, blinders, messages and hash functions; group of prime order. The precommitment is given explicitly, so it is the identity exactly when H1 = x h1 or the blinder is zero."
  },
  {
   "property": "C35",
   "status": "proved",
   "theorems": [
    "Zksk.Props.C35_witness",
    "Zksk.Props.C35_accepted"
   ],
   "note": "All four points in one group of prime order, h0 not the identity. The witness version is about any precommitment; the accepted version extracts from two accepted answers."
  },
  {
   "property": "C36",
   "status": "proved",
   "theorems": [
    "Zksk.Props.C36_complete"
   ],
   "note": "All values, numbers of bits (at least two), randomizers, heaps, dictionaries, messages and hash functions; non-interactive and interactive."
  },
  {
   "property": "C37",
   "status": "partial",
   "theorems": [
    "Zksk.Props.C37_witness_partial",
    "Zksk.Props.C37_accepted_partial",
    "Zksk.Props.C37_forgery",
    "Zksk.Props.C37_violated",
    "Zksk.Props.C67_power_two"
   ],
   "note": "Refuted: a proof with an extra bit commitment is accepted for every commitment; with surplus sub-challenges even one with n bit commitments. Proved: with exactly n bit commitments a witness opens com to [0,2^n)."
  },
  {
   "property": "C38",
   "status": "proved",
   "theorems": [
    "Zksk.Props.C38"
   ],
   "note": "About the statement that RangeStmt returns."
  },
  {
   "property": "C39",
   "status": "partial",
   "theorems": [
    "Zksk.Props.C39_small_ranges_fail",
    "Zksk.Props.C39_larger_ranges_partial"
   ],
   "note": "Refuted for every range with one or two elements: prove() always raises. For every larger range and every value in it, proofs are produced and accepted by a verifier calling RangeStmt itself."
  },
  {
   "property": "C40",
   "status": "proved",
   "theorems": [
    "Zksk.Props.C40_prove",
    "Zksk.Props.C40_precommit"
   ],
   "note": "prove() raises for every value outside the range."
  },
  {
   "property": "C41",
   "status": "proved",
   "theorems": [
    "Zksk.Props.C41_signatures_verify",
    "Zksk.Props.C41_commit_succeeds",
    "Zksk.Props.C41_sign_succeeds_iff",
    "Zksk.Props.C41_generate"
   ],
   "note": "Every run of commit, sign and obtain_signature gives an accepted signature; commit always succeeds when there are enough generators, blinded commitments are accepted by verify_blinding; sign succeeds exactly if gamma+e is invertible; generate gives key pairs as assumed. Trusted: bilinearity of the pairing, h0 of the order of the group."
  },
  {
   "property": "C42",
   "status": "partial",
   "theorems": [
    "Zksk.Props.C42_violated",
    "Zksk.Props.C42_extra_messages_ignored",
    "Zksk.Props.C42_zeros_ignored",
    "Zksk.Props.C42_second_list",
    "Zksk.Props.C42_messages_bound_partial"
   ],
   "note": "Violated by the code: messages beyond the generators and zeros at the end are ignored. Positive part: exact condition for a second list to be accepted; binding modulo the order for lists that fit, with independent generators."
  },
  {
   "property": "C43",
   "status": "partial",
   "theorems": [
    "Zksk.Props.C43_violated",
    "Zksk.Props.C43_reuse_partial"
   ],
   "note": "Violated by the code: an unblinded commitment after a blinded one leads to an invalid signature (exact condition). Positive part: all histories whose last commitment is blinded or without blinded commitments."
  },
  {
   "property": "C44",
   "status": "proved",
   "theorems": [
    "Zksk.Props.C44_witness",
    "Zksk.Props.C44_constructor"
   ],
   "note": "For at least one message (see C53)."
  },
  {
   "property": "C45",
   "status": "proved",
   "theorems": [
    "Zksk.Props.C45_witness",
    "Zksk.Props.C45_independent",
    "Zksk.Props.C45_accepted"
   ],
   "note": "Witness extraction for all precommitments; the alternative is an explicit non-trivial relation between two generators. Also for pairs of accepted runs."
  },
  {
   "property": "C46",
   "status": "proved",
   "theorems": [
    "Zksk.Props.C46_generators",
    "Zksk.Props.C46_prefix",
    "Zksk.Props.C46_overlap",
    "Zksk.Props.C46_bytes"
   ],
   "note": "hash_to_point, SHA-512 and decimal formatting are parameters."
  },
  {
   "property": "C47",
   "status": "proved",
   "theorems": [
    "Zksk.Props.C47_state_independent",
    "Zksk.Props.C47_history_independent"
   ],
   "note": "Any history of proving, verifying and simulating on a statement object leaves the verdict of a later verification the same."
  },
  {
   "property": "C48",
   "status": "partial",
   "theorems": [
    "Zksk.Props.C48_never_accepted",
    "Zksk.Props.C48_none_no_verdict",
    "Zksk.Props.C48_or_never_accepted",
    "Zksk.Props.C54_proofs_accepted"
   ],
   "note": "Refuted as stated: proofs of disjunctions of extended statements with falsy precommitments (and representations), of disjunctions of such clauses to be simulated and a proved composition of representations, and of compositions in which such a part is proved, never get a verdict (C48_never_accepted); in general no proof without precommitment of a statement with an extended part does (C48_none_no_verdict). For truthy precommitments completeness is C54_proofs_accepted. Outside of disjunctions falsy precommitments are fine, see C54 (Profile.outside). Not described in general: disjunctions with simulated composed clauses, whose precommitments count as true (an example beside the theorem shows that they work)."
  },
  {
   "property": "C49",
   "status": "proved",
   "theorems": [
    "Zksk.Props.C49_prove_succeeds"
   ],
   "note": ""
  },
  {
   "property": "C50",
   "status": "proved",
   "theorems": [
    "Zksk.Props.C50_needs_value",
    "Zksk.Props.C50_not_shareable"
   ],
   "note": ""
  },
  {
   "property": "C51",
   "status": "partial",
   "theorems": [
    "Zksk.Props.C51_witness_partial",
    "Zksk.Props.C67_range",
    "Zksk.Props.C67_range_violated",
    "Zksk.Props.C51_interactive_partial",
    "Zksk.Props.C51_outside_partial",
    "Zksk.Props.C51_oracle_partial",
    "Zksk.Props.C51_oracle_outside_partial"
   ],
   "note": "Refuted by C67_range: whoever opens com to any value has an accepted proof. Proved: with exactly n bit commitments, a witness of the statement the verifier makes has x in [a,b) modulo the order. Interactive and with a random hash function: counts of challenges and tables as in C103, C102, for provers who send one commitment per bit and sub-challenges in the honest range."
  },
  {
   "property": "C52",
   "status": "partial",
   "theorems": [
    "Zksk.Props.C52_late_values_fail",
    "Zksk.Props.C39_larger_ranges_partial"
   ],
   "note": "Refuted: prove() always raises when x or r had no value at construction. When they had, C39_larger_ranges_partial applies."
  },
  {
   "property": "C53",
   "status": "proved",
   "theorems": [
    "Zksk.Props.C53_no_messages",
    "Zksk.Props.C53_needs_signature"
   ],
   "note": "prove() always raises for a statement about no messages, and without a signature."
  },
  {
   "property": "C54",
   "status": "proved",
   "theorems": [
    "Zksk.Props.C54_proofs_accepted",
    "Zksk.Props.C54_protocol_accepts"
   ],
   "note": "Generic completeness of extended statements in any composition; the classes are parameters with the stated obligations (Spec.Ready), which are discharged for the provided primitives in C34 and C36."
  },
  {
   "property": "C55",
   "status": "partial",
   "theorems": [
    "Zksk.Props.C55_only_conjunctions",
    "Zksk.Props.C55_type_error",
    "Zksk.Props.C54_protocol_accepts"
   ],
   "note": "Refuted: for every extended statement that does not construct a conjunction the interactive protocol always ends with an exception. The positive part for conjunctions is C54_protocol_accepts."
  },
  {
   "property": "C56",
   "status": "partial",
   "theorems": [
    "Zksk.Props.C56_out_of_range_blocks",
    "Zksk.Props.C66_complete"
   ],
   "note": "Refuted: every statement containing such a clause, at any depth, makes prove() raise. The positive part, when the value is in range or unknown, is an instance of C66_complete."
  },
  {
   "property": "C57",
   "status": "proved",
   "theorems": [
    "Zksk.Props.C57_complete"
   ],
   "note": "prove(), verify() by a verifier without the signature, and the interactive protocol, for every valid signature on at least one message; key in working order, generators and h0 of the order of the groups"
  },
  {
   "property": "C58",
   "status": "proved",
   "theorems": [
    "Zksk.Props.C58_conjunctions",
    "Zksk.Props.C58_primitives"
   ],
   "note": "Special soundness of conjunctions with extended parts, for arbitrary extended statements with a meaning, and for NotEqual and BBS+ in particular (BBS+ with independent generators, cf. C45)."
  },
  {
   "property": "C59",
   "status": "proved",
   "theorems": [
    "Zksk.Props.C59_interactive",
    "Zksk.Props.C59_proofs_coincide",
    "Zksk.Props.C59_same_distribution"
   ],
   "note": "Bijection of random tapes, for a modulus M that is a multiple of all group orders (as for C24)."
  },
  {
   "property": "C60",
   "status": "partial",
   "theorems": [
    "Zksk.Props.C60_range_proof_reveals",
    "Zksk.Props.C60_range_stmt_reveals",
    "Zksk.Props.C60_precommitments_coincide_partial"
   ],
   "note": "The property is false of the code: the value can be computed from every proof made by prove() whose challenge is no multiple of 2^128. What holds: the precommitments of two openings of the commitment coincide under a bijection of the random numbers."
  },
  {
   "property": "C61",
   "status": "proved",
   "theorems": [
    "Zksk.Props.C61_range",
    "Zksk.Props.C61_notequal",
    "Zksk.Props.C61_bbs",
    "Zksk.Props.sameOutputs_counts"
   ],
   "note": "SameOutputs (SpecRun) matches blocks of random numbers; sameOutputs_counts says each result is given equally often. The points are required to be multiples of the generator (cyclic group), as the code assumes."
  },
  {
   "property": "C62",
   "status": "proved",
   "theorems": [
    "Zksk.Props.C62_simulator_public",
    "Zksk.Props.C62_runs_coincide",
    "Zksk.Props.C62_same_distribution",
    "Zksk.Props.C62_notequal",
    "Zksk.Props.C62_bbs"
   ],
   "note": "General theorem for conjunctions of representations and extended parts whose precommitments are imitated, whose constructed statement is built from representations and conjunctions only; instances for DLNotEqual and BBS+. Range proofs contain disjunctions and are excluded (see C60)."
  },
  {
   "property": "C63",
   "status": "proved",
   "theorems": [
    "Zksk.Props.C63_interactive",
    "Zksk.Props.C63_same_distribution",
    "Zksk.Props.C63_bbs_unlinkable"
   ],
   "note": "Same scope as C62: no disjunctions."
  },
  {
   "property": "C64",
   "status": "proved",
   "theorems": [
    "Zksk.Props.C64_criterion",
    "Zksk.Props.C64_other_statement",
    "Zksk.Props.C64_wrong_hash",
    "Zksk.Props.C64_simulate",
    "Zksk.Props.C64_primitives"
   ],
   "note": "C64_criterion, C64_wrong_hash: all statements and transcripts. C64_simulate: compositions with And and Or over leaves that can be simulated; C64_primitives: the primitives of the library."
  },
  {
   "property": "C65",
   "status": "proved",
   "theorems": [
    "Zksk.Props.C65_first_drawn",
    "Zksk.Props.C65_satisfied",
    "Zksk.Props.C65_uniform"
   ],
   "note": "C65_first_drawn for clauses of any kind; C65_satisfied and C65_uniform for clauses composed of representations. SystemRandom.choice is a draw below the length of the list."
  },
  {
   "property": "C66",
   "status": "proved",
   "theorems": [
    "Zksk.Props.C66_complete",
    "Zksk.Props.C66_protocol"
   ],
   "note": "All compositions of the primitives. Secrets are assumed to be told apart by their names where they occur, and names of secrets in disjunctions not to occur elsewhere in a conjunction around them (see C33)."
  },
  {
   "property": "C67",
   "status": "proved",
   "theorems": [
    "Zksk.Props.C67_exact",
    "Zksk.Props.C67_forgery",
    "Zksk.Props.C67_false_accepted",
    "Zksk.Props.C67_power_two",
    "Zksk.Props.C67_range",
    "Zksk.Props.C67_range_violated"
   ],
   "note": "Sharpens the negations of C19, C37 and C51: the exact guarantee of acceptance, and forged range proofs with the right number of bit commitments."
  },
  {
   "property": "C68",
   "status": "proved",
   "theorems": [
    "Zksk.Props.C68_requests_coincide",
    "Zksk.Props.C68_messages_hidden",
    "Zksk.Props.C68_number_shown",
    "Zksk.Props.C68_unblinded"
   ],
   "note": "Bijection between the random numbers of the two requests. Assumes that the generators are multiples of the second one (true in a group of prime order) and that new secrets have different names and no values."
  },
  {
   "property": "C69",
   "status": "proved",
   "theorems": [
    "Zksk.Props.C69_question",
    "Zksk.Props.C69_extraction",
    "Zksk.Props.C69_primitives",
    "Zksk.Props.C69_disjunctions",
    "Zksk.Props.C69_extended",
    "Zksk.Props.C69_false"
   ],
   "note": "The hash function is a parameter; two answers to one question are two hash functions (the forking argument). Assumes that encodings are prefix-free and determine the content, as C12. Disjunctions: for sub-challenges in range, which verify() does not check (C19)."
  },
  {
   "property": "C70",
   "status": "proved",
   "theorems": [
    "Zksk.Props.C70_extraction",
    "Zksk.Props.C70_no_proof"
   ],
   "note": "Extraction from two accepted proofs for the same question to the hash function."
  },
  {
   "property": "C71",
   "status": "proved",
   "theorems": [
    "Zksk.Props.C71_programmed_accepted",
    "Zksk.Props.C71_primitives",
    "Zksk.Props.C71_same_proofs",
    "Zksk.Props.C71_same_distribution",
    "Zksk.Props.C71_same_proofs_plain",
    "Zksk.Props.C71_same_distribution_plain",
    "Zksk.Props.C71_bbs"
   ],
   "note": "Acceptance for every composition of simulatable statements; equality of proofs and of distributions for conjunctions of plain and extended statements. Encodings are assumed readable (prefix-free)."
  },
  {
   "property": "C72",
   "status": "proved",
   "theorems": [
    "Zksk.Props.C72_verify",
    "Zksk.Props.C72_simulation",
    "Zksk.Props.C72_protocol",
    "Zksk.Props.C72_not_equal",
    "Zksk.Props.C72_power_two",
    "Zksk.Props.C72_signature",
    "Zksk.Props.C72_complete",
    "Zksk.Props.C72_complete_protocol",
    "Zksk.Props.C72_larger_ranges",
    "Zksk.Props.C72_renaming"
   ],
   "note": "equality of outcomes including exceptions; completeness carried over from C66 and C39"
  },
  {
   "property": "C73",
   "status": "proved",
   "theorems": [
    "Zksk.Props.C73_plain",
    "Zksk.Props.C73_decides",
    "Zksk.Props.C73_not_equal",
    "Zksk.Props.C73_power_two",
    "Zksk.Props.C73_signature",
    "Zksk.Props.C73_malformed"
   ],
   "note": "For an extended statement from outside the library, construct_stmt() has to succeed and validate() to accept or raise ValidationError (Legible); for those of the library this is proved. A str as precommitment is excluded (hashlib refuses it). Statements are Solid: as many secrets as bases, all bases of the group of the left side."
  },
  {
   "property": "C74",
   "status": "proved",
   "theorems": [
    "Zksk.Props.C74_same_object",
    "Zksk.Props.C74_range",
    "Zksk.Props.C74_range_only"
   ],
   "note": "Assumptions on secrets and names as in C66. A single representation proof, not composed, is C01. Ranges with fewer than three elements: see C39."
  },
  {
   "property": "C75",
   "status": "proved",
   "theorems": [
    "Zksk.Props.C75_given_randomizers",
    "Zksk.Props.C75_reuse_reveals",
    "Zksk.Props.C75_empty",
    "Zksk.Props.C75_or_ignores"
   ],
   "note": "Compositions of representation proofs, as the English says. Hypotheses as in C15, and the dictionary has no secret twice."
  },
  {
   "property": "C76",
   "status": "proved",
   "theorems": [
    "Zksk.Props.C76_given_responses"
   ],
   "note": "Compositions of representation proofs, as the English says."
  },
  {
   "property": "C77",
   "status": "proved",
   "theorems": [
    "Zksk.Props.C77_runs",
    "Zksk.Props.C77_proofs",
    "Zksk.Props.C77_same_distribution",
    "Zksk.Props.C77_true_clauses"
   ],
   "note": "Peers (SpecWitness) says that both can prove the same clauses; SameResults matches blocks of random numbers one to one. Random numbers are uniform below any common multiple M of the group orders. The dictionaries give each secret one value; the composition rules (Composable) hold for both. Extended statements are in C63 (without Or)."
  },
  {
   "property": "C78",
   "status": "proved",
   "theorems": [
    "Zksk.Props.C78_compose",
    "Zksk.Props.C78_calls_keep_statements",
    "Zksk.Props.C78_prove_succeeds"
   ],
   "note": "Compositions of representations; calls that return and calls that raise."
  },
  {
   "property": "C79",
   "status": "partial",
   "theorems": [
    "Zksk.Props.C79_violated",
    "Zksk.Props.C79_isolated_partial",
    "Zksk.Props.C79_or_free_partial",
    "Zksk.Props.C79_fresh_partial"
   ],
   "note": "False of the code (C79_violated). Holds for objects without common parts and for statements without disjunctions."
  },
  {
   "property": "C80",
   "status": "partial",
   "theorems": [
    "Zksk.Props.C80_violated",
    "Zksk.Props.C80_isolated_partial",
    "Zksk.Props.C80_accepted_partial",
    "Zksk.Props.C80_same_dictionary_partial"
   ],
   "note": "False of the code (C80_violated). Holds, and the responses are accepted, if no other dictionary of values is written into those of the prover."
  },
  {
   "property": "C81",
   "status": "partial",
   "theorems": [
    "Zksk.Props.C81_violated",
    "Zksk.Props.C81_or_is_dead",
    "Zksk.Props.C81_or_free_partial",
    "Zksk.Props.C81_same_results"
   ],
   "note": "False of the code for disjunctions of representations (C81_violated, C81_or_is_dead for all of them). Holds for statements without disjunctions."
  },
  {
   "property": "C82",
   "status": "proved",
   "theorems": [
    "Zksk.Props.C82_point_operations",
    "Zksk.Props.C82_group_operations",
    "Zksk.Props.C82_pairing",
    "Zksk.Props.C82_abstract_model"
   ],
   "note": "points, groups with caches, pairing; C82_abstract_model links the classes to Pt, Grp and Pairing used by the rest of the model"
  },
  {
   "property": "C83",
   "status": "partial",
   "theorems": [
    "Zksk.Props.C83_partial",
    "Zksk.Props.C83_violated"
   ],
   "note": "false of the code; C83_violated: every method of a pair made of a given group raises AttributeError; C83_partial: without argument BpGroup() is used"
  },
  {
   "property": "C84",
   "status": "partial",
   "theorems": [
    "Zksk.Props.C84_simulation_refused",
    "Zksk.Props.C84_or_refused",
    "Zksk.Props.C84_clause_revealed",
    "Zksk.Props.C84_complete_partial",
    "Zksk.Props.C84_protocol_partial"
   ],
   "note": "Refuted as stated: simulation of compositions with such parts always raises. Holds outside of disjunctions: C84_complete_partial, C84_protocol_partial."
  },
  {
   "property": "C85",
   "status": "proved",
   "theorems": [
    "Zksk.Props.C85_complete",
    "Zksk.Props.C85_protocol",
    "Zksk.Props.C85_extraction",
    "Zksk.Props.C85_conjunctions"
   ],
   "note": "Extraction is from two accepting answers to one commitment (special soundness)."
  },
  {
   "property": "C86",
   "status": "proved",
   "theorems": [
    "Zksk.Props.C86_same",
    "Zksk.Props.C86_complete",
    "Zksk.Props.C86_sound"
   ],
   "note": "Completeness and soundness are those of C34 and C35."
  },
  {
   "property": "C87",
   "status": "proved",
   "theorems": [
    "Zksk.Props.C87_accepted_iff",
    "Zksk.Props.C87_conjunction_rejected",
    "Zksk.Props.C87_nizk",
    "Zksk.Props.C87_conjunction_nizk"
   ],
   "note": "Hypotheses: one value per secret in the representations really proved, each of these in one group whose order annihilates the bases; for the rejection also prime orders."
  },
  {
   "property": "C88",
   "status": "partial",
   "theorems": [
    "Zksk.Props.C88_verifier_partial",
    "Zksk.Props.C88_prover_partial",
    "Zksk.Props.C88_nizk",
    "Zksk.Props.C88_get_prover",
    "Zksk.Props.C88_no_verdict",
    "Zksk.Props.C88_false",
    "Zksk.Props.C88_prover_false"
   ],
   "note": "False of the code for interleaved calls: C88_false is an attack on every DLNotEqual statement used by two verifiers at the same time, C88_prover_false the mismatch for a prover when any other call stores a precommitment. The partial theorems hold for all calls in between that store no precommitment; prove() and verify() are not affected (C88_nizk). Statement objects inside compositions are not covered."
  },
  {
   "property": "C89",
   "status": "partial",
   "theorems": [
    "Zksk.Props.C89_expression",
    "Zksk.Props.C89_separate_partial",
    "Zksk.Props.C89_interactive_partial",
    "Zksk.Props.C89_last",
    "Zksk.Props.C89_or_false",
    "Zksk.Props.C89_and_false"
   ],
   "note": "False of the code when a composition with an extended part is used twice: C89_or_false and C89_and_false say exactly when conversations that are right for separate objects are accepted, C89_last which verdict the verifier reaches instead. C89_expression and the partial theorems hold for every composition without an extended object at two places. Only the verifier is modelled with shared objects; the separate objects use the same Secret objects, as copies do."
  },
  {
   "property": "C90",
   "status": "partial",
   "theorems": [
    "Zksk.Props.C90_representations_partial",
    "Zksk.Props.C90_disjunction_refused",
    "Zksk.Props.C90_disjunction_error",
    "Zksk.Props.C90_disjunction_with_primitives",
    "Zksk.Props.C90_disjunction_interactive",
    "Zksk.Props.C90_inequality_refused",
    "Zksk.Props.C90_signature_refused"
   ],
   "note": "Holds for conjunctions of representations. False for all other compositions of representations: the prover never returns a proof of p & p (C90_disjunction_refused), and raises InvalidSecretsError when the values are right (C90_disjunction_error); no proof is returned either if p has primitives and a disjunction, reached through conjunctions, with a secret (C90_disjunction_with_primitives), and the interactive prover never commits (C90_disjunction_interactive). False for DLNotEqual and BBS+ statements: every proof of p & p that the honest prover returns is refused when the two blinders differ and challenge (and the secret of DLNotEqual) are nonzero modulo the prime group order; examples show that the prover does return a proof. Range proofs used twice are not described."
  },
  {
   "property": "C91",
   "status": "partial",
   "theorems": [
    "Zksk.Props.C91_representations_partial",
    "Zksk.Props.C91_never_verified",
    "Zksk.Props.C91_no_conversation",
    "Zksk.Props.C91_no_simulation"
   ],
   "note": "The property is false of the code: C91_never_verified, C91_no_conversation and C91_no_simulation prove the negation for all primitives that construct a composition with an extended part. C91_representations_partial is the part that holds: for primitives constructing compositions of representations the code with its loop over sub-provers equals the model used elsewhere."
  },
  {
   "property": "C92",
   "status": "partial",
   "theorems": [
    "Zksk.Props.C92_composed_clause_shown",
    "Zksk.Props.C92_index_computed",
    "Zksk.Props.C92_representations_silent_partial"
   ],
   "note": "The property is false of the code for composed clauses: C92_composed_clause_shown and C92_index_computed show for every honest proof that the entry of a composed clause is None exactly if the clause was proved. C92_representations_silent_partial is what holds. Missing: nothing that is true; nested disjunctions with composed clauses are not described."
  },
  {
   "property": "C93",
   "status": "proved",
   "theorems": [
    "Zksk.Props.C93_without_values",
    "Zksk.Props.C93_same_distribution"
   ],
   "note": "pretendedRun and Informed are in SpecPretend. Interactive runs with a challenge fixed in advance (honest-verifier); random numbers are uniform below any common multiple M of the group orders. Statements with extended parts are in C96 (and C62, C63 without Or)."
  },
  {
   "property": "C94",
   "status": "proved",
   "theorems": [
    "Zksk.Props.C94_same_proofs",
    "Zksk.Props.C94_same_distribution"
   ],
   "note": "Compositions of representations. The first theorem assumes encodings that can be read back (Readable); the second none."
  },
  {
   "property": "C95",
   "status": "partial",
   "theorems": [
    "Zksk.Props.C95_expression",
    "Zksk.Props.C95_expression_meets",
    "Zksk.Props.C95_prove_partial",
    "Zksk.Props.C95_converse_partial",
    "Zksk.Props.C95_simulate_partial",
    "Zksk.Props.C95_others_untouched",
    "Zksk.Props.C95_violated"
   ],
   "note": "False of the code when a composition with an extended part is used twice (C95_violated, an honest proof for each choice of the clause). C95_expression and the partial theorems hold for every composition whose leaves are different objects, which every expression builds that uses each composition where it is made. Compositions that share representations but no extended statement are treated in C78."
  },
  {
   "property": "C96",
   "status": "proved",
   "theorems": [
    "Zksk.Props.C96_without_values",
    "Zksk.Props.C96_same_distribution",
    "Zksk.Props.C96_same_proofs",
    "Zksk.Props.C96_proofs_distribution",
    "Zksk.Props.C96_library",
    "Zksk.Props.C96_library_proofs"
   ],
   "note": "General theorems for compositions of representations and extended parts whose precommitments can be imitated (Ready, LeafHides, LeafBlind); instances for all statements of the library (LibLeaf, LibHides). Challenge known in advance for interactive runs (honest verifier), one programmed answer of the hash function for proofs; C96_proofs_distribution needs no programming. Range proofs only in simulated clauses (their own disjunctions are C60). The outsider is told which clauses are marked."
  },
  {
   "property": "C97",
   "status": "proved",
   "theorems": [
    "Zksk.Props.C97_interactive",
    "Zksk.Props.C97_same_distribution",
    "Zksk.Props.C97_library"
   ],
   "note": "SamePlan (SpecPretendStmt) is: same public part and the same marks. General theorems for extended parts whose precommitments can be imitated (Guarded), instance for all statements of the library (LibProver). Range proofs in simulated clauses only. Provers that differ in which clauses are marked can be told apart (C25)."
  },
  {
   "property": "C98",
   "status": "proved",
   "theorems": [
    "Zksk.Props.C98_commitments",
    "Zksk.Props.C98_commitments_stmt",
    "Zksk.Props.C98_questions",
    "Zksk.Props.C98_questions_stmt",
    "Zksk.Props.C98_notEqual",
    "Zksk.Props.C98_range",
    "Zksk.Props.C98_signature"
   ],
   "note": "Counting over blocks of n numbers below M, n large enough and M a multiple of the group orders; C98_notEqual, C98_range, C98_signature show that the primitives of the library are such leaves."
  },
  {
   "property": "C99",
   "status": "proved",
   "theorems": [
    "Zksk.Props.C99_equal",
    "Zksk.Props.C99_notEqual",
    "Zksk.Props.C99_range",
    "Zksk.Props.C99_rangeStmt",
    "Zksk.Props.C99_signature",
    "Zksk.Props.C99_equal_conjunct",
    "Zksk.Props.C99_range_conjunct"
   ],
   "note": "Single primitives, the composed RangeStmt, and (equal logarithms, PowerTwoRangeStmt) conjunctions with representations and other primitives. The exceptional cases of DLNotEqual with a wrong lhs0 and of signatures are stated for single primitives; for compositions of representations see C87. The value of x in RangeStmt is the one at construction, since the shifted secrets are computed there."
  }
 ]
}