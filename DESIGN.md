# Design

Formal model of `spring-epfl/zksk` (sources read in `/repo`, not executed) in Lean 4.

## Model at a glance

* `Verif/Model/*` models the Python code function by function. Every definition cites file and lines.
* Group elements live in an arbitrary additive commutative group `E`; a point carries its group object (id, order, whether `wsum` checks lengths). Integers are unbounded (`Bn`).
* Exceptions are values (`Except Err`). Randomness is an infinite stream of draws; theorems hold for every stream.
* Transcripts are dynamically typed values `Val` (ints, points, lists, tuples, dicts, bytes, None), so adversarial shapes are covered.
* `Secret` objects have identity; name and mutable value live in a `Store`; dictionaries keyed by secrets use (name, current value) equality as `Secret.__eq__` does.
* Statements are trees (`Tree L`) of And/Or over leaves `L`; leaves are DLRep or extended statements (which construct an inner tree from a precommitment).
* Hash, encoding and pairing are parameters; what is assumed about them is an explicit hypothesis of the theorem that needs it.
* `Verif/Spec*.lean` is the independent specification used in the theorem statements (see "Specification files"), `Verif/Props/*` the property theorems, `Verif/Lemmas/*` helper lemmas.

## Which code is modelled where

| code | model |
|---|---|
| `petlib`/`bplib` points, groups, `wsum`; `zksk/exceptions.py`; `Secret`, dictionaries keyed by secrets; randomness (`zksk/utils/misc.py`) | `Model/Basic` |
| `zksk/utils/groups.py` (`sum_bn_array`), `_find_residual_challenge`, `_assign_secret_ids`, `decompose_into_n_bits` | `Model/Util` |
| `zksk/composition.py`: `AndProofStmt`, `OrProofStmt` (constructors, operators, composition checks, recomputation, consistency, simulation, identifiers) | `Model/Tree` |
| `zksk/primitives/dlrep.py` (statement) | `Model/DLRep` |
| `zksk/extended.py` (`ExtendedProofStmt`, `ExtendedVerifier`), generic in `construct_stmt`, `validate`, `precommit`, `simulate_precommit` | `Model/Ext` |
| `zksk/base.py` (`NIZK`, `SimulationTranscript`), `ComposableProofStmt.verify`, `simulate`, `verify_simulation_consistency`, Fiat-Shamir | `Model/Nizk` |
| provers: `AndProver`, `OrProver`, `DLRepProver`, `ExtendedProver`, `prove()`, `get_nizk_proof` | `Model/Prover` |
| the interactive protocol: `SigmaProtocol`, `commit`, `send_challenge` | `Model/Interactive` |
| `zksk/expr.py` (`Expression` objects with mutation, `wsum_secrets`), `make_generators`, `get_random_point` | `Model/Expr` |
| `zksk/primitives/dl_notequal.py` | `Model/NotEqual` |
| `zksk/primitives/rangeproof.py` (`PowerTwoRangeStmt`, `RangeStmt`, `RangeOnlyStmt`) | `Model/Range` |
| `zksk/pairings.py` (groups and `pair`), `zksk/primitives/bbsplus.py` | `Model/BBS` |
| the wrapper classes of `zksk/pairings.py:13-287` with the points cached by the groups | `Model/Pairings` |
| provers and verifiers of one extended statement object (`zksk/extended.py:99-115,160-245`, `zksk/base.py:122-133,190-231`) | `Model/Shared` |
| copies of statements in a composition and extended statement objects at several places of it, verifier side (`zksk/composition.py:410-417,673-702,720-723,920-947`, `zksk/extended.py:137-140,219-245`) | `Model/Alias` |
| the same for the prover: `get_prover`, `setup_simulations`, `precommit`, `prepare_simulate_proof` on leaf statement objects with identity (`zksk/composition.py:441-483,519-521,577-603,738-754,778-780,847-865`, `zksk/extended.py:99-115,142-144,194-211`) | `Model/AliasProver` |
| extended statements that construct extended statements (`zksk/extended.py:34-245`) | `Model/Nested` |
| methods inherited from `ExtendedProofStmt` (`zksk/extended.py:48-80`), `examples/primitive_knowledge_elgamal.py:18-53`, `examples/primitive_dl_notequal.py:14-47` | `Model/Tutorial` |
| `examples/andproof.py`, `examples/orproof.py`, `examples/simple_dlrep.py`, `examples/two_level_proof.py`, `examples/expressions.py` (whole scripts; group, points, addresses and names of secrets are parameters) | `Model/Scripts` |
| `NIZK.serialize`, `NIZK.deserialize`, coders of pairing points (`zksk/pairings.py:289-313`); byte formats are parameters | `Model/Codec` |
| statement and prover objects with identity, for compositions of representations: shallow copies in the constructors, marks, dictionaries of values referred to by provers (`zksk/composition.py:115-149,410-417,709-723`, `zksk/primitives/dlrep.py:84-139`) | `Model/Objects` |
| what calls on such objects leave behind when they raise (`zksk/primitives/dlrep.py:121-133`, `zksk/composition.py:191-198,441-483,738-754`) | `Model/ObjectsFail` |

## Specification files

| file | vocabulary |
|---|---|
| `Spec` | bit sums, equality patterns, distinct entries, skeletons of statements |
| `SpecStmt` | secrets and terms of a statement, well-formedness, acceptance equations (`Eqns`), agreeing responses, truth (`Holds`), composition rules, identifiers, how a verifier's secrets relate to the prover's, what a precommitment makes of a statement (`Digested`) |
| `SpecProver` | values a prover works with, satisfied statements, clauses a prover may choose |
| `SpecSound` | groups killed by an exponent, admissible sub-challenges, the forgers' responses |
| `SpecRun` | honest and simulated runs as functions of the random tape |
| `SpecExpr`, `SpecCalls`, `SpecBBS` | formulas and reachable expression heaps; histories of calls; the BBS+ equation, keys, histories of commitments |
| `SpecWitness` | two people in the same position (`Peers`), equality of distributions for programs that read a varying amount of random numbers |
| `SpecExt` | which secrets the leaves of a statement read, write and mention (`Profile`); runs of extended statements that are ready (`Ready`) |
| `SpecCodec` | laws of the external coders (`Faithful`), portable values, content of a value |
| `SpecTruth` | truth of statements with extended parts (`Truth`), conjunctions (`NoOr`), responses to secrets |
| `SpecObjects` | parts of statement objects (`Reaches`, `NoCommonPart`), calls on objects (`Calls`), failed attempts (`FailedAttempts`), dictionaries a prover refers to |
| `SpecPairings` | elements of `bplib` written additively, assumptions on `bplib` (`Works`), programs using pairs (`Made`), points in the terms of the rest of the model |
| `SpecTutorial` | classes that only override `construct_stmt` (`OnlyConstructs`, `UsesPlain`), ElGamal ciphertexts (`Encrypts`) |
| `SpecShared` | the calls that store a precommitment in a shared statement object (`Replaces`), calls on one prover or verifier, a statement object of one's own (`own`), what a caller sees (`seen`) |
| `SpecAlias` | a composition with a separate object at every place (`separate`), compositions with no extended object at two places (`Unshared`), expressions that build statements (`Build`), one conjunction repeated (`repeated`), the two verdicts (`sharedVerdict`, `separateVerdict`); the objects at the leaves (`objects`, `identities`, `Hold`) |
| `SpecApart` | disjunctions below conjunctions and the parts beside them (`OrPart`), secrets of statements with extended parts (`SpeaksOf`), objects that remember only what they construct (`OwnLeaf`), orders of the groups a secret is used with (`UsesOrder`) |
| `SpecMalleable` | a transcript whose responses and sub-challenges are raised by multiples of the orders and of 2^128 (`Raised`) |
| `SpecWrong` | the challenges that the parts of a prover answer (`queried`), what values miss (`miss`), the representations of a statement (`reps`) |
| `SpecLeak` | signs of the sub-challenges at every disjunction (`Signed`), reading a number off the responses of a range proof (`readValue`) |
| `SpecHide` | statements whose leaves can be imitated (`LeafHides`), honest and simulated runs of them, `pruned` precommitments |
| `SpecPretend` | an outsider who knows which values there are but not the values (`Informed`), runs and proofs made by them (`pretendedRun`, `pretendedProof`) |
| `SpecPretendStmt` | the same with extended parts: an outsider's objects (`Outsider`), precommitments that do not depend on the heap when simulated (`LeafBlind`), two provers with the same marked clauses (`SamePlan`), runs and proofs made without `precommit()` (`pretendedRunStmt`, `pretendedProofStmt`) |
| `SpecQuery` | what the verifier asks the hash function (`asked`), hash functions with one answer chosen (`answering`), encodings that can be read back (`Readable`), programmed proofs |
| `SpecOwn` | statements that are the same up to which `Secret` objects are used (`Alike`, `LeafOwn`) |
| `SpecForm` | proofs whose parts have the number and types that the statement calls for (`Formed`, `Legible`) |
| `SpecNested` | parts of compositions, extended statements that construct extended statements (`Nests`) |
| `SpecFalsy` | precommitments that count as false in Python, statements whose disjunctions drop them (`Stranded`) |
| `SpecChance` | random numbers of the prover: representations with a secret of its own (`Fresh`) in whatever is proved (`Always`), private methods that draw numbers in turn (`InTurn`, `ExtFits`) |
| `SpecOracle` | hash functions with a table of random answers (`oracle`), somebody who asks before and after a proof is shown (`Observer`), the number of cases in which they say yes (`yesToProofs`, `yesToPretended`), somebody who asks and then makes a proof (`Attacker`), the number of tables with which it is accepted (`accepted`) |
| `SpecInterview` | the verifier of the interactive protocol talking with somebody arbitrary (`interview`), the number of random numbers for which they accept (`convinced`) |
| `SpecPublic` | the public part of a statement: no values, no signature, no traces of earlier runs (`publicPart`) |

## Plan per property

| id | property | how |
|---|---|---|
| C01 | Bit decomposition is exact | `decomposeIntoNBits` on all integers; spec = weighted sum; induction / `Nat.testBit` lemmas. |
| C02 | Residual sub-challenge closes the sum | `sumBnArray`, `findResidualChallenge` over integer lists; induction on the list. |
| C03 | Secret identifiers are canonical | `assignSecretIds` over lists of names, loop invariant; and the identifiers in `proofId` of any statement (`C03_statement_ids`). |
| C04 | Expression evaluation | `Expr.eval` over the heap of secret values; spec = list sum in the module; induction. |
| C05 | wsum_secrets pairs secrets and bases in order | `wsumSecrets` over the expression heap; induction on the loop. |
| C06 | Adding expressions must not change the operands | heap of expression objects with the in-place `add`; negation with a witness plus the exact effect of `add`; partial: operands unchanged when the left operand is never used again. |
| C07 | Conjunction/disjunction operators flatten | `opAnd`/`opOr` on trees; case analysis. |
| C08 | Names of secrets do not matter | `Tree.proofId` under renaming of stores; structural induction. For compositions of the library's extended statements `C72_renaming`. |
| C09 | The statement identifier determines the statement | injectivity of `proofId`: equal ids imply equal `recompute` functions and same sharing pattern; structural induction on both trees. |
| C10 | A proof for another statement is never accepted | `verifyNizk` model; inversion. |
| C11 | Acceptance criterion of NIZK verification | `verifyNizk = ok true` iff the listed conditions; inversion of the do-block. |
| C12 | Message binding | byte-level challenge input with a prefix-free codec parameter; injectivity. |
| C13 | Completeness of DLRep (non-interactive) | DLRep instance of the prover model; group algebra. |
| C14 | Completeness of composed statements (non-interactive) | prover trees of any shape; invariant `Honest` + structural induction; all random streams. |
| C15 | Completeness of the interactive protocol | as C14 with the challenge universally quantified. |
| C16 | Wrong secrets are rejected | DLRep equation algebra with prime order. |
| C17 | Special soundness of DLRep | extractor over integers modulo the exponent of the group; Bezout. |
| C18 | Special soundness of And with shared secrets | tree induction with the response dictionary as accumulator. |
| C19 | Soundness of Or | negations: two explicit forgers (extra sub-challenge, sub-challenge shifted by a multiple of the order) accepted for every or-statement over DLReps; partial: extraction for all trees when sub-challenge lists have the right length and range. |
| C20 | Or sub-challenges must add up | inversion of `recompute`. |
| C21 | Inconsistent responses for one secret are rejected | accumulator invariant of the consistency check. |
| C22 | Simulated transcripts satisfy the verification equations | structural induction over simulation; all random streams. |
| C23 | Simulated transcripts are not proofs | inversion of `verifyNizk` on a simulated transcript. |
| C24 | Perfect honest-verifier zero-knowledge without Or | explicit bijection on randomizer assignments, transcript equality by induction over Or-free trees. |
| C25 | Or-proofs hide which clause is true | negation: sign of the sub-challenges, for every run of the or-prover; what is hidden is in C24 (or-free) and C93 (everything but which clauses can be proved). |
| C26 | Verification depends on responses modulo the order only (malleability) | algebra: shifting a response by a multiple of the order. |
| C27 | Secrets inside and outside an or-clause are refused | `reoccur` over trees vs. counting spec. With primitives (`C27_with_primitives`): what `prove()` has checked is the statement after `precommit()`; `OwnLeaf` is kept by all methods (`ReuseLaws`), so what is constructed then has the secrets of the primitive. The error is not named there, as earlier steps may fail for other reasons. Interactive: `C27_interactive`, `C28_interactive`, `C28_interactive_error`. |
| C28 | Shared secrets need groups of equal order | `validateGroupOrders` vs. pairwise spec. With primitives (`C28_with_primitives`): as for C27; what is checked is the statement after `precommit()` with the constructed parts in place of the primitives (`Tree.core`). |
| C29 | The verifier re-checks composition rules | negation with a concrete statement and accepted proof; partial: the prover does refuse. |
| C30 | An or-prover proves only an unmarked clause | inversion of the choice loop in `getProver`. |
| C31 | Or picks a clause for which all secrets are known | negation with concrete or-statement; partial for or-statements over DLRep clauses. |
| C32 | Proving twice | negation: over all histories, a disjunction of bare representations can be proved at most as often as it has unmarked clauses (`C32_or_used_up`); partial: statements without disjunctions (`C32_conjunctions_partial`), and compositions of library statements in which every disjunction has an unmarked clause that is not a bare representation (`C32_reuse_partial`), can be proved and verified any number of times. Invariant over histories: leaves change only as in `LeafKept` (Lemmas/Reuse carries a relation on leaves through all methods), secrets of the caller keep their values. |
| C33 | Serialization round trip | codec with tuple/list normalisation; verification invariant under normalisation. |
| C34 | Completeness of DLNotEqual | DLNotEqual as an extended leaf; algebra in prime order. |
| C35 | Soundness of DLNotEqual | algebra in prime order. |
| C36 | Completeness of the power-of-two range proof | PowerTwoRange as an extended leaf; bit sums. |
| C37 | Soundness of the power-of-two range proof | negation: forger with one extra bit commitment; partial with exactly n commitments. |
| C38 | Arithmetic of the generic range reduction | integer arithmetic. |
| C39 | RangeStmt works for every non-empty range | negation: `construct` raises ValueError for n < 2; partial for b - a >= 3. |
| C40 | An out-of-range value cannot be honestly proved | inversion of precommit. |
| C41 | BBS+ signatures verify | bilinear map parameter; algebra. |
| C42 | BBS+ signatures bind all messages | negation with truncating wsum; partial: equality of products otherwise. |
| C43 | Signature creator reuse | state machine of the creator; negation and partial. |
| C44 | Completeness of the BBS+ signature proof | algebra with bilinear map. |
| C45 | Soundness of the BBS+ signature proof | algebra with bilinear map and independence hypothesis. |
| C46 | make_generators is deterministic and prefix-stable | list lemmas. |
| C47 | Verification does not depend on earlier verifications | erasing stale extended state; structural induction. |
| C48 | Or over extended statements with empty precommitments | negation for every such or-statement and every composition in which such a part is proved (`Stranded`, SpecFalsy): `Digested` cannot hold of what the honest prover says. |
| C49 | Proving succeeds | progress lemmas for every part of the prover, tree induction. |
| C50 | RangeOnlyStmt | inversion: needs the value, so no verifier can build it; its commitment cannot be shared. |
| C51 | Soundness of RangeStmt | composition of C37 and C38, partial like C37; `C51_interactive_partial`, `C51_outside_partial` combine it with extraction (C19) to a count of challenges as in C103, `C51_oracle_partial`, `C51_oracle_outside_partial` to a count of tables as in C102, with examples over a concrete prime of 131 bits (Lemmas/BigPrime.lean). |
| C52 | Late values for range proofs | negation: `prove()` with values in the dictionary fails. |
| C53 | When a BBS+ proof cannot be made | inversion of `precommit`. |
| C54 | Completeness of statements with extended parts | generic over leaves that are ready; tree induction over prover runs. Classes marked `outside` (no simulation, or a falsy precommitment) are allowed except under disjunctions; disjunctions are delegated to the strict lemmas (`Lemmas/Loose`). |
| C55 | Interactive runs of extended statements | negation: only extended statements that construct a conjunction can be run interactively. |
| C56 | Range clauses out of range block proofs | frame lemmas: every prover precommits in every clause. |
| C57 | Completeness of BBS+ proofs | instance of C54. |
| C58 | Soundness of conjunctions with primitives | `Truth` (SpecTruth) through `Digested`, then C18; meaning of the primitives from C35, C45. |
| C59 | Witness indistinguishability | two runs through the simulator of C24; `prove()` as a run whose challenge is the hash; injective, hence bijective, translation of tapes. |
| C60 | Range proofs hide the value | negation: invariant of provers marking the proved clause of each disjunction, at any depth; reading the bits off the signs. Partial: bijection of the blinding factors of the bit commitments. |
| C61 | Simulated precommitments distributed as real ones | explicit form of both as functions of the random stream; an injective, hence bijective, affine map of the blocks of random numbers modulo the group order. |
| C62 | Zero-knowledge with primitives | extended parts replaced by what they construct (`Inline`), then C24 and C61; the simulator reads the public part only. |
| C63 | Unlinkability of BBS+ proofs | two provers through the simulator of C62; counts of random tapes for each proof. |
| C64 | Simulation and its check | `verifySimulationConsistency` characterised by the relations of C13 on digested statements; induction over the composition with `CanSimulate` at the leaves. |
| C65 | Draw of the or-clause | candidates are the sorted list of unmarked positions; `choice` takes `rng 0 mod k`; counting by division with remainder. |
| C66 | Completeness for the whole library | one profile for all primitives (secrets of what `construct` builds, private ones written); each primitive can be simulated and proved; then C54. |
| C67 | What acceptance shows about disjunctions | explicit responses with one surplus sub-challenge; extraction for the part outside disjunctions; both directions for two accepted answers; power-two and general range statements as instances. |
| C68 | Requests for blind signatures | translation of the blinding number that makes the commitments equal, followed for each blinding by the bijection of C59; the two are joined by a shear. |
| C69 | Non-interactive soundness | `asked` is the string hashed by the verifier; two accepted proofs with the same string have the same recomputed commitment (C12 and injectivity of contents for a fixed statement), so C18, C58 and the extraction outside disjunctions apply. |
| C70 | Soundness of blind issuance | C69 for the statement built by `verify_blinding`; then the equation of signatures as in C41. |
| C71 | Non-interactive zero-knowledge | `programmed` is `simulate()` for the challenge that a chosen answer stands for, with the question that has to be answered so; acceptance from C64, equality with the proofs of `prove()` from C24 and C62 with the challenge quantified after the number of draws. Disjunctions are only covered by acceptance: their simulated transcripts differ from the prover's (the last clause gets the residual challenge). |
| C72 | Secret objects of the verifier's own | `Alike (LeafOwn ρ f σ)` (SpecOwn) relates statements with secrets `ρ x` for `x`, named `f` of the other name for an injective `f`; every step of `verify()` commutes with the replacement, exceptions included (Lemmas/Own). `C72_complete` carries C66 over to verifiers with objects of their own, `C72_larger_ranges` C39. Extended statements from outside the library have to construct related statements (`LeafOwn`). |
| C73 | Proofs of the right form do not crash the verifier | `Formed`, `Legible` (SpecForm) say which form responses and precommitments have, by indexing only; induction over both: digesting the precommitment, the comparison of responses and the recomputation of the commitment are total, up to the library's own refusals (Lemmas/Form). `C73_not_equal`, `C73_power_two`, `C73_signature` give the form explicitly; `C73_malformed` shows that it is needed. |
| C74 | Statement objects verify their own proofs | The statement after `prove()` differs from the one before only in what `Tree.blank` removes, so it is a verifier's object (`VerifierFor`) in the sense of C66; what an extended statement of the library constructs depends only on secrets of the caller, which `prove()` does not change (`lib_self`). `C74_range`, `C74_range_only` use the run of C39 (`range_ready`). |
| C75 | Randomizers of the caller | `PTree.commitGiven` is `Prover.commit(randomizers_dict)`. `C75_given_randomizers`, for compositions of representations only; `C75_reuse_reveals` (two runs), `C75_empty`, `C75_or_ignores`. Extended statements pass the dictionary on to what they construct (`ExtProver.internalCommit`), this is modelled but not covered by C75. |
| C76 | Responses of the caller | `C76_given_responses`, for compositions of representations only. The docstring of `DLRep.simulate_proof` says that incomplete dictionaries make it misbehave; this is not so, `update_randomizers` fills them. |
| C77 | Witness indistinguishability with Or | `Twin` (Lemmas/Twin): an inductive relation between two programs that read random numbers, at each draw either the same number or numbers that differ by a translation; such programs have matching blocks. Provers of two people are related by `Mates`, their `get_prover` by `Peers`. The matchings for all challenges are put together into one for the Fiat-Shamir challenge (`mix`). |
| C78 | Sharing of parts | `Objects` is a heap of objects, dictionaries and lists; `Objects.tree` reads an object off as a statement. Constructors: readings of appended heaps. Calls: `Grown` says what may change (marks, contents of dictionaries). Proofs: induction over `get_prover` on the heap with the invariant `Fit`, that a prover stays good in all later heaps in which only representations with secrets of other parts were marked (`OrsPrivate` keeps disjunctions apart), `Lemmas/ObjectsRun`. |
| C79 | Interference of compositions | negation with a concrete heap made by the constructors; partial: `Calls` on objects with `NoCommonPart`, statements without disjunctions, new compositions of representations. |
| C80 | Provers keep their values | negation with a concrete heap; partial: responses depend on the lookups in `dictsOf` the prover (`see_same`), which calls leave alone (`Writes`). |
| C81 | Failed attempts | `KM` is a state monad whose state survives exceptions; `forget` of the functions in it gives those of `Model/Objects` (`C81_same_results`). Partial: failed attempts are `Calls` and change only values of secrets in the dictionaries given. Negation: a loop of `get_prover` without result has marked every clause (`declined_used`). |
| C82 | Pairing wrappers | invariant over all sequences of calls: what groups cache is right (`Good`); values of points in `A × B × Additive T`; refinement to `Pt`, `Grp.wsum`, `Pairing.pair` (`C82_abstract_model`). |
| C83 | Pairs of given groups | negation: the attribute `bpgp` is never set, for all programs; partial: without argument. |
| C84 | Classes that only construct | negation: `prepare_simulate_proof` of a statement with such a part never returns (induction over statements), hence `get_prover` of a disjunction chooses the clause with such a part; partial: C54 with these statements outside of disjunctions. |
| C85 | ElGamal proof of the tutorial | completeness: C84 and C72; extraction: C18 on the constructed conjunction, C58 for conjunctions. |
| C86 | Tutorial inequality | equality of the objects with those of `Model/NotEqual`; C34, C35. |
| C87 | Wrong values in compositions | the run is also a run of the prover of the statement with the left-hand sides that the values give (`fixP`); commitment law for that one; induction over the prover for the difference. |
| C88 | Interleaved conversations | state machine with one statement object and lists of provers and verifiers; frame lemmas for every call, induction over the calls in between; for the attack the commitment to nothing (`blindCom`) and the precommitment `c⁻¹·h`. |
| C89 | Statements at several places | leaves carry object identities, copying renews the identity of a leaf only; processing writes per place, then every place sees the last write to its object (`settle`); without sharing `settle` is the identity; the recomputed commitments of shared places shift by `c·(v − w)`. |
| C90 | A statement used twice in a conjunction | the honest run of `p & p` is inverted step by step: the first representation of each copy keeps the value its first secret had when the copy was made, both copies get one randomizer, so the first responses are `a1 c + k` and `a2 c + k`; the consistency check (C21) refuses them; representations: C49; disjunctions: the check of the composition (C27) sees the secrets of a disjunction in the other copy |
| C91 | Primitives made of primitives | `Model/Nested`: extended statements over arbitrary leaves. Negation: the inner `ExtendedVerifier` never receives a precommitment, so `check_responses_consistency` cannot return `True` at any place above it (induction over the composition). Partial: replacing leaves by leaves that behave the same commutes with all of proving, simulating and verifying (`Lemmas/Relabel`); the provers that `get_prover` makes of compositions of representations are not changed by `precommit` (`Whole`). |
| C92 | Precommitment of or-proofs | negation: exact description of the entries of the precommitment of every honest or-proof for composed clauses, tied to the sign of the sub-challenges (C25), any other clauses. Partial: no precommitment for disjunctions of bare representations and conjunctions of these. |
| C93 | Zero knowledge up to the provable clauses | `pretendedRun` (SpecPretend) is the run of an outsider with made-up numbers, put together from the code's `get_prover` and `simulate_proof`; `Twin` of the honest run with it, translating each randomizer of a proved representation by secret times (residual) challenge. `Informed` is `Peers` without truth for the outsider. |
| C94 | Non-interactive proofs, zero knowledge up to the provable clauses | `pretendedProof` (SpecPretend) with the challenge that one answer of the hash function stands for; same `Twin` as C93 up to the response, then `Lemmas/PretendProof` (as for C71, which is for conjunctions and extended parts). |
| C95 | Proving a composition with one statement at several places | `Model/AliasProver` (trees of object identities and a heap); a simulation (`Tracks`) between runs on objects and on values, with frames for the objects each call may write; `norm` because the value model keeps an outdated statement at the clause an or-prover proves. |
| C96 | Zero knowledge up to the marked clauses, with primitives | `pretendedViewStmt` (SpecPretendStmt) puts the outsider's run together from `get_prover`, `prepare_simulate_proof` and `simulate_proof`. `Couple` (Lemmas) relates two programs on translated random numbers like `Twin`, but allows blocks of numbers to be permuted at once, as the imitation of precommitments (C62) does; coupled are `get_prover`, `precommit` with simulated precommitments (`Mate`), and then commitments and responses on what the extended parts construct (C93). Instances for all statements of the library through C66; range proofs contain disjunctions of their own whose honest runs show the value (C60), so they may only be in simulated clauses. |
| C97 | Witness indistinguishability with primitives and disjunctions | corollary of C96: the first prover has numbers, so is an outsider for both (`outsider_of_plan`). C63 without the restriction to conjunctions, the `Peers` theorems with primitives. |
| C98 | Unpredictable commitments | counting: a program that reads random numbers is a tree (`Steps`); along every path the randomizer of the `Fresh` secret is read at some place where everything read before is fixed, and at most one in q of its values gives the expected commitment (`Seldom`, `draws_seldom`, `live_seldom`). Two places: conjunctions hand one dictionary of randomizers down (`Dir`), disjunctions draw inside the proved clause (`Opn`). A question to the hash function determines the commitment (`Readable`), hence the bound for `prove()` with changed answers. |
| C99 | Primitives with wrong values | inversion of `prove()`/`verify()` for one extended statement (`ext_prove_steps`, `ext_verify_steps`); precommitments of wrong values do not pass `validate()` (equal logarithms, ranges), otherwise C87's argument for the constructed statement (`ext_wrong_free`). In conjunctions: the values of a secret are steady during `precommit` of the other parts (`Steady`), so the entry of the wrong part in the list of precommitments is the one of its own run (`EntryFor`), and full validation meets it (`conj_invalid`). |
| C100 | Example scripts | symbolic execution of each script; the interactions by `interact_complete` (C49 without the call of `precommit()`), identifiers by `proofId_eq_iff`. |
| C101 | Zero knowledge with a random hash function | game over finite tables of answers and blocks of random numbers. `Oracle.sim_mid`: for each answer the translation of random numbers of C94/C96 turns an outsider's proof into the prover's proof for the table with that answer. `Oracle.mid_real`: exchanging the old and the new answer is a bijection of tables and answers. They differ only in what was asked before; the question of the prover is a given one in at most one in B cases by C98 (`asks_seldom`; `bound_first` makes the length of the blocks independent of the question). The observer is any predicate, so their own random choices need not be modelled; statement and message do not depend on earlier answers. |
| C102 | Soundness with a random hash function | forking as a count instead of a probability: `Oracle.fork_one` maps (accepted table with question x, new answer) to (changed table, old answer); by C69 the old answer is near one given by the changed table (same residue modulo q, or, with disjunctions, modulo 2^128; the challenge of a non-interactive proof has 256 bits, sub-challenges 128); `fork_all` sums over the questions asked, and asking a question does not depend on its own answer (`asked_anyway`). The question of the proof counts as one more (k + 1). The extracted values come from one pair of runs; how often the extractor has to try is not counted. |
| C103 | Soundness of the interactive protocol | `Spec.interview` is the verifier's side of `sigmaProtocol` with arbitrary messages of the other side; `interview_iff` reduces acceptance of the random number k to `verifyResponse` with challenge k; accepted challenges are congruent modulo q by special soundness (C18, C58, `extract_outside`), `card_residue` counts them; `C103_forgery` is the other half (C67 for all challenges) |
| C104 | Sub-challenges of honest provers | `Tame` (Lemmas/Tame.lean) is an invariant of prover objects: stored simulations have challenges in [0, 2^128) and in-range responses; `simulate_tame`, `setup_tame`, `getProver_tame` establish it, `precommit_tame`, `commit_tame` keep it, `response_tame` gives `Ranged` (which implies `InRange`); extended statements through equal identifiers (`same_core`) |
| C105 | Everybody can change accepted proofs | the relation `Raised` (SpecMalleable.lean) says what is changed; `raised_eqns`, `raised_agree` (Lemmas/Malleable.lean): the changed responses determine the same commitment and agree where the old ones did; `raise_exists`: there are infinitely many. Theorems in Props/Malleable.lean. Only one direction is stated: the changed responses are lists of integers, whereas the original ones may be anything `verify` takes. Generalises C26 from one representation to all statements |

## Where the code disagrees with a property

For these a violation is proved with a witness (often: for all statements of the kind), next to the part that does hold.

* C06: `Expression.__add__` changes its left operand in place.
* C12: a precommitment that is a raw byte string can absorb bytes of the message (`get_challenge` concatenates without length prefixes).
* C19: `OrProofStmt.recompute_commitment` checks neither the number nor the range of the sub-challenges: forgeries for false or-statements.
* C25: the residual sub-challenge is in `(-2^128, 0]`, the simulated ones in `[0, 2^128)`: the true clause can be read off a proof. C60: hence every range proof reveals the committed value.
* C29: composition rules are only checked by provers; verifiers accept proofs for statements that provers refuse.
* C31, C32: `DLRep.get_prover` calls `set_simulated()`, which marks the statement as simulated: clauses are skipped afterwards. `AndProofStmt.get_prover` raises instead of returning `None` inside an or-proof.
* C79, C80: copies of a composed statement share their parts, and provers the dictionary of the statement: proving one composition can make another one unprovable, and a second `get_prover` changes the answers of the first prover.
* C81: a failed `prove()` or `get_prover()` of a disjunction of representations makes it unprovable for good, also with the right values.
* C88: verifiers of one extended statement object used at the same time can be made to accept false inequalities of logarithms (the precommitment is chosen after the challenge); provers of one object get the statement hash of another's precommitment.
* C89: a composition with an extended part that is used twice (`c = p & q`, then `c \| c` or `c & r \| c`): the shallow copies have the object `p` in common, the verifier uses the last precommitment at all places, and honest proofs are rejected.
* C90: `p & p` for a `DLNotEqual` or BBS+ statement `p`: the copies share the internal secrets, the second precommitment overwrites the values of the first, and the honest proof is refused ("Responses for the same secret name do not match"). The comment in `zksk/composition.py:720-722` says that copying is there to give several occurrences of one proof their own randomness. For a composition `p` of representations with a disjunction the prover refuses `p & p` (`InvalidSecretsError`), as it does whenever a secret of a disjunction occurs elsewhere.
* C91: an extended statement that constructs a composition with extended parts: `ExtendedProver.precommit` pre-commits these (`zksk/extended.py:197-201`) but drops the precommitments, `ExtendedVerifier` does not pass any on, so proofs can be made but never verified.
* C92: `AndProver.precommit` gives `None` if no part has a precommitment, but the simulators of compositions give a list of `None`s, which is true in Python, so `OrProver.precommit` (`zksk/composition.py:588-603`) sends `[None, [None, None]]` for a disjunction of two conjunctions of representations: the clause with the `None` is the proved one.
* C83: `BilinearGroupPair(bp_group)` does not store its argument: the pair cannot be used.
* C84: contrary to `docs/new_primitives.rst:141` classes that only override `construct_stmt` cannot be simulated.
* C33: tuples come back as lists (changing the identifier of an extended statement, or making an invalid proof valid); points of pairing groups come back in new groups, so no BBS+ proof survives serialization.
* C37, C51: `PowerTwoRangeStmt` accepts more bit commitments than bits: proofs for every commitment, from public data.
* C39: `RangeStmt` for ranges with at most two elements always raises. C52: range statements ignore values passed to `prove()`. C50: `RangeOnlyStmt` cannot be verified by anybody else.
* C42: `verify_signature` ignores messages without generators, and zeros at the end. C43: an unblinded commitment after a blinded one reuses the old blinding factor. C53: no proofs about signatures on no messages.
* C48: an or-proof all of whose clauses have falsy precommitments drops them; the verifier then cannot build the statements.

Further observations, not claims: `GTGroup` has no `__eq__`, `__repr__` of pairing points uses `hash()`; `ExtendedVerifier.send_challenge` is called with a keyword it does not have when nested; `raise ValueException` in `bbsplus.py:265` refers to an undefined name; `PowerTwoRangeStmt` with its default `x=None` crashes; `full_validate` of extended statements does not look into the constructed statement; `DLNotEqual` may draw a zero blinder (then verification fails); a prover of a conjunction sends no precommitment if all parts have none, `simulate()` returns a list of `None`s (hence `pruned` in C62).

## Trusted base

* Lean's kernel; axioms of each theorem are at most `propext`, `Classical.choice`, `Quot.sound` (checked with `#print axioms`).
* Our reading of the Python sources (the model), including the simplifications stated at each definition.
* Assumptions on libraries outside the repository (`petlib`, `bplib`, `msgpack`, `hashlib`):
  * `Bn` is an unbounded signed integer; `mod_add`, `%` return the non-negative residue; `m.random()` returns a value in `[0, m)`; `num_bits` is the bit length of the absolute value.
  * points form an abelian group in which `order * P` is the identity (a hypothesis `Pt.WF` where needed); scalar multiplication accepts any integer, also negative and larger than the order; mixing groups raises.
  * elements of `bplib` form abelian groups with a bilinear pairing; `**` in the target group is a power for exponents other than zero (`BpGroup.Works`, C82).
  * `petlib`'s `EcGroup.wsum` may or may not check lengths: the model has a flag and theorems hold for both.
  * Python's `hash` on secret names has no collisions.
  * `str(proof_id)` is `Env.idBytes`, a parameter. Theorems that need different identifiers to have different hashes say so in a hypothesis. For points of pairing groups the text contains only Python's `hash` of the point, so there the hypothesis includes that these hashes do not collide.
  * `petlib.pack` and `msgpack` decode what they encode, except for tuples and pairing points (`Faithful`); C12 assumes that encodings are prefix-free and determine the content.

## Not modelled

* Aliasing between statements with extended parts, in full. `Model/Objects` has objects that share parts for compositions of representations only (C78 – C81). `Model/Alias` and `Model/AliasProver` have leaf objects with identity in one composition, and C89 and C95 show that treating statement trees as values, as everywhere else, is exact unless a composition with an extended part is used twice. Not modelled: two compositions with common extended parts that are used alternately. `Model/Shared` has the sharing of one extended statement object between its provers and verifiers (C88). What a call has changed before it raises is modelled in `Model/ObjectsFail`, and in `Model/Shared` for the statement object; elsewhere it is dropped.
* Printing, warnings, `__repr__`, byte formats of points, timing.
