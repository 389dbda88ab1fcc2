import Verif.Model.Util

/-!
# Statement trees and verification

`Tree L` models compositions of statements by `AndProofStmt`/`OrProofStmt`
(`zksk/composition.py:398-947`) over leaves `L`.  `StmtOps L` is the interface
(`ComposableProofStmt`, `zksk/composition.py:64-332`, and the verifier methods of
`zksk/base.py:169-263`) that leaves implement; the functions below implement it for trees.
Statements are values: a method that mutates the statement returns the new statement.
-/

namespace Zksk

variable {E : Type} [AddCommGroup E] [DecidableEq E]

/-- Composition tree. The Boolean is the `_simulated` attribute (`zksk/composition.py:276-292`) of
the composed statement itself. -/
inductive Tree (L : Type) where
  | leaf (l : L)
  | and (simulated : Bool) (subs : List (Tree L))
  | or (simulated : Bool) (subs : List (Tree L))

/-- Statement identifiers returned by `get_proof_id`
(`zksk/composition.py:71-89,384-391`, `zksk/primitives/dlrep.py:141-149`,
`zksk/extended.py:123-135`), as structured data. -/
inductive PId (E : Type) where
  | dlrep (bases : List (Pt E)) (ids : List Nat) (lhs : Pt E)
  | comp (cls : String) (subs : List (PId E))
  | ext (cls : String) (precommitment : Val E) (inner : PId E)

/-- `SimulationTranscript` (`zksk/base.py:56-66`), without the statement hash. -/
structure Sim (E : Type) where
  commitment : Val E
  challenge : Int
  responses : Val E
  precommitment : Val E

/-- What a statement (leaf) must provide. -/
class StmtOps (E : outParam Type) (L : Type) where
  /-- `get_secret_vars` -/
  secretVars : L → Except Err (List Sec)
  /-- `get_bases` -/
  bases : L → Except Err (List (Pt E))
  /-- `simulated` -/
  simulated : L → Bool
  /-- `set_simulated(value)` -/
  setSimulated : Bool → L → L
  /-- `get_proof_id(secret_id_map)` with a given map -/
  proofId : Store → IdMap → L → Except Err (PId E)
  /-- a fresh `get_verifier()`: forgets what an earlier verifier object stored -/
  freshVerifier : L → L
  /-- `Verifier.process_precommitment` -/
  process : Store → L → Val E → Except Err L
  /-- `full_validate` -/
  fullValidate : L → Except Err Unit
  /-- `Verifier.check_responses_consistency`; returns the verdict and the mutated dictionary -/
  consistency : Store → L → Val E → Dict (Val E) → Except Err (Bool × Dict (Val E))
  /-- `recompute_commitment` -/
  recompute : L → Int → Val E → Except Err (Val E)
  /-- `prepare_simulate_proof` -/
  prepareSim : L → PM L
  /-- `simulate_proof(responses_dict, challenge)` -/
  simulate : L → Option (Dict Int) → Option Int → PM (Sim E)
  /-- the `send_challenge(.., ignore_statement_hash_checks)` keyword is supported by the verifier -/
  ignoresHash : L → Bool

namespace Tree
variable {L : Type} [StmtOps E L]

/-- `simulated` (`zksk/composition.py:276-283`). -/
def simulated : Tree L → Bool
  | .leaf l => StmtOps.simulated l
  | .and s _ => s
  | .or s _ => s

/-- `set_simulated` (`zksk/composition.py:285-292`). -/
def setSimulated (v : Bool) : Tree L → Tree L
  | .leaf l => .leaf (StmtOps.setSimulated v l)
  | .and _ subs => .and v subs
  | .or _ subs => .or v subs

mutual
/-- `_CommonComposedStmtMixin.get_secret_vars` (`zksk/composition.py:336-340`). -/
def secretVars : Tree L → Except Err (List Sec)
  | .leaf l => StmtOps.secretVars l
  | .and _ subs => secretVarsL subs
  | .or _ subs => secretVarsL subs
/-- Loop of `get_secret_vars`. -/
def secretVarsL : List (Tree L) → Except Err (List Sec)
  | [] => .ok []
  | t :: ts => do
    let a ← secretVars t
    let b ← secretVarsL ts
    .ok (a ++ b)
end

mutual
/-- `_CommonComposedStmtMixin.get_bases` (`zksk/composition.py:342-346`). -/
def bases : Tree L → Except Err (List (Pt E))
  | .leaf l => StmtOps.bases l
  | .and _ subs => basesL subs
  | .or _ subs => basesL subs
/-- Loop of `get_bases`. -/
def basesL : List (Tree L) → Except Err (List (Pt E))
  | [] => .ok []
  | t :: ts => do
    let a ← bases t
    let b ← basesL ts
    .ok (a ++ b)
end

mutual
/-- `get_proof_id(secret_id_map)` with a given map (`zksk/composition.py:384-391`). The calls to
`get_secret_vars`/`get_bases` in lines 385-386 only matter for the exceptions they raise, which
`get_proof_id` of the leaves raises as well. -/
def proofIdWith (σ : Store) (m : IdMap) : Tree L → Except Err (PId E)
  | .leaf l => StmtOps.proofId σ m l
  | .and _ subs => do
    let ids ← proofIdWithL σ m subs
    .ok (.comp "AndProofStmt" ids)
  | .or _ subs => do
    let ids ← proofIdWithL σ m subs
    .ok (.comp "OrProofStmt" ids)
/-- `[sub.get_proof_id(secret_id_map) for sub in self.subproofs]`. -/
def proofIdWithL (σ : Store) (m : IdMap) : List (Tree L) → Except Err (List (PId E))
  | [] => .ok []
  | t :: ts => do
    let a ← proofIdWith σ m t
    let b ← proofIdWithL σ m ts
    .ok (a :: b)
end

/-- `get_proof_id()` (`zksk/composition.py:84-89,385-391`): the identifiers of the secrets are
assigned over the whole tree. For an extended leaf the inner statement assigns them, over the same
secrets (`zksk/extended.py:131`). -/
def proofId (σ : Store) (t : Tree L) : Except Err (PId E) := do
  let vars ← secretVars t
  proofIdWith σ (assignSecretIds (vars.map σ.name)) t

mutual
/-- `get_verifier` (`zksk/composition.py:485-486,756-760`). -/
def freshVerifier : Tree L → Tree L
  | .leaf l => .leaf (StmtOps.freshVerifier l)
  | .and s subs => .and s (freshVerifierL subs)
  | .or s subs => .or s (freshVerifierL subs)
/-- `[sub.get_verifier() for sub in self.subproofs]`. -/
def freshVerifierL : List (Tree L) → List (Tree L)
  | [] => []
  | t :: ts => freshVerifier t :: freshVerifierL ts
end

mutual
/-- `process_precommitment` (`zksk/composition.py:673-684,940-947`). -/
def process (σ : Store) : Tree L → Val E → Except Err (Tree L)
  | .leaf l, v => do
    let l' ← StmtOps.process σ l v
    .ok (.leaf l')
  | .and s subs, v =>
    if v.isNone then .ok (.and s subs) else do
      let subs' ← processL σ subs 0 v
      .ok (.and s subs')
  | .or s subs, v =>
    if v.isNone then .ok (.or s subs) else do
      let subs' ← processL σ subs 0 v
      .ok (.or s subs')
/-- Loop `sub.process_precommitment(precommitment[index])`. -/
def processL (σ : Store) : List (Tree L) → Nat → Val E → Except Err (List (Tree L))
  | [], _, _ => .ok []
  | t :: ts, i, v => do
    let vi ← v.index i
    let t' ← process σ t vi
    let ts' ← processL σ ts (i + 1) v
    .ok (t' :: ts')
end

mutual
/-- `full_validate` (`zksk/composition.py:393-395`). -/
def fullValidate : Tree L → Except Err Unit
  | .leaf l => StmtOps.fullValidate l
  | .and _ subs => fullValidateL subs
  | .or _ subs => fullValidateL subs
/-- Loop of `full_validate`. -/
def fullValidateL : List (Tree L) → Except Err Unit
  | [] => .ok ()
  | t :: ts => do
    fullValidate t
    fullValidateL ts
end

mutual
/-- `check_responses_consistency` of `AndVerifier` (`zksk/composition.py:920-938`) and `OrVerifier`
(`:686-702`). -/
def consistency (σ : Store) : Tree L → Val E → Dict (Val E) → Except Err (Bool × Dict (Val E))
  | .leaf l, r, d => StmtOps.consistency σ l r d
  | .and _ subs, r, d => consistencyAnd σ subs 0 r d
  | .or _ subs, r, d => do
    let b ← consistencyOr σ subs 0 r
    .ok (b, d)
/-- Loop of `AndVerifier.check_responses_consistency`: one dictionary is threaded through. -/
def consistencyAnd (σ : Store) :
    List (Tree L) → Nat → Val E → Dict (Val E) → Except Err (Bool × Dict (Val E))
  | [], _, _, d => .ok (true, d)
  | t :: ts, i, r, d => do
    let ri ← r.index i
    let (b, d') ← consistency σ t ri d
    if b then consistencyAnd σ ts (i + 1) r d' else .ok (false, d')
/-- Loop of `OrVerifier.check_responses_consistency`: a fresh dictionary per clause. -/
def consistencyOr (σ : Store) : List (Tree L) → Nat → Val E → Except Err Bool
  | [], _, _ => .ok true
  | t :: ts, i, r => do
    let r1 ← r.index 1
    let ri ← r1.index i
    let (b, _) ← consistency σ t ri []
    if b then consistencyOr σ ts (i + 1) r else .ok false
end

/-- Read a Python list of integers (`subchallenges.copy()` only exists on lists,
`zksk/composition.py:37`; `Bn(elem)` in `zksk/utils/groups.py:102-103`). -/
def asIntList : Val E → Except Err (List Int)
  | .list l => l.mapM Val.asInt
  | _ => .error .attributeError

mutual
/-- `recompute_commitment` of `AndProofStmt` (`zksk/composition.py:732-736`) and `OrProofStmt`
(`:419-439`). -/
def recompute : Tree L → Int → Val E → Except Err (Val E)
  | .leaf l, c, r => StmtOps.recompute l c r
  | .and _ subs, c, r => do
    let coms ← recomputeAnd subs 0 c r
    .ok (.list coms)
  | .or _ subs, c, r => do
    let orChallenges ← r.index 0
    let responses ← r.index 1
    let cs ← asIntList orChallenges
    if findResidualChallenge cs c challengeLength ≠ 0 then .error .inconsistentChallenge
    else do
      let coms ← recomputeOr subs 0 cs responses
      .ok (.list coms)
/-- Loop of `AndProofStmt.recompute_commitment`. -/
def recomputeAnd : List (Tree L) → Nat → Int → Val E → Except Err (List (Val E))
  | [], _, _, _ => .ok []
  | t :: ts, i, c, r => do
    let ri ← r.index i
    let com ← recompute t c ri
    let coms ← recomputeAnd ts (i + 1) c r
    .ok (com :: coms)
/-- Loop of `OrProofStmt.recompute_commitment`: `self.or_challenges[index]`, `responses[index]`. -/
def recomputeOr : List (Tree L) → Nat → List Int → Val E → Except Err (List (Val E))
  | [], _, _, _ => .ok []
  | t :: ts, i, cs, r => do
    match cs[i]? with
    | none => .error .indexError
    | some c => do
      let ri ← r.index i
      let com ← recompute t c ri
      let coms ← recomputeOr ts (i + 1) cs r
      .ok (com :: coms)
end

/-! ### Composition checks run by provers -/

/-- `list.count(secret)`, comparing with `Secret.__eq__`. -/
def countKey (σ : Store) (l : List Sec) (s : Sec) : Nat :=
  (l.filter (fun x => decide (σ.key x = σ.key s))).length

mutual
/-- `validate_secrets_reoccurence(forbidden_secrets)` with a given list
(`zksk/composition.py:236-242,494-517,819-836`; extended and DLRep statements keep the default,
which does nothing). Iterating over the list of secrets instead of the set (line 511) makes no
difference. -/
def reoccur (σ : Store) (forbidden : List Sec) : Tree L → Except Err Unit
  | .leaf _ => .ok ()
  | .and _ subs => reoccurL σ forbidden subs
  | .or _ subs => do
    let vars ← secretVarsL subs
    if vars.any (fun s => decide (countKey σ forbidden s > countKey σ vars s))
    then .error .invalidSecrets else .ok ()
/-- Loop of `AndProofStmt.validate_secrets_reoccurence`. -/
def reoccurL (σ : Store) (forbidden : List Sec) : List (Tree L) → Except Err Unit
  | [] => .ok ()
  | t :: ts => do
    reoccur σ forbidden t
    reoccurL σ forbidden ts
end

/-- `mydict[word].append(index)` (`zksk/composition.py:367-369`). -/
def indexDict (σ : Store) : List Sec → Nat → Dict (List Nat) → Dict (List Nat)
  | [], _, d => d
  | s :: ss, i, d =>
    indexDict σ ss (i + 1) (Dict.set σ d s (((Dict.get? σ d s).getD []) ++ [i]))

/-- Inner loop `zksk/composition.py:377-382`. -/
def checkOrders (bs : List (Pt E)) (ref : Nat) : List Nat → Except Err Unit
  | [] => .ok ()
  | i :: is =>
    match bs[i]? with
    | none => .error .indexError
    | some b => if b.grp.order = ref then checkOrders bs ref is else .error .groupMismatch

/-- Outer loop `zksk/composition.py:373-382`. -/
def checkAllOrders (bs : List (Pt E)) : Dict (List Nat) → Except Err Unit
  | [] => .ok ()
  | (_, idxs) :: d =>
    match idxs.head? with
    | none => .error .indexError
    | some i0 =>
      match bs[i0]? with
      | none => .error .indexError
      | some b0 => do
        checkOrders bs b0.grp.order idxs
        checkAllOrders bs d

/-- `validate_group_orders` (`zksk/composition.py:348-382`). -/
def validateGroupOrders (σ : Store) (t : Tree L) : Except Err Unit := do
  let bs ← bases t
  let vars ← secretVars t
  checkAllOrders bs (indexDict σ vars 0 [])

/-- `validate_composition` (`zksk/composition.py:488-492` for or, `:725-730` for and). -/
def validateComposition (σ : Store) : Tree L → Except Err Unit
  | .leaf _ => .ok ()
  | .and s subs => do
    validateGroupOrders σ (.and s subs)
    let forbidden ← secretVarsL subs
    reoccurL σ forbidden subs
  | .or s subs => validateGroupOrders σ (.or s subs)

/-! ### Simulation -/

/-- Distinct secrets of a list: `set(secret_vars)`, in order of first occurrence. -/
def dedupGo (σ : Store) : List Sec → List Sec → List Sec
  | [], _ => []
  | s :: ss, seen =>
    if seen.any (fun x => decide (σ.key x = σ.key s)) then dedupGo σ ss seen
    else s :: dedupGo σ ss (s :: seen)

/-- Draw one randomizer per entry (`zksk/composition.py:773-774`). -/
def drawDict : Dict Nat → PM (Dict Int)
  | [] => pure []
  | (u, order) :: rest => do
    let k ← draw order
    let ks ← drawDict rest
    pure ((u, k) :: ks)

/-- `{s: g for s, g in zip(self.get_secret_vars(), self.get_bases())}`, keeping only the order of the
group of the base (`zksk/composition.py:770`). -/
def orderDict (σ : Store) (vars : List Sec) (bs : List (Pt E)) : Dict Nat :=
  (vars.zip bs).foldl (fun d sg => Dict.set σ d sg.1 sg.2.grp.order) []

/-- `AndProofStmt.get_randomizers` (`zksk/composition.py:762-776`). -/
def getRandomizers (t : Tree L) : PM (Dict Int) := do
  let σ ← getStore
  let vars ← liftE (secretVars t)
  let bs ← liftE (bases t)
  drawDict (orderDict σ vars bs)

/-- `update_randomizers` (`zksk/composition.py:244-268`), given the two methods it calls. -/
def updateRandomizersWith (vars : Except Err (List Sec)) (getR : PM (Dict Int)) :
    Option (Dict Int) → PM (Dict Int)
  | none => getR
  | some d => do
    let σ ← getStore
    let vs ← liftE vars
    if vs.any (fun s => !(Dict.has σ d s)) then do
      let tmp ← getR
      pure (Dict.update σ tmp d)
    else pure d

/-- `update_randomizers` of a conjunction. -/
def updateRandomizers (t : Tree L) (d : Option (Dict Int)) : PM (Dict Int) :=
  updateRandomizersWith (secretVars t) (getRandomizers t) d

mutual
/-- `prepare_simulate_proof` (`zksk/composition.py:519-521,778-780`). -/
def prepareSim : Tree L → PM (Tree L)
  | .leaf l => do
    let l' ← StmtOps.prepareSim l
    pure (.leaf l')
  | .and s subs => do
    let subs' ← prepareSimL subs
    pure (.and s subs')
  | .or s subs => do
    let subs' ← prepareSimL subs
    pure (.or s subs')
/-- Loop of `prepare_simulate_proof`. -/
def prepareSimL : List (Tree L) → PM (List (Tree L))
  | [] => pure []
  | t :: ts => do
    let t' ← prepareSim t
    let ts' ← prepareSimL ts
    pure (t' :: ts')
end

/-- `if challenge is None: challenge = get_random_num(CHALLENGE_LENGTH)`. -/
def challengeOrDraw : Option Int → PM Int
  | some c => pure c
  | none => getRandomNum challengeLength

mutual
/-- `simulate_proof` of `AndProofStmt` (`zksk/composition.py:782-817`) and `OrProofStmt`
(`:523-557`; it ignores the responses dictionary). -/
def simulate : Tree L → Option (Dict Int) → Option Int → PM (Sim E)
  | .leaf l, d, c => StmtOps.simulate l d c
  | .and s subs, d, c => do
    let d' ← updateRandomizers (Tree.and s subs) d
    let c' ← challengeOrDraw c
    let sims ← simulateAnd subs d' c'
    pure { commitment := .list (sims.map Sim.commitment), challenge := c',
           responses := .list (sims.map Sim.responses),
           precommitment := .list (sims.map Sim.precommitment) }
  | .or _ subs, _, c => do
    let c' ← challengeOrDraw c
    let sims ← simulateOr subs c' []
    pure { commitment := .list (sims.map Sim.commitment), challenge := c',
           responses := .tuple [.list (sims.map (fun s => .int s.challenge)),
                                .list (sims.map Sim.responses)],
           precommitment := .list (sims.map Sim.precommitment) }
/-- Loop `zksk/composition.py:807-813`. -/
def simulateAnd : List (Tree L) → Dict Int → Int → PM (List (Sim E))
  | [], _, _ => pure []
  | t :: ts, d, c => do
    let s ← simulate t (some d) (some c)
    let ss ← simulateAnd ts d c
    pure (s :: ss)
/-- Loop `zksk/composition.py:534-549`: all but the last clause are simulated with challenges of
their own, the last one with the residual challenge. `acc` are the challenges used so far. -/
def simulateOr : List (Tree L) → Int → List Int → PM (List (Sim E))
  | [], _, _ => pure []
  | [t], c, acc => do
    let s ← simulate t none (some (findResidualChallenge acc c challengeLength))
    pure [s]
  | t :: ts, c, acc => do
    let s ← simulate t none none
    let ss ← simulateOr ts c (acc ++ [s.challenge])
    pure (s :: ss)
end

/-- Whether `send_challenge(..., ignore_statement_hash_checks=True)` exists on the verifier of this
statement: only `AndVerifier` accepts the keyword (`zksk/composition.py:897`, `zksk/base.py:190`,
`zksk/extended.py:227`). -/
def ignoresHash : Tree L → Bool
  | .leaf l => StmtOps.ignoresHash l
  | .and _ _ => true
  | .or _ _ => false

end Tree

/-! ### Constructors -/

/-- `AndProofStmt(*subproofs)` (`zksk/composition.py:706-723`); a composed statement starts
un-simulated. Copies are values, see DESIGN.md on aliasing. -/
def mkAnd {L : Type} (subs : List (Tree L)) : Except Err (Tree L) :=
  if subs.length < 2 then .error .valueError else .ok (.and false subs)

/-- `OrProofStmt(*subproofs)` (`zksk/composition.py:410-417`). -/
def mkOr {L : Type} (subs : List (Tree L)) : Except Err (Tree L) :=
  if subs.length < 2 then .error .valueError else .ok (.or false subs)

/-- `a & b` (`zksk/composition.py:115-131`). -/
def opAnd {L : Type} (a b : Tree L) : Except Err (Tree L) :=
  match a, b with
  | .and _ as, .and _ bs => mkAnd (as ++ bs)
  | a, .and _ bs => mkAnd (a :: bs)
  | .and _ as, b => mkAnd (as ++ [b])
  | a, b => mkAnd [a, b]

/-- `a | b` (`zksk/composition.py:133-149`). -/
def opOr {L : Type} (a b : Tree L) : Except Err (Tree L) :=
  match a, b with
  | .or _ as, .or _ bs => mkOr (as ++ bs)
  | a, .or _ bs => mkOr (a :: bs)
  | .or _ as, b => mkOr (as ++ [b])
  | a, b => mkOr [a, b]

end Zksk
