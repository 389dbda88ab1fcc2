import Verif.Model.Tree

/-! # The DLRep statement (`zksk/primitives/dlrep.py`) -/

namespace Zksk

variable {E : Type} [AddCommGroup E] [DecidableEq E]

/-- A `DLRep` statement object (`zksk/primitives/dlrep.py:56-106`). -/
structure DLRep (E : Type) where
  lhs : Pt E
  bases : List (Pt E)
  secretVars : List Sec
  secretValues : Dict Int
  simulated : Bool

/-- Loop body of `wsum` over the zipped lists (`zksk/pairings.py:72-76,242-246`). -/
def wsumGo : Pt E → List (Val E) → List (Pt E) → Except Err (Pt E)
  | acc, w :: ws, p :: ps => do
    let n ← w.asInt
    let acc' ← acc.add (Pt.smul n p)
    wsumGo acc' ws ps
  | acc, _, _ => .ok acc

/-- `group.wsum(weights, points)` (`zksk/pairings.py:72-76,242-246`; `petlib` for EC groups, which
may in addition insist on equal lengths: `strict`). -/
def Grp.wsum (g : Grp) (ws : List (Val E)) (ps : List (Pt E)) : Except Err (Pt E) :=
  if g.strict && ws.length != ps.length then .error .foreign
  else wsumGo g.inf ws ps

/-- Known values at construction time (`zksk/primitives/dlrep.py:100-103`). -/
def knownValues (σ : Store) : List Sec → Dict Int → Dict Int
  | [], d => d
  | s :: ss, d =>
    match σ.value s with
    | some v => knownValues σ ss (Dict.set σ d s v)
    | none => knownValues σ ss d

/-- `DLRep(lhs, expr, simulated)` (`zksk/primitives/dlrep.py:84-106`), given the lists of secrets and
bases of the expression. -/
def mkDLRep (σ : Store) (lhs : Pt E) (secrets : List Sec) (bases : List (Pt E)) (simulated : Bool) :
    Except Err (DLRep E) :=
  match bases with
  | [] => .error .indexError
  | b :: _ =>
    if bases.any (fun g => decide (g.grp ≠ b.grp)) then .error .invalidExpression
    else .ok { lhs := lhs, bases := bases, secretVars := secrets,
               secretValues := knownValues σ secrets [], simulated := simulated }

namespace DLRep

/-- `[secret_id_map[s.name] for s in secret_vars]` (`zksk/composition.py:88`). -/
def idsOf (σ : Store) (m : IdMap) : List Sec → Except Err (List Nat)
  | [] => .ok []
  | s :: ss => do
    let i ← m.get (σ.name s)
    let is ← idsOf σ m ss
    .ok (i :: is)

/-- `DLRep.get_proof_id` (`zksk/primitives/dlrep.py:141-149`, `zksk/composition.py:71-89`). -/
def proofId (σ : Store) (m : IdMap) (s : DLRep E) : Except Err (PId E) := do
  let ids ← idsOf σ m s.secretVars
  .ok (.dlrep s.bases ids s.lhs)

/-- Loop of `DLRepVerifier.check_responses_consistency` (`zksk/primitives/dlrep.py:47-53`). -/
def consistencyGo (σ : Store) (r : Val E) :
    List Sec → Nat → Dict (Val E) → Except Err (Bool × Dict (Val E))
  | [], _, d => .ok (true, d)
  | s :: ss, i, d =>
    match Dict.get? σ d s with
    | some v => do
      let ri ← r.index i
      if ri ≠ v then .ok (false, d) else consistencyGo σ r ss (i + 1) d
    | none => do
      let ri ← r.index i
      consistencyGo σ r ss (i + 1) (Dict.set σ d s ri)

/-- `DLRep.recompute_commitment` (`zksk/primitives/dlrep.py:172-177`). -/
def recompute (s : DLRep E) (c : Int) (r : Val E) : Except Err (Val E) := do
  let ws ← r.elems
  let sum ← s.lhs.grp.wsum ws s.bases
  let com ← sum.add (Pt.smul (-c) s.lhs)
  .ok (.pt com)

/-- Draw one number below `order` for every secret in the list. -/
def drawAll (order : Nat) : List Sec → PM (Dict Int)
  | [] => pure []
  | s :: ss => do
    let k ← draw order
    let ks ← drawAll order ss
    pure ((s, k) :: ks)

/-- `DLRep.get_randomizers` (`zksk/primitives/dlrep.py:151-170`). -/
def getRandomizers (s : DLRep E) : PM (Dict Int) := do
  match s.bases with
  | [] => raise .indexError
  | b :: _ => do
    let σ ← getStore
    drawAll b.grp.order (Tree.dedupGo σ s.secretVars [])

/-- `update_randomizers` (`zksk/composition.py:244-268`) on a DLRep. -/
def updateRandomizers (s : DLRep E) (d : Option (Dict Int)) : PM (Dict Int) :=
  Tree.updateRandomizersWith (.ok s.secretVars) (getRandomizers s) d

/-- `[dict[m] for m in self.secret_vars]` (`zksk/primitives/dlrep.py:193,220`). -/
def lookupAll (σ : Store) (d : Dict Int) : List Sec → Except Err (List Int)
  | [] => .ok []
  | s :: ss => do
    let v ← Dict.get σ d s
    let vs ← lookupAll σ d ss
    .ok (v :: vs)

/-- `DLRep.simulate_proof` (`zksk/primitives/dlrep.py:179-199`). -/
def simulate (s : DLRep E) (d : Option (Dict Int)) (c : Option Int) : PM (Sim E) := do
  let d' ← updateRandomizers s d
  let c' ← Tree.challengeOrDraw c
  let σ ← getStore
  let rs ← liftE (lookupAll σ d' s.secretVars)
  let resp := Val.list (rs.map Val.int)
  let com ← liftE (recompute s c' resp)
  pure { commitment := com, challenge := c', responses := resp, precommitment := .none }

end DLRep

/-- The DLRep leaf: `DLRepVerifier.process_precommitment`, `validate`, `prepare_simulate_proof` are
the no-ops of the base classes (`zksk/base.py:184-188`, `zksk/composition.py:218-234,294-298`). -/
instance : StmtOps E (DLRep E) where
  secretVars s := .ok s.secretVars
  bases s := .ok s.bases
  simulated s := s.simulated
  setSimulated v s := { s with simulated := v }
  proofId := DLRep.proofId
  freshVerifier s := s
  process _ s _ := .ok s
  fullValidate _ := .ok ()
  consistency σ s r d := DLRep.consistencyGo σ r s.secretVars 0 d
  recompute := DLRep.recompute
  prepareSim s := pure s
  simulate := DLRep.simulate
  ignoresHash _ := false

/-- Statements without extended leaves. -/
abbrev Core (E : Type) := Tree (DLRep E)

end Zksk
