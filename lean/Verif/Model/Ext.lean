import Verif.Model.DLRep

/-! # Extended statements (`zksk/extended.py`) -/

namespace Zksk

variable {E : Type} [AddCommGroup E] [DecidableEq E]

/-- What a subclass of `ExtendedProofStmt` (`zksk/extended.py:34-80`) defines.  `construct` and
`precommit` may look at the values of secrets (`DLRep.__init__` does).  Simplification: the
constructed statement contains no further extended statement (none of the primitives of the
repository nests them; `Model/Nested` has nested ones). -/
structure ExtSpec (E : Type) where
  /-- class name -/
  cls : String
  /-- `construct_stmt(precommitment)` -/
  construct : Store → Val E → Except Err (Core E)
  /-- `validate(precommitment)` -/
  validate : Val E → Except Err Unit
  /-- `precommit()` -/
  precommit : PM (Val E)
  /-- `simulate_precommit()` -/
  simPrecommit : PM (Val E)

/-- State of an extended statement object and of the verifier object attached to it:
`_precommitment`, `_constructed_stmt` (`zksk/extended.py:85-91,137-140`) and
`ExtendedVerifier.constructed_verifier` (`:225`). -/
structure Ext (E : Type) where
  spec : ExtSpec E
  simulated : Bool
  precommitment : Val E
  constructed : Option (Core E)
  verifier : Option (Core E)

namespace Ext

/-- Access to an attribute of `self.constructed_stmt`, which may be `None`. -/
def inner (s : Ext E) : Except Err (Core E) :=
  match s.constructed with
  | some t => .ok t
  | none => .error .attributeError

/-- `full_construct_stmt` (`zksk/extended.py:137-140`). -/
def fullConstruct (σ : Store) (s : Ext E) (v : Val E) : Except Err (Ext E) := do
  let t ← s.spec.construct σ v
  .ok { s with precommitment := v, constructed := some t }

/-- `get_proof_id` (`zksk/extended.py:123-135`). -/
def proofId (σ : Store) (m : IdMap) (s : Ext E) : Except Err (PId E) :=
  match s.constructed with
  | none => .error .valueError
  | some t => do
    let id ← Tree.proofIdWith σ m t
    .ok (.ext s.spec.cls s.precommitment id)

/-- `ExtendedVerifier.process_precommitment` (`zksk/extended.py:219-225`). -/
def process (σ : Store) (s : Ext E) (v : Val E) : Except Err (Ext E) := do
  let s' ← fullConstruct σ s v
  .ok { s' with verifier := s'.constructed.map Tree.freshVerifier }

/-- `ExtendedVerifier.check_responses_consistency` (`zksk/extended.py:239-245`). -/
def consistency (σ : Store) (s : Ext E) (r : Val E) (d : Dict (Val E)) :
    Except Err (Bool × Dict (Val E)) :=
  match s.verifier with
  | none => .error .attributeError
  | some t => Tree.consistency σ t r d

/-- `prepare_simulate_proof` (`zksk/extended.py:142-144`). -/
def prepareSim (s : Ext E) : PM (Ext E) := do
  let v ← s.spec.simPrecommit
  let σ ← getStore
  liftE (fullConstruct σ s v)

/-- `simulate_proof` (`zksk/extended.py:146-158`). -/
def simulate (s : Ext E) (d : Option (Dict Int)) (c : Option Int) : PM (Sim E) := do
  let t ← liftE s.inner
  let tr ← Tree.simulate t d c
  pure { tr with precommitment := s.precommitment }

end Ext

instance : StmtOps E (Ext E) where
  secretVars s := do (← s.inner).secretVars
  bases s := do (← s.inner).bases
  simulated s := s.simulated
  setSimulated v s := { s with simulated := v }
  proofId := Ext.proofId
  freshVerifier s := { s with verifier := none }
  process := Ext.process
  fullValidate s := s.spec.validate s.precommitment
  consistency := Ext.consistency
  recompute s c r := do (← s.inner).recompute c r
  prepareSim := Ext.prepareSim
  simulate := Ext.simulate
  ignoresHash _ := false

/-- A leaf of a general statement. -/
inductive Leaf (E : Type) where
  | dlrep (s : DLRep E)
  | ext (s : Ext E)

instance : StmtOps E (Leaf E) where
  secretVars
    | .dlrep s => StmtOps.secretVars s
    | .ext s => StmtOps.secretVars s
  bases
    | .dlrep s => StmtOps.bases s
    | .ext s => StmtOps.bases s
  simulated
    | .dlrep s => s.simulated
    | .ext s => s.simulated
  setSimulated v
    | .dlrep s => .dlrep (StmtOps.setSimulated v s)
    | .ext s => .ext (StmtOps.setSimulated v s)
  proofId σ m
    | .dlrep s => StmtOps.proofId σ m s
    | .ext s => StmtOps.proofId σ m s
  freshVerifier
    | .dlrep s => .dlrep (StmtOps.freshVerifier s)
    | .ext s => .ext (StmtOps.freshVerifier s)
  process σ l v := match l with
    | .dlrep s => (StmtOps.process σ s v).map .dlrep
    | .ext s => (StmtOps.process σ s v).map .ext
  fullValidate
    | .dlrep s => StmtOps.fullValidate s
    | .ext s => StmtOps.fullValidate s
  consistency σ l r d := match l with
    | .dlrep s => StmtOps.consistency σ s r d
    | .ext s => StmtOps.consistency σ s r d
  recompute l c r := match l with
    | .dlrep s => StmtOps.recompute s c r
    | .ext s => StmtOps.recompute s c r
  prepareSim
    | .dlrep s => do pure (.dlrep (← StmtOps.prepareSim s))
    | .ext s => do pure (.ext (← StmtOps.prepareSim s))
  simulate l d c := match l with
    | .dlrep s => StmtOps.simulate s d c
    | .ext s => StmtOps.simulate s d c
  ignoresHash _ := false

/-- General statements. -/
abbrev Stmt (E : Type) := Tree (Leaf E)

end Zksk
