import Verif.Model.Interactive

/-! # Extended statements that construct extended statements (`zksk/extended.py`)

`Model/Ext` has extended statements whose `construct_stmt` returns a composition of representations.
Here `construct_stmt` returns a composition over arbitrary leaves `L`; with `L = Leaf E` these may be
extended statements themselves.  The classes are the same ones (`ExtendedProofStmt`, `ExtendedProver`,
`ExtendedVerifier`), so the functions below repeat those of `Model/Ext` and `Model/Prover`. -/

namespace Zksk

variable {E : Type} [AddCommGroup E] [DecidableEq E]

/-- What a subclass of `ExtendedProofStmt` (`zksk/extended.py:34-80`) defines, as in `ExtSpec`. -/
structure OuterSpec (E L : Type) where
  /-- class name -/
  cls : String
  /-- `construct_stmt(precommitment)` -/
  construct : Store → Val E → Except Err (Tree L)
  /-- `validate(precommitment)` -/
  validate : Val E → Except Err Unit
  /-- `precommit()` -/
  precommit : PM (Val E)
  /-- `simulate_precommit()` -/
  simPrecommit : PM (Val E)

/-- State of an extended statement object and of the verifier object attached to it
(`zksk/extended.py:85-91,137-140,225`), as in `Ext`. -/
structure Outer (E L : Type) where
  spec : OuterSpec E L
  simulated : Bool
  precommitment : Val E
  constructed : Option (Tree L)
  verifier : Option (Tree L)

namespace Outer
variable {L : Type} [StmtOps E L]

/-- Access to an attribute of `self.constructed_stmt` (`zksk/extended.py:85-87`), which may be `None`. -/
def inner (s : Outer E L) : Except Err (Tree L) :=
  match s.constructed with
  | some t => .ok t
  | none => .error .attributeError

/-- `full_construct_stmt` (`zksk/extended.py:137-140`). -/
def fullConstruct (σ : Store) (s : Outer E L) (v : Val E) : Except Err (Outer E L) := do
  let t ← s.spec.construct σ v
  .ok { s with precommitment := v, constructed := some t }

/-- `get_proof_id` (`zksk/extended.py:123-135`). -/
def proofId (σ : Store) (m : IdMap) (s : Outer E L) : Except Err (PId E) :=
  match s.constructed with
  | none => .error .valueError
  | some t => do
    let id ← Tree.proofIdWith σ m t
    .ok (.ext s.spec.cls s.precommitment id)

/-- `ExtendedVerifier.process_precommitment` (`zksk/extended.py:219-225`): the constructed verifier is
made afresh and receives no precommitment. -/
def process (σ : Store) (s : Outer E L) (v : Val E) : Except Err (Outer E L) := do
  let s' ← fullConstruct σ s v
  .ok { s' with verifier := s'.constructed.map Tree.freshVerifier }

/-- `ExtendedVerifier.check_responses_consistency` (`zksk/extended.py:239-245`). -/
def consistency (σ : Store) (s : Outer E L) (r : Val E) (d : Dict (Val E)) :
    Except Err (Bool × Dict (Val E)) :=
  match s.verifier with
  | none => .error .attributeError
  | some t => Tree.consistency σ t r d

/-- `prepare_simulate_proof` (`zksk/extended.py:142-144`). -/
def prepareSim (s : Outer E L) : PM (Outer E L) := do
  let v ← s.spec.simPrecommit
  let σ ← getStore
  liftE (fullConstruct σ s v)

/-- `simulate_proof` (`zksk/extended.py:146-158`). -/
def simulate (s : Outer E L) (d : Option (Dict Int)) (c : Option Int) : PM (Sim E) := do
  let t ← liftE s.inner
  let tr ← Tree.simulate t d c
  pure { tr with precommitment := s.precommitment }

end Outer

/-- A leaf that is either one of the leaves `L` or an extended statement over them. -/
inductive NLeaf (E L : Type) where
  | base (l : L)
  | outer (s : Outer E L)

/-- The methods of the statement classes, with `get_secret_vars`, `get_bases`, `full_validate` and
`recompute_commitment` of `zksk/extended.py:82-83,93-97,117-121`. -/
instance {L : Type} [StmtOps E L] : StmtOps E (NLeaf E L) where
  secretVars
    | .base l => StmtOps.secretVars l
    | .outer s => do (← s.inner).secretVars
  bases
    | .base l => StmtOps.bases l
    | .outer s => do (← s.inner).bases
  simulated
    | .base l => StmtOps.simulated l
    | .outer s => s.simulated
  setSimulated v
    | .base l => .base (StmtOps.setSimulated v l)
    | .outer s => .outer { s with simulated := v }
  proofId σ m
    | .base l => StmtOps.proofId σ m l
    | .outer s => s.proofId σ m
  freshVerifier
    | .base l => .base (StmtOps.freshVerifier l)
    | .outer s => .outer { s with verifier := none }
  process σ l v := match l with
    | .base l => (StmtOps.process σ l v).map .base
    | .outer s => (s.process σ v).map .outer
  fullValidate
    | .base l => StmtOps.fullValidate l
    | .outer s => s.spec.validate s.precommitment
  consistency σ l r d := match l with
    | .base l => StmtOps.consistency σ l r d
    | .outer s => s.consistency σ r d
  recompute l c r := match l with
    | .base l => StmtOps.recompute l c r
    | .outer s => do (← s.inner).recompute c r
  prepareSim
    | .base l => do pure (.base (← StmtOps.prepareSim l))
    | .outer s => do pure (.outer (← s.prepareSim))
  simulate l d c := match l with
    | .base l => StmtOps.simulate l d c
    | .outer s => s.simulate d c
  ignoresHash
    | .base l => StmtOps.ignoresHash l
    | .outer _ => false

/-- `ExtendedVerifier.send_challenge` (`zksk/extended.py:227-237`), as in `Model/Interactive`. -/
instance {L : Type} [StmtOps E L] [ChallengeOps L] : ChallengeOps (NLeaf E L) where
  gate
    | .base l => ChallengeOps.gate l
    | .outer s =>
      match s.verifier with
      | none => .error .attributeError
      | some v => if Tree.ignoresHash v then .ok () else .error .typeError

/-- `ExtendedProver` (`zksk/extended.py:165-211`). -/
structure OuterProver (E L P : Type) where
  stmt : Outer E L
  secretValues : Dict Int
  constructed : Option (PTree E L P)

namespace OuterProver
variable {L P : Type} [StmtOps E L] [ProverOps E L P]

/-- `ExtendedProofStmt.get_prover` (`zksk/extended.py:99-115`). -/
def getProver (s : Outer E L) (d : Dict Int) : PM (Option (OuterProver E L P) × Outer E L) := do
  let σ ← getStore
  setStore (updateSecretValues σ d)
  pure (some { stmt := s, secretValues := d, constructed := none }, s)

/-- The loop `for p in self.constructed_prover.subs: p.precommit()` (`zksk/extended.py:197-201`) on the
list `subs`: an `AttributeError` ends it, what has been pre-committed before stays.  Simplification:
what the call that raises has changed is dropped. -/
def precommitSubs : List (PTree E L P) → PM (List (PTree E L P))
  | [] => pure []
  | p :: ps => fun w =>
    match PTree.precommit p w with
    | .ok ((_, p'), w') => (do
        let ps' ← precommitSubs ps
        pure (p' :: ps') : PM (List (PTree E L P))) w'
    | .error .attributeError => .ok (p :: ps, w)
    | .error e => .error e

/-- The loop of `zksk/extended.py:197-201` for a constructed prover: only `AndProver` has an attribute
`subs` (`zksk/composition.py:844`); for the others (and for `None`) the `AttributeError` is dropped. -/
def precommitInner : Option (PTree E L P) → PM (Option (PTree E L P))
  | some (.and s subs) => do
    let subs' ← precommitSubs subs
    pure (some (.and s subs'))
  | p? => pure p?

/-- `ExtendedProver.precommit` and `.process_precommitment` (`zksk/extended.py:194-211`). -/
def precommit (p : OuterProver E L P) : PM (Val E × OuterProver E L P) := do
  let v ← p.stmt.spec.precommit
  let σ ← getStore
  let s' ← liftE (Outer.fullConstruct σ p.stmt v)
  let t ← liftE s'.inner
  let (cp, t') ← (PTree.getProver t p.secretValues : PM (Option (PTree E L P) × Tree L))
  let cp' ← precommitInner cp
  let t'' := match cp' with
    | some q => PTree.stmtOf q
    | none => t'
  pure (v, { p with stmt := { s' with constructed := some t'' }, constructed := cp' })

/-- `ExtendedProver.internal_commit` (`zksk/extended.py:172-183`). -/
def internalCommit (p : OuterProver E L P) (d : Option (Dict Int)) : PM (Val E × OuterProver E L P) :=
  match p.stmt.constructed with
  | none => raise .statementSpec
  | some _ =>
    match p.constructed with
    | none => raise .attributeError
    | some cp => do
      let (v, cp') ← PTree.internalCommit cp d
      pure (v, { p with constructed := some cp' })

/-- `ExtendedProver.compute_response` (`zksk/extended.py:185-192`). -/
def computeResponse (p : OuterProver E L P) (c : Int) : PM (Val E) :=
  match p.constructed with
  | none => raise .attributeError
  | some cp => PTree.computeResponse cp c

end OuterProver

/-- Prover of a leaf: one of the provers `P` of the leaves `L`, or an `ExtendedProver`
(`zksk/extended.py:165-211`). -/
inductive NLeafProver (E L P : Type) where
  | base (p : P)
  | outer (p : OuterProver E L P)

/-- The methods of the prover classes (`zksk/extended.py:99-115,165-211`). -/
instance {L P : Type} [StmtOps E L] [ProverOps E L P] : ProverOps E (NLeaf E L) (NLeafProver E L P) where
  stmtOf
    | .base p => .base (ProverOps.stmtOf p)
    | .outer p => .outer p.stmt
  getProver l d := match l with
    | .base l => do
      let (p?, l') ← (ProverOps.getProver l d : PM (Option P × L))
      pure (p?.map .base, .base l')
    | .outer s => do
      let (p?, s') ← OuterProver.getProver s d
      pure (p?.map .outer, .outer s')
  precommit
    | .base p => do
      let (v, p') ← ProverOps.precommit p
      pure (v, .base p')
    | .outer p => do
      let (v, p') ← OuterProver.precommit p
      pure (v, .outer p')
  internalCommit p d := match p with
    | .base p => do
      let (v, p') ← ProverOps.internalCommit p d
      pure (v, .base p')
    | .outer p => do
      let (v, p') ← OuterProver.internalCommit p d
      pure (v, .outer p')
  computeResponse p c := match p with
    | .base p => ProverOps.computeResponse p c
    | .outer p => OuterProver.computeResponse p c

end Zksk
