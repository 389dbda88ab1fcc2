import Verif.Model.NotEqual

/-! # Primitives of the tutorial (`examples/`, `docs/new_primitives.rst`) -/

namespace Zksk

variable {E : Type} [AddCommGroup E] [DecidableEq E]

/-- A subclass of `ExtendedProofStmt` that overrides only `construct_stmt`; the other methods are the inherited ones
(`zksk/extended.py:48-80`): `precommit` returns `[]`, `simulate_precommit` raises, `validate` does nothing. -/
def ExtSpec.onlyConstructs (cls : String) (construct : Store → Val E → Except Err (Core E)) : ExtSpec E where
  cls := cls
  construct := construct
  validate _ := .ok ()
  precommit := pure (.list [])
  simPrecommit := raise .statementSpec

/-- An `AdditiveElgamalPlaintextProof` object (`examples/primitive_knowledge_elgamal.py:44-48`): the ciphertext
`ctxt = (c1, c2)`, the public key `pk = (g, h)` (`:18-25`), and the two secrets. -/
structure ElGamal (E : Type) where
  c1 : Pt E
  c2 : Pt E
  g : Pt E
  h : Pt E
  msg : Sec
  randomizer : Sec

namespace ElGamal

/-- `construct_stmt` (`examples/primitive_knowledge_elgamal.py:50-53`). -/
def construct (s : ElGamal E) (σ : Store) (_ : Val E) : Except Err (Core E) := do
  let part1 ← mkDLRep σ s.c1 [s.randomizer] [s.g] false
  let part2 ← mkDLRep σ s.c2 [s.randomizer, s.msg] [s.h, s.g] false
  mkAnd [.leaf part1, .leaf part2]

/-- The subclass (`examples/primitive_knowledge_elgamal.py:28-53`). -/
def spec (s : ElGamal E) : ExtSpec E := .onlyConstructs "AdditiveElgamalPlaintextProof" s.construct

/-- The statement object right after `AdditiveElgamalPlaintextProof(...)`. -/
def stmt (s : ElGamal E) : Stmt E := .leaf (.ext ⟨s.spec, false, .none, none, none⟩)

end ElGamal

/-- A `DLNotEqual` object of the tutorial (`examples/primitive_dl_notequal.py:14-21`): `lhs`, `generators`, the
secret and the two internal secrets.  `gen` is `generators[0].group.generator()`. -/
structure TutorialNotEqual (E : Type) where
  lhs0 : Pt E
  lhs1 : Pt E
  generator0 : Pt E
  generator1 : Pt E
  gen : Pt E
  x : Sec
  alpha : Sec
  beta : Sec

namespace TutorialNotEqual

/-- `precommit` (`examples/primitive_dl_notequal.py:23-32`). -/
def precommit (s : TutorialNotEqual E) : PM (Val E) := do
  let order := s.generator0.grp.order
  let blinder ← draw order
  let σ ← getStore
  match σ.value s.x with
  | none => raise .typeError
  | some x => do
    setStore (σ.setValue s.alpha (x * blinder % (order : Int)))
    let σ1 ← getStore
    setStore (σ1.setValue s.beta (-blinder % (order : Int)))
    let σ2 ← getStore
    match σ2.value s.x with
    | none => raise .typeError
    | some x' => do
      let d ← liftE ((Pt.smul x' s.generator1).sub s.lhs1)
      pure (.pt (Pt.smul blinder d))

/-- `construct_stmt` (`examples/primitive_dl_notequal.py:34-38`).  Simplification: a precommitment that is not a
point is refused here, whereas Python stores it and fails when it is first used as a point. -/
def construct (s : TutorialNotEqual E) (σ : Store) (v : Val E) : Except Err (Core E) := do
  let c ← v.asPt
  let p1 ← mkDLRep σ s.generator0.grp.inf [s.alpha, s.beta] [s.generator0, s.lhs0] false
  let p2 ← mkDLRep σ c [s.alpha, s.beta] [s.generator1, s.lhs1] false
  mkAnd [.leaf p1, .leaf p2]

/-- The subclass (`examples/primitive_dl_notequal.py:14-47`): `validate` is `:40-42`, `simulate_precommit`
`:44-47`. -/
def spec (s : TutorialNotEqual E) : ExtSpec E where
  cls := "DLNotEqual"
  construct := s.construct
  validate v := if v = .pt s.generator0.grp.inf then .error .validation else .ok ()
  precommit := s.precommit
  simPrecommit := do
    let k ← draw s.generator0.grp.order
    pure (.pt (Pt.smul k s.gen))

/-- The statement object right after `DLNotEqual(...)`. -/
def stmt (s : TutorialNotEqual E) : Stmt E := .leaf (.ext ⟨s.spec, false, .none, none, none⟩)

end TutorialNotEqual
end Zksk
