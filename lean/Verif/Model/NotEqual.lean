import Verif.Model.Ext

/-! # Inequality of discrete logarithms (`zksk/primitives/dl_notequal.py`) -/

namespace Zksk

variable {E : Type} [AddCommGroup E] [DecidableEq E]

/-- A `DLNotEqual` object (`zksk/primitives/dl_notequal.py:47-61`): `valid_pair = (lhs0, g)`,
`invalid_pair = (lhs1, h)`, the secret `x`, the two internal secrets `alpha`, `beta` and the flag
`bind`.  `gen` is `g.group.generator()`. -/
structure NotEqual (E : Type) where
  lhs0 : Pt E
  g : Pt E
  lhs1 : Pt E
  h : Pt E
  gen : Pt E
  x : Sec
  alpha : Sec
  beta : Sec
  bind : Bool

namespace NotEqual

/-- `precommit` (`zksk/primitives/dl_notequal.py:63-73`). -/
def precommit (s : NotEqual E) : PM (Val E) := do
  let order := s.g.grp.order
  let blinder ← draw order
  let σ ← getStore
  match σ.value s.x with
  | none => raise .typeError
  | some x => do
    setStore (σ.setValue s.alpha (x * blinder % (order : Int)))
    let σ1 ← getStore
    setStore (σ1.setValue s.beta (-blinder % (order : Int)))
    let σ2 ← getStore
    match σ2.value s.x with
    | none => raise .typeError
    | some x' => do
      let d ← liftE ((Pt.smul x' s.h).sub s.lhs1)
      pure (.pt (Pt.smul blinder d))

/-- `construct_stmt` (`zksk/primitives/dl_notequal.py:75-92`).  Simplification: a precommitment that
is not a point is refused here, whereas Python stores it and fails when it is first used as a
point. -/
def construct (s : NotEqual E) (σ : Store) (v : Val E) : Except Err (Core E) := do
  let c ← v.asPt
  let p1 ← mkDLRep σ s.g.grp.inf [s.alpha, s.beta] [s.g, s.lhs0] false
  let p2 ← mkDLRep σ c [s.alpha, s.beta] [s.h, s.lhs1] false
  if s.bind then do
    let p3 ← mkDLRep σ s.lhs0 [s.x] [s.g] false
    mkAnd [.leaf p1, .leaf p2, .leaf p3]
  else mkAnd [.leaf p1, .leaf p2]

/-- `validate` (`zksk/primitives/dl_notequal.py:94-99`). -/
def validate (s : NotEqual E) (v : Val E) : Except Err Unit :=
  if v = .pt s.g.grp.inf then .error .validation else .ok ()

/-- `simulate_precommit` (`zksk/primitives/dl_notequal.py:101-107`). -/
def simPrecommit (s : NotEqual E) : PM (Val E) := do
  let k ← draw s.g.grp.order
  pure (.pt (Pt.smul k s.gen))

/-- The subclass. -/
def spec (s : NotEqual E) : ExtSpec E where
  cls := "DLNotEqual"
  construct := s.construct
  validate := s.validate
  precommit := s.precommit
  simPrecommit := s.simPrecommit

/-- The statement object right after `DLNotEqual(...)`. -/
def stmt (s : NotEqual E) : Stmt E :=
  .leaf (.ext ⟨s.spec, false, .none, none, none⟩)

end NotEqual
end Zksk
