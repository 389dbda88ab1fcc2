import Verif.SpecExt

/-! # Disjunctions inside conjunctions, with extended parts -/

namespace Zksk.Spec

variable {E : Type} [AddCommGroup E] [DecidableEq E]

/-- Going down from the first statement through conjunctions only one reaches the disjunction `u`; the list has the
other parts of the conjunctions passed. -/
inductive OrPart : Stmt E → Stmt E → List (Stmt E) → Prop
  | here (b : Bool) (us : List (Stmt E)) : OrPart (.or b us) (.or b us) []
  | down (b : Bool) (ls : List (Stmt E)) (t : Stmt E) (rs : List (Stmt E)) (u : Stmt E) (rest : List (Stmt E))
      (h : OrPart t u rest) : OrPart (.and b (ls ++ t :: rs)) u (ls ++ rs ++ rest)

/-- The secret object `x` is in the representation, or in all statements that the extended statement constructs. -/
def LeafSpeaks (x : Sec) : Leaf E → Prop
  | .dlrep s => x ∈ s.secretVars
  | .ext s => ∀ (σ : Store) (v : Val E) k, s.spec.construct σ v = .ok k → x ∈ secrets k

/-- `LeafSpeaks` for a leaf of the statement. -/
def SpeaksOf (x : Sec) (t : Stmt E) : Prop := ∃ l, HasLeaf l t ∧ LeafSpeaks x l

/-- What an extended statement remembers as constructed is something it can construct, up to flags and remembered
values; in particular this is so for an object that was not used yet, which remembers nothing. -/
def OwnLeaf : Leaf E → Prop
  | .dlrep _ => True
  | .ext s => ∀ k, s.constructed = some k → ∃ (σ : Store) (v : Val E) (k0 : Core E), s.spec.construct σ v = .ok k0 ∧
      shape k = shape k0 ∧ secrets k = secrets k0

/-- The secret object `x` is multiplied with an element of a group of order `n` in the representation, or in all
statements that the extended statement constructs. -/
def LeafOrder (x : Sec) (n : Nat) : Leaf E → Prop
  | .dlrep s => ∃ b, (x, b) ∈ s.secretVars.zip s.bases ∧ b.grp.order = n
  | .ext s => ∀ (σ : Store) (v : Val E) k, s.spec.construct σ v = .ok k → ∃ b, (x, b) ∈ terms k ∧ b.grp.order = n

/-- `LeafOrder` for a leaf of the statement. -/
def UsesOrder (x : Sec) (n : Nat) (t : Stmt E) : Prop := ∃ l, HasLeaf l t ∧ LeafOrder x n l

/-- As many secrets as bases in all representations, also in those constructed, and no empty composition. -/
inductive Regular : Stmt E → Prop
  | rep (s : DLRep E) (h : s.secretVars.length = s.bases.length) : Regular (.leaf (.dlrep s))
  | ext (s : Ext E) (h : ∀ (σ : Store) (v : Val E) k, s.spec.construct σ v = .ok k → WellFormed k) :
      Regular (.leaf (.ext s))
  | all (b : Bool) (ts : List (Stmt E)) (hne : ts ≠ []) (h : ∀ t ∈ ts, Regular t) : Regular (.and b ts)
  | any (b : Bool) (ts : List (Stmt E)) (hne : ts ≠ []) (h : ∀ t ∈ ts, Regular t) : Regular (.or b ts)

end Zksk.Spec
