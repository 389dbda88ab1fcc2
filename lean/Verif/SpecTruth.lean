import Verif.SpecExt
import Verif.SpecSound

/-! # Specification vocabulary: truth of statements with extended parts -/

namespace Zksk.Spec

variable {E : Type} [AddCommGroup E]

/-- The statement is true for the values `X` of the secrets, when `sem` says what its extended parts mean:
representations hold as equations in one group, a conjunction needs one assignment for all conjuncts, a
disjunction needs one clause, true for some values of its own. -/
inductive Truth (sem : ExtSpec E → (Key → Int) → Prop) (σ : Store) : Stmt E → (Key → Int) → Prop
  | rep (s : DLRep E) (X : Key → Int) (hgrp : ∀ b ∈ s.bases, b.grp = s.lhs.grp)
      (h : s.lhs.val = (List.zipWith (fun x b => X (σ.key x) • b.val) s.secretVars s.bases).sum) :
      Truth sem σ (.leaf (.dlrep s)) X
  | ext (e : Ext E) (X : Key → Int) (h : sem e.spec X) : Truth sem σ (.leaf (.ext e)) X
  | all (b : Bool) (subs : List (Stmt E)) (X : Key → Int) (h : ∀ t ∈ subs, Truth sem σ t X) :
      Truth sem σ (.and b subs) X
  | any (b : Bool) (subs : List (Stmt E)) (X X' : Key → Int) (t : Stmt E) (ht : t ∈ subs)
      (h : Truth sem σ t X') : Truth sem σ (.or b subs) X

/-- There is no disjunction in the statement (outside of its extended parts). -/
inductive NoOr : Stmt E → Prop
  | leaf (l : Leaf E) : NoOr (.leaf l)
  | all (b : Bool) (subs : List (Stmt E)) (h : ∀ t ∈ subs, NoOr t) : NoOr (.and b subs)

/-- A representation has as many secrets as bases; an extended statement has the property `good`. -/
def LeafOK (good : ExtSpec E → Prop) : Leaf E → Prop
  | .dlrep s => s.secretVars.length = s.bases.length
  | .ext e => good e.spec

/-- The responses `r` have `y` for an occurrence of the secret `x` in a representation that is, by way of
conjunctions, a part of the statement. -/
inductive Answered : Stmt E → Val E → Sec → Val E → Prop
  | rep (s : DLRep E) (r : Val E) (i : Nat) (x : Sec) (y : Val E) (hx : s.secretVars[i]? = some x)
      (hr : r.index i = .ok y) : Answered (.leaf (.dlrep s)) r x y
  | all (b : Bool) (subs : List (Stmt E)) (r ri : Val E) (i : Nat) (t : Stmt E) (x : Sec) (y : Val E)
      (ht : subs[i]? = some t) (hr : r.index i = .ok ri) (h : Answered t ri x y) : Answered (.and b subs) r x y

end Zksk.Spec
