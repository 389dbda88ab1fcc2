import Verif.Model.Expr

/-! # Specification vocabulary for expressions -/

namespace Zksk.Spec

variable {E : Type} [AddCommGroup E] [DecidableEq E]

/-- A formula `x₁·G₁ + (x₂·G₂ + …)`, bracketed in any way. -/
inductive Formula (E : Type) where
  | term (x : Sec) (b : Pt E)
  | plus (l r : Formula E)

namespace Formula

/-- The products of a formula, from left to right. -/
def products : Formula E → List (Sec × Pt E)
  | .term x b => [(x, b)]
  | .plus l r => l.products ++ r.products

/-- The value of a formula when secret `x` is the number `v x`. -/
def value (v : Sec → Int) : Formula E → E
  | .term x b => v x • b.val
  | .plus l r => l.value v + r.value v

/-- Executing the Python text of the formula; every sub-formula is an expression of its own. -/
def run : Formula E → EHeap E → Except Err (Nat × EHeap E)
  | .term x b, h => newExpr h (.secret x) b
  | .plus l r, h => do
    let (a, h1) ← l.run h
    let (b, h2) ← r.run h1
    addExpr h2 a (.expr b)

end Formula

/-- A heap of expressions that some program can have produced: a program multiplies secrets by points,
adds expressions it has, in any order and as often as it likes. -/
inductive Reached : EHeap E → Prop
  | start : Reached []
  | mul {h h' : EHeap E} {r : Nat} (s : Sec) (b : Pt E) (h0 : Reached h)
      (h1 : newExpr h (.secret s) b = .ok (r, h')) : Reached h'
  | add {h h' : EHeap E} {r : Nat} (l o : Nat) (h0 : Reached h)
      (h1 : addExpr h l (.expr o) = .ok (r, h')) : Reached h'

end Zksk.Spec
