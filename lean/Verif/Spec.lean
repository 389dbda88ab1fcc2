import Mathlib.Algebra.BigOperators.Group.List.Basic
import Mathlib.Algebra.Ring.Int.Defs
import Verif.Model.Basic

/-!
# Independent specification vocabulary

Small definitions used to *state* properties.  Nothing here refers to the functions of the model,
only to its data (`Pt`, `Val`).
-/

namespace Zksk.Spec

/-- `b₀·2⁰ + b₁·2¹ + b₂·2² + …` -/
def bitSum (bits : List Int) : Int :=
  ((List.range bits.length).map (fun i => bits.getD i 0 * 2 ^ i)).sum

/-- Two lists show the same pattern of equal entries. -/
def SamePattern {α β : Type} (l : List α) (l' : List β) : Prop :=
  l.length = l'.length ∧
    ∀ (i j : Nat) (a b : α) (a' b' : β), l[i]? = some a → l[j]? = some b →
      l'[i]? = some a' → l'[j]? = some b' → (a = b ↔ a' = b')

/-- The distinct entries of a list, in order of first occurrence. -/
def distinct {α : Type} [DecidableEq α] (l : List α) : List α :=
  l.foldl (fun acc a => if a ∈ acc then acc else acc ++ [a]) []

/-- What a statement says, up to the identity of the secrets: the tree of connectives, and for every
discrete-logarithm representation its left-hand side, its bases in order and the number of secrets.
An extended statement is its class, its precommitment and the statement it stands for. -/
inductive Skel (E : Type) where
  | rep (lhs : Pt E) (bases : List (Pt E)) (numSecrets : Nat)
  | all (subs : List (Skel E))
  | any (subs : List (Skel E))
  | ext (cls : String) (precommitment : Val E) (inner : Skel E)

end Zksk.Spec
