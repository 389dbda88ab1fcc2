import Verif.Model.Prover
import Mathlib.Data.ZMod.Basic

/-! Concrete data for the non-vacuity examples that accompany the theorems: the group `ℤ/7ℤ`. -/

namespace Zksk.Ex

/-- A group of order 7 with strict `wsum`. -/
def G : Grp := ⟨0, 7, true⟩

/-- The point `n` of the group. -/
def P (n : ZMod 7) : Pt (ZMod 7) := ⟨G, n⟩

/-- Secrets 0, 1, 2, … named `x0`, `x1`, `x2` with values 2, 3, 4. -/
def σ : Store where
  name s := if s = 0 then "x0" else if s = 1 then "x1" else "x2"
  value s := if s = 0 then some 2 else if s = 1 then some 3 else some 4

/-- No values known. -/
def σ0 : Store := { σ with value := fun _ => none }

/-- `8 = 2·1 + 3·2`, i.e. `1 = x0·1 + x1·2` in `ℤ/7ℤ`. -/
def rep1 : DLRep (ZMod 7) := ⟨P 1, [P 1, P 2], [0, 1], [], false⟩

/-- `6 = x0·3`. -/
def rep2 : DLRep (ZMod 7) := ⟨P 6, [P 3], [0], [], false⟩

/-- `5 = x2·3` (`4·3 = 12 = 5`). -/
def rep3 : DLRep (ZMod 7) := ⟨P 5, [P 3], [2], [], false⟩

/-- External functions with a constant challenge. -/
def env (c : Int) : Env (ZMod 7) where
  sha _ := []
  toInt _ := c
  idBytes _ := []
  encode _ := []
  utf8 _ := []

end Zksk.Ex
