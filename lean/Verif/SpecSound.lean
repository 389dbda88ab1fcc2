import Verif.SpecStmt
import Mathlib.RingTheory.Coprime.Basic
import Mathlib.Algebra.Order.Group.Unbundled.Abs

/-! # Specification vocabulary for soundness -/

namespace Zksk.Spec

variable {E : Type} [AddCommGroup E]

mutual
/-- `Q` annihilates all points of the statement. -/
def Killed (Q : Int) : Core E → Prop
  | .leaf s => Q • s.lhs.val = 0 ∧ ∀ b ∈ s.bases, Q • b.val = 0
  | .and _ subs => KilledL Q subs
  | .or _ subs => KilledL Q subs
/-- `Killed` for lists. -/
def KilledL (Q : Int) : List (Core E) → Prop
  | [] => True
  | t :: ts => Killed Q t ∧ KilledL Q ts
end

mutual
/-- The responses to every disjunction give one sub-challenge per clause, each in the range
`(-2^128, 2^128)` in which those of honest provers lie. -/
def InRange : Core E → Val E → Prop
  | .leaf _, _ => True
  | .and _ subs, r => InRangeL subs r 0
  | .or _ subs, r =>
    (∀ cs : List Int, r.index 0 = .ok (.list (cs.map .int)) →
      cs.length = subs.length ∧ ∀ c ∈ cs, -2 ^ 128 < c ∧ c < 2 ^ 128) ∧
    ∀ rs, r.index 1 = .ok rs → InRangeL subs rs 0
/-- `InRange` for the statements of a list with the responses from position `i` on. -/
def InRangeL : List (Core E) → Val E → Nat → Prop
  | [], _, _ => True
  | t :: ts, r, i => (∀ ri, r.index i = .ok ri → InRange t ri) ∧ InRangeL ts r (i + 1)
end

mutual
/-- The responses have the form of the statement, and those to every disjunction are a tuple of sub-challenges and responses, with
one sub-challenge in the range `(-2^128, 2^128)` per clause. -/
def Ranged : Core E → Val E → Prop
  | .leaf _, _ => True
  | .and _ subs, r => ∃ rs, r = .list rs ∧ RangedL subs rs
  | .or _ subs, r => ∃ (cs : List Int) (rs : List (Val E)), r = .tuple [.list (cs.map .int), .list rs] ∧ cs.length = subs.length ∧
      (∀ c ∈ cs, -2 ^ 128 < c ∧ c < 2 ^ 128) ∧ RangedL subs rs
/-- `Ranged` for the statements of a list, each with the responses at the same position. -/
def RangedL : List (Core E) → List (Val E) → Prop
  | [], rs => rs = []
  | t :: ts, rs => ∃ r rs', rs = r :: rs' ∧ Ranged t r ∧ RangedL ts rs'
end

/-- All prime factors of `Q` are large: differences of two sub-challenges in range are invertible. -/
def BigFactors (Q : Int) : Prop := ∀ n : Int, n ≠ 0 → |n| < 2 ^ 129 → IsCoprime n Q

mutual
/-- Responses made from public data only: zeros for all secrets; in every disjunction the whole challenge
`c` goes to the first clause and 0 to the others. -/
def blindResponses (c : Int) : Core E → Val E
  | .leaf s => .list (s.secretVars.map fun _ => .int 0)
  | .and _ subs => .list (blindAll c subs)
  | .or _ subs => .tuple [.list (blindChallenges c subs), .list (blindFirst c subs)]
/-- The same challenge for all statements of a list. -/
def blindAll (c : Int) : List (Core E) → List (Val E)
  | [] => []
  | t :: ts => blindResponses c t :: blindAll c ts
/-- The challenge for the first statement of a list, 0 for the others. -/
def blindFirst (c : Int) : List (Core E) → List (Val E)
  | [] => []
  | t :: ts => blindResponses c t :: blindAll 0 ts
/-- `c, 0, 0, …`, one entry per statement. -/
def blindChallenges (c : Int) : List (Core E) → List (Val E)
  | [] => []
  | _ :: ts => .int c :: ts.map fun _ => .int 0
end

mutual
/-- The commitment whose points are all the neutral element. -/
def zeroCommitment : Core E → Val E
  | .leaf s => .pt ⟨s.lhs.grp, 0⟩
  | .and _ subs => .list (zeroCommitments subs)
  | .or _ subs => .list (zeroCommitments subs)
/-- `zeroCommitment` for lists. -/
def zeroCommitments : List (Core E) → List (Val E)
  | [] => []
  | t :: ts => zeroCommitment t :: zeroCommitments ts
end

/-- All representations that are not below a disjunction are true under `X`.  Nothing is said about clauses of
disjunctions. -/
inductive OutsideTrue (σ : Store) (X : Key → Int) : Core E → Prop
  | rep (s : DLRep E) (h : Holds σ (.leaf s) X) : OutsideTrue σ X (.leaf s)
  | all (b : Bool) (subs : List (Core E)) (h : ∀ t ∈ subs, OutsideTrue σ X t) : OutsideTrue σ X (.and b subs)
  | any (b : Bool) (subs : List (Core E)) : OutsideTrue σ X (.or b subs)

mutual
/-- Responses to `c` made from the values `X` of the secrets outside all disjunctions: `c` times the secret, and
for a disjunction the sub-challenge 0 for every clause, followed by `c` as one sub-challenge too many. -/
def forgedResponses (σ : Store) (X : Key → Int) (c : Int) : Core E → Val E
  | .leaf s => .list (s.secretVars.map fun x => .int (c * X (σ.key x)))
  | .and _ subs => .list (forgedAll σ X c subs)
  | .or _ subs => .tuple [.list (subs.map (fun _ => .int 0) ++ [.int c]), .list (blindAll 0 subs)]
/-- `forgedResponses` for lists. -/
def forgedAll (σ : Store) (X : Key → Int) (c : Int) : List (Core E) → List (Val E)
  | [] => []
  | t :: ts => forgedResponses σ X c t :: forgedAll σ X c ts
end

end Zksk.Spec
