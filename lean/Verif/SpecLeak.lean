import Verif.Model.Prover

/-! # Specification vocabulary: what the sub-challenges of disjunctions look like -/

namespace Zksk.Spec

variable {E : Type}

/-- The sub-challenges `cs` of a disjunction of `n` clauses for the challenge `c`, when clause `i` was
proved and the others were simulated: the one of clause `i` is never positive, the others are never
negative. -/
structure OrSigns (n i : Nat) (c : Int) (cs : List Int) : Prop where
  length : cs.length = n
  index : i < n
  sum : cs.sum % 2 ^ challengeLength = c % 2 ^ challengeLength
  proved : ∀ x, cs[i]? = some x → -(2 : Int) ^ challengeLength < x ∧ x ≤ 0
  others : ∀ (j : Nat) x, cs[j]? = some x → j ≠ i → 0 ≤ x ∧ x < 2 ^ challengeLength

/-- The responses `r` to the challenge `c` show, at all disjunctions, at any depth, which are reached through
conjunctions and through proved clauses, one clause that was not marked as simulated as the one with the
non-positive sub-challenge.  `leaf` says the same for the parts that are not composed. -/
inductive Signed {L : Type} [StmtOps E L] (leaf : L → Int → Val E → Prop) : Tree L → Int → Val E → Prop
  | leaf (l : L) (c : Int) (r : Val E) (h : leaf l c r) : Signed leaf (.leaf l) c r
  | all (b : Bool) (subs : List (Tree L)) (c : Int) (rs : List (Val E)) (hl : rs.length = subs.length)
      (h : ∀ (i : Nat) t r, subs[i]? = some t → rs[i]? = some r → Signed leaf t c r) :
      Signed leaf (.and b subs) c (.list rs)
  | any (b : Bool) (subs : List (Tree L)) (c : Int) (cs : List Int) (rs : List (Val E)) (i : Nat) (t : Tree L)
      (ht : subs[i]? = some t) (hu : t.simulated = false) (hs : OrSigns subs.length i c cs)
      (hl : rs.length = subs.length)
      (h : ∀ x r, cs[i]? = some x → rs[i]? = some r → Signed leaf t x r) :
      Signed leaf (.or b subs) c (.tuple [.list (cs.map Val.int), .list rs])

/-- The same inside of an extended part: the statement constructed from the precommitment, for the values
that the secrets have then, is shown to be `Signed`. -/
def Shown [AddCommGroup E] [DecidableEq E] (J : Store → Prop) : Leaf E → Int → Val E → Prop
  | .dlrep _, _, _ => True
  | .ext e, c, r => ∃ (w w' : World) (v : Val E) (k : Core E), J w.store ∧ e.spec.precommit w = .ok (v, w') ∧
      e.spec.construct w'.store v = .ok k ∧ Signed (fun _ _ _ => True) k c r

/-- A composition of representations in which no disjunction has a composed clause. -/
inductive Unadorned : Stmt E → Prop
  | rep (s : DLRep E) : Unadorned (.leaf (.dlrep s))
  | all (b : Bool) (subs : List (Stmt E)) (h : ∀ t ∈ subs, Unadorned t) : Unadorned (.and b subs)
  | any (b : Bool) (subs : List (Stmt E)) (h : ∀ t ∈ subs, ∃ s, t = .leaf (.dlrep s)) : Unadorned (.or b subs)

/-- A conjunction or disjunction of at least one part. -/
def Composed : Stmt E → Prop
  | .leaf _ => False
  | .and _ subs => subs ≠ []
  | .or _ subs => subs ≠ []

/-- What the precommitment of a disjunction says about its clause `j`; if there is no precommitment at all,
nothing. -/
def saidOf (v : Val E) (j : Nat) : Val E :=
  match v with
  | .list vs => vs[j]?.getD .none
  | _ => .none

/-- What can be read off the responses of a disjunction of two clauses: the clause with the negative
sub-challenge, or the one other than the one with a positive sub-challenge, was proved. -/
def readClause : Val E → Option Nat
  | .tuple [.list [.int c₀, .int c₁], _] =>
    if c₀ < 0 ∨ 0 < c₁ then some 0 else if c₁ < 0 ∨ 0 < c₀ then some 1 else none
  | _ => none

/-- The number whose binary digits, least significant one first, are the clauses proved in a list of
disjunctions of two clauses. -/
def readNumber : List (Val E) → Option Nat
  | [] => some 0
  | r :: rs => do
    let b ← readClause r
    let n ← readNumber rs
    some (b + 2 * n)

/-- The number that the responses of a range proof for a power of two reveal. -/
def readValue : Val E → Option Nat
  | .list rs => readNumber rs
  | _ => none

end Zksk.Spec
