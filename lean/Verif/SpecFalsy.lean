import Verif.SpecExt
import Verif.SpecLeak
import Verif.SpecProver

/-! # Statements whose precommitments count as missing -/

namespace Zksk.Spec

variable {E : Type}

/-- The precommitments of the extended statement, real and simulated, count as false for Python, as the empty list
of the default implementations does. -/
def FalsySpec (s : ExtSpec E) : Prop :=
  (∀ (w w' : World) (v : Val E), s.precommit w = .ok (v, w') → v.truthy = false) ∧
  (∀ (w w' : World) (v : Val E), s.simPrecommit w = .ok (v, w') → v.truthy = false)

/-- A single extended statement with such precommitments, or a representation. -/
def FalsyLeaf (t : Stmt E) : Prop :=
  (∃ s : DLRep E, t = .leaf (.dlrep s)) ∨ ∃ s : Ext E, t = .leaf (.ext s) ∧ FalsySpec s.spec

/-- Statements of which the precommitment of an honest prover leaves out something that the verifier needs:

* `flat`: disjunctions of single statements with precommitments that count as false, at least one of them extended;
* `plain`: disjunctions that have other clauses of this kind only, at least one of them extended, all of them to be
  simulated, while the clause to be proved is a composition of representations;
* `part`: conjunctions with such a part;
* `pick`: disjunctions with such a clause, the others being marked as simulated. -/
inductive Stranded [AddCommGroup E] [DecidableEq E] : Stmt E → Prop
  | flat (b : Bool) (subs : List (Stmt E)) (e : Ext E) (he : .leaf (.ext e) ∈ subs) (h : ∀ t ∈ subs, FalsyLeaf t) :
      Stranded (.or b subs)
  | plain (b : Bool) (subs : List (Stmt E)) (i : Nat) (u : Stmt E) (hi : subs[i]? = some u) (hu : Unadorned u)
      (e : Ext E) (he : .leaf (.ext e) ∈ subs)
      (h : ∀ (j : Nat) t, subs[j]? = some t → j ≠ i → FalsyLeaf t ∧ t.simulated = true) : Stranded (.or b subs)
  | part (b : Bool) (subs : List (Stmt E)) (t : Stmt E) (ht : t ∈ subs) (h : Stranded t) : Stranded (.and b subs)
  | pick (b : Bool) (subs : List (Stmt E)) (i : Nat) (u : Stmt E) (hi : subs[i]? = some u) (hu : Stranded u)
      (h : ∀ (j : Nat) t, subs[j]? = some t → j ≠ i → t.simulated = true) : Stranded (.or b subs)

end Zksk.Spec
