import Verif.SpecStmt

/-!
# The form of a proof

When the parts of a proof have the number and types that the statement calls for.  Nothing here calls a function of
the verifier; only Python indexing is used.
-/

namespace Zksk.Spec

variable {E : Type} [AddCommGroup E]

/-- The responses `r` have the form that the statement calls for, whatever the numbers in them:
* representation: a list (or tuple) of integers, one for every secret;
* conjunction: an answer of the right form for every part;
* disjunction: a list of integer sub-challenges, enough for all clauses, and an answer of the right form for every
  clause. -/
inductive Formed : Core E → Val E → Prop
  | rep (s : DLRep E) (r : Val E) (ws : List Int) (hr : r = .list (ws.map .int) ∨ r = .tuple (ws.map .int))
      (hlen : ws.length = s.secretVars.length) : Formed (.leaf s) r
  | all (b : Bool) (subs : List (Core E)) (r : Val E) (ri : Nat → Val E)
      (hri : ∀ i, i < subs.length → r.index i = .ok (ri i))
      (h : ∀ i t, subs[i]? = some t → Formed t (ri i)) : Formed (.and b subs) r
  | any (b : Bool) (subs : List (Core E)) (r rs : Val E) (cs : List Int) (ri : Nat → Val E)
      (hcs : r.index 0 = .ok (.list (cs.map .int))) (hrs : r.index 1 = .ok rs) (hlen : subs.length ≤ cs.length)
      (hri : ∀ i, i < subs.length → rs.index i = .ok (ri i))
      (h : ∀ i t, subs[i]? = some t → Formed t (ri i)) : Formed (.or b subs) r

/-- The precommitment `v` has the form that the statement calls for, and with it the statement stands for the
composition of representations `k`: every extended statement finds what `construct_stmt()` needs, and its
`validate()` decides, accepting or raising `ValidationError`. -/
inductive Legible (σ : Store) : Stmt E → Val E → Core E → Prop
  | bare (k : Core E) : Legible σ (embed k) .none k
  | rep (s : DLRep E) (v : Val E) : Legible σ (.leaf (.dlrep s)) v (.leaf s)
  | ext (s : Ext E) (v : Val E) (k : Core E) (hc : s.spec.construct σ v = .ok k)
      (hv : s.spec.validate v = .ok () ∨ s.spec.validate v = .error .validation) :
      Legible σ (.leaf (.ext s)) v k
  | all (b : Bool) (subs : List (Stmt E)) (v : Val E) (vi : Nat → Val E) (ks : List (Core E)) (hv : v ≠ .none)
      (hk : ks.length = subs.length) (hvi : ∀ i, i < subs.length → v.index i = .ok (vi i))
      (h : ∀ i t k, subs[i]? = some t → ks[i]? = some k → Legible σ t (vi i) k) :
      Legible σ (.and b subs) v (.and b ks)
  | any (b : Bool) (subs : List (Stmt E)) (v : Val E) (vi : Nat → Val E) (ks : List (Core E)) (hv : v ≠ .none)
      (hk : ks.length = subs.length) (hvi : ∀ i, i < subs.length → v.index i = .ok (vi i))
      (h : ∀ i t k, subs[i]? = some t → ks[i]? = some k → Legible σ t (vi i) k) :
      Legible σ (.or b subs) v (.or b ks)

/-- The exceptions of the library that say that a proof is not accepted: `StatementMismatch`, `ValidationError`,
`InconsistentChallengeError`. -/
def Refusal (e : Err) : Prop := e = .statementMismatch ∨ e = .validation ∨ e = .inconsistentChallenge

/-- A Boolean, or an exception saying that the proof is not accepted. -/
def Decides (x : Except Err Bool) : Prop := (∃ b, x = .ok b) ∨ ∃ e, x = .error e ∧ Refusal e

end Zksk.Spec
