import Verif.Model.Shared

/-! # Vocabulary for conversations that share one extended statement object -/

namespace Zksk.Spec

variable {E : Type} [AddCommGroup E] [DecidableEq E]

open Shared

/-- The calls that store a precommitment in the statement object. -/
def Replaces : Call E → Prop
  | .precommit _ => True
  | .process _ _ => True
  | .prove _ _ => True
  | .check _ _ => True
  | .getProver _ => False
  | .commit _ => False
  | .respond _ _ => False
  | .getVerifier => False
  | .challenge _ _ _ => False
  | .verify _ _ => False

/-- The calls on verifier number `j`. -/
def OnVerifier (j : Nat) : Call E → Prop
  | .process k _ => k = j
  | .challenge k _ _ => k = j
  | .verify k _ => k = j
  | _ => False

/-- The calls on prover number `i`. -/
def OnProver (i : Nat) : Call E → Prop
  | .precommit k => k = i
  | .commit k => k = i
  | .respond k _ => k = i
  | _ => False

/-- The precommitment that a call stores in the statement object: the one that a prover sends, the one
that a verifier receives, the one of a proof that is made or checked.  Whether the verifier is content
with it does not matter. -/
def Stores (env : Env E) (o : Objs E) (w : World) : Call E → Val E → Prop
  | .precommit i, v => (step env o w (.precommit i)).1 = .ok (.val v)
  | .process j v', v => v' = v ∧ j < o.verifiers.length
  | .prove d m, v => ∃ n, (step env o w (.prove d m)).1 = .ok (.proof n) ∧ n.precommitment = v
  | .check n _, v => n.precommitment = v ∧ v.isNone = false
  | _, _ => False

/-- A statement object as its constructor leaves it: no precommitment, nothing constructed. -/
def own (s : Ext E) : Ext E := { s with precommitment := .none, constructed := none, verifier := none }

/-- What the caller of a method sees: the result or the exception. -/
def seen {α : Type} (m : PM α) (w : World) (f : α → Reply E) : Except Err (Reply E) :=
  (m w).map fun a => f a.1

end Zksk.Spec
