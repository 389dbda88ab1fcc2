import Verif.SpecStmt
import Verif.Model.Prover

/-! # Statement objects over time -/

namespace Zksk.Spec

variable {E : Type} [AddCommGroup E] [DecidableEq E]

/-- Two states of one statement: same structure, same representations, same extended statements.  May
differ: the simulated flags, the values of secrets remembered by representations, and the precommitments,
constructed statements and verifiers remembered by extended statements. -/
inductive SameStmt : Stmt E → Stmt E → Prop
  | rep (s s' : DLRep E) (hl : s'.lhs = s.lhs) (hb : s'.bases = s.bases) (hx : s'.secretVars = s.secretVars) :
      SameStmt (.leaf (.dlrep s)) (.leaf (.dlrep s'))
  | ext (s s' : Ext E) (h : s'.spec = s.spec) : SameStmt (.leaf (.ext s)) (.leaf (.ext s'))
  | all (b b' : Bool) (ts ts' : List (Stmt E)) (hl : ts'.length = ts.length)
      (h : ∀ (i : Nat) t t', ts[i]? = some t → ts'[i]? = some t' → SameStmt t t') :
      SameStmt (.and b ts) (.and b' ts')
  | any (b b' : Bool) (ts ts' : List (Stmt E)) (hl : ts'.length = ts.length)
      (h : ∀ (i : Nat) t t', ts[i]? = some t → ts'[i]? = some t' → SameStmt t t') :
      SameStmt (.or b ts) (.or b' ts')

/-- The state of a statement object after any number of calls of `verify`, `prove` and `simulate`, with any
arguments, in any heaps and with any randomness. A verifier first digests the precommitment of the proof; what
it does afterwards does not change the statement. -/
inductive Later : Stmt E → Stmt E → Prop
  | refl (t : Stmt E) : Later t t
  | verify (t t1 t2 : Stmt E) (h : Later t t1) (σ : Store) (v : Val E)
      (hv : digestPrecommitment σ (Tree.freshVerifier t1) v = .ok t2) : Later t t2
  | prove (t t1 t2 : Stmt E) (h : Later t t1) (env : Env E) (d : Dict Int) (msg : String) (w w' : World)
      (nizk : NIZK E) (hp : prove (LeafProver E) env t1 d msg w = .ok ((nizk, t2), w')) : Later t t2
  | simulate (t t1 t2 : Stmt E) (h : Later t t1) (env : Env E) (c : Option Int) (w w' : World) (tr : Sim E)
      (hash : List UInt8) (hs : simulateTop env t1 c w = .ok ((tr, hash, t2), w')) : Later t t2

end Zksk.Spec
