import Verif.SpecExt
import Verif.SpecRun

/-! # Runs of statements with extended parts, seen from outside -/

namespace Zksk.Spec

variable {E : Type} [AddCommGroup E] [DecidableEq E]

/-- `honestRun` for statements with extended parts. -/
def honestRunStmt (env : Env E) (t : Stmt E) (d : Dict Int) (c : Int) : PM (Val E × Transcript E) := do
  let (p?, _) ← (PTree.getProver t d : PM (Option (StmtProver E) × Stmt E))
  match p? with
  | none => raise .attributeError
  | some p => do
    let (v, p1) ← PTree.precommit p
    let ((h, com), p2) ← PTree.commit env p1
    let r ← PTree.computeResponse p2 c
    pure (v, ⟨h, com, c, r⟩)

/-- `simulatedRun` for statements with extended parts. -/
def simulatedRunStmt (env : Env E) (t : Stmt E) (c : Int) : PM (Val E × Transcript E) := do
  let (tr, h, _) ← simulateTop env t (some c)
  pure (tr.precommitment, ⟨h, tr.commitment, tr.challenge, tr.responses⟩)

/-- Without disjunctions. -/
inductive AndOnly : Stmt E → Prop
  | leaf (l : Leaf E) : AndOnly (.leaf l)
  | all (b : Bool) (subs : List (Stmt E)) (h : ∀ t ∈ subs, AndOnly t) : AndOnly (.and b subs)

mutual
/-- The precommitment with `None` in the place of lists that consist of `None`: the provers of conjunctions
send `None` then, and the simulators send the list. -/
def pruned : Stmt E → Val E → Val E
  | .and _ subs, .list vs => if ∀ v ∈ prunedL subs vs, v = .none then .none else .list (prunedL subs vs)
  | _, v => v
/-- `pruned` for lists. -/
def prunedL : List (Stmt E) → List (Val E) → List (Val E)
  | t :: ts, v :: vs => pruned t v :: prunedL ts vs
  | _, _ => []
end

/-- In heaps that look like `σ` the precommitments of an extended statement are distributed as those that are
simulated in the heap `σs`: there is a matching of the blocks of `n` uniform numbers below `q` that does not
depend on what else is in the heap. -/
def Imitates (F : Profile E) (q n : Nat) (σ σs : Store) (d : Dict Int) (sp : ExtSpec E) : Prop :=
  ∃ e : Equiv.Perm (Fin n → Fin q), ∀ (y : Fin n → Fin q) (σ' : Store),
    (∀ x, F.reads sp x ∨ x ∈ d.map Prod.fst → σ'.key x = σ.key x) →
    ∃ v σ'', ∀ rest, sp.precommit ⟨σ', tape y rest⟩ = .ok (v, ⟨σ'', rest⟩) ∧
      sp.simPrecommit ⟨σs, tape (e y) rest⟩ = .ok (v, ⟨σs, rest⟩)

/-- The constructed statement has no disjunctions, and always the same secrets. -/
def Plain (sp : ExtSpec E) : Prop :=
  ∃ vs, ∀ σ v k, sp.construct σ v = .ok k → OrFree k ∧ secrets k = vs

/-- What is needed of the extended parts: precommitments that can be imitated, and statements without
disjunctions, which are the same in the simulator's heap. -/
def LeafHides (F : Profile E) (q : Nat) (σ σs : Store) (d : Dict Int) : Leaf E → Prop
  | .dlrep _ => True
  | .ext s => (∃ n, Imitates F q n σ σs d s.spec) ∧ Plain s.spec ∧ LeafFor σs (.ext s) (.ext s)

end Zksk.Spec
