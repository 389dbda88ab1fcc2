import Verif.Lemmas.StmtHvzk
import Verif.Lemmas.PublicPart

/-! Programs with the same distribution of results. -/

set_option linter.unusedSectionVars false

namespace Zksk

open Spec

variable {E : Type} [AddCommGroup E] [DecidableEq E]

namespace Spec.SameOutputs
variable {A : Type} {n m q : Nat} {p p' p'' : PM A} {σ σ' σ'' : Store}

theorem symm (h : SameOutputs n q p σ p' σ') : SameOutputs n q p' σ' p σ := by
  obtain ⟨e, h⟩ := h
  refine ⟨e.symm, fun y rest => ?_⟩
  obtain ⟨v, w, w', h1, h2, h3, h4⟩ := h (e.symm y) rest
  rw [Equiv.apply_symm_apply] at h3
  exact ⟨v, w', w, h3, h4, h1, h2⟩

theorem trans_same (h : SameOutputs n q p σ p' σ') (h' : SameOutputs n q p' σ' p'' σ'') :
    SameOutputs n q p σ p'' σ'' := by
  obtain ⟨e, h⟩ := h
  obtain ⟨f, h'⟩ := h'
  refine ⟨e.trans f, fun y rest => ?_⟩
  obtain ⟨v, w, w', h1, h2, h3, _⟩ := h y rest
  obtain ⟨v', w1, w'', h5, _, h7, h8⟩ := h' (e y) rest
  rw [h3] at h5
  simp only [Except.ok.injEq, Prod.mk.injEq] at h5
  obtain ⟨rfl, _⟩ := h5
  exact ⟨v, w, w'', h1, h2, h7, h8⟩

/-- Reading a block of `n` numbers always. -/
theorem reads_right (h : SameOutputs n q p σ p' σ') (y : Fin n → Fin q) (rest : Nat → Nat) :
    ∃ v w, p' ⟨σ', tape y rest⟩ = .ok (v, w) ∧ w.rng = rest := by
  obtain ⟨e, h⟩ := h
  obtain ⟨v, w, w', _, _, h3, h4⟩ := h (e.symm y) rest
  rw [Equiv.apply_symm_apply] at h3
  exact ⟨v, w', h3, h4⟩

/-- A program reads one number of numbers. -/
theorem length_le [NeZero q] (h : ∀ (y : Fin n → Fin q) (rest : Nat → Nat), ∃ v w, p ⟨σ, tape y rest⟩ = .ok (v, w) ∧ w.rng = rest)
    (h' : ∀ (y : Fin m → Fin q) (rest : Nat → Nat), ∃ v w, p ⟨σ, tape y rest⟩ = .ok (v, w) ∧ w.rng = rest) : m ≤ n := by
  by_contra hlt
  have hlt : n < m := by omega
  let rest : Nat → Nat := fun i => if i = m - n then 1 else 0
  obtain ⟨v, w, h1, h2⟩ := h (fun _ => 0) rest
  obtain ⟨v', w', h3, h4⟩ := h' (fun _ => 0) (fun i => rest (i + (m - n)))
  have he : (tape (fun _ : Fin n => (0 : Fin q)) rest) = tape (fun _ : Fin m => (0 : Fin q)) (fun i => rest (i + (m - n))) := by
    funext i
    simp only [tape, rest]
    split_ifs <;> first | rfl | omega
  rw [he, h3] at h1
  simp only [Except.ok.injEq, Prod.mk.injEq] at h1
  obtain ⟨_, rfl⟩ := h1
  have := congrFun (h4.symm.trans h2) 0
  simp only [rest] at this
  split_ifs at this <;> omega

theorem trans [NeZero q] (h : SameOutputs n q p σ p' σ') (h' : SameOutputs m q p' σ' p'' σ'') :
    SameOutputs n q p σ p'' σ'' := by
  have e : m = n := le_antisymm (length_le h.reads_right h'.symm.reads_right) (length_le h'.symm.reads_right h.reads_right)
  subst e
  exact h.trans_same h'

/-- The blocks for which the two programs return a given value are equally many. -/
theorem count (h : SameOutputs n q p σ p' σ') (rest : Nat → Nat) (S : A → Prop) :
    Nat.card {y : Fin n → Fin q // ∃ a w, p ⟨σ, tape y rest⟩ = .ok (a, w) ∧ S a} =
    Nat.card {y : Fin n → Fin q // ∃ a w, p' ⟨σ', tape y rest⟩ = .ok (a, w) ∧ S a} := by
  obtain ⟨e, h⟩ := h
  refine Nat.card_congr (e.subtypeEquiv fun y => ?_)
  obtain ⟨v, w, w', h1, _, h2, _⟩ := h y rest
  rw [h1, h2]
  simp only [Except.ok.injEq, Prod.mk.injEq]
  constructor
  · rintro ⟨_, _, ⟨rfl, _⟩, hs⟩; exact ⟨_, _, ⟨rfl, rfl⟩, hs⟩
  · rintro ⟨_, _, ⟨rfl, _⟩, hs⟩; exact ⟨_, _, ⟨rfl, rfl⟩, hs⟩

end Spec.SameOutputs

/-- A simulation depends on the public part of the statement only. -/
theorem simView_same {t u : Stmt E} (h : publicPart t = publicPart u) (c : Int) : simView t c = simView u c := by
  have h1 := prepare_same (t := Tree.setSimulated true t) (u := Tree.setSimulated true u)
    (by rw [publicPart_setSimulated, publicPart_setSimulated, h])
  let K : Stmt E → PM (Sim E × PId E) := fun t1 => do
    let tr ← Tree.simulate t1 none (some c)
    let σ ← getStore
    let id ← liftE (Tree.proofId σ t1)
    pure (tr, id)
  have hK : ∀ t1, K (nudeT t1) = K t1 := by
    intro t1
    simp only [K, simulate_nude, proofId_nude]
  have hrun : ∀ v : Stmt E, simView v c = (nudeT <$> Tree.prepareSim (Tree.setSimulated true v)) >>= K := by
    intro v
    unfold simView
    simp only [bind_map_left, hK, K]
  rw [hrun, hrun, h1]

mutual
theorem pruned_public : ∀ (t : Stmt E) (v : Val E), pruned (publicPart t) v = pruned t v
  | .leaf l, v => by cases v <;> simp [publicPart, pruned]
  | .and _ subs, v => by cases v <;> simp [publicPart, pruned, prunedL_public subs]
  | .or _ subs, v => by cases v <;> simp [publicPart, pruned]
theorem prunedL_public : ∀ (ts : List (Stmt E)) (vs : List (Val E)), prunedL (publicPartL ts) vs = prunedL ts vs
  | [], vs => by cases vs <;> simp [publicPartL, prunedL]
  | t :: ts, [] => by simp [publicPartL, prunedL]
  | t :: ts, v :: vs => by simp only [publicPartL, prunedL, pruned_public t, prunedL_public ts]
end

theorem pruned_same {t u : Stmt E} (h : publicPart t = publicPart u) (v : Val E) : pruned t v = pruned u v := by
  rw [← pruned_public t, ← pruned_public u, h]

theorem simParts_same {t u : Stmt E} (h : publicPart t = publicPart u) (c : Int) :
    simParts t t c = simParts u u c := by
  unfold simParts
  simp only [simView_same h, pruned_same h]

end Zksk
