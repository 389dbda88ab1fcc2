import Verif.Lemmas.PretendRun
import Verif.Lemmas.Programmed

/-! Non-interactive proofs made without the values of the secrets. -/

set_option linter.unusedSectionVars false

namespace Zksk.Ward

open Spec Peer

variable {E : Type} [AddCommGroup E] [DecidableEq E] {M : Nat} {σ0 σ0' : Store} {d d' : Dict Int} {X : Key → Int}
  {t t' : Core E}

theorem pretendedProof_view {env : Env E} {a : List UInt8} {m : String} {w : World}
    {b : Val E × PId E × Val E × Val E} {w' : World} {q : List UInt8}
    (h : pretendedView t d (env.toInt a) w = .ok (b, w'))
    (hq : env.challengeInput b.2.1 b.1 b.2.2.1 m = .ok q) :
    pretendedProof env t d a m w = .ok ((⟨env.toInt a, b.2.2.2, b.1, env.digest b.2.1⟩, q), w') := by
  unfold pretendedProof
  rw [pm_bind_eq h]
  simp only
  rw [hq, pm_liftE_bind]
  rfl

/-- Everybody can ask. -/
theorem question (env : Env E) (id : PId E) {v com : Val E} (m : String)
    (hc : (∃ P, com = .pt P) ∨ ∃ l, com = .list l) (hv : ∀ x, v ≠ .str x) :
    ∃ q, env.challengeInput id v com m = .ok q := by
  obtain ⟨x, hx⟩ := chunk_stmt env hv
  obtain ⟨y, hy⟩ := chunk_stmt env (v := com) (by rcases hc with ⟨P, rfl⟩ | ⟨l, rfl⟩ <;> simp)
  unfold Env.challengeInput
  simp only [hx, hy, bind_ok]
  exact ⟨_, rfl⟩

theorem proofOf_prove {env : Env E} {m : String} {w : World} {π : NIZK E} {w' : World} :
    proofOf env t d m w = .ok (π, w') ↔ ∃ u, prove (DLRepProver E) env t d m w = .ok ((π, u), w') := by
  have hb : proofOf env t d m w = (prove (DLRepProver E) env t d m w).map fun r => (r.1.1, r.2) := by
    unfold proofOf
    show (prove (DLRepProver E) env t d m w >>= _) = _
    cases prove (DLRepProver E) env t d m w <;> rfl
  rw [hb]
  cases prove (DLRepProver E) env t d m w with
  | error e => simp [Except.map]
  | ok r =>
    obtain ⟨⟨π', u⟩, w'⟩ := r
    simp only [Except.map, Except.ok.injEq, Prod.mk.injEq]
    constructor
    · rintro ⟨rfl, rfl⟩; exact ⟨u, ⟨rfl, rfl⟩, rfl⟩
    · rintro ⟨_, ⟨rfl, rfl⟩, rfl⟩; exact ⟨rfl, rfl⟩

theorem same_proofs (h : Pair M σ0 d X t σ0' d' t') (env : Env E) (henv : Readable env) (m : String) :
    ∃ N, ∀ n, N ≤ n → ∀ a, ∃ e : Equiv.Perm (Fin n → Fin M), ∀ (y : Fin n → Fin M) (rest : Nat → Nat),
      ∃ π q u w w', prove (DLRepProver E) (rehash env (answering env.sha q a)) t d m ⟨σ0, tape y rest⟩ = .ok ((π, u), w) ∧
        pretendedProof env t' d' a m ⟨σ0', tape (e y) rest⟩ = .ok ((π, q), w') ∧ w.rng = w'.rng := by
  obtain ⟨N, key⟩ := view_perm h
  refine ⟨N, fun n hn a => ?_⟩
  obtain ⟨e, he⟩ := key n hn (env.toInt a)
  refine ⟨e, fun y rest => ?_⟩
  obtain ⟨A, τ, b, τ', ⟨⟨rfl, rfl⟩, h1, h2, h3, h4, h6, h6', h5⟩, h7⟩ := he y
  obtain ⟨r', h8, h9⟩ := h7 rest
  obtain ⟨q, hq⟩ := question env A.id2 m h6 h6'
  have hne := question_ne henv (com := A.commitment) (by rcases h6 with ⟨P, h⟩ | ⟨l, h⟩ <;> rw [h] <;> simp) hq
  have hfs := fiatShamir_answering (a := a) hq
  have hp := proofOf_pre (env := rehash env (answering env.sha q a)) (m := m) (r := fun _ => b.2.2.2) h8
    (fun c hc s => by
      obtain rfl : env.toInt a = c := Except.ok.inj (hfs.symm.trans hc)
      exact h5 s)
  rw [hfs, digest_answering hne] at hp
  obtain ⟨u, hu⟩ := proofOf_prove.mp hp
  refine ⟨_, q, u, _, ⟨heapFor σ0' d' t', r'⟩, hu, ?_, rfl⟩
  rw [pretendedProof_view h9 (q := q) (by rw [← h1, ← h3, ← h4]; exact hq), h1, h4]

theorem same_numbers (h : Pair M σ0 d X t σ0' d' t') (env : Env E) (m : String) :
    ∃ N, ∀ n, N ≤ n → ∀ (rest : Nat → Nat) (π : NIZK E), ∃ e : Equiv.Perm (Fin n → Fin M), ∀ y,
      (∃ u w, prove (DLRepProver E) env t d m ⟨σ0, tape y rest⟩ = .ok ((π, u), w)) ↔
      ∃ q w, pretendedProof env t' d' (env.sha q) m ⟨σ0', tape (e y) rest⟩ = .ok ((π, q), w) := by
  obtain ⟨N, key⟩ := view_perm h
  refine ⟨N, fun n hn rest π => ?_⟩
  obtain ⟨e, he⟩ := key n hn π.challenge
  refine ⟨e, fun y => ?_⟩
  obtain ⟨A, τ, b, τ', ⟨⟨rfl, rfl⟩, h1, h2, h3, h4, h6, h6', h5⟩, h7⟩ := he y
  obtain ⟨r', h8, h9⟩ := h7 rest
  obtain ⟨q, hq⟩ := question env A.id2 m h6 h6'
  have hfs : env.fiatShamir A.id2 A.precommitment A.commitment m = .ok (env.toInt (env.sha q)) := by
    unfold Env.fiatShamir; rw [hq]; rfl
  have hq' : env.challengeInput b.2.1 b.1 b.2.2.1 m = .ok q := by rw [← h1, ← h3, ← h4]; exact hq
  constructor
  · rintro ⟨u, w, hu⟩
    -- the challenge of the proof is the answer to the question
    obtain ⟨e1, he1⟩ := key n hn (env.toInt (env.sha q))
    obtain ⟨A1, τ1, b1, τ1', ⟨⟨rfl, rfl⟩, -, -, -, -, -, -, k5⟩, k7⟩ := he1 y
    obtain ⟨r1, k8, -⟩ := k7 rest
    have hA : A1 = A := by
      have := k8.symm.trans h8
      simp only [Except.ok.injEq, Prod.mk.injEq] at this
      exact this.1
    subst hA
    have hp := proofOf_pre (env := env) (m := m) (r := fun _ => b1.2.2.2) h8
      (fun c hc s => by
        obtain rfl : env.toInt (env.sha q) = c := Except.ok.inj (hfs.symm.trans hc)
        exact k5 s)
    rw [hfs] at hp
    have hu' := hp.symm.trans (proofOf_prove.mpr ⟨u, hu⟩)
    simp only [Except.ok.injEq, Prod.mk.injEq] at hu'
    obtain ⟨rfl, -⟩ := hu'
    have hr := (k5 r').symm.trans (h5 r')
    simp only [Except.ok.injEq, Prod.mk.injEq, and_true] at hr
    refine ⟨q, ⟨heapFor σ0' d' t', r'⟩, ?_⟩
    rw [pretendedProof_view h9 hq', hr, h1, h4]
  · rintro ⟨q', w, hu⟩
    unfold pretendedProof at hu
    obtain ⟨⟨v, id, com, r⟩, w1, k1, hu⟩ := pm_bind.mp hu
    simp only at hu
    rw [pm_liftE_bind_iff] at hu
    obtain ⟨q1, k2, hu⟩ := hu
    rw [pm_pure_iff] at hu
    simp only [Prod.mk.injEq] at hu
    obtain ⟨⟨rfl, rfl⟩, rfl⟩ := hu
    simp only at h9 h5
    rw [k1] at h9
    simp only [Except.ok.injEq, Prod.mk.injEq] at h9
    obtain ⟨rfl, rfl⟩ := h9
    simp only at h1 h2 h3 h4 h5 hq'
    obtain rfl : q1 = q := Except.ok.inj (k2.symm.trans hq')
    have hp := proofOf_pre (env := env) (m := m) (r := fun _ => r) h8
      (fun c hc s => by
        obtain rfl : env.toInt (env.sha q1) = c := Except.ok.inj (hfs.symm.trans hc)
        exact h5 s)
    rw [hfs, h1, h4] at hp
    obtain ⟨u, hu⟩ := proofOf_prove.mp hp
    exact ⟨u, _, hu⟩

end Zksk.Ward
