import Verif.SpecRun
import Verif.Lemmas.PowerTwoRun
import Mathlib.Logic.Equiv.Basic
import Mathlib.Algebra.Group.Units.Equiv
import Mathlib.Algebra.Group.Pi.Basic
import Mathlib.Data.Fin.Basic

/-! The precommitments of range proofs as functions of the random stream. -/

set_option linter.unusedSectionVars false

namespace Zksk

open Spec

variable {E : Type} [AddCommGroup E] [DecidableEq E]

namespace PowerTwo

/-- The first `n` numbers of the stream, reduced modulo `m`. -/
def drawn (m n : Nat) (rng : Nat → Nat) : List Int := (List.range n).map fun i => ((rng i % m : Nat) : Int)

theorem drawn_succ (m n : Nat) (rng : Nat → Nat) :
    drawn m (n + 1) rng = ((rng 0 % m : Nat) : Int) :: drawn m n (fun i => rng (i + 1)) := by
  unfold drawn
  rw [List.range_succ_eq_map, List.map_cons, List.map_map]
  rfl

theorem drawRands_given {m : Nat} (hm : m ≠ 0) : ∀ (ss : List Sec) (w : World), ss.Nodup →
    ∃ (w' : World), drawRands m ss w = .ok ((), w') ∧ ss.map w'.store.value = (drawn m ss.length w.rng).map some ∧
      w'.rng = fun i => w.rng (i + ss.length)
  | [], w, _ => ⟨w, rfl, rfl, rfl⟩
  | s :: ss, w, h => by
    rw [List.nodup_cons] at h
    have h1 : draw m w = .ok (((w.rng 0 % m : Nat) : Int), { w with rng := fun i => w.rng (i + 1) }) := by
      unfold draw; rw [if_neg hm]
    obtain ⟨w2, h3, h4, h5⟩ := drawRands_given hm ss
      ⟨w.store.setValue s ((w.rng 0 % m : Nat) : Int), fun i => w.rng (i + 1)⟩ h.2
    refine ⟨w2, ?_, ?_, ?_⟩
    · simp only [drawRands]
      rw [pm_bind_eq h1, pm_getStore_bind, pm_setStore_bind]
      exact h3
    · rw [List.length_cons, drawn_succ, List.map_cons, List.map_cons, h4]
      have := drawRands_frame ss h3 s h.1
      have := congrArg Prod.snd this
      simp only [Store.key, Store.setValue, if_true] at this
      rw [this]
    · rw [h5]
      funext i
      simp only [List.length_cons]
      congr 1

theorem precommit_given {s : PowerTwo E} (hp : s.isProver = true) (hh : s.h.grp = s.g.grp)
    (hord : s.g.grp.order ≠ 0) (hnd : s.rands.Nodup) (hr : s.r ∉ s.rands) {w : World}
    {x r : Int} {bs : List Int} (hx : w.store.value s.x = some x) (hb : decomposeIntoNBits x s.numBits = .ok bs)
    (hrv : w.store.value s.r = some r) :
    ∃ (w' : World), w'.rng = (fun i => w.rng (i + s.numBits)) ∧
      s.precommit w = .ok (message (List.zipWith (fun b v => ⟨s.g.grp, b • s.g.val + v • s.h.val⟩) bs
          (drawn s.order s.numBits w.rng))
        ((sumRands s.order 0 1 (drawn s.order s.numBits w.rng) - r) % (s.order : Int)), w') := by
  obtain ⟨w', h2, h3, h4⟩ := drawRands_given (m := s.order) hord s.rands w hnd
  have hfr := drawRands_frame _ h2
  refine ⟨w', h4, ?_⟩
  unfold precommit
  rw [pm_getStore_bind]
  simp only [value, hp, if_true, hx]
  rw [pm_liftE_bind, hb, pm_liftE_bind, pm_bind_eq h2, pm_getStore_bind,
    bitComs_of hh s.rands bs _ h3 (decompose_ok hb).1, pm_liftE_bind, values_of _ _ h3, pm_liftE_bind]
  have : w'.store.value s.r = some r := by rw [← hrv]; exact congrArg Prod.snd (hfr _ hr)
  rw [this]
  rfl

/-- Bit commitments that agree, and what their randomizers combine to. -/
theorem bits_agree {g h : E} {q : Nat} {a : Int} (hg : g = a • h) (ht : (q : Int) • h = 0) :
    ∀ (bs₁ bs₂ vs₁ vs₂ : List Int), bs₁.length = vs₁.length → bs₂.length = vs₂.length → bs₁.length = bs₂.length →
    (∀ (i : Nat) b₁ b₂ v₁ v₂, bs₁[i]? = some b₁ → bs₂[i]? = some b₂ → vs₁[i]? = some v₁ → vs₂[i]? = some v₂ →
      (q : Int) ∣ v₂ - (v₁ + (b₁ - b₂) * a)) →
    List.zipWith (fun b v => b • g + v • h) bs₁ vs₁ = List.zipWith (fun b v => b • g + v • h) bs₂ vs₂ ∧
      (q : Int) ∣ horner vs₂ - (horner vs₁ + (horner bs₁ - horner bs₂) * a)
  | [], [], [], [], _, _, _, _ => by simp [horner]
  | b₁ :: bs₁, b₂ :: bs₂, v₁ :: vs₁, v₂ :: vs₂, h1, h2, h3, h4 => by
    obtain ⟨e1, e2⟩ := bits_agree hg ht bs₁ bs₂ vs₁ vs₂ (by simpa using h1) (by simpa using h2) (by simpa using h3)
      (fun i c₁ c₂ u₁ u₂ k1 k2 k3 k4 => h4 (i + 1) c₁ c₂ u₁ u₂ (by simpa using k1) (by simpa using k2)
        (by simpa using k3) (by simpa using k4))
    have h0 := h4 0 b₁ b₂ v₁ v₂ rfl rfl rfl rfl
    refine ⟨?_, ?_⟩
    · simp only [List.zipWith_cons_cons, e1, List.cons.injEq, and_true]
      have : v₂ • h = (v₁ + (b₁ - b₂) * a) • h := smul_eq_of_dvd ht h0
      rw [this, hg, smul_smul, smul_smul, ← add_smul, ← add_smul]
      congr 1
      ring
    · simp only [horner]
      have : v₂ + 2 * horner vs₂ - (v₁ + 2 * horner vs₁ + (b₁ + 2 * horner bs₁ - (b₂ + 2 * horner bs₂)) * a) =
          (v₂ - (v₁ + (b₁ - b₂) * a)) + 2 * (horner vs₂ - (horner vs₁ + (horner bs₁ - horner bs₂) * a)) := by ring
      rw [this]
      exact dvd_add h0 (Dvd.dvd.mul_left e2 2)

end PowerTwo

end Zksk
