import Verif.Lemmas.Prim
import Mathlib.Data.Int.GCD
import Mathlib.RingTheory.Coprime.Lemmas
import Mathlib.Tactic.Linarith
import Mathlib.Tactic.Module
import Mathlib.Data.Nat.Prime.Int

/-! Lemmas about the inequality of discrete logarithms. -/

set_option linter.unusedSectionVars false

namespace Zksk

open Spec

variable {E : Type} [AddCommGroup E] [DecidableEq E]

/-- Multiples by integers that differ by a multiple of the order. -/
theorem smul_eq_of_dvd {q a b : Int} {e : E} (he : q • e = 0) (h : q ∣ a - b) : a • e = b • e := by
  obtain ⟨m, hm⟩ := h
  have : a = b + m * q := by linarith
  rw [this, add_smul, mul_smul, he, smul_zero, add_zero]

theorem exists_inv {q : Nat} (hq : q.Prime) {b : Int} (hb : ¬ (q : Int) ∣ b) :
    ∃ u : Int, (q : Int) ∣ u * b - 1 := by
  have hc : IsCoprime b (q : Int) := by
    rw [isCoprime_comm, Int.isCoprime_iff_gcd_eq_one]
    have : ¬ q ∣ b.natAbs := fun h => hb (Int.natCast_dvd.mpr h)
    simpa [Int.gcd] using (Nat.Prime.coprime_iff_not_dvd hq).mpr this
  obtain ⟨u, v, h⟩ := hc
  exact ⟨u, -v, by linarith⟩

/-- In a group of prime order a nonzero element has no smaller multiples that vanish. -/
theorem dvd_of_smul_eq_zero {q : Nat} (hq : q.Prime) {a : Int} {e : E} (he : (q : Int) • e = 0) (hne : e ≠ 0)
    (h : a • e = 0) : (q : Int) ∣ a := by
  by_contra hd
  obtain ⟨u, hu⟩ := exists_inv hq hd
  apply hne
  have h1 := smul_eq_of_dvd he hu
  rw [one_smul, mul_smul, h, smul_zero] at h1
  exact h1.symm

namespace NotEqual

theorem construct_inv {s : NotEqual E} {σ : Store} {v : Val E} {k : Core E} (h : s.construct σ v = .ok k) :
    ∃ c kv kv', v = .pt c ∧ s.lhs0.grp = s.g.grp ∧ s.lhs1.grp = s.h.grp ∧
      ∃ rest : List (Core E), k = .and false (.leaf ⟨s.g.grp.inf, [s.g, s.lhs0], [s.alpha, s.beta], kv, false⟩ ::
        .leaf ⟨c, [s.h, s.lhs1], [s.alpha, s.beta], kv', false⟩ :: rest) ∧
      (s.bind = true → ∃ kv'', rest = [.leaf ⟨s.lhs0, [s.g], [s.x], kv'', false⟩]) ∧
      (s.bind = false → rest = []) := by
  unfold construct at h
  obtain ⟨c, hc, h⟩ := bind_ok_iff.mp h
  obtain ⟨p1, h1, h⟩ := bind_ok_iff.mp h
  obtain ⟨p2, h2, h⟩ := bind_ok_iff.mp h
  have hv : v = .pt c := by cases v <;> simp_all [Val.asPt]
  obtain ⟨rfl, _, g1⟩ := mkDLRep_ok h1
  obtain ⟨rfl, _, g2⟩ := mkDLRep_ok h2
  refine ⟨c, knownValues σ [s.alpha, s.beta] [], knownValues σ [s.alpha, s.beta] [], hv, g1 _ (by simp) _ (by simp), g2 _ (by simp) _ (by simp), ?_⟩
  cases hb : s.bind with
  | false =>
    simp only [hb, Bool.false_eq_true, if_false] at h
    obtain ⟨rfl, _⟩ := mkAnd_ok h
    exact ⟨[], rfl, by simp, fun _ => rfl⟩
  | true =>
    simp only [hb, if_true] at h
    obtain ⟨p3, h3, h⟩ := bind_ok_iff.mp h
    obtain ⟨rfl, _, g3⟩ := mkDLRep_ok h3
    obtain ⟨rfl, _⟩ := mkAnd_ok h
    exact ⟨_, rfl, fun _ => ⟨_, rfl⟩, by simp⟩

/-- The algebra behind the protocol. -/
theorem algebra {q : Nat} (hq : q.Prime) {g lhs0 h lhs1 v : E} {α β : Int} (t1 : (q : Int) • g = 0)
    (t2 : (q : Int) • lhs0 = 0) (t3 : (q : Int) • h = 0) (t4 : (q : Int) • lhs1 = 0) (hg : g ≠ 0)
    (e1 : 0 = α • g + β • lhs0) (e2 : v = α • h + β • lhs1) (hv : v ≠ 0) :
    ∃ x : Int, lhs0 = x • g ∧ lhs1 ≠ x • h ∧ ∀ y : Int, lhs0 = y • g → lhs1 ≠ y • h := by
  have hβ : ¬ (q : Int) ∣ β := by
    intro hd
    have z0 : β • lhs0 = 0 := by rw [smul_eq_of_dvd (b := 0) t2 (by simpa using hd), zero_smul]
    have z1 : β • lhs1 = 0 := by rw [smul_eq_of_dvd (b := 0) t4 (by simpa using hd), zero_smul]
    rw [z0, add_zero] at e1
    have hα := dvd_of_smul_eq_zero hq t1 hg e1.symm
    apply hv
    rw [e2, z1, add_zero, smul_eq_of_dvd (b := 0) t3 (by simpa using hα), zero_smul]
  obtain ⟨u, hu⟩ := exists_inv hq hβ
  have h0 : lhs0 = (-(u * α)) • g := by
    have i1 : (u * β) • lhs0 = (1 : Int) • lhs0 := smul_eq_of_dvd t2 hu
    have i2 : u • (α • g + β • lhs0) = 0 := by rw [← e1, smul_zero]
    rw [smul_add, smul_smul, smul_smul, i1, one_smul] at i2
    rw [neg_smul]
    exact (neg_eq_of_add_eq_zero_right i2).symm
  have key : ∀ y : Int, lhs0 = y • g → lhs1 ≠ y • h := by
    intro y hy hc
    apply hv
    have i1 : (α + β * y) • g = 0 := by rw [add_smul, mul_smul, ← hy]; exact e1.symm
    have i2 := dvd_of_smul_eq_zero hq t1 hg i1
    rw [e2, hc, smul_smul, ← add_smul, smul_eq_of_dvd (b := 0) t3 (by simpa using i2), zero_smul]
  exact ⟨_, h0, key _ h0, key⟩

end NotEqual
end Zksk
