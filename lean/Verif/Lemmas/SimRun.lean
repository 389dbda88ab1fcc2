import Verif.Lemmas.Hide
import Verif.Lemmas.NotEqualRun
import Verif.Lemmas.BBSRun
import Mathlib.Data.Fintype.EquivFin
import Mathlib.Data.Int.GCD

/-! Simulated precommitments as functions of the random stream. -/

set_option linter.unusedSectionVars false

namespace Zksk

open Spec

variable {E : Type} [AddCommGroup E] [DecidableEq E]

/-! ### Blocks of random numbers -/

/-- An integer reduced modulo `q`. -/
def red (q : Nat) [NeZero q] (z : Int) : Fin q := Fin.ofNat q (z % (q : Int)).toNat

theorem red_val {q : Nat} [NeZero q] (z : Int) : (((red q z : Fin q) : Nat) : Int) = z % (q : Int) := by
  have hq : (0 : Int) < q := by have := NeZero.pos q; omega
  simp only [red, Fin.val_ofNat]
  rw [Int.natCast_mod, Int.toNat_of_nonneg (Int.emod_nonneg _ (ne_of_gt hq)), Int.emod_emod]

theorem red_inj {q : Nat} [NeZero q] {z z' : Int} (h : red q z = red q z') : z % (q : Int) = z' % (q : Int) := by
  rw [← red_val, ← red_val, h]

theorem fin_eq_of_emod {q : Nat} {a b : Fin q} (h : ((a : Nat) : Int) % (q : Int) = ((b : Nat) : Int) % (q : Int)) :
    a = b := by
  have ha := a.isLt
  have hb := b.isLt
  rw [Int.emod_eq_of_lt (by omega) (by omega), Int.emod_eq_of_lt (by omega) (by omega)] at h
  exact Fin.ext (by exact_mod_cast h)

theorem tape_lt {n q : Nat} (y : Fin n → Fin q) (rest : Nat → Nat) {i : Nat} (h : i < n) :
    tape y rest i = y ⟨i, h⟩ := by
  simp only [tape, dif_pos h]

theorem tape_drop {n M : Nat} (y : Fin n → Fin M) (rest : Nat → Nat) :
    (fun i => tape y rest (i + n)) = rest := by
  funext i
  simp only [tape]
  rw [dif_neg (by omega)]
  congr 1
  omega

/-- A bijection from an injection. -/
noncomputable def permOf {n q : Nat} (f : (Fin n → Fin q) → Fin n → Fin q) (hf : Function.Injective f) :
    Equiv.Perm (Fin n → Fin q) :=
  Equiv.ofBijective f (Finite.injective_iff_bijective.mp hf)

/-! ### Range proofs -/

namespace PowerTwo

theorem drawMany_given {m : Nat} (hm : m ≠ 0) : ∀ (n : Nat) (w : World),
    drawMany m n w = .ok (drawn m n w.rng, ⟨w.store, fun i => w.rng (i + n)⟩)
  | 0, w => rfl
  | n + 1, w => by
    have h1 : draw m w = .ok (((w.rng 0 % m : Nat) : Int), { w with rng := fun i => w.rng (i + 1) }) := by
      unfold draw; rw [if_neg hm]
    simp only [drawMany]
    rw [pm_bind_eq h1, pm_bind_eq (drawMany_given hm n _), drawn_succ]
    simp only [pm_pure_iff, Prod.mk.injEq, true_and]
    congr 1

theorem sumRands_reduced {m : Nat} (hm : m ≠ 0) : ∀ (vs : List Int) (rand p : Int), (vs ≠ [] ∨ rand % (m : Int) = rand) →
    sumRands m rand p vs % (m : Int) = sumRands m rand p vs
  | [], rand, p, h => by
    rcases h with h | h
    · exact (h rfl).elim
    · exact h
  | v :: vs, rand, p, _ => by
    simp only [sumRands]
    exact sumRands_reduced hm vs _ _ (.inr (Int.emod_emod _ _))

theorem simPrecommit_given {s : PowerTwo E} (hord : s.order ≠ 0) (hh : s.h.grp = s.g.grp)
    (hc : s.com.grp = s.g.grp) {w : World} {u : Int} {us : List Int}
    (hu : drawn s.order s.numBits w.rng = u :: us) :
    s.simPrecommit w = .ok (message (⟨s.g.grp, u • s.h.val + s.com.val⟩ :: us.map fun u => ⟨s.g.grp, u • s.h.val⟩)
      (sumRands s.order 0 1 (u :: us)), ⟨w.store, fun i => w.rng (i + s.numBits)⟩) := by
  unfold simPrecommit
  rw [pm_bind_eq (drawMany_given hord s.numBits w), hu]
  simp only
  have : (Pt.smul u s.h).add s.com = .ok ⟨s.g.grp, u • s.h.val + s.com.val⟩ := by
    simp [Pt.smul, Pt.add, hh, hc]
  rw [this, pm_liftE_bind]
  simp only [pm_pure_iff, Prod.mk.injEq, and_true, message, List.map_cons, List.map_map, Pt.smul, hh]
  rfl

theorem drawn_get {m n i : Nat} {rng : Nat → Nat} {v : Int} (h : (drawn m n rng)[i]? = some v) :
    i < n ∧ v = ((rng i % m : Nat) : Int) := by
  unfold drawn at h
  rw [List.getElem?_map] at h
  obtain ⟨k, hk, h⟩ := Option.map_eq_some_iff.mp h
  obtain ⟨hi, hk⟩ := List.getElem?_eq_some_iff.mp hk
  rw [List.getElem_range] at hk
  subst hk
  exact ⟨by simpa using hi, h.symm⟩

theorem drawn_length (m n : Nat) (rng : Nat → Nat) : (drawn m n rng).length = n := by
  simp [drawn]

/-- Real and simulated messages that agree: `v` are the numbers drawn by the prover, `u` those drawn by the
simulator. -/
theorem messages_agree {g h com : E} {G : Grp} {q : Nat} {a x r : Int} (hq : q ≠ 0) (hg : g = a • h)
    (ht : (q : Int) • h = 0) (hcom : com = x • g + r • h) {b v u : Int} {bs vs us : List Int}
    (hlb : bs.length = vs.length) (hlu : bs.length = us.length) (hx : horner (b :: bs) = x)
    (h0 : (q : Int) ∣ u - (v + b * a - (x * a + r)))
    (hi : ∀ (i : Nat) b v u, bs[i]? = some b → vs[i]? = some v → us[i]? = some u → (q : Int) ∣ u - (v + b * a)) :
    (message (List.zipWith (fun b v => ⟨G, b • g + v • h⟩) (b :: bs) (v :: vs))
      ((sumRands q 0 1 (v :: vs) - r) % (q : Int)) : Val E) =
    message (⟨G, u • h + com⟩ :: us.map fun u => ⟨G, u • h⟩) (sumRands q 0 1 (u :: us)) := by
  obtain ⟨e1, e2⟩ := bits_agree hg ht (b :: bs) (0 :: List.replicate us.length 0) (v :: vs)
    ((u + (x * a + r)) :: us) (by simp [hlb]) (by simp) (by simp [hlu]) (by
      intro i b₁ b₂ v₁ v₂ k1 k2 k3 k4
      cases i with
      | zero =>
        simp only [List.getElem?_cons_zero, Option.some.injEq] at k1 k2 k3 k4
        subst k1; subst k2; subst k3; subst k4
        have : u + (x * a + r) - (v + (b - 0) * a) = u - (v + b * a - (x * a + r)) := by ring
        rw [this]; exact h0
      | succ i =>
        simp only [List.getElem?_cons_succ] at k1 k2 k3 k4
        have : b₂ = 0 := by
          rw [List.getElem?_replicate] at k2
          split at k2
          · exact (Option.some.inj k2).symm
          · cases k2
        subst this
        rw [sub_zero]
        exact hi i b₁ v₁ v₂ k1 k3 k4)
  have hz : ∀ n : Nat, horner (List.replicate n 0) = 0 := by
    intro n
    induction n with
    | zero => rfl
    | succ n ih => rw [List.replicate_succ]; simp [horner, ih]
  have hzip : ∀ l : List Int, List.zipWith (fun b v => b • g + v • h) (List.replicate l.length (0 : Int)) l =
      l.map fun v => v • h := by
    intro l
    induction l with
    | nil => rfl
    | cons y l ih => simp [List.replicate_succ, ih]
  have hgr : ∀ (l m : List Int), List.zipWith (fun b v => (⟨G, b • g + v • h⟩ : Pt E)) l m =
      (List.zipWith (fun b v => b • g + v • h) l m).map fun z => ⟨G, z⟩ := by
    intro l m
    rw [List.map_zipWith]
  unfold message
  congr 4
  · rw [hgr, e1]
    simp only [List.zipWith_cons_cons, hzip, List.map_cons, List.map_map, zero_smul, zero_add]
    have : (u + (x * a + r)) • h = u • h + com := by
      rw [hcom, hg, smul_smul, add_smul, add_smul]
    rw [this]
    rfl
  · congr 2
    rw [← sumRands_reduced hq (u :: us) 0 1 (.inl (by simp))]
    apply Int.emod_eq_emod_iff_emod_sub_eq_zero.mpr
    apply Int.emod_eq_zero_of_dvd
    have k1 := sumRands_mod q (v :: vs) 0 1
    have k2 := sumRands_mod q (u :: us) 0 1
    have e3 : horner (0 :: List.replicate us.length 0) = 0 := by simp [horner, hz]
    rw [e3, hx] at e2
    have e4 : horner ((u + (x * a + r)) :: us) = horner (u :: us) + (x * a + r) := by simp only [horner]; ring
    rw [e4] at e2
    have : sumRands q 0 1 (v :: vs) - r - sumRands q 0 1 (u :: us) =
        (sumRands q 0 1 (v :: vs) - (0 + 1 * horner (v :: vs))) - (sumRands q 0 1 (u :: us) - (0 + 1 * horner (u :: us)))
        - (horner (u :: us) + (x * a + r) - (horner (v :: vs) + (x - 0) * a)) := by ring
    rw [this]
    exact dvd_sub (dvd_sub k1 k2) e2

end PowerTwo

/-! ### Inequality of discrete logarithms -/

namespace NotEqual

theorem simPrecommit_of {s : NotEqual E} (hord : s.g.grp.order ≠ 0) (w : World) :
    s.simPrecommit w = .ok (.pt ⟨s.gen.grp, ((w.rng 0 % s.g.grp.order : Nat) : Int) • s.gen.val⟩,
      ⟨w.store, fun i => w.rng (i + 1)⟩) := by
  unfold simPrecommit
  have hd : draw s.g.grp.order w = .ok (((w.rng 0 % s.g.grp.order : Nat) : Int),
      { w with rng := fun i => w.rng (i + 1) }) := by
    unfold draw; rw [if_neg hord]
  rw [pm_bind_eq hd]
  rfl

end NotEqual

/-! ### BBS+ -/

namespace BBS

theorem draw_of {m : Nat} (hm : m ≠ 0) (w : World) :
    draw m w = .ok (((w.rng 0 % m : Nat) : Int), { w with rng := fun i => w.rng (i + 1) }) := by
  unfold draw; rw [if_neg hm]

/-- The heap after precommitting with `r1`, `r2`. -/
def after (s : BBS E) (e : Int) (q : Nat) (σ : Store) (r1 r2 : Int) : Store :=
  (((σ.setValue s.r1 r1).setValue s.r2 r2).setValue s.delta1 (r1 * e % (q : Int))).setValue s.delta2
    (r2 * e % (q : Int))

theorem precommit_of {s : BBS E} {sig : Signature E} (hsig : s.signature = some sig) {b0 b1 b2 : Pt E}
    (h0 : s.bases[0]? = some b0) (h1 : s.bases[1]? = some b1) (h2 : s.bases[2]? = some b2)
    (g1 : b1.grp = b0.grp) (g2 : b2.grp = b0.grp) (gA : sig.A.grp = b0.grp) (hord : b0.grp.order ≠ 0) (w : World) :
    s.precommit w = .ok (.dict
        [("A1", .pt ⟨b0.grp, ((w.rng 0 % b0.grp.order : Nat) : Int) • b1.val +
          ((w.rng 1 % b0.grp.order : Nat) : Int) • b2.val⟩),
         ("A2", .pt ⟨b0.grp, ((w.rng 0 % b0.grp.order : Nat) : Int) • b2.val + sig.A.val⟩)],
      ⟨s.after sig.e b0.grp.order w.store ((w.rng 0 % b0.grp.order : Nat) : Int)
        ((w.rng 1 % b0.grp.order : Nat) : Int), fun i => w.rng (i + 2)⟩) := by
  unfold precommit
  simp only [hsig]
  rw [listAt_ok.mpr h0, pm_liftE_bind, pm_bind_eq (draw_of hord _), pm_bind_eq (draw_of hord _), pm_getStore_bind,
    pm_setStore_bind, listAt_ok.mpr h1, pm_liftE_bind, listAt_ok.mpr h2, pm_liftE_bind]
  have e1 : ∀ r1 r2 : Int, (Pt.smul r1 b1).add (Pt.smul r2 b2) = .ok ⟨b0.grp, r1 • b1.val + r2 • b2.val⟩ := by
    intro r1 r2; simp [Pt.smul, Pt.add, g1, g2]
  have e2 : ∀ r1 : Int, (Pt.smul r1 b2).add sig.A = .ok ⟨b0.grp, r1 • b2.val + sig.A.val⟩ := by
    intro r1; simp [Pt.smul, Pt.add, g2, gA]
  rw [e1, pm_liftE_bind, e2, pm_liftE_bind]
  rfl

theorem simPrecommit_of {s : BBS E} (gen : E) {b0 : Pt E} (h0 : s.bases[0]? = some b0)
    (hord : b0.grp.order ≠ 0) (w : World) :
    s.simPrecommit gen w = .ok (.dict
        [("A1", .pt ⟨b0.grp, ((w.rng 0 % b0.grp.order : Nat) : Int) • gen⟩),
         ("A2", .pt ⟨b0.grp, ((w.rng 1 % b0.grp.order : Nat) : Int) • gen⟩)], ⟨w.store, fun i => w.rng (i + 2)⟩) := by
  unfold simPrecommit
  rw [listAt_ok.mpr h0, pm_liftE_bind, pm_bind_eq (draw_of hord _), pm_bind_eq (draw_of hord _)]
  rfl

end BBS

/-- Multiplying by something that is no multiple of a prime can be undone. -/
theorem prime_cancel {q : Nat} (hq : q.Prime) {a u v : Int} (ha : ¬ (q : Int) ∣ a)
    (h : (q : Int) ∣ u * a - v * a) : (q : Int) ∣ u - v := by
  rw [← sub_mul] at h
  rcases (Nat.prime_iff_prime_int.mp hq).dvd_or_dvd h with h | h
  · exact h
  · exact (ha h).elim

theorem fin_eq_of_dvd {q : Nat} {a b : Fin q} (h : (q : Int) ∣ ((a : Nat) : Int) - ((b : Nat) : Int)) : a = b :=
  fin_eq_of_emod (Int.emod_eq_emod_iff_emod_sub_eq_zero.mpr (Int.emod_eq_zero_of_dvd h))

theorem red_dvd {q : Nat} [NeZero q] (z : Int) : (q : Int) ∣ (((red q z : Fin q) : Nat) : Int) - z := by
  rw [red_val]
  exact ⟨-(z / q), by have := Int.emod_add_mul_ediv z q; linarith⟩

theorem red_eq_dvd {q : Nat} [NeZero q] {z z' : Int} (h : red q z = red q z') : (q : Int) ∣ z - z' :=
  Int.dvd_of_emod_eq_zero (Int.emod_eq_emod_iff_emod_sub_eq_zero.mp (red_inj h))

/-- A number of a tape below its bound. -/
theorem tape_mod {n q : Nat} (y : Fin n → Fin q) (rest : Nat → Nat) {i : Nat} (h : i < n) :
    tape y rest i % q = y ⟨i, h⟩ := by
  rw [tape_lt y rest h, Nat.mod_eq_of_lt (y ⟨i, h⟩).isLt]

end Zksk
