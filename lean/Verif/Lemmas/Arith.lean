import Verif.Model.Util
import Verif.Spec
import Mathlib.Data.Nat.Bitwise
import Mathlib.Tactic.Ring
import Mathlib.Algebra.Order.Ring.Int
import Mathlib.Data.Int.ModEq
import Mathlib.Tactic.Zify
import Mathlib.Algebra.BigOperators.Ring.List
import Mathlib.Tactic.NormNum

namespace Zksk

theorem sumBnArray_foldl (m : Int) : ∀ (l : List Int) (r : Int),
    (l.foldl (fun res e => (res + e) % m) r) % m = (r + l.sum) % m
  | [], r => by simp
  | a :: l, r => by
    simp only [List.foldl_cons, List.sum_cons]
    rw [sumBnArray_foldl m l]
    rw [← Int.add_assoc, Int.add_emod ((r + a) % m), Int.emod_emod, ← Int.add_emod]

theorem sumBnArray_reduced {m : Int} : ∀ (l : List Int) (r : Int), r % m = r →
    (l.foldl (fun res e => (res + e) % m) r) % m = l.foldl (fun res e => (res + e) % m) r
  | [], r, h => by simpa using h
  | a :: l, r, _ => by
    simp only [List.foldl_cons]
    exact sumBnArray_reduced l _ (Int.emod_emod ..)

theorem sumBnArray_eq (l : List Int) (m : Int) : sumBnArray l m = l.sum % m := by
  unfold sumBnArray
  rw [← sumBnArray_reduced l 0 (by simp), sumBnArray_foldl]
  simp

theorem findResidual_eq (cs : List Int) (c : Int) (k : Nat) :
    findResidualChallenge cs c k = -((cs.sum - c) % 2 ^ k) := by
  unfold findResidualChallenge
  rw [sumBnArray_eq]
  simp [Int.sub_eq_add_neg]

/-- Horner form of the bit sum. -/
def horner : List Int → Int
  | [] => 0
  | b :: bs => b + 2 * horner bs

theorem bitSum_eq_horner : ∀ l : List Int, Spec.bitSum l = horner l
  | [] => by simp [Spec.bitSum, horner]
  | b :: bs => by
    rw [horner, ← bitSum_eq_horner bs]
    unfold Spec.bitSum
    rw [List.length_cons, List.range_succ_eq_map]
    simp only [List.map_cons, List.sum_cons, List.map_map]
    congr 1
    · simp
    · rw [← List.sum_map_mul_left]
      congr 1
      apply List.map_congr_left
      intro i _
      simp [pow_succ]
      ring

theorem horner_append_zeros : ∀ (l : List Int) (k : Nat),
    horner (l ++ List.replicate k 0) = horner l
  | [], k => by
    induction k with
    | zero => simp [horner]
    | succ k ih => simp only [List.nil_append] at ih ⊢; simp [List.replicate_succ, horner, ih]
  | b :: bs, k => by
    simp [horner, horner_append_zeros bs k]

theorem horner_testBit : ∀ (k n : Nat), n < 2 ^ k →
    horner ((List.range k).map (fun b => if n.testBit b then (1 : Int) else 0)) = n
  | 0, n, h => by
    have : n = 0 := by simpa using h
    simp [horner, this]
  | k + 1, n, h => by
    rw [List.range_succ_eq_map]
    simp only [List.map_cons, List.map_map, horner]
    have h2 : n / 2 < 2 ^ k := by
      rw [Nat.div_lt_iff_lt_mul (by norm_num)]
      rwa [pow_succ] at h
    have ih := horner_testBit k (n / 2) h2
    have hcomp : ((fun b => if n.testBit b then (1 : Int) else 0) ∘ Nat.succ)
        = (fun b => if (n / 2).testBit b then (1 : Int) else 0) := by
      funext b
      simp [Nat.testBit_succ]
    rw [hcomp, ih]
    have : n = n % 2 + 2 * (n / 2) := by omega
    rcases Nat.mod_two_eq_zero_or_one n with h0 | h0
    · simp [Nat.testBit_zero, h0]; omega
    · simp [Nat.testBit_zero, h0]; omega

theorem decompose_ok {value : Int} {n : Nat} {bits : List Int}
    (h : decomposeIntoNBits value n = .ok bits) :
    bits.length = n ∧ (∀ b ∈ bits, b = 0 ∨ b = 1) ∧ horner bits = value := by
  unfold decomposeIntoNBits at h
  split at h
  · cases h
  · rename_i h0
    simp only [List.length_map, List.length_range] at h
    split at h
    · cases h
    · rename_i h1
      simp only [Except.ok.injEq] at h
      subst h
      refine ⟨by simp; omega, ?_, ?_⟩
      · intro b hb
        rw [List.mem_append] at hb
        rcases hb with hb | hb
        · rw [List.mem_map] at hb
          obtain ⟨i, _, rfl⟩ := hb
          split <;> simp
        · left; exact List.eq_of_mem_replicate hb
      · rw [horner_append_zeros, numBits, horner_testBit _ _ (Nat.lt_size_self _)]
        omega

theorem decompose_isOk {value : Int} {n : Nat} (h0 : 0 ≤ value) (h1 : value < 2 ^ n) :
    ∃ bits, decomposeIntoNBits value n = .ok bits := by
  unfold decomposeIntoNBits
  rw [if_neg (by omega)]
  simp only [List.length_map, List.length_range]
  have : numBits value ≤ n := by
    unfold numBits
    rw [Nat.size_le]
    zify
    rwa [abs_of_nonneg h0]
  rw [if_neg (by omega)]
  exact ⟨_, rfl⟩

theorem decompose_error {value : Int} {n : Nat} (h : value < 0 ∨ 2 ^ n ≤ value) :
    decomposeIntoNBits value n = .error .generic := by
  unfold decomposeIntoNBits
  split
  · rfl
  · rename_i h0
    simp only [List.length_map, List.length_range]
    rw [if_pos]
    have h2 : (2 : Int) ^ n ≤ value := by
      rcases h with h | h
      · omega
      · exact h
    have : n < numBits value := by
      unfold numBits
      rw [Nat.lt_size]
      zify
      rwa [abs_of_nonneg (by omega)]
    omega

end Zksk
