import Verif.Lemmas.Arith
import Verif.Lemmas.Ids
import Mathlib.Tactic.Linarith
import Mathlib.Tactic.Positivity

/-! # C01, C02, C03: integer helpers -/

namespace Zksk.Props

open Spec

/-- **C01** `decompose_into_n_bits` returns exactly the `n` little-endian bits of `value` … -/
theorem C01_decompose_correct (value : Int) (n : Nat) (bits : List Int)
    (h : decomposeIntoNBits value n = .ok bits) :
    bits.length = n ∧ (∀ b ∈ bits, b = 0 ∨ b = 1) ∧ bitSum bits = value := by
  obtain ⟨h1, h2, h3⟩ := decompose_ok h
  exact ⟨h1, h2, by rw [bitSum_eq_horner, h3]⟩

/-- … and raises exactly when the value is negative or does not fit. -/
theorem C01_decompose_total (value : Int) (n : Nat) :
    (∃ bits, decomposeIntoNBits value n = .ok bits) ↔ 0 ≤ value ∧ value < 2 ^ n := by
  constructor
  · rintro ⟨bits, h⟩
    by_contra hc
    rw [decompose_error (by omega)] at h
    cases h
  · rintro ⟨h0, h1⟩
    exact decompose_isOk h0 h1

example : decomposeIntoNBits 6 4 = .ok [0, 1, 1, 0] := by decide
example : decomposeIntoNBits 16 4 = .error .generic := by decide

/-- **C02** The residual challenge completes the sum, and lies in `(-2^k, 0]`. -/
theorem C02_residual_closes (cs : List Int) (c : Int) (k : Nat) :
    (cs.sum + findResidualChallenge cs c k) % 2 ^ k = c % 2 ^ k ∧
    -(2 : Int) ^ k < findResidualChallenge cs c k ∧ findResidualChallenge cs c k ≤ 0 := by
  rw [findResidual_eq]
  have hpos : (0 : Int) < 2 ^ k := by positivity
  have h1 := Int.emod_nonneg (cs.sum - c) (ne_of_gt hpos)
  have h2 := Int.emod_lt_of_pos (cs.sum - c) hpos
  refine ⟨?_, by omega, by omega⟩
  have : cs.sum + -((cs.sum - c) % 2 ^ k) = c + 2 ^ k * ((cs.sum - c) / 2 ^ k) := by
    have := Int.emod_add_mul_ediv (cs.sum - c) (2 ^ k)
    linarith
  rw [this, Int.add_mul_emod_self_left]

/-- **C02** Checking that a list of sub-challenges has residual zero is checking its sum. -/
theorem C02_residual_zero_iff (cs : List Int) (c : Int) (k : Nat) :
    findResidualChallenge cs c k = 0 ↔ cs.sum % 2 ^ k = c % 2 ^ k := by
  rw [findResidual_eq, Int.neg_eq_zero, Int.emod_eq_emod_iff_emod_sub_eq_zero]

example : findResidualChallenge [5, 7] 3 4 = -9 := by decide
example : findResidualChallenge [5, 7, -9] 3 4 = 0 := by decide

/-- **C03** The identifier map lists the distinct names in order of first occurrence with
identifiers 0, 1, 2, … -/
theorem C03_ids_consecutive (names : List String) :
    (assignSecretIds names).map Prod.fst = distinct names ∧
    (assignSecretIds names).map Prod.snd = List.range (distinct names).length := by
  rw [assignSecretIds_eq]
  constructor
  · simp
  · simp [List.range_eq_range']

/-- **C03** Every secret gets an identifier; two get the same one iff they have the same name. -/
theorem C03_ids_by_name (names : List String) (n n' : String) (h : n ∈ names) (h' : n' ∈ names) :
    ∃ i i', (assignSecretIds names).get n = .ok i ∧ (assignSecretIds names).get n' = .ok i' ∧
      (i = i' ↔ n = n') := by
  obtain ⟨i, hi⟩ := assign_lookup_mem h
  obtain ⟨i', hi'⟩ := assign_lookup_mem h'
  refine ⟨i, i', by simp [IdMap.get, hi], by simp [IdMap.get, hi'], ?_⟩
  constructor
  · rintro rfl; exact assign_lookup_inj hi hi'
  · rintro rfl; rw [hi] at hi'; exact Option.some.inj hi'

/-- **C03** The identifiers depend only on the pattern of equal names: position by position, two
lists of names with the same pattern get the same identifiers. -/
theorem C03_ids_canonical (names names' : List String) (h : SamePattern names names') :
    names.map (assignSecretIds names).get = names'.map (assignSecretIds names').get := by
  apply List.ext_getElem?
  intro i
  simp only [List.getElem?_map]
  cases hn : names[i]? with
  | none =>
    have : names'[i]? = none := by
      rw [List.getElem?_eq_none_iff] at hn ⊢; have := h.1; omega
    rw [this]; rfl
  | some n =>
    have hi : i < names'.length := by
      have := (List.getElem?_eq_some_iff.mp hn).1; have := h.1; omega
    have hn' : names'[i]? = some names'[i] := List.getElem?_eq_getElem hi
    obtain ⟨k, hk⟩ := assign_lookup_mem (List.mem_of_getElem? hn)
    have := assign_samePattern h hn hn' hk
    simp [hn', IdMap.get, hk, this]

example : SamePattern ["x", "y", "x", "z"] ["b", "a", "b", "c"] ∧
    ["x", "y", "x", "z"].map (assignSecretIds ["x", "y", "x", "z"]).get
      = [.ok 0, .ok 1, .ok 0, .ok 2] := by
  refine ⟨⟨rfl, ?_⟩, by decide⟩
  intro i j a b a' b'
  rcases i with _ | _ | _ | _ | i <;> rcases j with _ | _ | _ | _ | j <;> simp <;>
    (rintro rfl rfl rfl rfl; simp)

example : assignSecretIds ["x", "y", "x", "z"] = [("x", 0), ("y", 1), ("z", 2)] := by decide

end Zksk.Props
