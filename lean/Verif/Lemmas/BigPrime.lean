import Verif.Props.Sound
import Mathlib.NumberTheory.LucasPrimality

/-! # A prime of 131 bits

For examples of theorems about groups whose order has only large prime factors. -/

namespace Zksk

/-- `11 · 2^127 + 1`. -/
def bigPrime : Nat := 1871553018065161549048560340874725163009

/-- Repeated squaring. -/
def squares (p : Nat) : Nat → Nat → Nat
  | 0, x => x % p
  | n + 1, x => squares p n (x * x % p)

theorem squares_spec (p n x : Nat) : (squares p n x : ZMod p) = (x : ZMod p) ^ 2 ^ n := by
  induction n generalizing x with
  | zero => simp [squares]
  | succ n ih =>
    rw [squares, ih, ZMod.natCast_mod, Nat.cast_mul, ← sq, ← pow_mul, pow_succ' 2 n]

theorem squares_ne {p n x : Nat} (h : squares p n x % p ≠ 1 % p) : (x : ZMod p) ^ 2 ^ n ≠ 1 := by
  rw [← squares_spec]
  intro he
  exact h ((ZMod.natCast_eq_natCast_iff' _ _ _).mp (by simpa using he))

theorem bigPrime_prime : Nat.Prime bigPrime := by
  have e : bigPrime - 1 = 11 * 2 ^ 127 := by decide +kernel
  refine lucas_primality bigPrime ((3 : Nat) : ZMod bigPrime) ?_ fun q hq hd => ?_
  · rw [e, pow_mul, ← Nat.cast_pow, ← squares_spec]
    have h : squares bigPrime 127 (3 ^ 11) = 1 := by decide +kernel
    rw [h, Nat.cast_one]
  · rw [e] at hd ⊢
    rcases (Nat.Prime.dvd_mul hq).mp hd with h | h
    · obtain rfl := (Nat.prime_dvd_prime_iff_eq hq (by decide)).mp h
      rw [show 11 * 2 ^ 127 / 11 = 2 ^ 127 by norm_num]
      exact squares_ne (by decide +kernel)
    · obtain rfl := (Nat.prime_dvd_prime_iff_eq hq (by decide)).mp (hq.dvd_of_dvd_pow h)
      rw [show 11 * 2 ^ 127 / 2 = 11 * 2 ^ 126 by norm_num, pow_mul, ← Nat.cast_pow]
      exact squares_ne (by decide +kernel)

theorem bigPrime_large : 2 ^ 129 ≤ bigPrime := by decide +kernel

end Zksk
