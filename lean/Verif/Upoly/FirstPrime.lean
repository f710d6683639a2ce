import Mathlib.NumberTheory.LucasPrimality
import Mathlib.Tactic.ReduceModChar
import Mathlib.Tactic.NormNum.Prime
import Mathlib.Tactic.NormNum.PowMod
import Verif.Upoly.GcdZDefs

/-!
# The constants `2^64 − 59` and `2^64 − 83` are prime

The start value of the modular gcd (polynomial_gcd.cc 183), and the prime before it, by Lucas' test.
-/

namespace CLPoly
namespace Upoly

theorem prime_5594472617641 : Nat.Prime 5594472617641 := by
  refine lucas_primality _ (13 : ZMod 5594472617641) (by norm_num; reduce_mod_char) fun q hq hd => ?_
  have e : (5594472617641 : ℕ) - 1 = 2 * 2 * 2 * 3 * 5 * 1427 * 2131 * 15331 := by norm_num
  rw [e] at hd
  simp only [hq.dvd_mul] at hd
  have pr : ∀ r : ℕ, r.Prime → q ∣ r → q = r := fun r hr h => (Nat.prime_dvd_prime_iff_eq hq hr).1 h
  rcases hd with ((((((h | h) | h) | h) | h) | h) | h) | h
  · rw [pr 2 (by norm_num) h]; norm_num; reduce_mod_char; decide +kernel
  · rw [pr 2 (by norm_num) h]; norm_num; reduce_mod_char; decide +kernel
  · rw [pr 2 (by norm_num) h]; norm_num; reduce_mod_char; decide +kernel
  · rw [pr 3 (by norm_num) h]; norm_num; reduce_mod_char; decide +kernel
  · rw [pr 5 (by norm_num) h]; norm_num; reduce_mod_char; decide +kernel
  · rw [pr 1427 (by norm_num) h]; norm_num; reduce_mod_char; decide +kernel
  · rw [pr 2131 (by norm_num) h]; norm_num; reduce_mod_char; decide +kernel
  · rw [pr 15331 (by norm_num) h]; norm_num; reduce_mod_char; decide +kernel

theorem firstPrime_prime : firstPrime.Prime := by
  unfold firstPrime
  refine lucas_primality _ (2 : ZMod 18446744073709551557) (by norm_num; reduce_mod_char) fun q hq hd => ?_
  have e : (18446744073709551557 : ℕ) - 1 = 2 * 2 * 11 * 137 * 547 * 5594472617641 := by norm_num
  rw [e] at hd
  simp only [hq.dvd_mul] at hd
  have pr : ∀ r : ℕ, r.Prime → q ∣ r → q = r := fun r hr h => (Nat.prime_dvd_prime_iff_eq hq hr).1 h
  rcases hd with ((((h | h) | h) | h) | h) | h
  · rw [pr 2 (by norm_num) h]; norm_num; reduce_mod_char; decide +kernel
  · rw [pr 2 (by norm_num) h]; norm_num; reduce_mod_char; decide +kernel
  · rw [pr 11 (by norm_num) h]; norm_num; reduce_mod_char; decide +kernel
  · rw [pr 137 (by norm_num) h]; norm_num; reduce_mod_char; decide +kernel
  · rw [pr 547 (by norm_num) h]; norm_num; reduce_mod_char; decide +kernel
  · rw [pr 5594472617641 prime_5594472617641 h]; norm_num; reduce_mod_char; decide +kernel

/-- `2^64 − 83` -/
def secondPrime : ℕ := 18446744073709551533

theorem secondPrime_prime : secondPrime.Prime := by
  unfold secondPrime
  refine lucas_primality _ (2 : ZMod 18446744073709551533) (by norm_num; reduce_mod_char) fun q hq hd => ?_
  have e : (18446744073709551533 : ℕ) - 1 = 2 * 2 * 43 * 67 * 193 * 809383 * 10247197 := by norm_num
  rw [e] at hd
  simp only [hq.dvd_mul] at hd
  have pr : ∀ r : ℕ, r.Prime → q ∣ r → q = r := fun r hr h => (Nat.prime_dvd_prime_iff_eq hq hr).1 h
  rcases hd with (((((h | h) | h) | h) | h) | h) | h
  · rw [pr 2 (by norm_num) h]; norm_num; reduce_mod_char; decide +kernel
  · rw [pr 2 (by norm_num) h]; norm_num; reduce_mod_char; decide +kernel
  · rw [pr 43 (by norm_num) h]; norm_num; reduce_mod_char; decide +kernel
  · rw [pr 67 (by norm_num) h]; norm_num; reduce_mod_char; decide +kernel
  · rw [pr 193 (by norm_num) h]; norm_num; reduce_mod_char; decide +kernel
  · rw [pr 809383 (by norm_num) h]; norm_num; reduce_mod_char; decide +kernel
  · rw [pr 10247197 (by norm_num) h]; norm_num; reduce_mod_char; decide +kernel

end Upoly
end CLPoly
