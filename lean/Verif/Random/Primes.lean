import Mathlib.NumberTheory.LucasPrimality
import Mathlib.Tactic.ReduceModChar
import Mathlib.Tactic.NormNum.Prime
import Mathlib.Tactic.IntervalCases

/-!
Primality of the prime factors of `2^256 - 1` (Pratt certificates through Mathlib's `lucas_primality`).
-/
namespace Verif.Random

theorem prime_2998279 : Nat.Prime 2998279 := by norm_num
theorem prime_12497 : Nat.Prime 12497 := by norm_num
theorem prime_55515497 : Nat.Prime 55515497 := by norm_num
theorem prime_1896229 : Nat.Prime 1896229 := by norm_num
theorem prime_6700417 : Nat.Prime 6700417 := by norm_num
theorem prime_274177 : Nat.Prime 274177 := by norm_num
theorem prime_65537 : Nat.Prime 65537 := by norm_num

/-- A prime dividing a power of a prime times a rest is that prime or divides the rest. -/
theorem prime_dvd_pow_mul {q p k r : Nat} (hq : q.Prime) (hp : p.Prime) (h : q ∣ p ^ k * r) :
    q = p ∨ q ∣ r := by
  rcases hq.dvd_mul.1 h with h | h
  · exact Or.inl ((Nat.prime_dvd_prime_iff_eq hq hp).1 (hq.dvd_of_dvd_pow h))
  · exact Or.inr h

theorem prime_dvd_one {q : Nat} (hq : q.Prime) (h : q ∣ 1) : False :=
  hq.one_lt.ne' (Nat.dvd_one.1 h)

theorem prime_18533742247 : Nat.Prime 18533742247 := by
  apply lucas_primality _ (6 : ZMod 18533742247) (by reduce_mod_char)
  intro q hq hd
  have hd : q ∣ 2 ^ 1 * (3 ^ 3 * (181 ^ 1 * (1896229 ^ 1 * 1))) := by simpa using hd
  rcases prime_dvd_pow_mul hq Nat.prime_two hd with rfl | hd
  · reduce_mod_char; decide
  rcases prime_dvd_pow_mul hq Nat.prime_three hd with rfl | hd
  · reduce_mod_char; decide
  rcases prime_dvd_pow_mul hq (by norm_num) hd with rfl | hd
  · reduce_mod_char; decide
  rcases prime_dvd_pow_mul hq prime_1896229 hd with rfl | hd
  · reduce_mod_char; decide
  exact (prime_dvd_one hq hd).elim

theorem prime_116503103764643 : Nat.Prime 116503103764643 := by
  apply lucas_primality _ (2 : ZMod 116503103764643) (by reduce_mod_char)
  intro q hq hd
  have hd : q ∣ 2 ^ 1 * (7 ^ 1 * (449 ^ 1 * (18533742247 ^ 1 * 1))) := by simpa using hd
  rcases prime_dvd_pow_mul hq Nat.prime_two hd with rfl | hd
  · reduce_mod_char; decide
  rcases prime_dvd_pow_mul hq (by norm_num) hd with rfl | hd
  · reduce_mod_char; decide
  rcases prime_dvd_pow_mul hq (by norm_num) hd with rfl | hd
  · reduce_mod_char; decide
  rcases prime_dvd_pow_mul hq prime_18533742247 hd with rfl | hd
  · reduce_mod_char; decide
  exact (prime_dvd_one hq hd).elim

theorem prime_733803839347 : Nat.Prime 733803839347 := by
  apply lucas_primality _ (2 : ZMod 733803839347) (by reduce_mod_char)
  intro q hq hd
  have hd : q ∣ 2 ^ 1 * (3 ^ 1 * (2203 ^ 1 * (55515497 ^ 1 * 1))) := by simpa using hd
  rcases prime_dvd_pow_mul hq Nat.prime_two hd with rfl | hd
  · reduce_mod_char; decide
  rcases prime_dvd_pow_mul hq Nat.prime_three hd with rfl | hd
  · reduce_mod_char; decide
  rcases prime_dvd_pow_mul hq (by norm_num) hd with rfl | hd
  · reduce_mod_char; decide
  rcases prime_dvd_pow_mul hq prime_55515497 hd with rfl | hd
  · reduce_mod_char; decide
  exact (prime_dvd_one hq hd).elim

theorem prime_67280421310721 : Nat.Prime 67280421310721 := by
  apply lucas_primality _ (3 : ZMod 67280421310721) (by reduce_mod_char)
  intro q hq hd
  have hd : q ∣ 2 ^ 8 * (5 ^ 1 * (47 ^ 1 * (373 ^ 1 * (2998279 ^ 1 * 1)))) := by simpa using hd
  rcases prime_dvd_pow_mul hq Nat.prime_two hd with rfl | hd
  · reduce_mod_char; decide
  rcases prime_dvd_pow_mul hq (by norm_num) hd with rfl | hd
  · reduce_mod_char; decide
  rcases prime_dvd_pow_mul hq (by norm_num) hd with rfl | hd
  · reduce_mod_char; decide
  rcases prime_dvd_pow_mul hq (by norm_num) hd with rfl | hd
  · reduce_mod_char; decide
  rcases prime_dvd_pow_mul hq prime_2998279 hd with rfl | hd
  · reduce_mod_char; decide
  exact (prime_dvd_one hq hd).elim

theorem prime_59649589127497217 : Nat.Prime 59649589127497217 := by
  apply lucas_primality _ (3 : ZMod 59649589127497217) (by reduce_mod_char)
  intro q hq hd
  have hd : q ∣ 2 ^ 9 * (116503103764643 ^ 1 * 1) := by simpa using hd
  rcases prime_dvd_pow_mul hq Nat.prime_two hd with rfl | hd
  · reduce_mod_char; decide
  rcases prime_dvd_pow_mul hq prime_116503103764643 hd with rfl | hd
  · reduce_mod_char; decide
  exact (prime_dvd_one hq hd).elim

theorem prime_5704689200685129054721 : Nat.Prime 5704689200685129054721 := by
  apply lucas_primality _ (21 : ZMod 5704689200685129054721) (by reduce_mod_char)
  intro q hq hd
  have hd : q ∣ 2 ^ 9 * (3 ^ 5 * (5 ^ 1 * (12497 ^ 1 * (733803839347 ^ 1 * 1)))) := by simpa using hd
  rcases prime_dvd_pow_mul hq Nat.prime_two hd with rfl | hd
  · reduce_mod_char; decide
  rcases prime_dvd_pow_mul hq Nat.prime_three hd with rfl | hd
  · reduce_mod_char; decide
  rcases prime_dvd_pow_mul hq (by norm_num) hd with rfl | hd
  · reduce_mod_char; decide
  rcases prime_dvd_pow_mul hq prime_12497 hd with rfl | hd
  · reduce_mod_char; decide
  rcases prime_dvd_pow_mul hq prime_733803839347 hd with rfl | hd
  · reduce_mod_char; decide
  exact (prime_dvd_one hq hd).elim

end Verif.Random
