import Mathlib.NumberTheory.LucasPrimality
import Mathlib.Tactic.NormNum.Prime
import Verif.Lemmas.BigPrime

namespace FastKsw

/-- square-and-multiply on naturals, for primality certificates -/
def natPowMod (m : ℕ) : ℕ → ℕ → ℕ → ℕ → ℕ
  | 0, _, _, acc => acc
  | fuel + 1, b, e, acc =>
    natPowMod m fuel (b * b % m) (e / 2) (if e % 2 = 1 then acc * b % m else acc)

theorem natPowMod_eq (m fuel b e acc : ℕ) (he : e < 2 ^ fuel) :
    natPowMod m fuel b e acc % m = acc * b ^ e % m := by
  induction fuel generalizing b e acc with
  | zero =>
    have : e = 0 := by simpa using he
    subst this
    simp [natPowMod]
  | succ fuel ih =>
    rw [natPowMod, ih _ _ _ (by rw [pow_succ] at he; omega)]
    have hb : (b * b % m) ^ (e / 2) ≡ (b * b) ^ (e / 2) [MOD m] := (Nat.mod_modEq _ _).pow _
    have he2 : b ^ e = (b * b) ^ (e / 2) * b ^ (e % 2) := by
      rw [← pow_two, ← pow_mul, ← pow_add, Nat.div_add_mod]
    rw [he2]
    split
    · rename_i h
      rw [h, pow_one]
      have := ((Nat.mod_modEq (acc * b) m).mul hb)
      refine Eq.trans this ?_
      show acc * b * (b * b) ^ (e / 2) % m = acc * ((b * b) ^ (e / 2) * b) % m
      congr 1; ring
    · rename_i h
      rw [show e % 2 = 0 by omega, pow_zero, mul_one]
      exact hb.mul_left acc

theorem zmod_pow_one (p a e : ℕ) (hp : 1 < p) (he : e < 2 ^ 64) :
    ((a : ZMod p) ^ e = 1) ↔ natPowMod p 64 a e 1 % p = 1 := by
  rw [zmod_pow_eq_one_iff p a e hp, natPowMod_eq _ _ _ _ _ he, one_mul]

theorem prime_a : Nat.Prime 42362119169 := by
  apply lucas_primality _ ((3 : ℕ) : ZMod 42362119169)
  · rw [zmod_pow_one _ _ _ (by norm_num) (by norm_num)]; decide +kernel
  · intro q hq hd
    rw [show (42362119169 - 1 : ℕ) = 2 ^ 10 * 41369257 by norm_num, Nat.Prime.dvd_mul hq] at hd
    have hc : q = 2 ∨ q = 41369257 := by
      rcases hd with h | h
      · exact Or.inl ((Nat.prime_dvd_prime_iff_eq hq Nat.prime_two).1 (hq.dvd_of_dvd_pow h))
      · exact Or.inr ((Nat.prime_dvd_prime_iff_eq hq (by norm_num)).1 h)
    rw [Ne, zmod_pow_one _ _ _ (by norm_num) (lt_of_le_of_lt (Nat.div_le_self _ _) (by norm_num))]
    rcases hc with h | h <;> subst h <;> decide +kernel

theorem prime_b : Nat.Prime 43294085790719 := by
  apply lucas_primality _ ((14 : ℕ) : ZMod 43294085790719)
  · rw [zmod_pow_one _ _ _ (by norm_num) (by norm_num)]; decide +kernel
  · intro q hq hd
    rw [show (43294085790719 - 1 : ℕ) = 2 * (7 * (73 * 42362119169)) by norm_num, Nat.Prime.dvd_mul hq,
      Nat.Prime.dvd_mul hq, Nat.Prime.dvd_mul hq] at hd
    have hc : q = 2 ∨ q = 7 ∨ q = 73 ∨ q = 42362119169 := by
      rcases hd with h | h | h | h
      · exact Or.inl ((Nat.prime_dvd_prime_iff_eq hq Nat.prime_two).1 h)
      · exact Or.inr (Or.inl ((Nat.prime_dvd_prime_iff_eq hq (by norm_num)).1 h))
      · exact Or.inr (Or.inr (Or.inl ((Nat.prime_dvd_prime_iff_eq hq (by norm_num)).1 h)))
      · exact Or.inr (Or.inr (Or.inr ((Nat.prime_dvd_prime_iff_eq hq prime_a).1 h)))
    rw [Ne, zmod_pow_one _ _ _ (by norm_num) (lt_of_le_of_lt (Nat.div_le_self _ _) (by norm_num))]
    rcases hc with h | h | h | h <;> subst h <;> decide +kernel

/-- `2^64 - 95` is prime -/
theorem prime_top : Nat.Prime 18446744073709551521 := by
  apply lucas_primality _ ((3 : ℕ) : ZMod 18446744073709551521)
  · rw [zmod_pow_one _ _ _ (by norm_num) (by norm_num)]; decide +kernel
  · intro q hq hd
    rw [show (18446744073709551521 - 1 : ℕ) = 2 ^ 5 * (5 * (2663 * 43294085790719)) by norm_num,
      Nat.Prime.dvd_mul hq, Nat.Prime.dvd_mul hq, Nat.Prime.dvd_mul hq] at hd
    have hc : q = 2 ∨ q = 5 ∨ q = 2663 ∨ q = 43294085790719 := by
      rcases hd with h | h | h | h
      · exact Or.inl ((Nat.prime_dvd_prime_iff_eq hq Nat.prime_two).1 (hq.dvd_of_dvd_pow h))
      · exact Or.inr (Or.inl ((Nat.prime_dvd_prime_iff_eq hq (by norm_num)).1 h))
      · exact Or.inr (Or.inr (Or.inl ((Nat.prime_dvd_prime_iff_eq hq (by norm_num)).1 h)))
      · exact Or.inr (Or.inr (Or.inr ((Nat.prime_dvd_prime_iff_eq hq prime_b).1 h)))
    rw [Ne, zmod_pow_one _ _ _ (by norm_num) (lt_of_le_of_lt (Nat.div_le_self _ _) (by norm_num))]
    rcases hc with h | h | h | h <;> subst h <;> decide +kernel

theorem not_prime_of_mul {n : ℕ} (a b : ℕ) (h : n = a * b) (ha : 1 < a) (hb : 1 < b) : ¬ n.Prime := by
  rw [h]; exact Nat.not_prime_mul (by omega) (by omega)

end FastKsw
