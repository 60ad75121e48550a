import Mathlib.NumberTheory.LucasPrimality
import Mathlib.Tactic.NormNum.PowMod
import Mathlib.Tactic.NormNum.Prime
import Verif.Lemmas.NewRing

namespace FastKsw

theorem zmod_pow_eq_one_iff (p a e : ℕ) (hp : 1 < p) : ((a : ZMod p) ^ e = 1) ↔ a ^ e % p = 1 := by
  rw [← Nat.cast_pow, ← Nat.cast_one, ZMod.natCast_eq_natCast_iff, Nat.ModEq, Nat.mod_eq_of_lt hp]

theorem zmod_pow_modExp (p a e : ℕ) (hp : 1 < p) (hp2 : p ≤ 2 ^ 63) (ha : a < 2 ^ 64) (he : e < 2 ^ 64) :
    ((a : ZMod p) ^ e = 1) ↔ (modExp (UInt64.ofNat a) (UInt64.ofNat e) (UInt64.ofNat p)).toNat = 1 := by
  have h1 : (UInt64.ofNat p).toNat = p := by rw [UInt64.toNat_ofNat', Nat.mod_eq_of_lt (by omega)]
  have h2 : (UInt64.ofNat a).toNat = a := by rw [UInt64.toNat_ofNat', Nat.mod_eq_of_lt ha]
  have h3 : (UInt64.ofNat e).toNat = e := by rw [UInt64.toNat_ofNat', Nat.mod_eq_of_lt he]
  rw [zmod_pow_eq_one_iff p a e hp, modExp_toNat (by rw [h1]; exact hp) (by rw [h1]; exact hp2), h1, h2, h3]

theorem prime62 : Nat.Prime 4479442115436288001 := by
  apply lucas_primality _ ((31 : ℕ) : ZMod 4479442115436288001)
  · rw [zmod_pow_modExp _ _ _ (by norm_num) (by norm_num) (by norm_num) (by norm_num)]
    decide +kernel
  · intro q hq hd
    have h : (4479442115436288001 - 1 : ℕ)
        = 2 ^ 11 * (3 ^ 2 * (5 ^ 3 * (7 ^ 2 * (11 * (13 ^ 4 * (17 ^ 2 * (19 * 23))))))) := by norm_num
    rw [h] at hd
    have hc : q = 2 ∨ q = 3 ∨ q = 5 ∨ q = 7 ∨ q = 11 ∨ q = 13 ∨ q = 17 ∨ q = 19 ∨ q = 23 := by
      simp only [Nat.Prime.dvd_mul hq] at hd
      have e : ∀ (a k : ℕ), a.Prime → q ∣ a ^ k → q = a := fun a k ha h =>
        (Nat.prime_dvd_prime_iff_eq hq ha).1 (hq.dvd_of_dvd_pow h)
      have e1 : ∀ (a : ℕ), a.Prime → q ∣ a → q = a := fun a ha h =>
        (Nat.prime_dvd_prime_iff_eq hq ha).1 h
      rcases hd with h | h | h | h | h | h | h | h | h
      · have := e 2 _ (by norm_num) h; omega
      · have := e 3 _ (by norm_num) h; omega
      · have := e 5 _ (by norm_num) h; omega
      · have := e 7 _ (by norm_num) h; omega
      · have := e1 11 (by norm_num) h; omega
      · have := e 13 _ (by norm_num) h; omega
      · have := e 17 _ (by norm_num) h; omega
      · have := e1 19 (by norm_num) h; omega
      · have := e1 23 (by norm_num) h; omega
    rw [Ne, zmod_pow_modExp _ _ _ (by norm_num) (by norm_num) (by norm_num)
      (lt_of_le_of_lt (Nat.div_le_self _ _) (by norm_num))]
    rcases hc with h | h | h | h | h | h | h | h | h <;> subst h <;> decide +kernel

end FastKsw
