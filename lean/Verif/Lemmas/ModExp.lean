import Verif.Lemmas.ModRed
import Mathlib.Data.ZMod.Basic

/-! Helper lemmas: `ModExp`, `ModexpMontgomery`, `PowerOf2`, `gcd`. -/

namespace FastKsw

theorem and_one_toNat (i : UInt64) : (i &&& 1 = 1) ↔ i.toNat % 2 = 1 := by
  rw [← UInt64.toNat_inj, UInt64.toNat_and, UInt64.toNat_one, Nat.and_one_is_mod]

theorem shiftRight_one_toNat (i : UInt64) : (i >>> 1).toNat = i.toNat / 2 := by
  rw [UInt64.toNat_shiftRight]; simp [Nat.shiftRight_eq_div_pow]

theorem pow_split (x i : ℕ) : x ^ i = (if i % 2 = 1 then x else 1) * (x * x) ^ (i / 2) := by
  conv_lhs => rw [← Nat.div_add_mod i 2]
  rw [pow_add, pow_mul, pow_two, mul_comm]
  congr 1
  rcases Nat.mod_two_eq_zero_or_one i with h | h <;> simp [h]

theorem modExpLoop_toNat {p : UInt64} (hp1 : 1 < p.toNat) (hp : p.toNat ≤ 2 ^ 63)
    (fuel : ℕ) (i x r : UInt64) (hr : r.toNat < p.toNat) (hi : i.toNat < 2 ^ fuel) :
    (modExpLoop p (bredParams p) fuel i x r).toNat = r.toNat * x.toNat ^ i.toNat % p.toNat := by
  induction fuel generalizing i x r with
  | zero =>
    have : i.toNat = 0 := by simpa using hi
    simp [modExpLoop, this, Nat.mod_eq_of_lt hr]
  | succ f ih =>
    rw [modExpLoop]
    by_cases h0 : i > 0
    · rw [if_pos h0]
      simp only
      have hlt : (if i &&& 1 = 1 then bred r x p (bredParams p) else r).toNat < p.toNat := by
        split
        · rw [bred_toNat hp1 hp]; exact Nat.mod_lt _ (by omega)
        · exact hr
      rw [ih _ _ _ hlt (by rw [shiftRight_one_toNat]; rw [pow_succ] at hi; omega)]
      rw [shiftRight_one_toNat, bred_toNat hp1 hp]
      conv_rhs => rw [pow_split]
      by_cases h1 : i.toNat % 2 = 1
      · rw [if_pos ((and_one_toNat i).2 h1), if_pos h1, bred_toNat hp1 hp,
          Nat.mul_mod, Nat.mod_mod, ← Nat.pow_mod, ← Nat.mul_mod, mul_assoc]
      · rw [if_neg (fun h => h1 ((and_one_toNat i).1 h)), if_neg h1,
          Nat.mul_mod, ← Nat.pow_mod, ← Nat.mul_mod, one_mul]
    · rw [if_neg h0]
      have : i.toNat = 0 := by
        have h := fun h => h0 (UInt64.lt_iff_toNat_lt.2 h)
        simp at h; omega
      simp [this, Nat.mod_eq_of_lt hr]

theorem modExp_toNat {p : UInt64} (hp1 : 1 < p.toNat) (hp : p.toNat ≤ 2 ^ 63) (x e : UInt64) :
    (modExp x e p).toNat = x.toNat ^ e.toNat % p.toNat := by
  unfold modExp
  rw [modExpLoop_toNat hp1 hp 64 e x 1 (by simpa using hp1) e.toNat_lt]
  simp

/-- Value of a Montgomery-form word: the `v` with `v * 2^64 = x` in `ZMod q`. -/
theorem two_pow_unit {q : ℕ} (hodd : q % 2 = 1) : IsUnit ((2 : ZMod q) ^ 64) := by
  apply IsUnit.pow
  have := (ZMod.isUnit_iff_coprime 2 q).2 (by
    rw [Nat.coprime_two_left]; exact Nat.odd_iff.2 hodd)
  simpa using this

theorem odd_of_mul_eq_one {q qInv : UInt64} (hinv : q * qInv = 1) : q.toNat % 2 = 1 := by
  have h : (q * qInv).toNat = 1 := by rw [hinv]; rfl
  rw [UInt64.toNat_mul] at h
  by_contra hne
  obtain ⟨k, hk⟩ : 2 ∣ q.toNat := Nat.dvd_of_mod_eq_zero (by omega)
  rw [hk, mul_assoc] at h
  generalize k * qInv.toNat = z at h
  omega

/-- `MRed` in `ZMod q`: multiplication and division by `2^64`. -/
theorem mred_zmod {q qInv : UInt64} (hinv : q * qInv = 1) (hq : q.toNat ≤ 2 ^ 63)
    (x y : UInt64) (hxy : x.toNat * y.toNat < q.toNat * 2 ^ 64) :
    ((mred x y q qInv).toNat : ZMod q.toNat) * 2 ^ 64 = (x.toNat : ZMod q.toNat) * y.toNat := by
  have h := (mred_spec hinv hq x y hxy).2
  have := (ZMod.natCast_eq_natCast_iff _ _ _).2 h
  simp only [Nat.cast_mul, Nat.cast_pow, Nat.cast_ofNat] at this
  exact this

theorem mredConstant_zmod {q qInv : UInt64} (hinv : q * qInv = 1) (hq : q.toNat ≤ 2 ^ 63)
    (x y : UInt64) (hxy : x.toNat * y.toNat < q.toNat * 2 ^ 64) :
    ((mredConstant x y q qInv).toNat : ZMod q.toNat) * 2 ^ 64
      = (x.toNat : ZMod q.toNat) * y.toNat := by
  have h := (mredConstant_spec hinv hq x y hxy).2.2
  have := (ZMod.natCast_eq_natCast_iff _ _ _).2 h
  simp only [Nat.cast_mul, Nat.cast_pow, Nat.cast_ofNat] at this
  exact this

theorem mul_lt_of_lt_left {q x : UInt64} (y : UInt64) (hx : x.toNat < q.toNat) :
    x.toNat * y.toNat < q.toNat * 2 ^ 64 :=
  Nat.mul_lt_mul'' hx y.toNat_lt

theorem mul_lt_of_lt_right {q y : UInt64} (x : UInt64) (hy : y.toNat < q.toNat) :
    x.toNat * y.toNat < q.toNat * 2 ^ 64 := by
  rw [mul_comm]; exact mul_lt_of_lt_left x hy

theorem modexpMontgomeryLoop_spec {q qInv : UInt64} (hinv : q * qInv = 1)
    (hq : q.toNat ≤ 2 ^ 63) (fuel i : ℕ) (x r : UInt64) (X R : ZMod q.toNat)
    (hi : i < 2 ^ fuel) (hx : x.toNat < q.toNat) (hr : r.toNat < q.toNat)
    (hX : (x.toNat : ZMod q.toNat) = X * 2 ^ 64) (hR : (r.toNat : ZMod q.toNat) = R * 2 ^ 64) :
    (modexpMontgomeryLoop q qInv fuel i x r).toNat < q.toNat ∧
    ((modexpMontgomeryLoop q qInv fuel i x r).toNat : ZMod q.toNat) = R * X ^ i * 2 ^ 64 := by
  have hu := two_pow_unit (odd_of_mul_eq_one hinv)
  induction fuel generalizing i x r X R with
  | zero =>
    have : i = 0 := by simpa using hi
    simp [modexpMontgomeryLoop, this, hr, hR]
  | succ f ih =>
    rw [modexpMontgomeryLoop]
    by_cases h0 : i > 0
    · rw [if_pos h0]
      simp only
      have hxx := mred_spec hinv hq x x (mul_lt_of_lt_left x hx)
      have hrx := mred_spec hinv hq r x (mul_lt_of_lt_left x hr)
      have hXX : ((mred x x q qInv).toNat : ZMod q.toNat) = X * X * 2 ^ 64 := by
        have := mred_zmod hinv hq x x (mul_lt_of_lt_left x hx)
        rw [hX] at this
        exact hu.mul_right_cancel (by rw [this]; ring)
      have hRX : ((mred r x q qInv).toNat : ZMod q.toNat) = R * X * 2 ^ 64 := by
        have := mred_zmod hinv hq r x (mul_lt_of_lt_left x hr)
        rw [hX, hR] at this
        exact hu.mul_right_cancel (by rw [this]; ring)
      have hif : i / 2 < 2 ^ f := by rw [pow_succ] at hi; omega
      have hpow : X ^ i = (if i % 2 = 1 then X else 1) * (X * X) ^ (i / 2) := by
        conv_lhs => rw [← Nat.div_add_mod i 2]
        rw [pow_add, pow_mul, pow_two, mul_comm]
        congr 1
        rcases Nat.mod_two_eq_zero_or_one i with h | h <;> simp [h]
      by_cases h1 : i % 2 = 1
      · simp only [h1, if_true]
        have := ih (i / 2) _ _ (X * X) (R * X) hif hxx.1 hrx.1 hXX hRX
        rw [hpow, if_pos h1]
        exact ⟨this.1, by rw [this.2]; ring⟩
      · simp only [h1, if_false]
        have := ih (i / 2) _ _ (X * X) R hif hxx.1 hr hXX hR
        rw [hpow, if_neg h1]
        exact ⟨this.1, by rw [this.2]; ring⟩
    · rw [if_neg h0]
      have : i = 0 := by omega
      subst this
      simp [hr, hR]

theorem one_lt_of_prime_word {q : ℕ} (h : q.Prime) : 1 < q := h.one_lt

theorem modexpMontgomery_spec {q qInv : UInt64} (hinv : q * qInv = 1) (hq1 : 1 < q.toNat)
    (hq : q.toNat ≤ 2 ^ 63) (e : ℕ) (he : e < 2 ^ 64) (x : UInt64) (X : ZMod q.toNat)
    (hx : x.toNat < q.toNat) (hX : (x.toNat : ZMod q.toNat) = X * 2 ^ 64) :
    (modexpMontgomery x e q qInv (bredParams q)).toNat < q.toNat ∧
    ((modexpMontgomery x e q qInv (bredParams q)).toNat : ZMod q.toNat) = X ^ e * 2 ^ 64 := by
  unfold modexpMontgomery
  have hm := mform_toNat hq1 hq 1
  have := modexpMontgomeryLoop_spec hinv hq 64 e x (mform 1 q (bredParams q)) X 1 he hx
    (by rw [hm]; exact Nat.mod_lt _ (by omega)) hX (by
      rw [hm, ZMod.natCast_mod]
      simp only [UInt64.toNat_one, Nat.cast_mul, Nat.cast_pow, Nat.cast_ofNat, Nat.cast_one])
  simpa using this

/-- `PowerOf2`: `x * 2^n / 2^64`. -/
theorem powerOf2_spec {q qInv : UInt64} (hinv : q * qInv = 1) (hq : q.toNat ≤ 2 ^ 63)
    (x : UInt64) (n : ℕ) (hn : n ≤ 64) (hx : x.toNat * 2 ^ n < q.toNat * 2 ^ 64) :
    (powerOf2 x n q qInv).toNat < q.toNat ∧
    (powerOf2 x n q qInv).toNat * 2 ^ 64 ≡ x.toNat * 2 ^ n [MOD q.toNat] := by
  rcases Nat.lt_or_ge n 64 with h | h
  · have hy : (UInt64.ofNat (2 ^ n)).toNat = 2 ^ n := by
      rw [UInt64.toNat_ofNat']
      exact Nat.mod_eq_of_lt (Nat.pow_lt_pow_right (by norm_num) h)
    have : powerOf2 x n q qInv = mred x (UInt64.ofNat (2 ^ n)) q qInv := by
      unfold powerOf2 mred
      have e1 : UInt64.ofNat (x.toNat / 2 ^ (64 - n)) = mulHi x (UInt64.ofNat (2 ^ n)) := by
        unfold mulHi
        rw [hy]
        congr 1
        have : 2 ^ 64 = 2 ^ (64 - n) * 2 ^ n := by rw [← pow_add]; congr 1; omega
        rw [this, Nat.mul_div_mul_right _ _ (by positivity)]
      have e2 : UInt64.ofNat (x.toNat * 2 ^ n) = mulLo x (UInt64.ofNat (2 ^ n)) := by
        apply UInt64.toNat_inj.1
        rw [toNat_mulLo, hy, UInt64.toNat_ofNat']
      rw [e1, e2]
    rw [this]
    have := mred_spec hinv hq x (UInt64.ofNat (2 ^ n)) (by rw [hy]; exact hx)
    rw [hy] at this
    exact this
  · have hn' : n = 64 := by omega
    subst hn'
    have hx' : x.toNat < q.toNat := Nat.lt_of_mul_lt_mul_right hx
    have e1 : UInt64.ofNat (x.toNat / 2 ^ (64 - 64)) = x := by
      apply UInt64.toNat_inj.1; simp
    have e2 : UInt64.ofNat (x.toNat * 2 ^ 64) = 0 := by
      apply UInt64.toNat_inj.1; rw [UInt64.toNat_ofNat']; simp
    have hz : mulHi (0 * qInv) q = 0 := by
      apply UInt64.toNat_inj.1; rw [toNat_mulHi]; simp
    have hqlt := q.toNat_lt
    have h3 : powerOf2 x 64 q qInv = cred (x - 0 + q) q := by
      unfold powerOf2 cred
      rw [e1, e2]; simp only [hz]
    have h4 : (x - 0 + q).toNat = x.toNat + q.toNat := by
      rw [UInt64.sub_zero, UInt64.toNat_add]; omega
    rw [h3]
    refine ⟨toNat_cred_lt (by omega), ?_⟩
    rw [toNat_cred, h4, if_pos (by omega), Nat.add_sub_cancel]

theorem gcdLoop_toNat (fuel : ℕ) (a b : UInt64) (h : b.toNat < fuel) :
    (gcdLoop fuel a b).toNat = Nat.gcd a.toNat b.toNat := by
  induction fuel generalizing a b with
  | zero => omega
  | succ f ih =>
    rw [gcdLoop]
    by_cases hb : b = 0
    · simp [hb]
    · have hb' : 0 < b.toNat := by
        rcases Nat.eq_zero_or_pos b.toNat with h | h
        · exact absurd (UInt64.toNat_inj.1 (by simpa using h)) hb
        · exact h
      have hm : (a % b).toNat = a.toNat % b.toNat := UInt64.toNat_mod a b
      have hlt := Nat.mod_lt a.toNat hb'
      simp only [ne_eq, hb, not_false_eq_true, if_true]
      rw [ih b (a % b) (by omega), hm, Nat.gcd_comm b.toNat, ← Nat.gcd_rec, Nat.gcd_comm]

end FastKsw
