import Verif.Lemmas.ModExp

/-!
# Properties C01–C07, C60 (first half): 64-bit modular arithmetic

All statements are about `toNat`, i.e. about ordinary natural numbers, and use
only `%`, `*`, `^`, `<` and `Nat.ModEq` (congruence).
-/

namespace FastKsw.Props

/-- **C03.** `MRedParams(q)` is the inverse of `q` modulo `2^64` for every odd word. -/
theorem C03_mredParams_inverse (q : UInt64) (hodd : q.toNat % 2 = 1) :
    q.toNat * (mredParams q).toNat % 2 ^ 64 = 1 := by
  have h := mredParams_spec q hodd
  have : (q * mredParams q).toNat = 1 := by rw [h]; rfl
  rwa [UInt64.toNat_mul] at this

example : (0x1fffffffffe00001 : UInt64).toNat % 2 = 1 ∧
    mredParams 0x1fffffffffe00001 ≠ 1 := by decide +kernel

/-- **C01.** `MRed(x,y,q,MRedParams(q))` is the unique reduced `r` with
`r * 2^64 ≡ x * y`. -/
theorem C01_mred_exact (q x y : UInt64) (hodd : q.toNat % 2 = 1) (hq : q.toNat < 2 ^ 63)
    (hxy : x.toNat * y.toNat < q.toNat * 2 ^ 64) :
    let r := (mred x y q (mredParams q)).toNat
    r < q.toNat ∧ r * 2 ^ 64 % q.toNat = x.toNat * y.toNat % q.toNat ∧
    ∀ r' < q.toNat, r' * 2 ^ 64 % q.toNat = x.toNat * y.toNat % q.toNat → r' = r := by
  have h := mred_spec (mredParams_spec q hodd) hq.le x y hxy
  refine ⟨h.1, h.2, ?_⟩
  intro r' hr' he
  have h1 : r' * 2 ^ 64 ≡ (mred x y q (mredParams q)).toNat * 2 ^ 64 [MOD q.toNat] :=
    Eq.trans he h.2.symm
  have hc : Nat.Coprime q.toNat (2 ^ 64) :=
    Nat.Coprime.pow_right _ (Nat.coprime_two_right.2 (Nat.odd_iff.2 hodd))
  have h2 : r' ≡ (mred x y q (mredParams q)).toNat [MOD q.toNat] :=
    Nat.ModEq.cancel_right_of_coprime hc h1
  exact Nat.ModEq.eq_of_lt_of_lt h2 hr' h.1

/-- The hypothesis of C01 holds as soon as one factor is reduced. -/
theorem C01_hypothesis_of_reduced (q x y : UInt64) (hx : x.toNat < q.toNat) :
    x.toNat * y.toNat < q.toNat * 2 ^ 64 := mul_lt_of_lt_left y hx

-- a case where both operands are as large as possible
example : (0x1fffffffffe00001 : UInt64).toNat % 2 = 1 ∧ (0x1fffffffffe00001 : UInt64).toNat < 2 ^ 63 ∧
    (0x1fffffffffe00000 : UInt64).toNat * (0xffffffffffffffff : UInt64).toNat
      < (0x1fffffffffe00001 : UInt64).toNat * 2 ^ 64 := by decide

/-- **C02.** `MRedConstant` does not wrap and stays below `2q` (with the tight
bound `r*2^64 ≤ q*2^64 + x*y`). -/
theorem C02_mredConstant_lazy (q x y : UInt64) (hodd : q.toNat % 2 = 1) (hq : q.toNat < 2 ^ 63)
    (hxy : x.toNat * y.toNat < q.toNat * 2 ^ 64) :
    let r := (mredConstant x y q (mredParams q)).toNat
    r < 2 * q.toNat ∧ r * 2 ^ 64 ≤ q.toNat * 2 ^ 64 + x.toNat * y.toNat ∧
    r * 2 ^ 64 % q.toNat = x.toNat * y.toNat % q.toNat := by
  have h := mredConstant_spec (mredParams_spec q hodd) hq.le x y hxy
  exact ⟨h.2.1, by have := h.1; omega, h.2.2⟩

-- the lazy result really exceeds q in some cases (so the bound is not `< q`)
example : (mredConstant 0x1fffffffffe00000 0xffffffffffffffff 0x1fffffffffe00001
    (mredParams 0x1fffffffffe00001)).toNat > (0x1fffffffffe00001 : UInt64).toNat := by
  decide +kernel

/-- **C04.** `BRedAdd` is `%` on every 64-bit input; `BRedAddConstant` is congruent
and below `2q`. -/
theorem C04_bredAdd_exact (q x : UInt64) (hq1 : 1 < q.toNat) (hq : q.toNat < 2 ^ 63) :
    (bredAdd x q (bredParams q)).toNat = x.toNat % q.toNat ∧
    (bredAddConstant x q (bredParams q)).toNat < 2 * q.toNat ∧
    (bredAddConstant x q (bredParams q)).toNat % q.toNat = x.toNat % q.toNat :=
  ⟨bredAdd_toNat hq1 hq.le x, (bredAddConstant_spec hq1 x hq.le).1,
    (bredAddConstant_spec hq1 x hq.le).2⟩

example : 1 < (0x7ffffffffffffff7 : UInt64).toNat ∧ (0x7ffffffffffffff7 : UInt64).toNat < 2 ^ 63 ∧
    bredAdd 0xffffffffffffffff 0x7ffffffffffffff7 (bredParams 0x7ffffffffffffff7) = 17 := by decide

/-- **C05.** `BRed` is multiplication modulo `q` on all pairs of 64-bit inputs. -/
theorem C05_bred_exact (q x y : UInt64) (hq1 : 1 < q.toNat) (hq : q.toNat < 2 ^ 63) :
    (bred x y q (bredParams q)).toNat = x.toNat * y.toNat % q.toNat ∧
    (bredConstant x y q (bredParams q)).toNat < 2 * q.toNat ∧
    (bredConstant x y q (bredParams q)).toNat % q.toNat = x.toNat * y.toNat % q.toNat :=
  ⟨bred_toNat hq1 hq.le x y, (bredConstant_spec hq1 x y hq.le).1,
    (bredConstant_spec hq1 x y hq.le).2⟩

example : bred 0xffffffffffffffff 0xfffffffffffffffe 0x7ffffffffffffff7
    (bredParams 0x7ffffffffffffff7) = 272 := by decide

/-- **C06 (value).** `MForm(x) = x * 2^64 mod q`, for every 64-bit `x`. -/
theorem C06_mform_exact (q x : UInt64) (hq1 : 1 < q.toNat) (hq : q.toNat < 2 ^ 63) :
    (mform x q (bredParams q)).toNat = x.toNat * 2 ^ 64 % q.toNat ∧
    (mformConstant x q (bredParams q)).toNat < 2 * q.toNat ∧
    (mformConstant x q (bredParams q)).toNat % q.toNat = x.toNat * 2 ^ 64 % q.toNat :=
  ⟨mform_toNat hq1 hq.le x, (mformConstant_spec hq1 x hq.le).1, (mformConstant_spec hq1 x hq.le).2⟩

/-- **C06 (inverse value).** `InvMForm(x)` is reduced and `InvMForm(x)*2^64 ≡ x`. -/
theorem C06_invMform_exact (q x : UInt64) (hq1 : 1 < q.toNat) (hodd : q.toNat % 2 = 1)
    (hq : q.toNat < 2 ^ 63) :
    (invMform x q (mredParams q)).toNat < q.toNat ∧
    (invMform x q (mredParams q)).toNat * 2 ^ 64 % q.toNat = x.toNat % q.toNat ∧
    (invMformConstant x q (mredParams q)).toNat ≤ q.toNat ∧
    (invMformConstant x q (mredParams q)).toNat * 2 ^ 64 % q.toNat = x.toNat % q.toNat := by
  have h := invMformConstant_spec (by omega) (mredParams_spec q hodd) x
  refine ⟨?_, ?_, h.1, h.2.2⟩
  · rw [invMform_eq_cred]; exact toNat_cred_lt (by omega)
  · rw [invMform_eq_cred]
    exact ((toNat_cred_modEq _ _).mul_right _).trans h.2.2

/-- **C06 (round trips).** Converting to and from Montgomery form is reduction mod `q`. -/
theorem C06_mform_roundtrip (q x : UInt64) (hq1 : 1 < q.toNat) (hodd : q.toNat % 2 = 1)
    (hq : q.toNat < 2 ^ 63) :
    (invMform (mform x q (bredParams q)) q (mredParams q)).toNat = x.toNat % q.toNat ∧
    (mform (invMform x q (mredParams q)) q (bredParams q)).toNat = x.toNat % q.toNat := by
  constructor
  · have h := C06_invMform_exact q (mform x q (bredParams q)) hq1 hodd hq
    rw [mform_toNat hq1 hq.le x, Nat.mod_mod] at h
    have hc : Nat.Coprime q.toNat (2 ^ 64) :=
      Nat.Coprime.pow_right _ (Nat.coprime_two_right.2 (Nat.odd_iff.2 hodd))
    have h2 : _ ≡ x.toNat [MOD q.toNat] := Nat.ModEq.cancel_right_of_coprime hc h.2.1
    rw [← Nat.mod_eq_of_lt h.1]
    exact h2
  · rw [mform_toNat hq1 hq.le]
    exact (C06_invMform_exact q x hq1 hodd hq).2.1

example : invMform (mform 0xffffffffffffffff 0x1fffffffffe00001 (bredParams 0x1fffffffffe00001))
    0x1fffffffffe00001 (mredParams 0x1fffffffffe00001) = 0xfffff7 := by decide +kernel

/-- **C07.** `ModExp(x,e,p) = x^e mod p` for every modulus `1 < p < 2^63`, odd or even. -/
theorem C07_modExp_exact (x e p : UInt64) (hp1 : 1 < p.toNat) (hp : p.toNat < 2 ^ 63) :
    (modExp x e p).toNat = x.toNat ^ e.toNat % p.toNat := modExp_toNat hp1 hp.le x e

example : modExp 3 0x1fffffffffe00000 0x1fffffffffe00001 = 1 ∧ modExp 5 12345 131072 = 98725 := by
  decide +kernel

/-- **C07 (Montgomery).** If `x` is the Montgomery form of `v`, `ModexpMontgomery(x,e)`
is the (reduced) Montgomery form of `v^e`. -/
theorem C07_modexpMontgomery_exact (q x : UInt64) (v e : ℕ) (hq1 : 1 < q.toNat)
    (hodd : q.toNat % 2 = 1) (hq : q.toNat < 2 ^ 63) (he : e < 2 ^ 63)
    (hx : x.toNat = v * 2 ^ 64 % q.toNat) :
    (modexpMontgomery x e q (mredParams q) (bredParams q)).toNat = v ^ e * 2 ^ 64 % q.toNat := by
  have hlt : x.toNat < q.toNat := by rw [hx]; exact Nat.mod_lt _ (by omega)
  have h := modexpMontgomery_spec (mredParams_spec q hodd) hq1 hq.le e (by omega) x
    (v : ZMod q.toNat) hlt (by
      rw [hx, ZMod.natCast_mod]; simp only [Nat.cast_mul, Nat.cast_pow, Nat.cast_ofNat])
  rw [← Nat.mod_eq_of_lt h.1]
  apply (ZMod.natCast_eq_natCast_iff _ _ _).1
  rw [h.2]; simp only [Nat.cast_mul, Nat.cast_pow, Nat.cast_ofNat]

/-- **C60 (gcd).** The library's `gcd` is the greatest common divisor for non-zero inputs,
and is `0` as soon as one input is `0`. -/
theorem C60_gcd (a b : UInt64) :
    (a ≠ 0 → b ≠ 0 → (gcd a b).toNat = Nat.gcd a.toNat b.toNat) ∧
    (a = 0 ∨ b = 0 → gcd a b = 0) := by
  constructor
  · intro ha hb
    unfold gcd
    rw [if_neg (by simp [ha, hb])]
    exact gcdLoop_toNat _ a b (by omega)
  · intro h
    unfold gcd
    rw [if_pos h]

example : gcd 12 18 = 6 := by decide

end FastKsw.Props
