import Verif.Model.ModRed
import Mathlib.Data.Nat.ModEq
import Mathlib.Data.Int.ModEq
import Mathlib.Tactic.Ring
import Mathlib.Tactic.Linarith
import Mathlib.Algebra.Ring.Parity

/-! Helper lemmas: `UInt64` operations on `toNat`, and correctness of the modular
reductions. -/

namespace FastKsw

theorem toNat_mulHi (x y : UInt64) : (mulHi x y).toNat = x.toNat * y.toNat / 2 ^ 64 := by
  unfold mulHi
  rw [UInt64.toNat_ofNat']
  apply Nat.mod_eq_of_lt
  have hx := x.toNat_lt; have hy := y.toNat_lt
  apply Nat.div_lt_of_lt_mul
  calc x.toNat * y.toNat < 2 ^ 64 * 2 ^ 64 := Nat.mul_lt_mul'' hx hy
    _ = _ := by ring

theorem toNat_mulLo (x y : UInt64) : (mulLo x y).toNat = x.toNat * y.toNat % 2 ^ 64 := by
  unfold mulLo; exact UInt64.toNat_mul x y

theorem toNat_sub' (x y : UInt64) : (x - y).toNat = (2 ^ 64 - y.toNat + x.toNat) % 2 ^ 64 :=
  UInt64.toNat_sub x y

theorem toNat_sub_of_le' {x y : UInt64} (h : y.toNat ≤ x.toNat) :
    (x - y).toNat = x.toNat - y.toNat := by
  rw [toNat_sub']; have := x.toNat_lt; omega

theorem toNat_addCarry (x y : UInt64) :
    (addCarry x y).toNat = (x.toNat + y.toNat) / 2 ^ 64 := by
  unfold addCarry
  have hx := x.toNat_lt; have hy := y.toNat_lt
  split
  · simp; omega
  · simp; omega

theorem ge_iff_toNat (a b : UInt64) : a ≥ b ↔ b.toNat ≤ a.toNat := UInt64.le_iff_toNat_le

/-- `CRed`. -/
theorem toNat_cred (a q : UInt64) :
    (cred a q).toNat = if q.toNat ≤ a.toNat then a.toNat - q.toNat else a.toNat := by
  unfold cred
  by_cases h : q.toNat ≤ a.toNat
  · rw [if_pos h, if_pos ((ge_iff_toNat a q).2 h), toNat_sub_of_le' h]
  · rw [if_neg h, if_neg (fun h' => h ((ge_iff_toNat a q).1 h'))]

theorem toNat_cred_lt {a q : UInt64} (h : a.toNat < 2 * q.toNat) :
    (cred a q).toNat < q.toNat := by
  rw [toNat_cred]; split <;> omega

theorem toNat_cred_mod {a q : UInt64} (h : a.toNat < 2 * q.toNat) :
    (cred a q).toNat = a.toNat % q.toNat := by
  rw [toNat_cred]; split
  · rename_i h'
    rw [Nat.mod_eq_sub_mod h', Nat.mod_eq_of_lt (by omega)]
  · rename_i h'
    rw [Nat.mod_eq_of_lt (by omega)]

theorem toNat_cred_modEq (a q : UInt64) : (cred a q).toNat ≡ a.toNat [MOD q.toNat] := by
  rw [toNat_cred]; split
  · rename_i h
    exact (Nat.modEq_iff_dvd' (by omega)).2 ⟨1, by omega⟩
  · rfl

/-! ### Barrett -/

theorem toNat_bred_hi {q : UInt64} (hq : 1 < q.toNat) :
    (bredParams q).hi.toNat = 2 ^ 128 / q.toNat / 2 ^ 64 := by
  unfold bredParams
  simp only [UInt64.toNat_ofNat']
  apply Nat.mod_eq_of_lt
  apply Nat.div_lt_of_lt_mul
  exact lt_of_lt_of_eq (Nat.div_lt_self (by norm_num) hq) (by norm_num)

theorem toNat_bred_lo (q : UInt64) :
    (bredParams q).lo.toNat = 2 ^ 128 / q.toNat % 2 ^ 64 := by
  unfold bredParams
  simp only [UInt64.toNat_ofNat']

/-- Key Barrett estimate: with `u = ⌊B/q⌋` and `a ≤ B`, the quotient
`⌊a*u/B⌋` is `⌊a/q⌋` or one less. -/
theorem barrett_bound (a q B : ℕ) (hq : 0 < q) (hB : 0 < B) (ha : a ≤ B) :
    (a * (B / q) / B) * q ≤ a ∧ a - (a * (B / q) / B) * q < 2 * q := by
  set u := B / q with hu
  set k := a * u / B with hk
  have h1 : u * q ≤ B := Nat.div_mul_le_self B q
  have h2 : B < u * q + q := by
    have := Nat.lt_div_mul_add (a := B) hq; simpa [hu] using this
  have h3 : k * B ≤ a * u := Nat.div_mul_le_self _ _
  have h4 : a * u < k * B + B := by
    have := Nat.lt_div_mul_add (a := a * u) hB; simpa [hk] using this
  have h5 : k * q ≤ a := by
    have : k * q * B ≤ a * B := by
      calc k * q * B = k * B * q := by ring
        _ ≤ a * u * q := Nat.mul_le_mul_right _ h3
        _ = a * (u * q) := by ring
        _ ≤ a * B := Nat.mul_le_mul_left _ h1
    exact Nat.le_of_mul_le_mul_right this hB
  refine ⟨h5, ?_⟩
  have : a < k * q + 2 * q := by
    have : a * B < (k * q + 2 * q) * B := by
      have e1 : a * B ≤ a * (u * q + q) := Nat.mul_le_mul_left _ h2.le
      have e2 : a * u * q < (k * B + B) * q := Nat.mul_lt_mul_of_pos_right h4 hq
      have e3 : a * q ≤ B * q := Nat.mul_le_mul_right _ ha
      nlinarith
    exact Nat.lt_of_mul_lt_mul_right this
  omega

/-- `x - k*q` computed modulo `2^64` when the true difference fits. -/
theorem toNat_sub_mul {x : ℕ} (xw k q : UInt64) (m : ℕ) (hx : xw.toNat = x % 2 ^ 64)
    (hm : m % 2 ^ 64 = k.toNat) (hle : m * q.toNat ≤ x) (hlt : x - m * q.toNat < 2 ^ 64) :
    (xw - k * q).toNat = x - m * q.toNat := by
  rw [toNat_sub', UInt64.toNat_mul, hx, ← hm]
  have h1 : m % 2 ^ 64 * q.toNat % 2 ^ 64 = m * q.toNat % 2 ^ 64 := by
    rw [Nat.mod_mul_mod]
  rw [h1]
  generalize m * q.toNat = z at *
  omega

theorem bredAddConstant_spec {q : UInt64} (hq1 : 1 < q.toNat) (x : UInt64)
    (hq : q.toNat ≤ 2 ^ 63) :
    (bredAddConstant x q (bredParams q)).toNat < 2 * q.toNat ∧
    (bredAddConstant x q (bredParams q)).toNat ≡ x.toNat [MOD q.toNat] := by
  have hx := x.toNat_lt
  unfold bredAddConstant
  have hhi : (bredParams q).hi.toNat = 2 ^ 64 / q.toNat := by
    rw [toNat_bred_hi hq1, Nat.div_div_eq_div_mul, Nat.mul_comm, ← Nat.div_div_eq_div_mul]
    norm_num
  have hb := barrett_bound x.toNat q.toNat (2 ^ 64) (by omega) (by norm_num) hx.le
  have hk : (mulHi x (bredParams q).hi).toNat = x.toNat * (2 ^ 64 / q.toNat) / 2 ^ 64 := by
    rw [toNat_mulHi, hhi]
  have key := toNat_sub_mul (x := x.toNat) x (mulHi x (bredParams q).hi) q
    (x.toNat * (2 ^ 64 / q.toNat) / 2 ^ 64) (by omega)
    (by rw [← hk]; exact Nat.mod_eq_of_lt (UInt64.toNat_lt _)) hb.1 (by omega)
  simp only [key]
  refine ⟨hb.2, ?_⟩
  exact (Nat.modEq_iff_dvd' (Nat.sub_le _ _)).2 ⟨x.toNat * (2 ^ 64 / q.toNat) / 2 ^ 64, by
    rw [Nat.sub_sub_self hb.1, Nat.mul_comm]⟩

theorem bredAdd_eq_cred (x q : UInt64) (u : BredParams) :
    bredAdd x q u = cred (bredAddConstant x q u) q := rfl

theorem bred_eq_cred (x y q : UInt64) (u : BredParams) :
    bred x y q u = cred (bredConstant x y q u) q := rfl

theorem mform_eq_cred (x q : UInt64) (u : BredParams) :
    mform x q u = cred (mformConstant x q u) q := rfl

theorem invMform_eq_cred (x q u : UInt64) :
    invMform x q u = cred (invMformConstant x q u) q := rfl

theorem mred_eq_cred (x y q u : UInt64) :
    mred x y q u = cred (mredConstant x y q u) q := rfl

theorem bredAdd_toNat {q : UInt64} (hq1 : 1 < q.toNat) (hq : q.toNat ≤ 2 ^ 63) (x : UInt64) :
    (bredAdd x q (bredParams q)).toNat = x.toNat % q.toNat := by
  obtain ⟨h1, h2⟩ := bredAddConstant_spec hq1 x hq
  rw [bredAdd_eq_cred, toNat_cred_mod h1]
  exact h2

/-- The 128×128→high product assembled in `BRed`, modulo `2^64`. -/
theorem bred_quot (mhi mlo uhi ulo : ℕ) :
    ((mhi * 2 ^ 64 + mlo) * (uhi * 2 ^ 64 + ulo)) / 2 ^ 128 =
      mhi * uhi + mlo * uhi / 2 ^ 64
        + ((mlo * uhi % 2 ^ 64 + mlo * ulo / 2 ^ 64) / 2 ^ 64)
        + mhi * ulo / 2 ^ 64
        + ((mhi * ulo % 2 ^ 64 + (mlo * uhi % 2 ^ 64 + mlo * ulo / 2 ^ 64) % 2 ^ 64) / 2 ^ 64) := by
  have e : (mhi * 2 ^ 64 + mlo) * (uhi * 2 ^ 64 + ulo)
      = mhi * uhi * 2 ^ 128 + (mlo * uhi + mhi * ulo) * 2 ^ 64 + mlo * ulo := by ring
  rw [e]
  generalize mhi * uhi = A
  generalize mlo * uhi = B
  generalize mhi * ulo = C
  generalize mlo * ulo = D
  omega

theorem bredConstant_spec {q : UInt64} (hq1 : 1 < q.toNat) (x y : UInt64)
    (hq : q.toNat ≤ 2 ^ 63) :
    (bredConstant x y q (bredParams q)).toNat < 2 * q.toNat ∧
    (bredConstant x y q (bredParams q)).toNat ≡ x.toNat * y.toNat [MOD q.toNat] := by
  have hx := x.toNat_lt
  have hy := y.toNat_lt
  set P := x.toNat * y.toNat with hP
  set U := 2 ^ 128 / q.toNat with hU
  have hP' : P ≤ 2 ^ 128 := by
    have : P < 2 ^ 64 * 2 ^ 64 := Nat.mul_lt_mul'' hx hy
    omega
  have hb := barrett_bound P q.toNat (2 ^ 128) (by omega) (by norm_num) hP'
  set K := P * U / 2 ^ 128 with hK
  have hPsplit : P = P / 2 ^ 64 * 2 ^ 64 + P % 2 ^ 64 := by omega
  have hUsplit : U = U / 2 ^ 64 * 2 ^ 64 + U % 2 ^ 64 := by omega
  have hq2 : K = P / 2 ^ 64 * (U / 2 ^ 64) + P % 2 ^ 64 * (U / 2 ^ 64) / 2 ^ 64
        + ((P % 2 ^ 64 * (U / 2 ^ 64) % 2 ^ 64 + P % 2 ^ 64 * (U % 2 ^ 64) / 2 ^ 64) / 2 ^ 64)
        + P / 2 ^ 64 * (U % 2 ^ 64) / 2 ^ 64
        + ((P / 2 ^ 64 * (U % 2 ^ 64) % 2 ^ 64 +
            (P % 2 ^ 64 * (U / 2 ^ 64) % 2 ^ 64 + P % 2 ^ 64 * (U % 2 ^ 64) / 2 ^ 64) % 2 ^ 64)
              / 2 ^ 64) := by
    rw [← bred_quot, ← hPsplit, ← hUsplit]
  have key : (bredConstant x y q (bredParams q)).toNat = P - K * q.toNat := by
    unfold bredConstant
    apply toNat_sub_mul (x := P)
    · rw [toNat_mulLo]
    · simp only [UInt64.toNat_add, UInt64.toNat_mul, toNat_mulHi, toNat_mulLo, toNat_addCarry,
        toNat_bred_hi hq1, toNat_bred_lo, ← hP, ← hU]
      rw [hq2]
      omega
    · exact hb.1
    · omega
  rw [key]
  refine ⟨hb.2, ?_⟩
  exact (Nat.modEq_iff_dvd' (Nat.sub_le _ _)).2 ⟨K, by
    rw [Nat.sub_sub_self hb.1, Nat.mul_comm]⟩

theorem bred_toNat {q : UInt64} (hq1 : 1 < q.toNat) (hq : q.toNat ≤ 2 ^ 63) (x y : UInt64) :
    (bred x y q (bredParams q)).toNat = x.toNat * y.toNat % q.toNat := by
  obtain ⟨h1, h2⟩ := bredConstant_spec hq1 x y hq
  rw [bred_eq_cred, toNat_cred_mod h1]
  exact h2

/-! ### Montgomery form -/

theorem mformConstant_spec {q : UInt64} (hq1 : 1 < q.toNat) (x : UInt64)
    (hq : q.toNat ≤ 2 ^ 63) :
    (mformConstant x q (bredParams q)).toNat < 2 * q.toNat ∧
    (mformConstant x q (bredParams q)).toNat ≡ x.toNat * 2 ^ 64 [MOD q.toNat] := by
  have hx := x.toNat_lt
  set U := 2 ^ 128 / q.toNat with hU
  set P := x.toNat * 2 ^ 64 with hP
  have hb := barrett_bound P q.toNat (2 ^ 128) (by omega) (by norm_num) (by omega)
  set K := P * U / 2 ^ 128 with hK
  have hK' : K = x.toNat * (U / 2 ^ 64) + x.toNat * (U % 2 ^ 64) / 2 ^ 64 := by
    have hUsplit : U = U / 2 ^ 64 * 2 ^ 64 + U % 2 ^ 64 := by omega
    have : P * U = x.toNat * (U / 2 ^ 64) * 2 ^ 128 + x.toNat * (U % 2 ^ 64) * 2 ^ 64 := by
      conv_lhs => rw [hUsplit]
      rw [hP]; ring
    rw [hK, this]
    generalize x.toNat * (U / 2 ^ 64) = A
    generalize x.toNat * (U % 2 ^ 64) = B
    omega
  have hneg : mformConstant x q (bredParams q)
      = 0 - (x * (bredParams q).hi + mulHi x (bredParams q).lo) * q := by
    unfold mformConstant
    rw [UInt64.neg_mul, UInt64.zero_sub]
  have key : (mformConstant x q (bredParams q)).toNat = P - K * q.toNat := by
    rw [hneg]
    apply toNat_sub_mul (x := P)
    · simp [hP]
    · simp only [UInt64.toNat_add, UInt64.toNat_mul, toNat_mulHi,
        toNat_bred_hi hq1, toNat_bred_lo, ← hU]
      rw [hK']; omega
    · exact hb.1
    · omega
  rw [key]
  refine ⟨hb.2, ?_⟩
  exact (Nat.modEq_iff_dvd' (Nat.sub_le _ _)).2 ⟨K, by
    rw [Nat.sub_sub_self hb.1, Nat.mul_comm]⟩

theorem mform_toNat {q : UInt64} (hq1 : 1 < q.toNat) (hq : q.toNat ≤ 2 ^ 63) (x : UInt64) :
    (mform x q (bredParams q)).toNat = x.toNat * 2 ^ 64 % q.toNat := by
  obtain ⟨h1, h2⟩ := mformConstant_spec hq1 x hq
  rw [mform_eq_cred, toNat_cred_mod h1]
  exact h2

/-! ### MRedParams -/

theorem odd_pow_two_pow (q k : ℕ) (hq : q % 2 = 1) : q ^ (2 ^ k) % 2 ^ (k + 1) = 1 := by
  induction k with
  | zero => simp [hq]
  | succ k ih =>
    have h1 : q ^ (2 ^ (k + 1)) = q ^ (2 ^ k) * q ^ (2 ^ k) := by
      rw [← pow_add]; congr 1; ring
    have hdiv := Nat.div_add_mod (q ^ (2 ^ k)) (2 ^ (k + 1))
    rw [ih] at hdiv
    set c := q ^ (2 ^ k) / 2 ^ (k + 1)
    rw [h1, ← hdiv]
    have : (2 ^ (k + 1) * c + 1) * (2 ^ (k + 1) * c + 1)
        = 1 + 2 ^ (k + 1 + 1) * (2 ^ k * c * c + c) := by ring
    rw [this]
    rw [Nat.add_mul_mod_self_left]
    apply Nat.mod_eq_of_lt
    exact Nat.one_lt_two_pow (by omega)

theorem mredParamsLoop_toNat (n : ℕ) (r q : UInt64) :
    (mredParamsLoop n r q).toNat = r.toNat * q.toNat ^ (2 ^ n - 1) % 2 ^ 64 := by
  induction n generalizing r q with
  | zero => simp [mredParamsLoop, Nat.mod_eq_of_lt r.toNat_lt]
  | succ n ih =>
    rw [mredParamsLoop, ih, UInt64.toNat_mul, UInt64.toNat_mul]
    have e : r.toNat * q.toNat ^ (2 ^ (n + 1) - 1)
        = r.toNat * q.toNat * (q.toNat * q.toNat) ^ (2 ^ n - 1) := by
      have : 2 ^ (n + 1) - 1 = 1 + 2 * (2 ^ n - 1) := by
        have := Nat.one_le_two_pow (n := n)
        rw [pow_succ]; omega
      rw [this, pow_add, pow_mul]; ring
    rw [e, Nat.mul_mod, Nat.mod_mod, ← Nat.pow_mod, ← Nat.mul_mod]

theorem mredParams_spec (q : UInt64) (hq : q.toNat % 2 = 1) : q * mredParams q = 1 := by
  apply UInt64.toNat_inj.1
  rw [UInt64.toNat_mul]
  unfold mredParams
  rw [mredParamsLoop_toNat]
  have h := odd_pow_two_pow q.toNat 63 hq
  simp only [UInt64.toNat_one, Nat.one_mul, Nat.mul_mod_mod]
  rw [← pow_succ']
  exact h

/-! ### Montgomery reduction -/

/-- Core fact on `H = ⌊(m*qInv mod 2^64)*q / 2^64⌋`: `H < q` and the low word of
the product is `m`. -/
theorem mont_core (q qInv m : UInt64) (hinv : q * qInv = 1) :
    (m * qInv).toNat * q.toNat = (mulHi (m * qInv) q).toNat * 2 ^ 64 + m.toNat := by
  have h1 : (m * qInv * q).toNat = m.toNat := by
    have : m * qInv * q = m := by
      rw [UInt64.mul_assoc, UInt64.mul_comm qInv q, hinv, UInt64.mul_one]
    rw [this]
  rw [UInt64.toNat_mul] at h1
  rw [toNat_mulHi]
  omega

theorem mulHi_lt (a q : UInt64) (hq : 0 < q.toNat) : (mulHi a q).toNat < q.toNat := by
  rw [toNat_mulHi]
  apply Nat.div_lt_of_lt_mul
  exact Nat.mul_lt_mul_of_pos_right a.toNat_lt hq

theorem invMformConstant_spec {q : UInt64} (hq1 : 0 < q.toNat) (hodd : q * qInv = 1)
    (x : UInt64) :
    (invMformConstant x q qInv).toNat ≤ q.toNat ∧ 0 < (invMformConstant x q qInv).toNat ∧
    (invMformConstant x q qInv).toNat * 2 ^ 64 ≡ x.toNat [MOD q.toNat] := by
  have hc := mont_core q qInv x hodd
  have hlt := mulHi_lt (x * qInv) q hq1
  unfold invMformConstant
  simp only
  rw [toNat_sub_of_le' hlt.le]
  refine ⟨Nat.sub_le _ _, by omega, ?_⟩
  generalize (mulHi (x * qInv) q).toNat = H at *
  generalize (x * qInv).toNat = m at *
  -- (q - H) * W = q*W - H*W, H*W = m q - x
  have : (q.toNat - H) * 2 ^ 64 + m * q.toNat = x.toNat + q.toNat * 2 ^ 64 := by
    rw [Nat.sub_mul]
    have : H * 2 ^ 64 ≤ q.toNat * 2 ^ 64 := Nat.mul_le_mul_right _ hlt.le
    omega
  calc (q.toNat - H) * 2 ^ 64 ≡ (q.toNat - H) * 2 ^ 64 + m * q.toNat [MOD q.toNat] := by
        simp [Nat.ModEq]
    _ = x.toNat + q.toNat * 2 ^ 64 := this
    _ ≡ x.toNat [MOD q.toNat] := by simp [Nat.ModEq]

theorem mredConstant_spec {q qInv : UInt64} (hinv : q * qInv = 1) (hq : q.toNat ≤ 2 ^ 63)
    (x y : UInt64) (hxy : x.toNat * y.toNat < q.toNat * 2 ^ 64) :
    (mredConstant x y q qInv).toNat * 2 ^ 64 < q.toNat * 2 ^ 64 + x.toNat * y.toNat + 1 ∧
    (mredConstant x y q qInv).toNat < 2 * q.toNat ∧
    (mredConstant x y q qInv).toNat * 2 ^ 64 ≡ x.toNat * y.toNat [MOD q.toNat] := by
  have hq0 : 0 < q.toNat := by
    rcases Nat.eq_zero_or_pos q.toNat with h | h
    · rw [h] at hxy; omega
    · exact h
  have hc := mont_core q qInv (mulLo x y) hinv
  have hlt := mulHi_lt (mulLo x y * qInv) q hq0
  have hhi := toNat_mulHi x y
  have hlo := toNat_mulLo x y
  unfold mredConstant
  simp only
  rw [UInt64.toNat_add, toNat_sub']
  set H := (mulHi (mulLo x y * qInv) q).toNat
  set m := (mulLo x y * qInv).toNat
  rw [hhi]
  rw [hlo] at hc
  set P := x.toNat * y.toNat
  have hPhi : P / 2 ^ 64 < q.toNat := Nat.div_lt_of_lt_mul (by omega)
  have e : ((2 ^ 64 - H + P / 2 ^ 64) % 2 ^ 64 + q.toNat) % 2 ^ 64 = P / 2 ^ 64 + q.toNat - H := by
    omega
  rw [e]
  refine ⟨?_, by omega, ?_⟩
  · omega
  · have : (P / 2 ^ 64 + q.toNat - H) * 2 ^ 64 + m * q.toNat = P + q.toNat * 2 ^ 64 := by
      rw [Nat.sub_mul]
      have : H * 2 ^ 64 ≤ q.toNat * 2 ^ 64 := Nat.mul_le_mul_right _ hlt.le
      omega
    calc (P / 2 ^ 64 + q.toNat - H) * 2 ^ 64
        ≡ (P / 2 ^ 64 + q.toNat - H) * 2 ^ 64 + m * q.toNat [MOD q.toNat] := by
          simp [Nat.ModEq]
      _ = P + q.toNat * 2 ^ 64 := this
      _ ≡ P [MOD q.toNat] := by simp [Nat.ModEq]

theorem mred_spec {q qInv : UInt64} (hinv : q * qInv = 1) (hq : q.toNat ≤ 2 ^ 63)
    (x y : UInt64) (hxy : x.toNat * y.toNat < q.toNat * 2 ^ 64) :
    (mred x y q qInv).toNat < q.toNat ∧
    (mred x y q qInv).toNat * 2 ^ 64 ≡ x.toNat * y.toNat [MOD q.toNat] := by
  obtain ⟨_, h2, h3⟩ := mredConstant_spec hinv hq x y hxy
  rw [mred_eq_cred]
  exact ⟨toNat_cred_lt h2, ((toNat_cred_modEq _ _).mul_right _).trans h3⟩

end FastKsw
