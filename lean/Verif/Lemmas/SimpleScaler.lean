import Verif.Model.SimpleScaler
import Verif.Lemmas.CRT
import Verif.Lemmas.Float
import Mathlib.Algebra.Order.Ring.Pow

/-!
# The roundings of `reconstructAndScale`
-/

namespace FastKsw

open Finset

theorem bigRoundQ_err (prec : ℕ) (x : ℚ) : |bigRoundQ prec x - x| ≤ (1 / 2) ^ prec * |x| := by
  unfold bigRoundQ
  split
  · rename_i h; simp [h]
  · rename_i h
    simp only
    have hpos : 0 < |x| := abs_pos.2 h
    have hlog := Int.zpow_log_le_self (R := ℚ) (b := 2) (by norm_num) hpos
    set e := Int.log 2 |x| with he
    have h2 : (0 : ℚ) < 2 ^ (e + 1 - prec) := zpow_pos (by norm_num) _
    have hr := roundEven_err (x / 2 ^ (e + 1 - prec))
    have e1 : (roundEven (x / 2 ^ (e + 1 - (prec : ℤ))) : ℚ) * 2 ^ (e + 1 - (prec : ℤ)) - x =
        ((roundEven (x / 2 ^ (e + 1 - (prec : ℤ))) : ℚ) - x / 2 ^ (e + 1 - (prec : ℤ))) * 2 ^ (e + 1 - (prec : ℤ)) := by
      rw [sub_mul, div_mul_cancel₀ _ h2.ne']
    rw [e1, abs_mul, abs_of_pos h2]
    have e2 : (2 : ℚ) ^ (e + 1 - (prec : ℤ)) = 2 * 2 ^ e * (1 / 2) ^ prec := by
      rw [zpow_sub₀ (by norm_num), zpow_add₀ (by norm_num), zpow_natCast]
      rw [one_div, inv_pow]
      simp
      ring
    calc _ ≤ 1 / 2 * (2 : ℚ) ^ (e + 1 - (prec : ℤ)) := mul_le_mul_of_nonneg_right hr h2.le
      _ = (1 / 2) ^ prec * (2 : ℚ) ^ e := by rw [e2]; ring
      _ ≤ (1 / 2) ^ prec * |x| := mul_le_mul_of_nonneg_left (by exact_mod_cast hlog) (by positivity)

/-- a value between `(1-u)^k y` and `(1+u)^k y` -/
def Rel (u : ℚ) (k : ℕ) (x y : ℚ) : Prop := |x - y| ≤ ((1 + u) ^ k - 1) * y

theorem Rel.rnd {prec k : ℕ} {x y : ℚ} (hy : 0 ≤ y) (h : Rel ((1 / 2) ^ prec) k x y) :
    Rel ((1 / 2) ^ prec) (k + 1) (bigRoundQ prec x) y := by
  unfold Rel at *
  have he := bigRoundQ_err prec x
  set u : ℚ := (1 / 2) ^ prec with hu
  have hu0 : 0 ≤ u := by positivity
  have hx : |x| ≤ (1 + u) ^ k * y := by
    have := abs_sub_abs_le_abs_sub x y
    rw [abs_of_nonneg hy] at this
    linarith
  have t := abs_add_le (bigRoundQ prec x - x) (x - y)
  rw [sub_add_sub_cancel] at t
  have h2 := mul_le_mul_of_nonneg_left hx hu0
  rw [pow_succ]
  linarith

theorem Rel.mono {u : ℚ} (hu : 0 ≤ u) {k l : ℕ} (hkl : k ≤ l) {x y : ℚ} (hy : 0 ≤ y) (h : Rel u k x y) : Rel u l x y := by
  unfold Rel at *
  refine h.trans (mul_le_mul_of_nonneg_right ?_ hy)
  have := pow_le_pow_right₀ (show 1 ≤ 1 + u by linarith) hkl
  linarith

theorem Rel.add {u : ℚ} {k : ℕ} {x y x' y' : ℚ} (h : Rel u k x y) (h' : Rel u k x' y') : Rel u k (x + x') (y + y') := by
  unfold Rel at *
  have t := abs_add_le (x - y) (x' - y')
  rw [show x - y + (x' - y') = x + x' - (y + y') by ring] at t
  linarith

theorem Rel.refl (u : ℚ) (x : ℚ) : Rel u 0 x x := by unfold Rel; simp

theorem Rel.mul {u : ℚ} {k : ℕ} {x y : ℚ} (h : Rel u k x y) {c : ℚ} (hc : 0 ≤ c) : Rel u k (c * x) (c * y) := by
  unfold Rel at *
  rw [← mul_sub, abs_mul, abs_of_nonneg hc]
  have := mul_le_mul_of_nonneg_left h hc
  linarith

/-- `(1+u)^k - 1 ≤ (k+1) u` for moderate `k` -/
theorem one_add_pow_le {u : ℚ} (hu : 0 ≤ u) (k : ℕ) (h : (k : ℚ) ^ 2 * u ≤ 1) : (1 + u) ^ k - 1 ≤ (k + 1) * u := by
  have key : ∀ j ≤ k, (1 + u) ^ j ≤ 1 + j * u + (j : ℚ) * k * u ^ 2 := by
    intro j
    induction j with
    | zero => intro _; simp
    | succ j ih =>
      intro hj
      have h1 := ih (by omega)
      have hjk : (j : ℚ) + 1 ≤ k := by exact_mod_cast hj
      have hj0 : (0 : ℚ) ≤ j := by positivity
      rw [pow_succ]
      have h2 := mul_le_mul_of_nonneg_right h1 (show 0 ≤ 1 + u by linarith)
      have hk0 : (0 : ℚ) ≤ k := by positivity
      rcases Nat.eq_zero_or_pos k with hk | hk
      · omega
      have hk1 : (1 : ℚ) ≤ k := by exact_mod_cast hk
      have hku : (k : ℚ) ^ 2 * u ≤ 1 := h
      push_cast
      have h3 : (j : ℚ) * k * u ≤ 1 * 1 := by
        nlinarith [mul_nonneg (sub_nonneg.2 (show (j : ℚ) ≤ k by linarith)) (mul_nonneg hk0 hu)]
      have h4 : (j : ℚ) * k * u * u ^ 2 ≤ 1 * u ^ 2 := by
        have := mul_le_mul_of_nonneg_right h3 (sq_nonneg u)
        linarith
      have h5 : (j : ℚ) * u ^ 2 + 1 * u ^ 2 ≤ k * u ^ 2 := by
        have := mul_le_mul_of_nonneg_right hjk (sq_nonneg u)
        linarith
      nlinarith
  have h1 := key k le_rfl
  have h2 : (k : ℚ) * k * u ^ 2 ≤ u := by
    have := mul_le_mul_of_nonneg_right h hu
    nlinarith
  linarith

/-! ### the table of integer parts -/

/-- twice rounded with 64 bits, `t b / q` has the same integer part, if it is not within `2^-62 t` of an integer -/
theorem floor_two_rnd {t b q : ℕ} (ht : 0 < t) (hq : 0 < q) (hb : b < q)
    (h1 : t * q ≤ t * b % q * 2 ^ 62) (h2 : t * b % q * 2 ^ 62 + t * q ≤ q * 2 ^ 62) :
    ⌊bigRoundQ 64 (bigRoundQ 64 ((t : ℚ) / q) * b)⌋ = (t * b / q : ℕ) := by
  have hq0 : (0 : ℚ) < q := by exact_mod_cast hq
  have hr : Rel ((1 / 2) ^ 64) 2 (bigRoundQ 64 (bigRoundQ 64 ((t : ℚ) / q) * b)) (t * b / q) := by
    have ht : (0 : ℚ) ≤ (t : ℚ) / q := by positivity
    have h := ((Rel.refl ((1 / 2) ^ 64) ((t : ℚ) / q)).rnd ht).mul (c := (b : ℚ)) (by positivity)
    have := h.rnd (by positivity)
    rwa [mul_comm, show (b : ℚ) * (t / q) = t * b / q by ring] at this
  set y := bigRoundQ 64 (bigRoundQ 64 ((t : ℚ) / q) * b)
  have he : (t : ℚ) * b / q = (t * b / q : ℕ) + (t * b % q : ℕ) / q := by
    rw [eq_comm, eq_div_iff hq0.ne', add_mul, div_mul_cancel₀ _ hq0.ne']
    have := Nat.div_add_mod (t * b) q
    rw [mul_comm] at this
    exact_mod_cast this
  have hlt : (t : ℚ) * b / q ≤ t := by
    rw [div_le_iff₀ hq0]
    exact_mod_cast Nat.mul_le_mul_left t hb.le
  have hd : |y - t * b / q| ≤ (1 / 2) ^ 62 * t * (3 / 4) := by
    refine hr.trans ?_
    have : (1 + (1 / 2 : ℚ) ^ 64) ^ 2 - 1 ≤ (1 / 2) ^ 62 * (3 / 4) := by norm_num
    calc _ ≤ (1 / 2 : ℚ) ^ 62 * (3 / 4) * (t * b / q) := mul_le_mul_of_nonneg_right this (by positivity)
      _ ≤ (1 / 2 : ℚ) ^ 62 * (3 / 4) * t := mul_le_mul_of_nonneg_left hlt (by norm_num)
      _ = _ := by ring
  have m1 : (1 / 2 : ℚ) ^ 62 * t ≤ (t * b % q : ℕ) / q := by
    rw [le_div_iff₀ hq0]
    have : (t : ℚ) * q ≤ (t * b % q : ℕ) * 2 ^ 62 := by exact_mod_cast h1
    linarith
  have m2 : ((t * b % q : ℕ) : ℚ) / q + (1 / 2) ^ 62 * t ≤ 1 := by
    rw [div_add' _ _ _ hq0.ne', div_le_one hq0]
    have : ((t * b % q : ℕ) : ℚ) * 2 ^ 62 + t * q ≤ q * 2 ^ 62 := by exact_mod_cast h2
    linarith
  have ht0 : (0 : ℚ) < t := by exact_mod_cast ht
  have hp : (0 : ℚ) < (1 / 2) ^ 62 * t := by positivity
  rw [he, abs_le] at hd
  rw [Int.floor_eq_iff]
  rw [Int.cast_natCast]
  constructor <;> linarith

/-! ### the two reductions -/

/-- the moduli `t` for which the two reductions of the `SimpleScaler` are right -/
def ScaleMod (t : UInt64) : Prop := (∃ k, t.toNat = 2 ^ k) ∨ (t.toNat % 2 = 1 ∧ t.toNat < 2 ^ 63)

theorem isPow2_pow {t : UInt64} {k : ℕ} (h : t.toNat = 2 ^ k) : isPow2 t = true ∧ (t - 1).toNat = 2 ^ k - 1 := by
  have h1 : (t - 1).toNat = 2 ^ k - 1 := by
    rw [UInt64.toNat_sub_of_le t 1 (UInt64.le_iff_toNat_le.2 (by rw [h]; exact Nat.one_le_two_pow)), h]; rfl
  refine ⟨?_, h1⟩
  have h2 : t &&& (t - 1) = 0 := by
    apply UInt64.toNat_inj.1
    rw [UInt64.toNat_and, h1, h, Nat.and_two_pow_sub_one_eq_mod, Nat.mod_self]; rfl
  have h3 : t ≠ 0 := by
    intro he
    rw [he] at h
    have := Nat.one_le_two_pow (n := k)
    rw [← h] at this
    exact absurd this (by decide)
  simp [isPow2, h2, h3]

theorem isPow2_odd {t : UInt64} (h : t.toNat % 2 = 1) (h1 : t.toNat ≠ 1) :
    isPow2 t = false ∧ (t &&& (t - 1) != 0 && t != 0) = true := by
  have e1 : (t - 1).toNat = t.toNat - 1 := by
    rw [UInt64.toNat_sub_of_le t 1 (UInt64.le_iff_toNat_le.2 (by change 1 ≤ _; omega))]; rfl
  have h2 : t &&& (t - 1) ≠ 0 := by
    intro he
    have := congrArg (fun x => x.toNat / 2) he
    simp only [UInt64.toNat_and, e1, Nat.and_div_two] at this
    rw [show (t.toNat - 1) / 2 = t.toNat / 2 by omega, Nat.and_self] at this
    change _ = 0 at this
    omega
  have h3 : t ≠ 0 := by
    intro he
    rw [he] at h
    exact absurd h (by decide)
  simp [isPow2, h2, h3]

theorem ScaleMod.pos {t : UInt64} (h : ScaleMod t) : 0 < t.toNat := by
  rcases h with ⟨k, hk⟩ | h
  · rw [hk]; positivity
  · omega

/-- `ss.wi[j]` from the integer part -/
def wiOf (t w : UInt64) : UInt64 := if t &&& (t - 1) != 0 && t != 0 then mform w t (bredParams t) else w

theorem ScaleMod.cases {t : UInt64} (h : ScaleMod t) :
    (∃ k, t.toNat = 2 ^ k) ∨ (t.toNat % 2 = 1 ∧ t.toNat < 2 ^ 63 ∧ t.toNat ≠ 1) := by
  rcases h with h | h
  · exact .inl h
  · by_cases h1 : t.toNat = 1
    · exact .inl ⟨0, by simpa using h1⟩
    · exact .inr ⟨h.1, h.2, h1⟩

theorem scaler_mul {t : UInt64} (h : ScaleMod t) (r : Ring) (w x : UInt64) :
    ((newSimpleScaler t r).reduceMul (wiOf t w) x).toNat = w.toNat * x.toNat % t.toNat := by
  rcases h.cases with ⟨k, hk⟩ | ⟨h1, h2, h3⟩
  · obtain ⟨hp, hm⟩ := isPow2_pow hk
    have hz : (t &&& (t - 1) != 0 && t != 0) = false := by
      simp [isPow2] at hp; simp [hp]
    simp only [SimpleScaler.reduceMul, newSimpleScaler, wiOf, hp, hz, if_true, Bool.false_eq_true, if_false]
    rw [UInt64.toNat_and, hm, Nat.and_two_pow_sub_one_eq_mod, UInt64.toNat_mul, ← hk]
    have hk64 : k ≤ 64 := by
      have := t.toNat_lt
      rw [hk] at this
      exact (Nat.pow_lt_pow_iff_right (by norm_num)).1 this |>.le
    rw [hk, Nat.mod_mod_of_dvd _ (pow_dvd_pow 2 hk64)]
  · obtain ⟨hp, hz⟩ := isPow2_odd h1 h3
    have e : (newSimpleScaler t r).reduceMul (wiOf t w) x = mred (mform w t (bredParams t)) x t (mredParams t) := by
      simp only [SimpleScaler.reduceMul, newSimpleScaler, wiOf, hp, hz, if_true, Bool.false_eq_true, if_false]
      rfl
    have hlt := mform_toNat (q := t) (by omega) h2.le w
    have hm := mred_spec (mredParams_spec t h1) h2.le (mform w t (bredParams t)) x (by
      rw [hlt]
      calc _ < t.toNat * 2 ^ 64 := Nat.mul_lt_mul'' (Nat.mod_lt _ (by omega)) x.toNat_lt
        _ = _ := rfl)
    rw [e]
    have hc : Nat.Coprime t.toNat (2 ^ 64) := (Nat.coprime_pow_right_iff (by norm_num) _ _).2
      (Nat.coprime_two_right.2 (Nat.odd_iff.2 h1))
    have h4 : (mred (mform w t (bredParams t)) x t (mredParams t)).toNat * 2 ^ 64
        ≡ w.toNat * x.toNat * 2 ^ 64 [MOD t.toNat] := by
      refine hm.2.trans ?_
      rw [hlt]
      refine ((Nat.mod_modEq _ _).mul_right _).trans ?_
      rw [mul_right_comm]
    have h5 := Nat.ModEq.cancel_right_of_coprime hc h4
    rw [← h5, Nat.mod_eq_of_lt hm.1]

theorem scaler_add {t : UInt64} (h : ScaleMod t) (r : Ring) (x : UInt64) :
    ((newSimpleScaler t r).reduceAdd x).toNat = x.toNat % t.toNat := by
  rcases h.cases with ⟨k, hk⟩ | ⟨h1, h2, h3⟩
  · obtain ⟨hp, hm⟩ := isPow2_pow hk
    simp only [SimpleScaler.reduceAdd, newSimpleScaler, hp, if_true]
    rw [UInt64.toNat_and, hm, Nat.and_two_pow_sub_one_eq_mod, ← hk]
  · obtain ⟨hp, hz⟩ := isPow2_odd h1 h3
    have e : (newSimpleScaler t r).reduceAdd x = bredAdd x t (bredParams t) := by
      simp only [SimpleScaler.reduceAdd, newSimpleScaler, hp, Bool.false_eq_true, if_false]
      rfl
    rw [e, bredAdd_toNat (by omega) h2.le]

end FastKsw
