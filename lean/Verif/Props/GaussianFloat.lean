import Verif.Lemmas.GaussianFloat
import Verif.Props.GaussianShape
import Mathlib.Data.Int.Log

/-!
# C110: the Gaussian sampler follows the rounded, truncated normal law with floating-point arithmetic

As C108, for any operations that meet `FloatOps.Close`: each result is exact up to a relative error of a half unit in the
last place of `float64` or `float32`, or a few units for `log`, `exp` and `c + a*b`.  The conditions hold for IEEE 754
arithmetic; below they are shown for rounding to nearest with 53 and 24 bits.
-/

namespace FastKsw.Props

open Finset intervalIntegral MeasureTheory

section
variable {F : Type} {O : FloatOps F} {V : F → ℝ → Prop} {sigma : F} {σ : ℝ} {bound : UInt64}

/-- **C110.**  With rounded arithmetic, for every interval of integers within the bound, the probability that the sampler
returns a coefficient in it differs by less than `10⁻⁴` from that of the normal law with deviation `σ`, truncated and
rounded to integers. -/
theorem C110_gaussian_float (hO : O.Close V) (hsig : V sigma σ) (hσ : 0 < σ) (hσ2 : σ ≤ 2 ^ 59) (hb : 2 * σ ≤ bound.toNat + 1 / 2)
    {a b : ℤ} (hab : a ≤ b) (ha : -(bound.toNat : ℤ) ≤ a) (hbb : b ≤ bound.toNat) :
    |∑ v ∈ Icc a b, (gaussLaw O sigma bound v).toReal
      - (∫ x in ((a - 1 / 2) / σ)..((b + 1 / 2) / σ), Real.exp (-(x ^ 2 / 2)))
        / ∫ x in (-((bound.toNat + 1 / 2) / σ))..((bound.toNat + 1 / 2) / σ), Real.exp (-(x ^ 2 / 2))| ≤ 1 / 10 ^ 4 := by
  refine shape_of_center (law_symm O sigma bound) hσ (fun n hn => ?_) hb hab ha hbb
  have h1 := shape_center hσ hσ2 hb hn
  have h2 := top_close hO hsig hσ hσ2 hb hn
  rw [topDiff, ← gaussLaw_toReal_sum, ← gaussLaw_toReal_sum] at h2
  have b1 := abs_le.1 h1
  have b2 := abs_le.1 h2
  rw [abs_le]
  norm_num at b1 b2 ⊢
  constructor <;> linarith [b1.1, b1.2, b2.1, b2.2]

/-- the law with rounded arithmetic and that with exact arithmetic, on the intervals around zero -/
theorem C110_exact (hO : O.Close V) (hsig : V sigma σ) (hσ : 0 < σ) (hσ2 : σ ≤ 2 ^ 59) (hb : 2 * σ ≤ bound.toNat + 1 / 2) {n : ℕ}
    (hn : n ≤ bound.toNat) :
    |∑ v ∈ Icc (-(n : ℤ)) n, (gaussLaw O sigma bound v).toReal - ∑ v ∈ Icc (-(n : ℤ)) n, (gaussLaw realOps σ bound v).toReal|
      ≤ 4 / 10 ^ 5 := by
  rw [gaussLaw_toReal_sum, gaussLaw_toReal_sum]
  exact top_close hO hsig hσ hσ2 hb hn

end

/-! ## Rounding to nearest meets the conditions -/

/-- rounding to nearest with `p` bits, without bounds on the exponent -/
noncomputable def rnd (p : ℕ) (x : ℝ) : ℝ := round (x / 2 ^ (Int.log 2 |x| - p + 1)) * 2 ^ (Int.log 2 |x| - p + 1)

theorem rnd_err (p : ℕ) (x : ℝ) : |rnd p x - x| ≤ 1 / 2 ^ p * |x| := by
  rcases eq_or_ne x 0 with rfl | hx
  · simp [rnd]
  have h2 : (0 : ℝ) < 2 ^ (Int.log 2 |x| - p + 1) := by positivity
  have e : rnd p x - x = (round (x / 2 ^ (Int.log 2 |x| - p + 1)) - x / 2 ^ (Int.log 2 |x| - p + 1)) * 2 ^ (Int.log 2 |x| - p + 1) := by
    rw [rnd, sub_mul, div_mul_cancel₀ _ h2.ne']
  have h3 := abs_sub_round (x / 2 ^ (Int.log 2 |x| - p + 1) : ℝ)
  rw [abs_sub_comm] at h3
  have h4 := Int.zpow_log_le_self (b := 2) (r := |x|) (by norm_num) (abs_pos.2 hx)
  rw [e, abs_mul, abs_of_pos h2]
  calc |(round (x / 2 ^ (Int.log 2 |x| - p + 1)) : ℝ) - x / 2 ^ (Int.log 2 |x| - p + 1)| * 2 ^ (Int.log 2 |x| - p + 1)
      ≤ 1 / 2 * 2 ^ (Int.log 2 |x| - p + 1) := by gcongr
    _ = 1 / 2 ^ p * 2 ^ (Int.log 2 |x|) := by
      rw [zpow_add₀ (by norm_num), zpow_sub₀ (by norm_num), zpow_natCast, zpow_one]
      field_simp
    _ ≤ _ := by
      gcongr
      exact_mod_cast h4

theorem rnd_nat {n : ℕ} (hn : n < 2 ^ 53) : rnd 53 n = n := by
  rcases Nat.eq_zero_or_pos n with rfl | h0
  · simp [rnd]
  have hlog : Int.log 2 (n : ℝ) ≤ 52 := by
    have h1 : (n : ℝ) < ((2 : ℕ) : ℝ) ^ (53 : ℤ) := by norm_cast
    have h2 := (Int.lt_zpow_iff_log_lt (b := 2) (by norm_num) (r := (n : ℝ)) (x := 53) (by exact_mod_cast h0)).1 h1
    omega
  rw [rnd, abs_of_nonneg (Nat.cast_nonneg n)]
  obtain ⟨k, hk⟩ := Int.eq_ofNat_of_zero_le (show 0 ≤ -(Int.log 2 (n : ℝ) - (53 : ℕ) + 1) by push_cast; omega)
  have hk' : Int.log 2 (n : ℝ) - (53 : ℕ) + 1 = -(k : ℤ) := by omega
  rw [hk', zpow_neg, zpow_natCast, div_inv_eq_mul]
  have e : (n : ℝ) * 2 ^ k = ((n * 2 ^ k : ℤ) : ℝ) := by push_cast; ring
  rw [e, round_intCast]
  push_cast
  field_simp

/-- arithmetic with 53 and 24 bits, rounded to nearest; `c + a*b` is rounded twice -/
noncomputable def roundOps : FloatOps ℝ where
  ofNat n := rnd 53 n
  lit q := rnd 53 q
  lit32 q := rnd 24 q
  neg x := -x
  add x y := rnd 53 (x + y)
  mul x y := rnd 53 (x * y)
  div x y := rnd 53 (x / y)
  mulAdd c a b := rnd 53 (c + rnd 53 (a * b))
  mulAdd32 c a b := rnd 24 (c + rnd 24 (a * b))
  sub32 x y := rnd 24 (x - y)
  to32 x := rnd 24 x
  log x := rnd 53 (Real.log x)
  exp x := rnd 53 (Real.exp x)
  lt32 x y := decide (x < y)
  ge x y := decide (x ≥ y)
  toU64 x := UInt64.ofNat ⌊x⌋₊

theorem rnd_err' (p : ℕ) (x : ℝ) : |rnd p x - x| ≤ 1 / 2 ^ p * |x| + 1 / 2 ^ 140 :=
  (rnd_err p x).trans (le_add_of_nonneg_right (by positivity))

theorem rnd_two {p q : ℕ} (hpq : q + 2 = p) (c P : ℝ) : |rnd p (c + rnd p P) - (c + P)| ≤ 1 / 2 ^ q * (|c| + |P|) + 1 / 2 ^ 140 := by
  have h1 := rnd_err p P
  have h2 := rnd_err p (c + rnd p P)
  have e : rnd p (c + rnd p P) - (c + P) = (rnd p (c + rnd p P) - (c + rnd p P)) + (rnd p P - P) := by ring
  have hε : (1 : ℝ) / 2 ^ p = 1 / 4 * (1 / 2 ^ q) := by
    subst hpq
    rw [pow_add]
    norm_num
  have hq : (0 : ℝ) < 1 / 2 ^ q := by positivity
  have hq1 : (1 : ℝ) / 2 ^ q ≤ 1 := by
    rw [div_le_one (by positivity)]
    exact one_le_pow₀ (by norm_num)
  rw [hε] at h1 h2
  have hP := abs_nonneg P
  have h3 : |c + rnd p P| ≤ |c| + 2 * |P| := by
    have e2 : c + rnd p P = c + P + (rnd p P - P) := by ring
    rw [e2]
    refine (abs_add_le _ _).trans ?_
    have h4 := abs_add_le c P
    have h5 : 1 / 4 * (1 / 2 ^ q) * |P| ≤ 1 / 4 * 1 * |P| := by gcongr
    linarith
  rw [e]
  refine (abs_add_le _ _).trans ?_
  have h6 : 1 / 4 * (1 / 2 ^ q) * |c + rnd p P| ≤ 1 / 4 * (1 / 2 ^ q) * (|c| + 2 * |P|) := by gcongr
  have h7 : 0 ≤ 1 / 2 ^ q * |c| := by positivity
  have h8 : 0 ≤ 1 / 2 ^ q * |P| := by positivity
  have h9 : (0 : ℝ) ≤ 1 / 2 ^ 140 := by positivity
  generalize (1 : ℝ) / 2 ^ q = ε at *
  generalize (1 : ℝ) / 2 ^ 140 = η at *
  linarith

theorem roundOps_close : roundOps.Close (fun a x => a = x) where
  ofNat n hn := rnd_nat hn
  lit q _ := ⟨_, rfl, rnd_err' 53 q⟩
  lit32 q _ := ⟨_, rfl, rnd_err' 24 q⟩
  neg := by rintro a x rfl; rfl
  add := by rintro a x b y rfl rfl _; exact ⟨_, rfl, rnd_err' 53 _⟩
  mul := by rintro a x b y rfl rfl _; exact ⟨_, rfl, rnd_err' 53 _⟩
  div := by rintro a x b y rfl rfl _ _; exact ⟨_, rfl, rnd_err' 53 _⟩
  mulAdd := by rintro c w a x b y rfl rfl rfl _ _; exact ⟨_, rfl, rnd_two (by norm_num) _ _⟩
  mulAdd32 := by rintro c w a x b y rfl rfl rfl _ _; exact ⟨_, rfl, rnd_two (by norm_num) _ _⟩
  sub32 := by rintro a x b y rfl rfl _; exact ⟨_, rfl, rnd_err' 24 _⟩
  to32 := by rintro a x rfl _; exact ⟨_, rfl, rnd_err' 24 _⟩
  log := by
    rintro a x rfl _ _
    refine ⟨_, rfl, (rnd_err' 53 _).trans ?_⟩
    gcongr <;> norm_num
  exp := by
    rintro a x rfl _ _
    refine ⟨_, rfl, (rnd_err' 53 _).trans ?_⟩
    rw [abs_of_pos (Real.exp_pos _)]
    gcongr <;> norm_num
  lt32 := by rintro a x b y rfl rfl; exact decide_eq_true_iff
  ge := by rintro a x b y rfl rfl; exact decide_eq_true_iff
  toU64 := by
    rintro a x rfl h0 h1
    show (UInt64.ofNat ⌊a⌋₊).toNat = _
    rw [UInt64.toNat_ofNat', Nat.mod_eq_of_lt]
    rw [Nat.floor_lt h0]
    push_cast
    norm_num at h1
    exact h1

/-- the sampler of the parameter sets of the code, with rounded arithmetic -/
example : |∑ v ∈ Icc (-3 : ℤ) 5, (gaussLaw roundOps 3.2 19 v).toReal
      - (∫ x in ((((-3 : ℤ) : ℝ) - 1 / 2) / 3.2)..((((5 : ℤ) : ℝ) + 1 / 2) / 3.2), Real.exp (-(x ^ 2 / 2)))
        / ∫ x in (-((((19 : UInt64).toNat : ℕ) + 1 / 2) / 3.2))..((((19 : UInt64).toNat : ℕ) + 1 / 2) / 3.2), Real.exp (-(x ^ 2 / 2))|
    ≤ 1 / 10 ^ 4 :=
  C110_gaussian_float roundOps_close rfl (by norm_num) (by norm_num) (by
    rw [show (19 : UInt64).toNat = 19 from rfl]
    norm_num) (by norm_num) (by decide) (by decide)

end FastKsw.Props
