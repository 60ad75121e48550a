import Verif.Model.GaussianBytes
import Mathlib.Analysis.Complex.Exponential

/-!
# The tables of the ziggurat, and rational bounds of the exponential function
-/

namespace FastKsw

/-- the Taylor polynomial of degree 12 of `exp (-z)`, by Horner's rule -/
def expTaylor (z : ℚ) : ℚ :=
  1 - z * (1 - z / 2 * (1 - z / 3 * (1 - z / 4 * (1 - z / 5 * (1 - z / 6 * (1 - z / 7 * (1 - z / 8 * (1 - z / 9 *
    (1 - z / 10 * (1 - z / 11 * (1 - z / 12)))))))))))

theorem expTaylor_bound {z : ℚ} (h0 : 0 ≤ z) (h1 : z ≤ 3 / 4) : |Real.exp (-(z : ℝ)) - expTaylor z| ≤ 1 / 10 ^ 11 := by
  have h0' : (0 : ℝ) ≤ z := by exact_mod_cast h0
  have h1' : (z : ℝ) ≤ 3 / 4 := by
    have := (Rat.cast_le (K := ℝ)).2 h1
    push_cast at this
    exact this
  have := Real.exp_bound (x := -(z : ℝ)) (by rw [abs_neg, abs_of_nonneg h0']; linarith) (n := 13) (by norm_num)
  have hs : ∑ m ∈ Finset.range 13, (-(z : ℝ)) ^ m / (m.factorial : ℝ) = expTaylor z := by
    simp only [Finset.sum_range_succ, Finset.sum_range_zero, Nat.factorial, expTaylor]
    push_cast
    ring
  rw [hs, abs_neg, abs_of_nonneg h0'] at this
  refine this.trans ?_
  have hp : (z : ℝ) ^ 13 ≤ (3 / 4) ^ 13 := pow_le_pow_left₀ h0' h1' 13
  have hc : ((Nat.succ 13 : ℕ) : ℝ) / ((Nat.factorial 13 : ℕ) * (13 : ℕ)) ≤ 14 / (6227020800 * 13) := by
    norm_num [Nat.factorial]
  calc (z : ℝ) ^ 13 * _ ≤ (3 / 4) ^ 13 * (14 / (6227020800 * 13)) :=
        mul_le_mul hp hc (by positivity) (by positivity)
    _ ≤ _ := by norm_num

/-- bounds of `exp (-y)` for `0 ≤ y ≤ 6` -/
def expLow (y : ℚ) : ℚ := (expTaylor (y / 8) - 1 / 10 ^ 11) ^ 8

def expHigh (y : ℚ) : ℚ := (expTaylor (y / 8) + 1 / 10 ^ 11) ^ 8

theorem expLow_le {y : ℚ} (h0 : 0 ≤ y) (h1 : y ≤ 6) : (expLow y : ℝ) ≤ Real.exp (-(y : ℝ)) ∧ Real.exp (-(y : ℝ)) ≤ expHigh y := by
  have h := abs_le.1 (expTaylor_bound (z := y / 8) (by positivity) (by linarith))
  have he : Real.exp (-(y : ℝ)) = Real.exp (-((y / 8 : ℚ) : ℝ)) ^ 8 := by
    rw [← Real.exp_nat_mul]
    push_cast
    ring_nf
  have h2 : (2 / 5 : ℝ) ≤ Real.exp (-((y / 8 : ℚ) : ℝ)) := by
    have h3 : ((y / 8 : ℚ) : ℝ) ≤ 3 / 4 := by
      have := (Rat.cast_le (K := ℝ)).2 h1
      push_cast at this ⊢
      linarith
    have h4 : (2 / 5 : ℝ) ≤ Real.exp (-(3 / 4)) := by
      have := abs_le.1 (expTaylor_bound (z := 3 / 4) (by norm_num) le_rfl)
      have h5 : (4 / 10 : ℝ) + 1 / 10 ^ 11 ≤ (expTaylor (3 / 4) : ℚ) := by
        have : (4 / 10 : ℚ) + 1 / 10 ^ 11 ≤ expTaylor (3 / 4) := by norm_num [expTaylor]
        have := (Rat.cast_le (K := ℝ)).2 this
        push_cast at this ⊢
        exact this
      push_cast at this
      linarith [this.1]
    exact h4.trans (Real.exp_le_exp.2 (by linarith))
  rw [he, expLow, expHigh]
  push_cast
  constructor
  · refine pow_le_pow_left₀ ?_ (by push_cast at h; linarith [h.1, h.2]) 8
    push_cast at h h2
    linarith [h.1, h.2]
  · refine pow_le_pow_left₀ (Real.exp_pos _).le ?_ 8
    push_cast at h
    linarith [h.1, h.2]

/-! ## The strips -/

/-- strip `i` is `[0, zigX i)`; words below `zigK i` are accepted at once, that is points below `zigC i` -/
def zigX (i : ℕ) : ℚ := 2 ^ 31 * zigW.getD i 0

def zigC (i : ℕ) : ℚ := zigK.getD i 0 * zigW.getD i 0

/-- the height of the lower edge of strip `i ≥ 1` -/
def zigY (i : ℕ) : ℚ := zigF.getD i 0

/-- the area of a strip and the start of the tail -/
def zigV : ℚ := 9.91256303526217e-3

def zigR : ℚ := 3.442619855899

/-- how far the curve may be below the upper edge at `zigC i`, and above the lower edge at `zigX i` -/
def zigGap (i : ℕ) : ℚ :=
  max 0 (max (zigY (i - 1) - expLow (zigC i ^ 2 / 2)) (expHigh (zigX i ^ 2 / 2) - zigY i))

def zigCheck (i : ℕ) : Bool :=
  decide (0 < zigW.getD i 0) && decide (zigK.getD i 0 ≤ 2 ^ 31) && decide (zigX i ≤ 3.46) &&
    decide (zigY i < zigY (i - 1)) && decide (|zigX i * (zigY (i - 1) - zigY i) - zigV| ≤ zigV * (9 / 10 ^ 6))

theorem zigCheck_all : (List.range 127).all (fun i => zigCheck (i + 1)) = true := by decide +kernel

theorem zigGap_sum : ((List.range 127).map fun i => zigGap (i + 1)).sum ≤ 2.2e-6 := by decide +kernel

/-- the base strip -/
theorem zigBase : 0 < zigW.getD 0 0 ∧ zigK.getD 0 0 ≤ 2 ^ 31 ∧ zigX 0 ≤ 3.72 ∧
    |zigX 0 * zigY 127 - zigV| ≤ zigV * (9 / 10 ^ 6) ∧ |zigC 0 - zigR| ≤ 1 / 10 ^ 7 ∧ zigY 127 ≤ expLow (zigC 0 ^ 2 / 2) ∧
    expHigh (zigC 0 ^ 2 / 2) ≤ zigY 127 + 1 / 10 ^ 9 ∧ 3.44 ≤ zigC 0 ∧ zigC 0 ≤ 3.45 ∧ zigY 0 = 1 ∧ 0 < zigY 127 := by
  decide +kernel

end FastKsw
