import Verif.Lemmas.GaussianMass

/-!
# C108: the Gaussian sampler follows the rounded, truncated normal law

The probability `gaussLaw realOps σ bound v` is that of the model of `normFloat64` and of the loop around it on a stream
of independent uniform bytes, with exact arithmetic in place of floating-point arithmetic; the tables are those of the
code.  The rounded normal law gives to the integers from `a` to `b` the integral of the bell curve from `(a - 1/2)/σ` to
`(b + 1/2)/σ`, divided by that over all integers up to the bound.
-/

namespace FastKsw.Props

open Finset intervalIntegral MeasureTheory
open scoped ENNReal

section
variable {σ : ℝ} {bound : UInt64}

theorem gaussLaw_toReal_sum {F : Type} {O : FloatOps F} {sigma : F} (W : Finset ℤ) :
    ∑ v ∈ W, (gaussLaw O sigma bound v).toReal = hit (gaussStep O sigma bound) W .top := by
  rw [hit, ENNReal.toReal_sum]
  · exact sum_congr rfl fun v _ => by rw [gaussLaw_eq, machineLaw]
  · intro v _
    have := runLaw_le_one (gaussStep O sigma bound) {v} .top
    rw [sum_singleton] at this
    exact ne_top_of_le_ne_top ENNReal.one_ne_top this

theorem bell_half (k : ℕ) (hσ : 0 < σ) : (0 : ℝ) ≤ (k + 1 / 2) / σ := by positivity

theorem bell_total {z : ℝ} (hz : 2 ≤ z) : 73 / 100 ≤ ∫ x in (0 : ℝ)..z, bell x := by
  have h1 : (1 : ℝ) * bell 1 ≤ ∫ x in (0 : ℝ)..1, bell x := by
    have := integral_mono_on (a := (0 : ℝ)) (b := 1) zero_le_one (f := fun _ => bell 1) (by simp) (bell_integrable 0 1) (by
      intro x hx
      exact bell_anti hx.1 hx.2)
    rwa [intervalIntegral.integral_const, sub_zero, smul_eq_mul] at this
  have h2 : (1 : ℝ) * bell 2 ≤ ∫ x in (1 : ℝ)..2, bell x := by
    have := integral_mono_on (a := (1 : ℝ)) (b := 2) (by norm_num) (f := fun _ => bell 2) (by simp) (bell_integrable 1 2) (by
      intro x hx
      exact bell_anti (by linarith [hx.1]) hx.2)
    rw [intervalIntegral.integral_const, smul_eq_mul] at this
    norm_num at this ⊢
    exact this
  have h3 : 0 ≤ ∫ x in (2 : ℝ)..z, bell x := integral_nonneg hz fun x _ => (bell_pos x).le
  have h4 := integral_add_adjacent_intervals (bell_integrable 0 1) (bell_integrable 1 2)
  have h5 := integral_add_adjacent_intervals (bell_integrable 0 2) (bell_integrable 2 z)
  have b1 : 6 / 10 ≤ bell 1 := by
    have h := (bell_rat (x := 1) (by norm_num) (by norm_num)).1
    have h' := cast_le_real (show (6 / 10 : ℚ) ≤ expLow (1 ^ 2 / 2) by decide +kernel)
    push_cast at h h'
    linarith
  have b2 : 13 / 100 ≤ bell 2 := by
    have h := (bell_rat (x := 2) (by norm_num) (by norm_num)).1
    have h' := cast_le_real (show (13 / 100 : ℚ) ≤ expLow (2 ^ 2 / 2) by decide +kernel)
    push_cast at h h'
    linarith
  linarith

/-- the values up to `n` in absolute value -/
theorem shape_center (hσ : 0 < σ) (hσ2 : σ ≤ 2 ^ 59) (hb : 2 * σ ≤ bound.toNat + 1 / 2) {n : ℕ} (hn : n ≤ bound.toNat) :
    |∑ v ∈ Icc (-(n : ℤ)) n, (gaussLaw realOps σ bound v).toReal
      - (∫ x in (0 : ℝ)..((n + 1 / 2) / σ), bell x) / ∫ x in (0 : ℝ)..((bound.toNat + 1 / 2) / σ), bell x| ≤ 6 / 10 ^ 5 := by
  have hV := zigV_pos
  have hz : 2 ≤ ((bound.toNat : ℝ) + 1 / 2) / σ := by rwa [le_div_iff₀ hσ]
  have hle : ((n : ℝ) + 1 / 2) / σ ≤ (bound.toNat + 1 / 2) / σ := by gcongr
  have hq : (0 : ℝ) ≤ (n + 1 / 2) / σ := by positivity
  have h1 := abs_le.1 (zigMass_integral le_rfl hq)
  have h2 := abs_le.1 (zigMass_integral le_rfl (hq.trans hle))
  have h3 := hit_top hσ hσ2 hn
  have hJ := bell_total hz
  rw [gaussLaw_toReal_sum]
  have hI0 : 0 ≤ ∫ x in (0 : ℝ)..((n + 1 / 2) / σ), bell x := integral_nonneg hq fun x _ => (bell_pos x).le
  have hIJ : ∫ x in (0 : ℝ)..((n + 1 / 2) / σ), bell x ≤ ∫ x in (0 : ℝ)..((bound.toNat + 1 / 2) / σ), bell x := by
    have := integral_add_adjacent_intervals (bell_integrable 0 ((n + 1 / 2) / σ))
      (bell_integrable ((n + 1 / 2) / σ) ((bound.toNat + 1 / 2) / σ))
    have h4 : 0 ≤ ∫ x in ((n + 1 / 2) / σ)..((bound.toNat + 1 / 2) / σ), bell x := integral_nonneg hle fun x _ => (bell_pos x).le
    linarith
  generalize hit (gaussStep realOps σ bound) (Icc (-(n : ℤ)) n) .top = A at h3 ⊢
  generalize (∫ x in (0 : ℝ)..((n + 1 / 2) / σ), bell x) = I at *
  generalize (∫ x in (0 : ℝ)..((bound.toNat + 1 / 2) / σ), bell x) = J at *
  generalize zigMass 0 ((n + 1 / 2) / σ) = M1 at *
  generalize zigMass 0 ((bound.toNat + 1 / 2) / σ) = M2 at *
  have h4 : A * (128 * zigV * M2) = 128 * zigV * M1 := by rw [← h3]; ring
  generalize 128 * (zigV : ℝ) * M1 = N1 at *
  generalize 128 * (zigV : ℝ) * M2 = N2 at *
  have hN2 : 0.72 ≤ N2 := by
    have := h2.1
    norm_num at this ⊢
    linarith
  have hN2p : 0 < N2 := by linarith
  have hJp : 0 < J := by linarith
  have hA : A = N1 / N2 := by rw [← h4]; field_simp
  rw [hA, div_sub_div _ _ hN2p.ne' hJp.ne', abs_div, abs_of_pos (mul_pos hN2p hJp), div_le_iff₀ (mul_pos hN2p hJp)]
  have e : N1 * J - N2 * I = (N1 - I) * J - I * (N2 - J) := by ring
  rw [e]
  have k1 : |(N1 - I) * J| ≤ (1 / 10 ^ 5 * J + 121 / 10 ^ 7) * J := by
    rw [abs_mul, abs_of_pos hJp]
    gcongr
    rw [abs_le]
    constructor <;> linarith [h1.1, h1.2]
  have k2 : |I * (N2 - J)| ≤ J * (1 / 10 ^ 5 * J + 121 / 10 ^ 7) := by
    rw [abs_mul, abs_of_nonneg hI0]
    gcongr
    rw [abs_le]
    exact h2
  refine (abs_sub _ _).trans ?_
  have k3 : J - (1 / 10 ^ 5 * J + 121 / 10 ^ 7) ≤ N2 := by linarith [h2.1]
  have k4 : 2 * (1 / 10 ^ 5 * J + 121 / 10 ^ 7) ≤ 6 / 10 ^ 5 * N2 := by
    norm_num at k3 ⊢
    linarith
  calc |(N1 - I) * J| + |I * (N2 - J)| ≤ (2 * (1 / 10 ^ 5 * J + 121 / 10 ^ 7)) * J := by linarith
    _ ≤ (6 / 10 ^ 5 * N2) * J := by gcongr
    _ = _ := by ring

theorem law_reflect {f : ℤ → ℝ} (hf : ∀ v, f (-v) = f v) (a b : ℤ) : ∑ v ∈ Icc (-b) (-a), f v = ∑ v ∈ Icc a b, f v := by
  refine sum_nbij' (fun v => -v) (fun v => -v) ?_ ?_ ?_ ?_ ?_
  · intro v hv; rw [mem_Icc] at hv ⊢; omega
  · intro v hv; rw [mem_Icc] at hv ⊢; omega
  · intro v _; exact neg_neg v
  · intro v _; exact neg_neg v
  · intro v _
    exact (hf v).symm

theorem bell_reflect (p q : ℝ) : ∫ x in p..q, bell x = ∫ x in -q..-p, bell x := by
  rw [← intervalIntegral.integral_comp_neg]
  refine intervalIntegral.integral_congr fun x _ => ?_
  simp only [bell, neg_sq]

theorem Icc_split (f : ℤ → ℝ) {a b c : ℤ} (h1 : a ≤ b + 1) (h2 : b ≤ c) :
    ∑ v ∈ Icc a c, f v = ∑ v ∈ Icc a b, f v + ∑ v ∈ Icc (b + 1) c, f v := by
  rw [← sum_union]
  · congr 1
    ext v
    simp only [mem_union, mem_Icc]
    omega
  · rw [disjoint_left]
    intro v hv hv'
    rw [mem_Icc] at hv hv'
    omega

theorem law_side {f : ℤ → ℝ} (hf : ∀ v, f (-v) = f v) {m n : ℕ} (h : m ≤ n) : ∑ v ∈ Icc ((m : ℤ) + 1) n, f v
    = (∑ v ∈ Icc (-(n : ℤ)) n, f v - ∑ v ∈ Icc (-(m : ℤ)) m, f v) / 2 := by
  have e1 := Icc_split f (a := -(n : ℤ)) (b := -(m : ℤ) - 1) (c := n) (by omega) (by omega)
  have e2 := Icc_split f (a := -(m : ℤ)) (b := m) (c := n) (by omega) (by omega)
  have e3 := law_reflect hf ((m : ℤ) + 1) n
  rw [show -((m : ℤ) + 1) = -(m : ℤ) - 1 by ring] at e3
  rw [show -(m : ℤ) - 1 + 1 = -(m : ℤ) by ring] at e1
  linarith

theorem shape_right {f : ℤ → ℝ} {ε : ℝ} (hf : ∀ v, f (-v) = f v) (hσ : 0 < σ)
    (hc : ∀ n : ℕ, n ≤ bound.toNat → |∑ v ∈ Icc (-(n : ℤ)) n, f v
      - (∫ x in (0 : ℝ)..((n + 1 / 2) / σ), bell x) / ∫ x in (0 : ℝ)..((bound.toNat + 1 / 2) / σ), bell x| ≤ ε) (hb : 2 * σ ≤ bound.toNat + 1 / 2) {a b : ℤ} (hab : a ≤ b) (hr : -b ≤ a)
    (hbb : b ≤ bound.toNat) :
    |∑ v ∈ Icc a b, f v
      - (∫ x in ((a - 1 / 2) / σ)..((b + 1 / 2) / σ), bell x)
        / ∫ x in (-((bound.toNat + 1 / 2) / σ))..((bound.toNat + 1 / 2) / σ), bell x| ≤ ε := by
  have hb0 : 0 ≤ b := by omega
  obtain ⟨n, rfl⟩ := Int.eq_ofNat_of_zero_le hb0
  have hn : n ≤ bound.toNat := by exact_mod_cast hbb
  have cn := abs_le.1 (hc n hn)
  have hJ : ∫ x in (-((bound.toNat + 1 / 2) / σ))..((bound.toNat + 1 / 2) / σ), bell x
      = 2 * ∫ x in (0 : ℝ)..((bound.toNat + 1 / 2) / σ), bell x := by
    have h := integral_add_adjacent_intervals (bell_integrable (-((bound.toNat + 1 / 2) / σ)) 0)
      (bell_integrable 0 ((bound.toNat + 1 / 2) / σ))
    rw [bell_reflect (-((bound.toNat + 1 / 2) / σ)) 0, neg_zero, neg_neg] at h
    linarith
  have hJp : 0 < ∫ x in (0 : ℝ)..((bound.toNat + 1 / 2) / σ), bell x :=
    lt_of_lt_of_le (by norm_num) (bell_total (by rwa [le_div_iff₀ hσ]))
  rw [hJ]
  rcases le_or_gt a 0 with ha | ha
  · -- around zero
    obtain ⟨m, hm⟩ := Int.eq_ofNat_of_zero_le (show 0 ≤ -a by omega)
    obtain rfl : a = -(m : ℤ) := by omega
    have hmn : m ≤ n := by omega
    have cm := abs_le.1 (hc m (hmn.trans hn))
    have e1 := Icc_split f (a := -(m : ℤ)) (b := m) (c := n) (by omega) (by omega)
    have e2 := law_side hf hmn
    have e3 : ∫ x in ((((-(m : ℤ) : ℤ) : ℝ) - 1 / 2) / σ)..((((n : ℤ) : ℝ) + 1 / 2) / σ), bell x
        = (∫ x in (0 : ℝ)..((m + 1 / 2) / σ), bell x) + ∫ x in (0 : ℝ)..((n + 1 / 2) / σ), bell x := by
      have h := integral_add_adjacent_intervals (bell_integrable ((((-(m : ℤ) : ℤ) : ℝ) - 1 / 2) / σ) 0)
        (bell_integrable 0 ((((n : ℤ) : ℝ) + 1 / 2) / σ))
      rw [bell_reflect _ 0, neg_zero] at h
      rw [← h]
      push_cast
      congr 2
      ring
    rw [e3, e1]
    rw [e2]
    generalize (∫ x in (0 : ℝ)..((bound.toNat + 1 / 2) / σ), bell x) = J at *
    generalize (∫ x in (0 : ℝ)..((m + 1 / 2) / σ), bell x) = I1 at *
    generalize (∫ x in (0 : ℝ)..((n + 1 / 2) / σ), bell x) = I2 at *
    have e4 : (I1 + I2) / (2 * J) = (I1 / J + I2 / J) / 2 := by field_simp
    rw [e4, abs_le]
    constructor <;> linarith [cm.1, cm.2, cn.1, cn.2]
  · obtain ⟨m, hm⟩ := Int.eq_ofNat_of_zero_le (show 0 ≤ a - 1 by omega)
    obtain rfl : a = (m : ℤ) + 1 := by omega
    have hmn : m ≤ n := by omega
    have cm := abs_le.1 (hc m (hmn.trans hn))
    have e2 := law_side hf hmn
    have e3 : ∫ x in (((((m : ℤ) + 1 : ℤ) : ℝ) - 1 / 2) / σ)..((((n : ℤ) : ℝ) + 1 / 2) / σ), bell x
        = (∫ x in (0 : ℝ)..((n + 1 / 2) / σ), bell x) - ∫ x in (0 : ℝ)..((m + 1 / 2) / σ), bell x := by
      have h := integral_add_adjacent_intervals (bell_integrable 0 ((((m : ℝ) + 1 / 2) / σ)))
        (bell_integrable (((m : ℝ) + 1 / 2) / σ) (((n : ℝ) + 1 / 2) / σ))
      rw [← h]
      push_cast
      rw [show (m : ℝ) + 1 - 1 / 2 = m + 1 / 2 by ring]
      ring
    rw [e3, e2]
    generalize (∫ x in (0 : ℝ)..((bound.toNat + 1 / 2) / σ), bell x) = J at *
    generalize (∫ x in (0 : ℝ)..((m + 1 / 2) / σ), bell x) = I1 at *
    generalize (∫ x in (0 : ℝ)..((n + 1 / 2) / σ), bell x) = I2 at *
    have e4 : (I2 - I1) / (2 * J) = (I2 / J - I1 / J) / 2 := by field_simp
    rw [e4, abs_le]
    constructor <;> linarith [cm.1, cm.2, cn.1, cn.2]

/-- a symmetric law that is near to the normal law on the intervals around zero is near to it on all intervals -/
theorem shape_of_center {f : ℤ → ℝ} {ε : ℝ} (hf : ∀ v, f (-v) = f v) (hσ : 0 < σ)
    (hc : ∀ n : ℕ, n ≤ bound.toNat → |∑ v ∈ Icc (-(n : ℤ)) n, f v
      - (∫ x in (0 : ℝ)..((n + 1 / 2) / σ), bell x) / ∫ x in (0 : ℝ)..((bound.toNat + 1 / 2) / σ), bell x| ≤ ε)
    (hb : 2 * σ ≤ bound.toNat + 1 / 2) {a b : ℤ} (hab : a ≤ b) (ha : -(bound.toNat : ℤ) ≤ a) (hbb : b ≤ bound.toNat) :
    |∑ v ∈ Icc a b, f v
      - (∫ x in ((a - 1 / 2) / σ)..((b + 1 / 2) / σ), bell x)
        / ∫ x in (-((bound.toNat + 1 / 2) / σ))..((bound.toNat + 1 / 2) / σ), bell x| ≤ ε := by
  rcases le_or_gt (-b) a with h | h
  · exact shape_right hf hσ hc hb hab h hbb
  · have := shape_right hf hσ hc hb (a := -b) (b := -a) (by omega) (by omega) (by omega)
    rw [law_reflect hf, bell_reflect] at this
    have e1 : -((((-a : ℤ) : ℝ) + 1 / 2) / σ) = (a - 1 / 2) / σ := by push_cast; ring
    have e2 : -((((-b : ℤ) : ℝ) - 1 / 2) / σ) = (b + 1 / 2) / σ := by push_cast; ring
    rw [e1, e2] at this
    exact this

theorem law_symm {F : Type} (O : FloatOps F) (sigma : F) (bound : UInt64) (v : ℤ) :
    (gaussLaw O sigma bound (-v)).toReal = (gaussLaw O sigma bound v).toReal := by
  rw [gaussLaw_eq, gaussLaw_eq, machineLaw_neg]

/-- **C108.**  For every interval of integers within the bound, the probability that the sampler returns a coefficient in
it differs by less than `6·10⁻⁵` from that of the normal law with deviation `σ`, truncated and rounded to integers. -/
theorem C108_gaussian_shape (hσ : 0 < σ) (hσ2 : σ ≤ 2 ^ 59) (hb : 2 * σ ≤ bound.toNat + 1 / 2) {a b : ℤ} (hab : a ≤ b)
    (ha : -(bound.toNat : ℤ) ≤ a) (hbb : b ≤ bound.toNat) :
    |∑ v ∈ Icc a b, (gaussLaw realOps σ bound v).toReal
      - (∫ x in ((a - 1 / 2) / σ)..((b + 1 / 2) / σ), Real.exp (-(x ^ 2 / 2)))
        / ∫ x in (-((bound.toNat + 1 / 2) / σ))..((bound.toNat + 1 / 2) / σ), Real.exp (-(x ^ 2 / 2))| ≤ 6 / 10 ^ 5 :=
  shape_of_center (law_symm realOps σ bound) hσ (fun _ => shape_center hσ hσ2 hb) hb hab ha hbb

/-- the sampler of the parameter sets of the code: deviation 3.2, bound 19, a single value and the upper half -/
example : |∑ v ∈ Icc (-3 : ℤ) 5, (gaussLaw realOps 3.2 19 v).toReal
      - (∫ x in ((((-3 : ℤ) : ℝ) - 1 / 2) / 3.2)..((((5 : ℤ) : ℝ) + 1 / 2) / 3.2), Real.exp (-(x ^ 2 / 2)))
        / ∫ x in (-((((19 : UInt64).toNat : ℕ) + 1 / 2) / 3.2))..((((19 : UInt64).toNat : ℕ) + 1 / 2) / 3.2), Real.exp (-(x ^ 2 / 2))|
    ≤ 6 / 10 ^ 5 :=
  C108_gaussian_shape (by norm_num) (by norm_num) (by
    rw [show (19 : UInt64).toNat = 19 from rfl]
    norm_num) (by norm_num) (by decide) (by decide)

end

end FastKsw.Props
