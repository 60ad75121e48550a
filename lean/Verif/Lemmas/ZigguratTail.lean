import Verif.Lemmas.ZigguratBody
import Mathlib.Analysis.SpecialFunctions.ExpDeriv

/-!
# The tail of the ziggurat
-/

namespace FastKsw

open Finset intervalIntegral MeasureTheory

theorem zigR_bounds : (3.44 : ℝ) ≤ zigR ∧ (zigR : ℝ) ≤ 3.443 := by
  rw [zigR]
  constructor <;> norm_num

theorem zigR_pos : (0 : ℝ) < zigR := by linarith [zigR_bounds.1]

theorem bell_hasDerivAt (x : ℝ) : HasDerivAt bell (-x * bell x) x := by
  have h : HasDerivAt (fun y : ℝ => Real.exp (-(y ^ 2 / 2))) (Real.exp (-(x ^ 2 / 2)) * -((2 : ℕ) * x ^ (2 - 1) / 2)) x :=
    ((hasDerivAt_pow 2 x).div_const 2).neg.exp
  refine h.congr_deriv ?_
  rw [bell]
  norm_num
  ring

/-- Mills' ratio from above -/
theorem mills_upper {p q : ℝ} (hp : 0 < p) (hpq : p ≤ q) : ∫ x in p..q, bell x ≤ (p ^ 2 + 2) / (p ^ 3 + 3 * p) * bell p := by
  have hd : ∀ x, 0 < x → HasDerivAt (fun x => -((x ^ 2 + 2) / (x ^ 3 + 3 * x) * bell x))
      ((1 + 6 / (x ^ 2 * (x ^ 2 + 3) ^ 2)) * bell x) x := by
    intro x hx
    have h1 : HasDerivAt (fun x : ℝ => x ^ 2 + 2) (2 * x) x := by
      simpa using (hasDerivAt_pow 2 x).add_const 2
    have h2 : HasDerivAt (fun x : ℝ => x ^ 3 + 3 * x) (3 * x ^ 2 + 3) x := by
      exact ((hasDerivAt_pow 3 x).add ((hasDerivAt_id x).const_mul 3)).congr_deriv (by norm_num)
    have h3 := ((h1.div h2 (by positivity)).mul (bell_hasDerivAt x)).neg
    refine h3.congr_deriv ?_
    simp only [Pi.div_apply]
    field_simp
    ring
  have hc : ContinuousOn (fun x => (1 + 6 / (x ^ 2 * (x ^ 2 + 3) ^ 2)) * bell x) (Set.uIcc p q) := by
    rw [Set.uIcc_of_le hpq]
    refine ContinuousOn.mul (ContinuousOn.add continuousOn_const (ContinuousOn.div continuousOn_const (by fun_prop) ?_))
      bell_continuous.continuousOn
    intro x hx
    have : 0 < x := hp.trans_le hx.1
    positivity
  have h1 := integral_eq_sub_of_hasDerivAt (f := fun x => -((x ^ 2 + 2) / (x ^ 3 + 3 * x) * bell x))
    (f' := fun x => (1 + 6 / (x ^ 2 * (x ^ 2 + 3) ^ 2)) * bell x) (a := p) (b := q) (by
      intro x hx
      rw [Set.uIcc_of_le hpq] at hx
      exact hd x (hp.trans_le hx.1)) hc.intervalIntegrable
  have h2 : ∫ x in p..q, bell x ≤ ∫ x in p..q, (1 + 6 / (x ^ 2 * (x ^ 2 + 3) ^ 2)) * bell x := by
    refine integral_mono_on hpq (bell_integrable p q) hc.intervalIntegrable fun x hx => ?_
    have : 0 < x := hp.trans_le hx.1
    have h3 : 0 ≤ 6 / (x ^ 2 * (x ^ 2 + 3) ^ 2) := by positivity
    nlinarith [bell_pos x]
  have hq : 0 < q := hp.trans_le hpq
  have h4 : 0 ≤ (q ^ 2 + 2) / (q ^ 3 + 3 * q) * bell q := mul_nonneg (by positivity) (bell_pos q).le
  linarith

/-- Mills' ratio from below -/
theorem mills_lower {p q : ℝ} (hp : 0 < p) (hpq : p ≤ q) :
    p * (p ^ 2 + 5) / (p ^ 4 + 6 * p ^ 2 + 3) * bell p - bell q ≤ ∫ x in p..q, bell x := by
  have hd : ∀ x, 0 < x → HasDerivAt (fun x => -(x * (x ^ 2 + 5) / (x ^ 4 + 6 * x ^ 2 + 3) * bell x))
      ((1 - 24 / (x ^ 4 + 6 * x ^ 2 + 3) ^ 2) * bell x) x := by
    intro x hx
    have h1 : HasDerivAt (fun x : ℝ => x * (x ^ 2 + 5)) (1 * (x ^ 2 + 5) + x * (2 * x)) x := by
      exact ((hasDerivAt_id x).mul ((hasDerivAt_pow 2 x).add_const 5)).congr_deriv (by norm_num)
    have h2 : HasDerivAt (fun x : ℝ => x ^ 4 + 6 * x ^ 2 + 3) (4 * x ^ 3 + 6 * (2 * x)) x := by
      exact (((hasDerivAt_pow 4 x).add ((hasDerivAt_pow 2 x).const_mul 6)).add_const 3).congr_deriv (by norm_num)
    have h3 := ((h1.div h2 (by positivity)).mul (bell_hasDerivAt x)).neg
    refine h3.congr_deriv ?_
    simp only [Pi.div_apply]
    field_simp
    ring
  have hc : ContinuousOn (fun x => (1 - 24 / (x ^ 4 + 6 * x ^ 2 + 3) ^ 2) * bell x) (Set.uIcc p q) := by
    rw [Set.uIcc_of_le hpq]
    refine ContinuousOn.mul (ContinuousOn.sub continuousOn_const (ContinuousOn.div continuousOn_const (by fun_prop) ?_))
      bell_continuous.continuousOn
    intro x hx
    have : 0 < x := hp.trans_le hx.1
    positivity
  have h1 := integral_eq_sub_of_hasDerivAt (f := fun x => -(x * (x ^ 2 + 5) / (x ^ 4 + 6 * x ^ 2 + 3) * bell x))
    (f' := fun x => (1 - 24 / (x ^ 4 + 6 * x ^ 2 + 3) ^ 2) * bell x) (a := p) (b := q) (by
      intro x hx
      rw [Set.uIcc_of_le hpq] at hx
      exact hd x (hp.trans_le hx.1)) hc.intervalIntegrable
  have h2 : ∫ x in p..q, (1 - 24 / (x ^ 4 + 6 * x ^ 2 + 3) ^ 2) * bell x ≤ ∫ x in p..q, bell x := by
    refine integral_mono_on hpq hc.intervalIntegrable (bell_integrable p q) fun x hx => ?_
    have : 0 < x := hp.trans_le hx.1
    have h3 : 0 ≤ 24 / (x ^ 4 + 6 * x ^ 2 + 3) ^ 2 := by positivity
    nlinarith [bell_pos x]
  have hq : 0 < q := hp.trans_le hpq
  have h4 : q * (q ^ 2 + 5) / (q ^ 4 + 6 * q ^ 2 + 3) * bell q ≤ 1 * bell q := by
    have hb := (bell_pos q).le
    have : q * (q ^ 2 + 5) / (q ^ 4 + 6 * q ^ 2 + 3) ≤ 1 := by
      rw [div_le_one (by positivity)]
      nlinarith [sq_nonneg (q - 1), sq_nonneg (q ^ 2 - 1), sq_nonneg (q * (q - 1))]
    gcongr
  linarith

/-! ## The numbers of the tail -/

/-- how many words of the base strip lead to the tail, of `2 ^ 24` -/
def zigTailWords : ℕ := 1222075

theorem zigTail_rat : (zigR ^ 2 + 2) / (zigR ^ 3 + 3 * zigR) * expHigh (zigR ^ 2 / 2) ≤ zigV * (zigTailWords / 2 ^ 24) + 2 / 10 ^ 6 ∧
    zigV * (zigTailWords / 2 ^ 24) - 2 / 10 ^ 6 + 1 / 10 ^ 9
      ≤ zigR * (zigR ^ 2 + 5) / (zigR ^ 4 + 6 * zigR ^ 2 + 3) * expLow (zigR ^ 2 / 2) ∧
    9 / 10 * expHigh (zigR ^ 2 / 2) ≤ zigR * (zigV * (zigTailWords / 2 ^ 24) - 2 / 10 ^ 6) := by decide +kernel

theorem bell_far {q : ℝ} (hq : 20 ≤ q) : bell q ≤ 1 / 10 ^ 9 := by
  refine (bell_anti (by norm_num) hq).trans ?_
  have h1 : (21 : ℝ) ≤ Real.exp 20 := by linarith [Real.add_one_le_exp (20 : ℝ)]
  have h2 : bell 20 = (Real.exp 20 ^ 10)⁻¹ := by
    rw [bell, ← Real.exp_nat_mul, ← Real.exp_neg]
    norm_num
  have h3 : (21 : ℝ) ^ 10 ≤ Real.exp 20 ^ 10 := pow_le_pow_left₀ (by norm_num) h1 10
  rw [h2]
  calc (Real.exp 20 ^ 10)⁻¹ ≤ ((21 : ℝ) ^ 10)⁻¹ := inv_anti₀ (by positivity) h3
    _ ≤ _ := by norm_num

theorem zigR_bell : (expLow (zigR ^ 2 / 2) : ℝ) ≤ bell zigR ∧ bell zigR ≤ (expHigh (zigR ^ 2 / 2) : ℝ) :=
  bell_rat (by rw [zigR]; norm_num) (by rw [zigR]; norm_num)

/-- the mass of the tail that the words give it -/
noncomputable def zigTailMass : ℝ := zigV * ((zigTailWords : ℕ) / 2 ^ 24)

theorem zigTail_integral {q : ℝ} (hq : (zigR : ℝ) + 20 ≤ q) : |(∫ x in (zigR : ℝ)..q, bell x) - zigTailMass| ≤ 2 / 10 ^ 6 := by
  obtain ⟨h1, h2, -⟩ := zigTail_rat
  have h1' := cast_le_real h1
  have h2' := cast_le_real h2
  push_cast at h1' h2'
  have hR := zigR_pos
  have hRq : (zigR : ℝ) ≤ q := by linarith
  have u := mills_upper hR hRq
  have l := mills_lower hR hRq
  have f := bell_far (q := q) (by linarith)
  obtain ⟨b1, b2⟩ := zigR_bell
  have u2 : ((zigR : ℝ) ^ 2 + 2) / (zigR ^ 3 + 3 * zigR) * bell zigR
      ≤ (zigR ^ 2 + 2) / (zigR ^ 3 + 3 * zigR) * (expHigh (zigR ^ 2 / 2) : ℝ) := by gcongr
  have l2 : (zigR : ℝ) * (zigR ^ 2 + 5) / (zigR ^ 4 + 6 * zigR ^ 2 + 3) * (expLow (zigR ^ 2 / 2) : ℝ)
      ≤ zigR * (zigR ^ 2 + 5) / (zigR ^ 4 + 6 * zigR ^ 2 + 3) * bell zigR := by gcongr
  rw [zigTailMass, abs_le]
  constructor <;> linarith

/-! ## The first draw of the tail -/

/-- the largest value of the 53 bits of a draw -/
noncomputable def tailM : ℝ := 2 ^ 53 - 1

theorem tailM_pos : 0 < tailM := by rw [tailM]; norm_num

/-- the distance from the start of the tail for the draw `u` -/
noncomputable def tailX (u : ℕ) : ℝ := -Real.log (u / tailM) * (1 / zigR)

/-- the chance to be accepted in the tail, as a function of the fraction drawn -/
noncomputable def tailPsi (s : ℝ) : ℝ := if s ≤ 0 then 0 else if 1 ≤ s then 1 else bell (Real.log s / zigR)

theorem bell_neg (x : ℝ) : bell (-x) = bell x := by rw [bell, bell, neg_sq]

theorem bell_zero : bell 0 = 1 := by simp [bell]

theorem tailPsi_nonneg (s : ℝ) : 0 ≤ tailPsi s := by
  rw [tailPsi]
  split_ifs
  · exact le_rfl
  · exact zero_le_one
  · exact (bell_pos _).le

theorem tailPsi_le_one (s : ℝ) : tailPsi s ≤ 1 := by
  rw [tailPsi]
  split_ifs
  · exact zero_le_one
  · exact le_rfl
  · exact bell_le_one _

theorem tailPsi_eq {s : ℝ} (h0 : 0 < s) (h1 : s ≤ 1) : tailPsi s = bell (Real.log s / zigR) := by
  rw [tailPsi, if_neg (not_le.2 h0)]
  split_ifs with h
  · obtain rfl := le_antisymm h1 h
    simp [bell_zero]
  · rfl

theorem tailPsi_mono : Monotone tailPsi := by
  intro s t hst
  by_cases hs : s ≤ 0
  · rw [tailPsi, if_pos hs]
    exact tailPsi_nonneg t
  rw [not_le] at hs
  by_cases ht : 1 ≤ t
  · have : tailPsi t = 1 := by rw [tailPsi, if_neg (by linarith), if_pos ht]
    rw [this]
    exact tailPsi_le_one s
  rw [not_le] at ht
  rw [tailPsi_eq hs (by linarith), tailPsi_eq (by linarith) ht.le, ← bell_neg (Real.log s / zigR), ← bell_neg (Real.log t / zigR)]
  have hR := zigR_pos
  have hl := Real.log_le_log hs hst
  have hn := Real.log_nonpos (by linarith) ht.le
  refine bell_anti ?_ ?_
  · rw [← neg_div]
    exact div_nonneg (by linarith) hR.le
  · rw [neg_le_neg_iff]
    gcongr

/-- the scale of the density of the tail -/
noncomputable def tailT : ℝ := zigR * Real.exp ((zigR : ℝ) ^ 2 / 2)

/-- the share of the words with a point beyond `p` -/
noncomputable def tailS (p : ℝ) : ℝ := Real.exp (-(zigR * (p - zigR)))

theorem tailS_pos (p : ℝ) : 0 < tailS p := Real.exp_pos _

theorem tailS_le_one {p : ℝ} (hp : (zigR : ℝ) ≤ p) : tailS p ≤ 1 := by
  rw [tailS, Real.exp_le_one_iff]
  have := zigR_pos
  nlinarith

theorem tailS_anti {p q : ℝ} (hpq : p ≤ q) : tailS q ≤ tailS p := by
  rw [tailS, tailS, Real.exp_le_exp]
  have := zigR_pos
  nlinarith

theorem tailPsi_integral {p q : ℝ} (hp : (zigR : ℝ) ≤ p) (hpq : p ≤ q) :
    ∫ s in (tailS q)..(tailS p), tailPsi s = tailT * ∫ x in p..q, bell x := by
  have hR := zigR_pos
  have hd : ∀ x ∈ Set.uIcc p q, HasDerivAt tailS (-(zigR : ℝ) * tailS x) x := by
    intro x _
    have h : HasDerivAt (fun y : ℝ => -((zigR : ℝ) * (y - zigR))) (-((zigR : ℝ) * 1)) x :=
      (((hasDerivAt_id x).sub_const _).const_mul _).neg
    refine h.exp.congr_deriv ?_
    rw [tailS]
    ring
  have hScont : Continuous tailS := by
    unfold tailS
    fun_prop
  have hc : ContinuousOn tailPsi (tailS '' Set.uIcc p q) := by
    have h1 : ContinuousOn (fun s => bell (Real.log s / zigR)) (tailS '' Set.uIcc p q) := by
      refine bell_continuous.comp_continuousOn (ContinuousOn.div_const (Real.continuousOn_log.mono ?_) _)
      rintro s ⟨x, _, rfl⟩
      exact (tailS_pos x).ne'
    refine h1.congr ?_
    rintro s ⟨x, hx, rfl⟩
    rw [Set.uIcc_of_le hpq] at hx
    exact tailPsi_eq (tailS_pos x) (tailS_le_one (hp.trans hx.1))
  have h := integral_comp_mul_deriv' hd (by fun_prop) hc
  rw [integral_symm, ← h, ← intervalIntegral.integral_const_mul, ← intervalIntegral.integral_neg]
  refine integral_congr fun x hx => ?_
  rw [Set.uIcc_of_le hpq] at hx
  simp only [Function.comp_apply]
  rw [tailPsi_eq (tailS_pos x) (tailS_le_one (hp.trans hx.1)), tailS, Real.log_exp, bell, bell, tailT]
  have e : -(-((zigR : ℝ) * (x - zigR)) / zigR) ^ 2 / 2 + -((zigR : ℝ) * (x - zigR)) = (zigR : ℝ) ^ 2 / 2 + -(x ^ 2 / 2) := by
    field_simp
    ring
  rw [mul_assoc, ← Real.exp_add, ← e, Real.exp_add]
  ring_nf

/-- the draws `u` whose point is in `[p, q)` -/
theorem tail_mem {p q : ℝ} (hp : (zigR : ℝ) ≤ p) {u : ℕ} :
    (u ∈ range (2 ^ 53) ∧ 0 < u ∧ p ≤ tailX u + zigR ∧ tailX u + zigR < q) ↔
      u ∈ Ico (⌊tailM * tailS q⌋₊ + 1) (⌊tailM * tailS p⌋₊ + 1) := by
  have hR := zigR_pos
  have hM := tailM_pos
  have c1 : ∀ r : ℝ, 0 < u → (r ≤ tailX u + zigR ↔ (u : ℝ) ≤ tailM * tailS r) := by
    intro r hu
    have hu' : (0 : ℝ) < u / tailM := by
      have : (0 : ℝ) < u := by exact_mod_cast hu
      positivity
    rw [mul_comm, ← div_le_iff₀ hM, tailS, ← Real.log_le_iff_le_exp hu', tailX, ← sub_le_iff_le_add, mul_one_div, le_div_iff₀ hR]
    constructor <;> intro h <;> linarith
  have hq0 : 0 ≤ tailM * tailS q := (mul_pos hM (tailS_pos q)).le
  have hp0 : 0 ≤ tailM * tailS p := (mul_pos hM (tailS_pos p)).le
  rw [mem_Ico, Nat.succ_le_iff, Nat.lt_succ_iff, Nat.floor_lt hq0, Nat.le_floor_iff hp0]
  constructor
  · rintro ⟨_, h0, h1, h2⟩
    refine ⟨?_, (c1 p h0).1 h1⟩
    rw [← not_le] at h2 ⊢
    rwa [← c1 q h0]
  · rintro ⟨h1, h2⟩
    have h0 : 0 < u := by
      have : (0 : ℝ) < u := hq0.trans_lt h1
      exact_mod_cast this
    refine ⟨?_, h0, (c1 p h0).2 h2, ?_⟩
    · rw [mem_range]
      have h3 : (u : ℝ) ≤ tailM := h2.trans (mul_le_of_le_one_right hM.le (tailS_le_one hp))
      have h4 : (u : ℝ) < (2 : ℝ) ^ 53 := by rw [tailM] at h3; linarith
      exact_mod_cast h4
    · rw [← not_le] at h1 ⊢
      rwa [c1 q h0]

theorem tail_sum {p q : ℝ} (hp : (zigR : ℝ) ≤ p) (hpq : p ≤ q) :
    |∑ u ∈ range (2 ^ 53), (if 0 < u ∧ p ≤ tailX u + zigR ∧ tailX u + zigR < q then bell (tailX u) else 0)
      - tailM * (tailT * ∫ x in p..q, bell x)| ≤ 4 := by
  have hR := zigR_pos
  have hM := tailM_pos
  have e1 : ∑ u ∈ range (2 ^ 53), (if 0 < u ∧ p ≤ tailX u + zigR ∧ tailX u + zigR < q then bell (tailX u) else 0)
      = ∑ u ∈ Ico (⌊tailM * tailS q⌋₊ + 1) (⌊tailM * tailS p⌋₊ + 1), tailPsi (u / tailM) := by
    rw [← sum_filter]
    refine sum_congr (by ext u; rw [mem_filter]; exact tail_mem hp) ?_
    intro u hu
    obtain ⟨h0, hu1, -, -⟩ := (tail_mem (q := q) hp).2 hu
    have hu' : (0 : ℝ) < u := by exact_mod_cast hu1
    have hle : (u : ℝ) ≤ tailM := by
      have : u + 1 ≤ 2 ^ 53 := mem_range.1 h0
      have : (u : ℝ) + 1 ≤ 2 ^ 53 := by exact_mod_cast this
      rw [tailM]; linarith
    rw [tailPsi_eq (by positivity) ((div_le_one hM).2 hle), tailX, mul_one_div, neg_div, bell_neg]
  rw [e1]
  have hq0 : 0 ≤ tailM * tailS q := (mul_pos hM (tailS_pos q)).le
  have hp0 : 0 ≤ tailM * tailS p := (mul_pos hM (tailS_pos p)).le
  have hab : ⌊tailM * tailS q⌋₊ + 1 ≤ ⌊tailM * tailS p⌋₊ + 1 := by
    have := tailS_anti hpq
    gcongr
  have b1 : tailM * tailS q ≤ ((⌊tailM * tailS q⌋₊ + 1 : ℕ) : ℝ) := by push_cast; exact (Nat.lt_floor_add_one _).le
  have b2 : ((⌊tailM * tailS q⌋₊ + 1 : ℕ) : ℝ) ≤ tailM * tailS q + 1 := by push_cast; linarith [Nat.floor_le hq0]
  have b3 : tailM * tailS p ≤ ((⌊tailM * tailS p⌋₊ + 1 : ℕ) : ℝ) := by push_cast; exact (Nat.lt_floor_add_one _).le
  have b4 : ((⌊tailM * tailS p⌋₊ + 1 : ℕ) : ℝ) ≤ tailM * tailS p + 1 := by push_cast; linarith [Nat.floor_le hp0]
  have g1 := antitone_sum_integral (f := fun t => 1 - tailPsi (t / tailM)) (by
    intro x y hxy
    have := tailPsi_mono (show x / tailM ≤ y / tailM by gcongr)
    simp only
    linarith) (fun x => by linarith [tailPsi_le_one (x / tailM)]) (fun x => by linarith [tailPsi_nonneg (x / tailM)]) hab b1 b2 b3 b4
  have g2 := antitone_sum_integral (f := fun _ => 1) antitone_const (fun _ => zero_le_one) (fun _ => le_rfl) hab b1 b2 b3 b4
  have hi : ∀ a b, IntervalIntegrable (fun t => tailPsi (t / tailM)) volume a b := by
    intro a b
    refine Monotone.intervalIntegrable ?_
    intro x y hxy
    exact tailPsi_mono (by gcongr)
  rw [sum_sub_distrib, integral_sub intervalIntegrable_const (hi _ _)] at g1
  have g3 : ∫ t in (tailM * tailS q)..(tailM * tailS p), tailPsi (t / tailM) = tailM * (tailT * ∫ x in p..q, bell x) := by
    rw [intervalIntegral.integral_comp_div (fun s => tailPsi s) hM.ne', mul_div_cancel_left₀ _ hM.ne', mul_div_cancel_left₀ _ hM.ne',
      tailPsi_integral hp hpq, smul_eq_mul]
  rw [g3] at g1
  have h1 := abs_le.1 g1
  have h2 := abs_le.1 g2
  rw [abs_le]
  constructor <;> linarith [h1.1, h1.2, h2.1, h2.2]

/-! ## The second draw, and both -/

/-- the chance that the second draw accepts the point at distance `x` -/
noncomputable def tailAcc (x : ℝ) : ℝ :=
  (1 / 2 ^ 53 : ℝ) * ∑ w ∈ range (2 ^ 53), if x * x ≤ -Real.log (w / tailM) + -Real.log (w / tailM) then 1 else 0

theorem count_draws (N : ℕ) {c : ℝ} (hc : 0 ≤ c) (hN : c < N) :
    ∑ w ∈ range N, (if 0 < w ∧ (w : ℝ) ≤ c then (1 : ℝ) else 0) = ⌊c⌋₊ := by
  have e : (range N).filter (fun w : ℕ => 0 < w ∧ (w : ℝ) ≤ c) = Ico 1 (⌊c⌋₊ + 1) := by
    ext w
    rw [mem_filter, mem_range, mem_Ico, Nat.lt_succ_iff, Nat.le_floor_iff hc]
    constructor
    · rintro ⟨_, h1, h2⟩
      exact ⟨h1, h2⟩
    · rintro ⟨h1, h2⟩
      refine ⟨?_, h1, h2⟩
      have : (w : ℝ) < N := h2.trans_lt hN
      exact_mod_cast this
  rw [← sum_filter, e]
  simp

theorem tailAcc_bell (x : ℝ) : |tailAcc x - bell x| ≤ 2 / 2 ^ 53 := by
  have hM := tailM_pos
  have hb := bell_pos x
  have hb1 := bell_le_one x
  have hc : 0 ≤ tailM * bell x := by positivity
  have hN : tailM * bell x < (2 ^ 53 : ℕ) := by
    have : tailM * bell x ≤ tailM := mul_le_of_le_one_right hM.le hb1
    rw [tailM] at this ⊢
    push_cast
    linarith
  have key := count_draws (2 ^ 53) hc hN
  have e : ∀ w : ℕ, 0 < w → (x * x ≤ -Real.log (w / tailM) + -Real.log (w / tailM) ↔ (w : ℝ) ≤ tailM * bell x) := by
    intro w hw
    have hw' : (0 : ℝ) < w / tailM := by
      have : (0 : ℝ) < w := by exact_mod_cast hw
      positivity
    rw [mul_comm tailM, ← div_le_iff₀ hM, bell, ← Real.log_le_iff_le_exp hw']
    constructor <;> intro h <;> linarith [sq x]
  have h1 : ∑ w ∈ range (2 ^ 53), (if 0 < w ∧ (w : ℝ) ≤ tailM * bell x then (1 : ℝ) else 0)
      ≤ ∑ w ∈ range (2 ^ 53), (if x * x ≤ -Real.log (w / tailM) + -Real.log (w / tailM) then (1 : ℝ) else 0) := by
    refine sum_le_sum fun w _ => ?_
    by_cases hw : 0 < w
    · simp only [hw, true_and, e w hw, le_refl]
    · simp only [hw, false_and, if_false]
      split_ifs <;> norm_num
  have h2 : ∑ w ∈ range (2 ^ 53), (if x * x ≤ -Real.log (w / tailM) + -Real.log (w / tailM) then (1 : ℝ) else 0)
      ≤ ∑ w ∈ range (2 ^ 53), (if 0 < w ∧ (w : ℝ) ≤ tailM * bell x then (1 : ℝ) else 0) + 1 := by
    have h3 : ∑ w ∈ range (2 ^ 53), (if w = 0 then (1 : ℝ) else 0) = 1 := by
      rw [sum_ite_eq' (range (2 ^ 53)) 0 fun _ => (1 : ℝ), if_pos (mem_range.2 (by norm_num))]
    rw [← h3, ← sum_add_distrib]
    refine sum_le_sum fun w _ => ?_
    by_cases hw : 0 < w
    · simp only [hw, true_and, e w hw, hw.ne', if_false, add_zero, le_refl]
    · have : w = 0 := by omega
      rw [if_pos this]
      split_ifs <;> norm_num
  rw [key] at h1 h2
  have f1 := Nat.floor_le hc
  have f2 := Nat.lt_floor_add_one (tailM * bell x)
  rw [tailAcc]
  generalize (∑ w ∈ range (2 ^ 53), (if x * x ≤ -Real.log (w / tailM) + -Real.log (w / tailM) then (1 : ℝ) else 0)) = S at h1 h2 ⊢
  have e2 : (1 / 2 ^ 53 : ℝ) * S - bell x = (S - 2 ^ 53 * bell x) / 2 ^ 53 := by ring
  rw [e2, abs_div, abs_of_pos (show (0 : ℝ) < 2 ^ 53 by norm_num)]
  gcongr
  have e3 : tailM * bell x = 2 ^ 53 * bell x - bell x := by rw [tailM]; ring
  rw [abs_le]
  constructor <;> linarith

/-- the chance that one round of the loop for the tail yields an accepted point in `[p, q)` -/
noncomputable def tailRound (p q : ℝ) : ℝ :=
  (1 / 2 ^ 53 : ℝ) * ∑ u ∈ range (2 ^ 53), if p ≤ tailX u + zigR ∧ tailX u + zigR < q then tailAcc (tailX u) else 0

theorem tailX_nonneg {u : ℕ} (hu : u < 2 ^ 53) : 0 ≤ tailX u := by
  have hM := tailM_pos
  have hR := zigR_pos
  have hle : (u : ℝ) ≤ tailM := by
    have : (u : ℝ) + 1 ≤ 2 ^ 53 := by exact_mod_cast hu
    rw [tailM]; linarith
  have : Real.log (u / tailM) ≤ 0 := Real.log_nonpos (by positivity) ((div_le_one hM).2 hle)
  rw [tailX]
  exact mul_nonneg (by linarith) (by positivity)

theorem tailX_lt (u : ℕ) : tailX u < 20 := by
  have hM := tailM_pos
  have hR := zigR_bounds.1
  rcases Nat.eq_zero_or_pos u with rfl | hu
  · simp [tailX]
  have hu' : (1 : ℝ) ≤ u := by exact_mod_cast hu
  have h1 : -Real.log (u / tailM) ≤ Real.log tailM := by
    rw [Real.log_div (by positivity) hM.ne']
    have := Real.log_nonneg hu'
    linarith
  have h2 : Real.log tailM < 53 * 1 := by
    have : tailM ≤ 2 ^ 53 := by rw [tailM]; linarith
    calc Real.log tailM ≤ Real.log (2 ^ 53) := Real.log_le_log hM this
      _ = 53 * Real.log 2 := by rw [Real.log_pow]; norm_num
      _ < 53 * 1 := by
          have : Real.log 2 < 1 := by
            have := Real.log_lt_sub_one_of_pos (show (0 : ℝ) < 2 by norm_num) (by norm_num)
            linarith
          linarith
  rw [tailX, mul_one_div, div_lt_iff₀ zigR_pos]
  linarith

theorem tailAcc_bounds (x : ℝ) : 0 ≤ tailAcc x ∧ tailAcc x ≤ 1 := by
  constructor
  · rw [tailAcc]
    refine mul_nonneg (by positivity) (sum_nonneg fun w _ => ?_)
    split_ifs <;> norm_num
  · rw [tailAcc]
    calc _ ≤ (1 / 2 ^ 53 : ℝ) * ∑ w ∈ range (2 ^ 53), (1 : ℝ) := by
          gcongr
          split_ifs <;> norm_num
      _ = 1 := by rw [sum_const, card_range, nsmul_eq_mul]; norm_num

theorem tailT_eq : tailT = zigR / bell zigR := by
  rw [tailT, bell, Real.exp_neg, div_inv_eq_mul]

theorem tailT_pos : 0 < tailT := by
  rw [tailT_eq]
  exact div_pos zigR_pos (bell_pos _)

theorem tailT_mass {p q : ℝ} (hp : (zigR : ℝ) ≤ p) (hpq : p ≤ q) : tailT * ∫ x in p..q, bell x ≤ 1 := by
  rw [← tailPsi_integral hp hpq]
  calc ∫ s in (tailS q)..(tailS p), tailPsi s ≤ ∫ _s in (tailS q)..(tailS p), (1 : ℝ) :=
        integral_mono_on (tailS_anti hpq) tailPsi_mono.intervalIntegrable intervalIntegrable_const fun s _ => tailPsi_le_one s
    _ ≤ 1 := by
        simp
        linarith [tailS_le_one hp, tailS_pos q]

theorem tailRound_integral {p q : ℝ} (hpq : p ≤ q) :
    |tailRound p q - tailT * ∫ x in (max p zigR)..(max q zigR), bell x| ≤ 8 / 2 ^ 53 := by
  have hM := tailM_pos
  have hpq' : max p (zigR : ℝ) ≤ max q zigR := max_le_max_right _ hpq
  have key := tail_sum (le_max_right p (zigR : ℝ)) hpq'
  have e : ∀ u ∈ range (2 ^ 53), |(if p ≤ tailX u + zigR ∧ tailX u + zigR < q then tailAcc (tailX u) else 0)
      - (if 0 < u ∧ max p zigR ≤ tailX u + zigR ∧ tailX u + zigR < max q zigR then bell (tailX u) else 0)|
      ≤ 2 / 2 ^ 53 + if u = 0 then (1 : ℝ) else 0 := by
    intro u hu
    have h0 := tailX_nonneg (mem_range.1 hu)
    have c1 : max p (zigR : ℝ) ≤ tailX u + zigR ↔ p ≤ tailX u + zigR := by
      rw [max_le_iff]
      exact ⟨fun h => h.1, fun h => ⟨h, by linarith⟩⟩
    have c2 : tailX u + zigR < max q (zigR : ℝ) ↔ tailX u + zigR < q := by
      rw [lt_max_iff]
      exact ⟨fun h => h.resolve_right (by linarith), Or.inl⟩
    simp only [c1, c2]
    by_cases hu0 : u = 0
    · have hn : ¬ 0 < u := by omega
      rw [if_pos hu0]
      simp only [hn, false_and, if_false, sub_zero]
      have := tailAcc_bounds (tailX u)
      split_ifs
      · rw [abs_of_nonneg this.1]; norm_num; linarith
      · norm_num
    · have hp0 : 0 < u := by omega
      rw [if_neg hu0, add_zero]
      simp only [hp0, true_and]
      split_ifs
      · exact tailAcc_bell _
      · norm_num
  have h1 : |∑ u ∈ range (2 ^ 53), (if p ≤ tailX u + zigR ∧ tailX u + zigR < q then tailAcc (tailX u) else 0)
      - ∑ u ∈ range (2 ^ 53), (if 0 < u ∧ max p zigR ≤ tailX u + zigR ∧ tailX u + zigR < max q zigR then bell (tailX u) else 0)|
      ≤ 3 := by
    rw [← sum_sub_distrib]
    refine (abs_sum_le_sum_abs _ _).trans ((sum_le_sum e).trans ?_)
    rw [sum_add_distrib, sum_const, card_range, nsmul_eq_mul, sum_ite_eq' (range (2 ^ 53)) 0 fun _ => (1 : ℝ),
      if_pos (mem_range.2 (by norm_num))]
    norm_num
  have hm := tailT_mass (le_max_right p (zigR : ℝ)) hpq'
  have hm0 : 0 ≤ tailT * ∫ x in (max p zigR)..(max q zigR), bell x :=
    mul_nonneg tailT_pos.le (integral_nonneg hpq' fun x _ => (bell_pos x).le)
  rw [tailRound]
  generalize (∑ u ∈ range (2 ^ 53), (if p ≤ tailX u + zigR ∧ tailX u + zigR < q then tailAcc (tailX u) else 0)) = S at h1 ⊢
  generalize (∑ u ∈ range (2 ^ 53),
    (if 0 < u ∧ max p zigR ≤ tailX u + zigR ∧ tailX u + zigR < max q zigR then bell (tailX u) else 0)) = S' at h1 key
  generalize (tailT * ∫ x in (max p zigR)..(max q zigR), bell x) = J at key hm hm0 ⊢
  have e2 : (1 / 2 ^ 53 : ℝ) * S - J = (S - 2 ^ 53 * J) / 2 ^ 53 := by ring
  have e3 : tailM * J = 2 ^ 53 * J - J := by rw [tailM]; ring
  rw [e3] at key
  rw [e2, abs_div, abs_of_pos (show (0 : ℝ) < 2 ^ 53 by norm_num)]
  refine div_le_div_of_nonneg_right ?_ (by norm_num)
  have k1 := abs_le.1 key
  have k2 := abs_le.1 h1
  rw [abs_le]
  constructor <;> linarith [k1.1, k1.2, k2.1, k2.2]

/-- the chance that one round of the loop for the tail accepts -/
noncomputable def tailTotal : ℝ := (1 / 2 ^ 53 : ℝ) * ∑ u ∈ range (2 ^ 53), tailAcc (tailX u)

theorem tailTotal_eq : tailTotal = tailRound 0 (zigR + 20) := by
  rw [tailTotal, tailRound]
  refine congrArg _ (sum_congr rfl fun u hu => ?_)
  rw [if_pos]
  have h0 := tailX_nonneg (mem_range.1 hu)
  have h1 := tailX_lt u
  have hR := zigR_pos
  constructor <;> linarith

theorem tailTotal_ge : 8 / 10 ≤ tailTotal := by
  have hR := zigR_pos
  have h := tailRound_integral (p := 0) (q := (zigR : ℝ) + 20) (by linarith)
  rw [max_eq_right hR.le, max_eq_left (by linarith)] at h
  have g := abs_le.1 (zigTail_integral (q := (zigR : ℝ) + 20) le_rfl)
  obtain ⟨-, -, h3⟩ := zigTail_rat
  have h3' := cast_le_real h3
  push_cast at h3'
  obtain ⟨b1, b2⟩ := zigR_bell
  have hb := bell_pos zigR
  have t : 9 / 10 ≤ tailT * ∫ x in (zigR : ℝ)..(zigR + 20), bell x := by
    rw [tailT_eq, div_mul_eq_mul_div, le_div_iff₀ hb]
    have : (zigR : ℝ) * (zigTailMass - 2 / 10 ^ 6) ≤ zigR * ∫ x in (zigR : ℝ)..(zigR + 20), bell x := by
      gcongr
      linarith [g.1]
    rw [zigTailMass] at this
    linarith
  rw [tailTotal_eq]
  have := abs_le.1 h
  linarith [this.1]

/-- the tail of the sampler is the tail of the curve -/
theorem tail_integral {p q : ℝ} (hpq : p ≤ q) :
    |zigTailMass * (tailRound p q / tailTotal) - ∫ x in (max p zigR)..(max q zigR), bell x| ≤ 3 / 10 ^ 6 := by
  have hR := zigR_pos
  have hT := tailTotal_ge
  have hT0 : 0 < tailTotal := by linarith
  have h1 := tailRound_integral hpq
  have h2 := tailRound_integral (p := 0) (q := (zigR : ℝ) + 20) (by linarith)
  rw [max_eq_right hR.le, max_eq_left (by linarith), ← tailTotal_eq] at h2
  have g := zigTail_integral (q := (zigR : ℝ) + 20) le_rfl
  have hpq' : max p (zigR : ℝ) ≤ max q zigR := max_le_max_right _ hpq
  have m1 := tailT_mass (le_max_right p (zigR : ℝ)) hpq'
  have m2 := tailT_mass (le_refl (zigR : ℝ)) (show (zigR : ℝ) ≤ zigR + 20 by linarith)
  have n1 : 0 ≤ ∫ x in (max p zigR)..(max q zigR), bell x := integral_nonneg hpq' fun x _ => (bell_pos x).le
  have n2 : 0 ≤ ∫ x in (zigR : ℝ)..(zigR + 20), bell x := integral_nonneg (by linarith) fun x _ => (bell_pos x).le
  have hTT : 1 ≤ tailT := by
    rw [tailT_eq, le_div_iff₀ (bell_pos _), one_mul]
    linarith [bell_le_one (zigR : ℝ), zigR_bounds.1]
  have hle : tailRound p q / tailTotal ≤ 1 := by
    rw [div_le_one hT0, tailRound, tailTotal]
    gcongr with u hu
    split_ifs
    · exact le_rfl
    · exact (tailAcc_bounds _).1
  have hnn : 0 ≤ tailRound p q / tailTotal := by
    refine div_nonneg ?_ hT0.le
    rw [tailRound]
    refine mul_nonneg (by positivity) (sum_nonneg fun u _ => ?_)
    split_ifs
    · exact (tailAcc_bounds _).1
    · exact le_rfl
  generalize (∫ x in (max p zigR)..(max q zigR), bell x) = J at h1 m1 n1 ⊢
  generalize (∫ x in (zigR : ℝ)..(zigR + 20), bell x) = G at h2 m2 n2 g
  have hε : (8 / 2 ^ 53 : ℝ) ≤ 1 / 10 ^ 7 := by norm_num
  have j1 : J ≤ 1 := le_trans (by nlinarith) m1
  have g1 : G ≤ 1 := le_trans (by nlinarith) m2
  have e : zigTailMass * (tailRound p q / tailTotal) - J
      = (zigTailMass - G) * (tailRound p q / tailTotal) + (G * (tailRound p q - tailT * J) - J * (tailTotal - tailT * G)) / tailTotal := by
    field_simp
    ring
  rw [e]
  refine (abs_add_le _ _).trans ?_
  have a1 : |(zigTailMass - G) * (tailRound p q / tailTotal)| ≤ 2 / 10 ^ 6 * 1 := by
    rw [abs_mul, abs_of_nonneg hnn, abs_sub_comm]
    exact mul_le_mul g hle hnn (by norm_num)
  generalize (8 / 2 ^ 53 : ℝ) = ε at h1 h2 hε
  have a2 : |G * (tailRound p q - tailT * J) - J * (tailTotal - tailT * G)| ≤ 1 * (ε) + 1 * (ε) := by
    refine (abs_sub _ _).trans ?_
    rw [abs_mul, abs_mul, abs_of_nonneg n1, abs_of_nonneg n2]
    exact add_le_add (mul_le_mul g1 h1 (abs_nonneg _) zero_le_one) (mul_le_mul j1 h2 (abs_nonneg _) zero_le_one)
  rw [abs_div, abs_of_pos hT0]
  have a3 : |G * (tailRound p q - tailT * J) - J * (tailTotal - tailT * G)| / tailTotal ≤ (1 * (ε) + 1 * (ε)) / (8 / 10) := by
    exact div_le_div₀ (by linarith [abs_nonneg (tailTotal - tailT * G)]) a2 (by norm_num) hT
  refine (add_le_add a1 a3).trans ?_
  linarith

end FastKsw
