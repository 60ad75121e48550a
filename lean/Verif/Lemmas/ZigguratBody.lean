import Verif.Lemmas.Ziggurat

/-!
# The points of the strips of the ziggurat, summed over an interval
-/

namespace FastKsw

open Finset intervalIntegral MeasureTheory

/-- the point of strip `i` for a word with upper part `m` -/
noncomputable def zigPt (i m : ℕ) : ℝ := ((128 * m + i : ℕ) : ℝ) * (zigW.getD i 0 : ℚ)

/-- the chance that a random word gives an accepted point in `[p, q)`, times 128, apart from the tail and from the
granularity of the second draw -/
noncomputable def zigBody (p q : ℝ) : ℝ :=
  ∑ i ∈ range 128, (1 / 2 ^ 24 : ℝ) * ∑ m ∈ range (2 ^ 24), if p ≤ zigPt i m ∧ zigPt i m < q then zigA i (zigPt i m) else 0

theorem zigW_pos {i : ℕ} (hi : i < 128) : (0 : ℝ) < (zigW.getD i 0 : ℚ) := by
  rcases Nat.eq_zero_or_pos i with rfl | h
  · exact_mod_cast zigBase.1
  · exact (zigFacts h hi).w

theorem zigX_eq (i : ℕ) : (zigX i : ℝ) = 2 ^ 31 * (zigW.getD i 0 : ℚ) := by
  rw [zigX]; push_cast; rfl

theorem zigX_pos {i : ℕ} (hi : i < 128) : (0 : ℝ) < zigX i := by
  rw [zigX_eq]
  have := zigW_pos hi
  positivity

theorem zigC_le_X {i : ℕ} (hi : i < 128) : (zigC i : ℝ) ≤ zigX i := by
  have hw : 0 < zigW.getD i 0 := by exact_mod_cast zigW_pos hi
  have hk : zigK.getD i 0 ≤ 2 ^ 31 := by
    rcases Nat.eq_zero_or_pos i with rfl | h
    · exact zigBase.2.1
    · exact (zigFacts h hi).k
  exact cast_le_real (zigC_le hw hk)

theorem zigX_le {i : ℕ} (hi : i < 128) : (zigX i : ℝ) ≤ 372 / 100 := by
  rcases Nat.eq_zero_or_pos i with rfl | h
  · have := cast_le_real zigBase.2.2.1
    norm_num at this ⊢
    exact this
  · have := (zigFacts h hi).x
    norm_num at this ⊢
    linarith

theorem zigA_zero {i : ℕ} (hi : i < 128) {x : ℝ} (hx : (zigX i : ℝ) ≤ x) : zigA i x = 0 := by
  rw [zigA, if_neg (not_lt.2 ((zigC_le_X hi).trans hx)), if_neg (not_lt.2 hx)]
  split_ifs <;> rfl

theorem zig_strip {i : ℕ} (hi : i < 128) {p q : ℝ} (hp : 0 ≤ p) (hpq : p ≤ q) :
    |zigV * ((1 / 2 ^ 24 : ℝ) * ∑ m ∈ range (2 ^ 24), if p ≤ zigPt i m ∧ zigPt i m < q then zigA i (zigPt i m) else 0)
      - (zigV / zigX i) * ∫ x in p..q, zigA i x| ≤ zigV * (2 / 2 ^ 24) := by
  have hw := zigW_pos hi
  have hX := zigX_pos hi
  have hV := zigV_pos
  set h : ℝ := 128 * (zigW.getD i 0 : ℚ) with hh
  have hpos : 0 < h := by positivity
  have hXh : (zigX i : ℝ) = 2 ^ 24 * h := by rw [zigX_eq, hh]; ring
  have hpt : ∀ m : ℕ, zigPt i m = ((m : ℝ) + (i : ℝ) / 128) * h := by
    intro m
    rw [zigPt, hh]
    push_cast
    ring
  have hθ : (i : ℝ) / 128 ≤ 1 := by
    rw [div_le_one (by norm_num)]
    exact_mod_cast hi.le
  have key := sum_grid_integral (zigA_anti hi) (zigA_nonneg i) (zigA_le_one i) hpos hθ hp hpq (2 ^ 24) (by
    intro m hm
    refine zigA_zero hi ?_
    rw [hXh]
    have : (2 ^ 24 : ℝ) ≤ m := by exact_mod_cast hm
    have h0 : (0 : ℝ) ≤ (i : ℝ) / 128 := by positivity
    gcongr
    linarith)
  simp only [hpt]
  generalize (∑ m ∈ range (2 ^ 24), if p ≤ ((m : ℝ) + (i : ℝ) / 128) * h ∧ ((m : ℝ) + (i : ℝ) / 128) * h < q then
    zigA i (((m : ℝ) + (i : ℝ) / 128) * h) else 0) = S at key ⊢
  have e : zigV * ((1 / 2 ^ 24 : ℝ) * S) - (zigV / zigX i) * ∫ x in p..q, zigA i x
      = (zigV / zigX i) * (h * S - ∫ x in p..q, zigA i x) := by
    rw [hXh]
    field_simp
  rw [e, abs_mul, abs_of_pos (by positivity)]
  calc (zigV / zigX i : ℝ) * |h * S - ∫ x in p..q, zigA i x| ≤ (zigV / zigX i) * (2 * h) := by gcongr
    _ = zigV * (2 / 2 ^ 24) := by rw [hXh]; field_simp

theorem bellBody_eq : bellBody = fun x => bell x * zigA 0 x := by
  funext x
  rw [bellBody, zigA]
  split_ifs <;> simp

theorem zigA_integrable {i : ℕ} (hi : i < 128) (p q : ℝ) : IntervalIntegrable (zigA i) volume p q :=
  (zigA_anti hi).intervalIntegrable

theorem bellBody_integrable (p q : ℝ) : IntervalIntegrable bellBody volume p q := by
  rw [bellBody_eq]
  exact (zigA_integrable (by norm_num) p q).continuousOn_mul bell_continuous.continuousOn

theorem bell_integrable (p q : ℝ) : IntervalIntegrable bell volume p q := bell_continuous.intervalIntegrable p q

theorem bellBody_nonneg (x : ℝ) : 0 ≤ bellBody x := by
  rw [bellBody]
  split_ifs
  · exact (bell_pos x).le
  · exact le_rfl

/-- the sum of the strips as a density -/
noncomputable def zigDensity (x : ℝ) : ℝ := ∑ i ∈ range 128, (zigV / zigX i) * zigA i x

theorem zigDensity_integrable (p q : ℝ) : IntervalIntegrable zigDensity volume p q := by
  have e : zigDensity = ∑ i ∈ range 128, fun x => ((zigV / zigX i : ℝ) * zigA i x) := by
    funext x
    rw [zigDensity, Finset.sum_apply]
  rw [e]
  exact IntervalIntegrable.sum _ fun i hi => (zigA_integrable (mem_range.1 hi) p q).const_mul _

theorem zigDensity_zero {x : ℝ} (hx : 372 / 100 ≤ x) : zigDensity x = 0 ∧ bellBody x = 0 := by
  constructor
  · refine sum_eq_zero fun i hi => ?_
    rw [zigA_zero (mem_range.1 hi) ((zigX_le (mem_range.1 hi)).trans hx), mul_zero]
  · rw [bellBody, if_neg]
    exact not_lt.2 ((zigC_le_X (by norm_num)).trans ((zigX_le (by norm_num)).trans hx))

theorem zigDensity_integral {p q : ℝ} (hp : 0 ≤ p) (hpq : p ≤ q) :
    |(∫ x in p..q, zigDensity x) - ∫ x in p..q, bellBody x| ≤ 1 / 10 ^ 5 * (∫ x in p..q, bellBody x) + 23 / 10 ^ 7 * (372 / 100) := by
  have hnn : ∀ a b : ℝ, a ≤ b → 0 ≤ ∫ x in a..b, bellBody x := fun a b hab => integral_nonneg hab fun x _ => bellBody_nonneg x
  have small : ∀ a b : ℝ, 0 ≤ a → a ≤ b → b ≤ 372 / 100 → |(∫ x in a..b, zigDensity x) - ∫ x in a..b, bellBody x|
      ≤ 1 / 10 ^ 5 * (∫ x in a..b, bellBody x) + 23 / 10 ^ 7 * (372 / 100) := by
    intro a b ha hab hb
    rw [← integral_sub (zigDensity_integrable a b) (bellBody_integrable a b)]
    have h1 := intervalIntegral.abs_integral_le_integral_abs (f := fun x => zigDensity x - bellBody x) (μ := volume) hab
    refine h1.trans ?_
    calc ∫ x in a..b, |zigDensity x - bellBody x| ≤ ∫ x in a..b, (1 / 10 ^ 5 * bellBody x + 23 / 10 ^ 7) := by
          refine integral_mono_on hab ((zigDensity_integrable a b).sub (bellBody_integrable a b)).abs
            (((bellBody_integrable a b).const_mul _).add intervalIntegrable_const) fun x hx => ?_
          exact zig_pointwise (ha.trans hx.1)
      _ = 1 / 10 ^ 5 * (∫ x in a..b, bellBody x) + (b - a) * (23 / 10 ^ 7) := by
          rw [integral_add ((bellBody_integrable a b).const_mul _) intervalIntegrable_const,
            intervalIntegral.integral_const_mul, intervalIntegral.integral_const, smul_eq_mul]
      _ ≤ _ := by nlinarith
  have zero : ∀ a b : ℝ, 372 / 100 ≤ a → a ≤ b → (∫ x in a..b, zigDensity x) = 0 ∧ ∫ x in a..b, bellBody x = 0 := by
    intro a b ha hab
    constructor
    · rw [integral_congr (g := fun _ => 0), intervalIntegral.integral_zero]
      intro x hx
      rw [Set.uIcc_of_le hab] at hx
      exact (zigDensity_zero (ha.trans hx.1)).1
    · rw [integral_congr (g := fun _ => 0), intervalIntegral.integral_zero]
      intro x hx
      rw [Set.uIcc_of_le hab] at hx
      exact (zigDensity_zero (ha.trans hx.1)).2
  rcases le_total q (372 / 100) with hq | hq
  · exact small p q hp hpq hq
  rcases le_total p (372 / 100) with hp2 | hp2
  · have z := zero (372 / 100) q le_rfl hq
    rw [← integral_add_adjacent_intervals (zigDensity_integrable p (372 / 100)) (zigDensity_integrable _ q),
      ← integral_add_adjacent_intervals (bellBody_integrable p (372 / 100)) (bellBody_integrable _ q), z.1, z.2, add_zero, add_zero]
    exact small p _ hp hp2 le_rfl
  · have z := zero p q hp2 hpq
    rw [z.1, z.2]
    norm_num

theorem zigBody_integral {p q : ℝ} (hp : 0 ≤ p) (hpq : p ≤ q) :
    |zigV * zigBody p q - ∫ x in p..q, bellBody x| ≤ 1 / 10 ^ 5 * (∫ x in p..q, bellBody x) + 88 / 10 ^ 7 := by
  have hV := zigV_pos
  have h1 : |zigV * zigBody p q - ∫ x in p..q, zigDensity x| ≤ 128 * (zigV * (2 / 2 ^ 24)) := by
    unfold zigDensity
    rw [integral_finsetSum fun i hi => (zigA_integrable (mem_range.1 hi) p q).const_mul _, zigBody, mul_sum, ← sum_sub_distrib]
    refine (abs_sum_le_sum_abs _ _).trans ?_
    calc _ ≤ ∑ i ∈ range 128, (zigV : ℝ) * (2 / 2 ^ 24) := by
          refine sum_le_sum fun i hi => ?_
          rw [intervalIntegral.integral_const_mul]
          exact zig_strip (mem_range.1 hi) hp hpq
      _ = _ := by rw [sum_const, card_range, nsmul_eq_mul]; norm_num
  have h2 := zigDensity_integral hp hpq
  have h3 : 128 * (zigV * (2 / 2 ^ 24 : ℝ)) ≤ 2 / 10 ^ 7 := by rw [zigV]; norm_num
  have e : zigV * zigBody p q - ∫ x in p..q, bellBody x
      = (zigV * zigBody p q - ∫ x in p..q, zigDensity x) + ((∫ x in p..q, zigDensity x) - ∫ x in p..q, bellBody x) := by ring
  rw [e]
  refine (abs_add_le _ _).trans ?_
  linarith

/-- the curve is the body and what lies beyond it -/
theorem bellBody_split {p q : ℝ} (hpq : p ≤ q) :
    ∫ x in p..q, bellBody x = (∫ x in p..q, bell x) - ∫ x in (max p (zigC 0))..(max q (zigC 0)), bell x := by
  generalize hc : (zigC 0 : ℝ) = c
  have left : ∀ a b : ℝ, a ≤ b → b ≤ c → ∫ x in a..b, bellBody x = ∫ x in a..b, bell x := by
    intro a b hab hb
    refine integral_congr_Ioo_of_le hab fun x hx => ?_
    rw [bellBody, hc, if_pos (hx.2.trans_le hb)]
  have right : ∀ a b : ℝ, a ≤ b → c ≤ a → ∫ x in a..b, bellBody x = 0 := by
    intro a b hab ha
    rw [integral_congr (g := fun _ => 0), intervalIntegral.integral_zero]
    intro x hx
    rw [Set.uIcc_of_le hab] at hx
    simp only
    rw [bellBody, hc, if_neg (not_lt.2 (ha.trans hx.1))]
  rcases le_total q c with hq | hq
  · rw [max_eq_right (hpq.trans hq), max_eq_right hq, integral_same, sub_zero, left p q hpq hq]
  rcases le_total p c with hp | hp
  · rw [max_eq_right hp, max_eq_left hq, ← integral_add_adjacent_intervals (bellBody_integrable p c) (bellBody_integrable c q),
      ← integral_add_adjacent_intervals (bell_integrable p c) (bell_integrable c q), left p c hp le_rfl, right c q hq le_rfl]
    ring
  · rw [max_eq_left hp, max_eq_left hq, right p q hpq hp, sub_self]

end FastKsw
