import Verif.Lemmas.GaussianTables
import Verif.Lemmas.Riemann
import Verif.Spec.Gaussian

/-!
# The strips of the ziggurat add up to the bell curve
-/

namespace FastKsw

open Finset intervalIntegral

theorem bell_anti {x y : ℝ} (hx : 0 ≤ x) (hxy : x ≤ y) : bell y ≤ bell x := by
  rw [bell, bell, Real.exp_le_exp]
  have : x ^ 2 ≤ y ^ 2 := by gcongr
  linarith

theorem bell_pos (x : ℝ) : 0 < bell x := Real.exp_pos _

theorem bell_le_one (x : ℝ) : bell x ≤ 1 := by
  rw [bell, Real.exp_le_one_iff]
  have := sq_nonneg x
  linarith

theorem bell_continuous : Continuous bell := by
  unfold bell
  fun_prop

theorem bell_rat {x : ℚ} (h0 : 0 ≤ x) (h1 : x ≤ 3.46) :
    (expLow (x ^ 2 / 2) : ℝ) ≤ bell x ∧ bell x ≤ (expHigh (x ^ 2 / 2) : ℝ) := by
  have h2 : x ^ 2 ≤ 3.46 ^ 2 := pow_le_pow_left₀ h0 h1 2
  have h := expLow_le (y := x ^ 2 / 2) (by positivity) (by norm_num at h2 ⊢; linarith)
  have e : bell x = Real.exp (-((x ^ 2 / 2 : ℚ) : ℝ)) := by
    rw [bell]
    push_cast
    rfl
  rw [e]
  exact h

structure ZigFacts (i : ℕ) : Prop where
  w : (0 : ℝ) < (zigW.getD i 0 : ℚ)
  k : zigK.getD i 0 ≤ 2 ^ 31
  x : (zigX i : ℝ) ≤ 3.46
  y : (zigY i : ℝ) < zigY (i - 1)
  area : |(zigX i : ℝ) * (zigY (i - 1) - zigY i) - zigV| ≤ zigV * (9 / 10 ^ 6)
  upper : (zigY (i - 1) : ℝ) - zigGap i ≤ bell (zigC i)
  lower : bell (zigX i) ≤ (zigY i : ℝ) + zigGap i
  gap : (0 : ℝ) ≤ zigGap i

theorem cast_le_real {a b : ℚ} (h : a ≤ b) : (a : ℝ) ≤ b := (Rat.cast_le (K := ℝ)).2 h

theorem zigC_le {i : ℕ} (hw : 0 < zigW.getD i 0) (hk : zigK.getD i 0 ≤ 2 ^ 31) : zigC i ≤ zigX i := by
  rw [zigC, zigX]
  have : (zigK.getD i 0 : ℚ) ≤ 2 ^ 31 := by exact_mod_cast hk
  gcongr

theorem zigFacts {i : ℕ} (h1 : 1 ≤ i) (h2 : i < 128) : ZigFacts i := by
  have h := List.all_eq_true.1 zigCheck_all (i - 1) (List.mem_range.2 (by omega))
  rw [Nat.sub_add_cancel h1, zigCheck] at h
  simp only [Bool.and_eq_true, decide_eq_true_eq] at h
  obtain ⟨⟨⟨⟨hw, hk⟩, hx⟩, hy⟩, ha⟩ := h
  have hC := zigC_le hw hk
  have hC0 : 0 ≤ zigC i := by rw [zigC]; positivity
  have b1 := bell_rat hC0 (hC.trans hx)
  have b2 := bell_rat (hC0.trans hC) hx
  have g0 : 0 ≤ zigGap i := le_max_left _ _
  have g1 : zigY (i - 1) - expLow (zigC i ^ 2 / 2) ≤ zigGap i := (le_max_left _ _).trans (le_max_right _ _)
  have g2 : expHigh (zigX i ^ 2 / 2) - zigY i ≤ zigGap i := (le_max_right _ _).trans (le_max_right _ _)
  have g1' := cast_le_real g1
  have g2' := cast_le_real g2
  have ha' := cast_le_real ha
  have hx' := cast_le_real hx
  rw [Rat.cast_sub] at g1' g2'
  refine ⟨by exact_mod_cast hw, hk, ?_, by exact_mod_cast hy, ?_, ?_, ?_, by exact_mod_cast g0⟩
  · push_cast at hx'; exact hx'
  · push_cast at ha' ⊢; exact ha'
  · linarith [b1.1]
  · linarith [b2.2]

theorem zigGap_sum_real : ∑ i ∈ range 127, (zigGap (i + 1) : ℝ) ≤ 22 / 10 ^ 7 := by
  have h := cast_le_real zigGap_sum
  have e : ∀ n : ℕ, ((List.range n).map fun i => zigGap (i + 1)).sum = ∑ i ∈ range n, zigGap (i + 1) := by
    intro n
    induction n with
    | zero => rfl
    | succ n ih => rw [List.range_succ, List.map_append, List.sum_append, sum_range_succ, ih]; simp
  rw [e] at h
  push_cast at h
  norm_num at h ⊢
  exact h

/-- the chance that a point at `x` of strip `i` is accepted, apart from the granularity of the second draw -/
noncomputable def zigA (i : ℕ) (x : ℝ) : ℝ :=
  if x < zigC i then 1
  else if i = 0 then 0
  else if x < zigX i then max 0 (min 1 ((bell x - zigY i) / (zigY (i - 1) - zigY i)))
  else 0

theorem zigA_nonneg (i : ℕ) (x : ℝ) : 0 ≤ zigA i x := by
  rw [zigA]
  split_ifs <;> simp

theorem zigA_le_one (i : ℕ) (x : ℝ) : zigA i x ≤ 1 := by
  rw [zigA]
  split_ifs <;> simp

theorem zigA_anti {i : ℕ} (hi : i < 128) : Antitone (zigA i) := by
  intro x y hxy
  rcases Nat.eq_zero_or_pos i with rfl | h0
  · simp only [zigA]
    split_ifs <;> norm_num
    exact absurd (lt_of_le_of_lt hxy ‹_›) ‹_›
  have hf := zigFacts h0 hi
  by_cases hx : x < zigC i
  · have : zigA i x = 1 := by rw [zigA, if_pos hx]
    rw [this]
    exact zigA_le_one i y
  have hy : ¬ y < zigC i := fun h => hx (hxy.trans_lt h)
  simp only [zigA, if_neg hx, if_neg hy, if_neg (show i ≠ 0 by omega)]
  by_cases hy2 : y < zigX i
  · rw [if_pos hy2, if_pos (hxy.trans_lt hy2)]
    have hC0 : (0 : ℝ) ≤ zigC i := by
      have : 0 ≤ zigC i := by
        rw [zigC]
        have : (0 : ℚ) < zigW.getD i 0 := by exact_mod_cast hf.w
        positivity
      exact_mod_cast this
    have := bell_anti (hC0.trans (not_lt.1 hx)) hxy
    have hd : (0 : ℝ) < zigY (i - 1) - zigY i := sub_pos.2 hf.y
    gcongr
  · rw [if_neg hy2]
    split_ifs <;> simp

/-- the part of the curve in strip `i ≥ 1` -/
noncomputable def zigPart (i : ℕ) (x : ℝ) : ℝ := max 0 (min (zigY (i - 1) - zigY i) (bell x - zigY i))

theorem zigPart_sum (x : ℝ) : ∀ k : ℕ, k < 128 → ∑ i ∈ range k, zigPart (i + 1) x = max 0 (bell x - zigY k) := by
  intro k
  induction k with
  | zero =>
    intro _
    have h0 : (zigY 0 : ℝ) = 1 := by rw [zigBase.2.2.2.2.2.2.2.2.2.1]; norm_num
    rw [h0]
    simp [bell_le_one]
  | succ k ih =>
    intro hk
    rw [sum_range_succ, ih (by omega), zigPart, Nat.add_sub_cancel]
    have := (zigFacts (i := k + 1) (by omega) hk).y
    rw [Nat.add_sub_cancel] at this
    rcases le_total (bell x) (zigY k) with h | h
    · rw [max_eq_left (by linarith), zero_add, min_eq_right (by linarith)]
    · rw [max_eq_right (by linarith), min_eq_left (by linarith), max_eq_right (by linarith), max_eq_right (by linarith)]
      ring

theorem zigPart_nonneg (i : ℕ) (x : ℝ) : 0 ≤ zigPart i x := le_max_left _ _

theorem zigA_part {i : ℕ} (h1 : 1 ≤ i) (h2 : i < 128) {x : ℝ} (hx0 : 0 ≤ x) :
    |(zigY (i - 1) - zigY i) * zigA i x - zigPart i x| ≤ zigGap i := by
  have hf := zigFacts h1 h2
  have hd : (0 : ℝ) < zigY (i - 1) - zigY i := sub_pos.2 hf.y
  rw [zigA, zigPart]
  by_cases hx : x < zigC i
  · rw [if_pos hx, mul_one]
    have h3 := bell_anti hx0 hx.le
    have h4 := hf.upper
    have h5 : (zigY (i - 1) - zigY i : ℝ) - zigGap i ≤ max 0 (min ((zigY (i - 1) : ℝ) - zigY i) (bell x - zigY i)) :=
      (le_min (by linarith [hf.gap]) (by linarith)).trans (le_max_right _ _)
    have h6 : max 0 (min ((zigY (i - 1) : ℝ) - zigY i) (bell x - zigY i)) ≤ zigY (i - 1) - zigY i :=
      max_le hd.le (min_le_left _ _)
    rw [abs_le]
    constructor <;> linarith [hf.gap]
  rw [if_neg hx, if_neg (by omega)]
  by_cases hx2 : x < zigX i
  · rw [if_pos hx2, mul_max_of_nonneg _ _ hd.le, mul_min_of_nonneg _ _ hd.le, mul_zero, mul_one, mul_div_cancel₀ _ hd.ne', sub_self,
      abs_zero]
    exact hf.gap
  · rw [if_neg hx2, mul_zero, zero_sub, abs_neg, abs_of_nonneg (le_max_left _ _)]
    have hX0 : (0 : ℝ) ≤ zigX i := by
      have : 0 ≤ zigX i := by
        rw [zigX]
        have : (0 : ℚ) < zigW.getD i 0 := by exact_mod_cast hf.w
        positivity
      exact_mod_cast this
    have h3 := bell_anti hX0 (not_lt.1 hx2)
    exact max_le hf.gap ((min_le_right _ _).trans (by linarith [hf.lower]))

theorem area_ratio {A V : ℝ} (hV : 0 < V) (h : |A - V| ≤ V * (9 / 10 ^ 6)) : |V / A - 1| ≤ 1 / 10 ^ 5 := by
  obtain ⟨h1, h2⟩ := abs_le.1 h
  have hA : 0 < A := by linarith
  rw [div_sub_one hA.ne', abs_div, abs_of_pos hA, div_le_iff₀ hA, abs_le]
  constructor <;> linarith

theorem zigV_pos : (0 : ℝ) < zigV := by rw [zigV]; norm_num

/-- the part of the curve on the left of the tail -/
noncomputable def bellBody (x : ℝ) : ℝ := if x < zigC 0 then bell x else 0

theorem zig_pointwise {x : ℝ} (hx : 0 ≤ x) :
    |∑ i ∈ range 128, (zigV / zigX i) * zigA i x - bellBody x| ≤ 1 / 10 ^ 5 * bellBody x + 23 / 10 ^ 7 := by
  have hV := zigV_pos
  obtain ⟨b1, b2, b3, b4, b5, b6, b7, b8, b9, b10, b11⟩ := zigBase
  have hC : (0 : ℚ) ≤ zigC 0 := by linarith
  have hC' : zigC 0 ≤ 3.46 := b9.trans (by norm_num)
  have hC0 : (0 : ℝ) ≤ zigC 0 := by exact_mod_cast hC
  obtain ⟨c1, c2⟩ := bell_rat hC hC'
  have b6' := cast_le_real b6
  have b7' := cast_le_real b7
  have b4' := cast_le_real b4
  push_cast at b7' b4'
  have hY : (0 : ℝ) < zigY 127 := by exact_mod_cast b11
  -- the other strips
  have h1 : ∀ i ∈ range 127, |(zigV / zigX (i + 1)) * zigA (i + 1) x - zigPart (i + 1) x|
      ≤ (1 + 1 / 10 ^ 5) * zigGap (i + 1) + 1 / 10 ^ 5 * zigPart (i + 1) x := by
    intro i hi
    rw [mem_range] at hi
    have hf := zigFacts (i := i + 1) (by omega) (by omega)
    have hp := zigA_part (i := i + 1) (by omega) (by omega) hx
    rw [Nat.add_sub_cancel] at hp
    have ha := hf.area
    have hy := hf.y
    rw [Nat.add_sub_cancel] at ha hy
    have hd : (0 : ℝ) < zigY i - zigY (i + 1) := sub_pos.2 hy
    have hr := area_ratio hV ha
    set r := (zigV : ℝ) / (zigX (i + 1) * (zigY i - zigY (i + 1))) with hrdef
    have e : (zigV / zigX (i + 1) : ℝ) * zigA (i + 1) x = r * ((zigY i - zigY (i + 1)) * zigA (i + 1) x) := by
      rw [hrdef, div_mul_eq_div_div]
      field_simp
    rw [e]
    have e2 : r * ((zigY i - zigY (i + 1)) * zigA (i + 1) x) - zigPart (i + 1) x
        = r * ((zigY i - zigY (i + 1)) * zigA (i + 1) x - zigPart (i + 1) x) + (r - 1) * zigPart (i + 1) x := by ring
    rw [e2]
    refine (abs_add_le _ _).trans ?_
    rw [abs_mul, abs_mul, abs_of_nonneg (zigPart_nonneg (i + 1) x)]
    have hr2 : |r| ≤ 1 + 1 / 10 ^ 5 := by
      rw [abs_le] at hr ⊢
      constructor <;> linarith [hr.1, hr.2]
    refine add_le_add (mul_le_mul hr2 hp (abs_nonneg _) (by norm_num)) ?_
    exact mul_le_mul_of_nonneg_right hr (zigPart_nonneg _ _)
  have h2 : |∑ i ∈ range 127, (zigV / zigX (i + 1)) * zigA (i + 1) x - max 0 (bell x - zigY 127)|
      ≤ (1 + 1 / 10 ^ 5) * (22 / 10 ^ 7) + 1 / 10 ^ 5 * max 0 (bell x - zigY 127) := by
    rw [← zigPart_sum x 127 (by norm_num), ← sum_sub_distrib]
    refine (abs_sum_le_sum_abs _ _).trans ((sum_le_sum h1).trans ?_)
    rw [sum_add_distrib, ← mul_sum, ← mul_sum]
    gcongr
    exact zigGap_sum_real
  -- the base strip
  have h3 : |(zigV / zigX 0) * zigA 0 x - (if x < zigC 0 then (zigY 127 : ℝ) else 0)|
      ≤ 1 / 10 ^ 5 * (if x < zigC 0 then (zigY 127 : ℝ) else 0) := by
    rw [zigA]
    split_ifs with h
    · have hr := area_ratio hV b4'
      have e : (zigV / zigX 0 : ℝ) * 1 - zigY 127 = (zigV / (zigX 0 * zigY 127) - 1) * zigY 127 := by
        rw [div_mul_eq_div_div]
        field_simp
      rw [e, abs_mul, abs_of_pos hY]
      gcongr
    all_goals simp
  rw [sum_range_succ' _ 127]
  have h4 := (abs_add_le _ _).trans (add_le_add h2 h3)
  rw [bellBody]
  split_ifs at h3 h4 ⊢ with hxc
  · have hb : (zigY 127 : ℝ) ≤ bell x := b6'.trans (c1.trans (bell_anti hx hxc.le))
    rw [max_eq_right (by linarith)] at h4
    refine le_trans (le_of_eq ?_) (h4.trans ?_)
    · congr 1; ring
    · norm_num; linarith
  · have hb : bell x ≤ zigY 127 + 1 / 10 ^ 9 := (bell_anti hC0 (not_lt.1 hxc)).trans (c2.trans b7')
    have hm : max 0 (bell x - zigY 127) ≤ 1 / 10 ^ 9 := max_le (by norm_num) (by linarith)
    have hm0 : 0 ≤ max 0 (bell x - zigY 127) := le_max_left _ _
    rw [sub_zero, mul_zero, add_zero] at h4
    rw [sub_zero, mul_zero, zero_add]
    have h5 := abs_le.1 h4
    generalize max 0 (bell x - zigY 127) = m at h5 hm hm0
    rw [abs_le]
    constructor <;> linarith [h5.1, h5.2]

end FastKsw
