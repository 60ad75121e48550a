import Verif.Lemmas.ZigguratTail

/-!
# The chance of one attempt of the ziggurat
-/

namespace FastKsw

open Finset intervalIntegral MeasureTheory

/-- the chance that the second draw accepts the point `x` of strip `i` -/
noncomputable def zigWedge (i : ℕ) (x : ℝ) : ℝ :=
  (1 / 2 ^ 53 : ℝ) * ∑ u ∈ range (2 ^ 53), if (zigY i : ℝ) + (u / tailM) * (zigY (i - 1) - zigY i) < bell x then 1 else 0

theorem count_below (N : ℕ) {c : ℝ} (hN : c ≤ N) : ∑ u ∈ range N, (if (u : ℝ) < c then (1 : ℝ) else 0) = ⌈c⌉₊ := by
  have e : (range N).filter (fun u : ℕ => (u : ℝ) < c) = range ⌈c⌉₊ := by
    ext u
    rw [mem_filter, mem_range, mem_range, Nat.lt_ceil]
    constructor
    · exact fun h => h.2
    · intro h
      refine ⟨?_, h⟩
      have : (u : ℝ) < N := h.trans_le hN
      exact_mod_cast this
  rw [← sum_filter, e]
  simp

theorem zigWedge_bound {i : ℕ} (h1 : 1 ≤ i) (h2 : i < 128) (x : ℝ) :
    |zigWedge i x - max 0 (min 1 ((bell x - zigY i) / (zigY (i - 1) - zigY i)))| ≤ 2 / 2 ^ 53 := by
  have hd : (0 : ℝ) < zigY (i - 1) - zigY i := sub_pos.2 (zigFacts h1 h2).y
  have hM := tailM_pos
  rw [zigWedge]
  generalize ht : (bell x - zigY i) / ((zigY (i - 1) : ℝ) - zigY i) = t
  have e : ∀ u : ℕ, ((zigY i : ℝ) + (u / tailM) * (zigY (i - 1) - zigY i) < bell x ↔ (u : ℝ) < tailM * t) := by
    intro u
    rw [← ht, mul_div_assoc', lt_div_iff₀ hd, ← sub_pos, ← sub_pos (b := (u : ℝ) * _)]
    have : tailM * (bell x - zigY i) - u * ((zigY (i - 1) : ℝ) - zigY i)
        = tailM * (bell x - ((zigY i : ℝ) + (u / tailM) * (zigY (i - 1) - zigY i))) := by
      field_simp
      ring
    rw [this, mul_pos_iff_of_pos_left hM]
  simp only [e]
  have eM : tailM * t = 2 ^ 53 * t - t := by rw [tailM]; ring
  have hdiv : ∀ S c : ℝ, |S - 2 ^ 53 * c| ≤ 2 → |(1 / 2 ^ 53 : ℝ) * S - c| ≤ 2 / 2 ^ 53 := by
    intro S c h
    have e2 : (1 / 2 ^ 53 : ℝ) * S - c = (S - 2 ^ 53 * c) / 2 ^ 53 := by ring
    rw [e2, abs_div, abs_of_pos (show (0 : ℝ) < 2 ^ 53 by norm_num)]
    exact div_le_div_of_nonneg_right h (by norm_num)
  refine hdiv _ _ ?_
  rcases le_or_gt t 0 with h0 | h0
  · have : ∑ u ∈ range (2 ^ 53), (if (u : ℝ) < tailM * t then (1 : ℝ) else 0) = 0 := by
      refine sum_eq_zero fun u _ => if_neg ?_
      have h3 : (0 : ℝ) ≤ u := Nat.cast_nonneg u
      have h4 : tailM * t ≤ 0 := mul_nonpos_of_nonneg_of_nonpos hM.le h0
      linarith
    rw [this, max_eq_left ((min_le_right _ _).trans h0)]
    norm_num
  rcases le_or_gt t 1 with h3 | h3
  · have hN : tailM * t ≤ (2 ^ 53 : ℕ) := by rw [eM]; push_cast; linarith
    rw [count_below (2 ^ 53) hN, min_eq_right h3, max_eq_right h0.le]
    have c1 := Nat.le_ceil (tailM * t)
    have c2 := Nat.ceil_lt_add_one (show 0 ≤ tailM * t by positivity)
    rw [abs_le]
    constructor <;> linarith
  · have : ∑ u ∈ range (2 ^ 53), (if (u : ℝ) < tailM * t then (1 : ℝ) else 0) = 2 ^ 53 := by
      rw [sum_congr rfl (g := fun _ => (1 : ℝ)), sum_const, card_range, nsmul_eq_mul]
      · norm_num
      · intro u hu
        refine if_pos ?_
        have h4 : (u : ℝ) + 1 ≤ 2 ^ 53 := by exact_mod_cast mem_range.1 hu
        have h5 : tailM * 1 < tailM * t := by gcongr
        rw [tailM] at h5 ⊢
        linarith
    rw [this, min_eq_left h3.le, max_eq_right zero_le_one]
    norm_num

/-- the chance that a word with parts `m` and `i` gives an accepted point, apart from the tail -/
noncomputable def zigP (i m : ℕ) : ℝ :=
  if 128 * m + i < zigK.getD i 0 then 1 else if i = 0 then 0 else zigWedge i (zigPt i m)

theorem zigP_bound {i m : ℕ} (hi : i < 128) (hm : m < 2 ^ 24) : |zigP i m - zigA i (zigPt i m)| ≤ 2 / 2 ^ 53 := by
  have hw := zigW_pos hi
  have c1 : zigPt i m < zigC i ↔ 128 * m + i < zigK.getD i 0 := by
    have e : (zigC i : ℝ) = ((zigK.getD i 0 : ℕ) : ℝ) * (zigW.getD i 0 : ℚ) := by rw [zigC]; push_cast; rfl
    rw [zigPt, e, mul_lt_mul_iff_left₀ hw]
    exact_mod_cast Iff.rfl
  have c2 : zigPt i m < zigX i := by
    rw [zigPt, zigX_eq]
    have : 128 * m + i < 2 ^ 31 := by omega
    have h3 : ((128 * m + i : ℕ) : ℝ) < 2 ^ 31 := by exact_mod_cast this
    gcongr
  rw [zigP, zigA]
  simp only [c1]
  by_cases h : 128 * m + i < zigK.getD i 0
  · rw [if_pos h, if_pos h]
    norm_num
  rw [if_neg h, if_neg h]
  by_cases h0 : i = 0
  · rw [if_pos h0, if_pos h0]
    norm_num
  rw [if_neg h0, if_neg h0, if_pos c2]
  exact zigWedge_bound (by omega) hi _

/-- the chance that one attempt yields an accepted point in `[p, q)` -/
noncomputable def zigMass (p q : ℝ) : ℝ :=
  (1 / 128 : ℝ) * ((∑ i ∈ range 128, (1 / 2 ^ 24 : ℝ) * ∑ m ∈ range (2 ^ 24), if p ≤ zigPt i m ∧ zigPt i m < q then zigP i m else 0)
    + ((zigTailWords : ℕ) / 2 ^ 24) * (tailRound p q / tailTotal))

theorem zigMass_integral {p q : ℝ} (hp : 0 ≤ p) (hpq : p ≤ q) :
    |128 * zigV * zigMass p q - ∫ x in p..q, bell x| ≤ 1 / 10 ^ 5 * (∫ x in p..q, bell x) + 121 / 10 ^ 7 := by
  have hV := zigV_pos
  have hV1 : (zigV : ℝ) ≤ 1 := by rw [zigV]; norm_num
  have h1 : |(∑ i ∈ range 128, (1 / 2 ^ 24 : ℝ) * ∑ m ∈ range (2 ^ 24), if p ≤ zigPt i m ∧ zigPt i m < q then zigP i m else 0)
      - zigBody p q| ≤ 1 / 10 ^ 7 := by
    rw [zigBody, ← sum_sub_distrib]
    refine (abs_sum_le_sum_abs _ _).trans ?_
    calc _ ≤ ∑ i ∈ range 128, (2 / 2 ^ 53 : ℝ) := by
          refine sum_le_sum fun i hi => ?_
          rw [← mul_sub, ← sum_sub_distrib, abs_mul, abs_of_pos (by norm_num)]
          have : |∑ m ∈ range (2 ^ 24), ((if p ≤ zigPt i m ∧ zigPt i m < q then zigP i m else 0)
              - if p ≤ zigPt i m ∧ zigPt i m < q then zigA i (zigPt i m) else 0)| ≤ ∑ m ∈ range (2 ^ 24), (2 / 2 ^ 53 : ℝ) := by
            refine (abs_sum_le_sum_abs _ _).trans (sum_le_sum fun m hm => ?_)
            split_ifs
            · exact zigP_bound (mem_range.1 hi) (mem_range.1 hm)
            · norm_num
          rw [sum_const, card_range, nsmul_eq_mul] at this
          refine (mul_le_mul_of_nonneg_left this (by norm_num)).trans (le_of_eq ?_)
          norm_num
      _ ≤ _ := by rw [sum_const, card_range, nsmul_eq_mul]; norm_num
  have h2 := zigBody_integral hp hpq
  have h3 := tail_integral hpq
  have h4 := bellBody_split hpq
  -- the start of the tail
  have hC : |(zigC 0 : ℝ) - zigR| ≤ 1 / 10 ^ 7 := by
    have := cast_le_real zigBase.2.2.2.2.1
    push_cast at this
    exact this
  have h5 : ∀ y : ℝ, |∫ x in (max y zigR)..(max y (zigC 0)), bell x| ≤ 1 / 10 ^ 7 := by
    intro y
    have b := norm_integral_le_of_norm_le_const (a := max y (zigR : ℝ)) (b := max y (zigC 0 : ℝ)) (C := 1) (f := bell) (by
      intro x _
      rw [Real.norm_eq_abs, abs_of_pos (bell_pos x)]
      exact bell_le_one x)
    rw [Real.norm_eq_abs, one_mul] at b
    have : |max y (zigC 0 : ℝ) - max y zigR| ≤ |(zigC 0 : ℝ) - zigR| := by
      have := abs_max_sub_max_le_max y (zigC 0 : ℝ) y zigR
      rwa [sub_self, abs_zero, max_eq_right (abs_nonneg ((zigC 0 : ℝ) - zigR))] at this
    exact b.trans (this.trans hC)
  have h6 : ∫ x in (max p (zigC 0))..(max q (zigC 0)), bell x
      = (∫ x in (max p zigR)..(max q zigR), bell x) - (∫ x in (max p zigR)..(max p (zigC 0)), bell x)
        + ∫ x in (max q zigR)..(max q (zigC 0)), bell x := by
    have i1 := integral_add_adjacent_intervals (bell_integrable (max p zigR) (max p (zigC 0)))
      (bell_integrable (max p (zigC 0)) (max q (zigC 0)))
    have i2 := integral_add_adjacent_intervals (bell_integrable (max p zigR) (max q zigR))
      (bell_integrable (max q zigR) (max q (zigC 0)))
    linarith
  have h7 := abs_le.1 (h5 p)
  have h8 := abs_le.1 (h5 q)
  have hbody : ∫ x in p..q, bellBody x ≤ ∫ x in p..q, bell x := by
    refine integral_mono_on hpq (bellBody_integrable p q) (bell_integrable p q) fun x _ => ?_
    rw [bellBody]
    split_ifs
    · exact le_rfl
    · exact (bell_pos x).le
  rw [zigMass]
  generalize (∑ i ∈ range 128, (1 / 2 ^ 24 : ℝ) * ∑ m ∈ range (2 ^ 24), if p ≤ zigPt i m ∧ zigPt i m < q then zigP i m else 0) = S at h1 ⊢
  have e : 128 * zigV * ((1 / 128 : ℝ) * (S + ((zigTailWords : ℕ) / 2 ^ 24) * (tailRound p q / tailTotal)))
      = zigV * S + zigTailMass * (tailRound p q / tailTotal) := by rw [zigTailMass]; ring
  rw [e]
  have h9 : |(zigV : ℝ) * S - zigV * zigBody p q| ≤ 1 / 10 ^ 7 := by
    rw [← mul_sub, abs_mul, abs_of_pos hV]
    calc (zigV : ℝ) * |S - zigBody p q| ≤ 1 * |S - zigBody p q| := by gcongr
      _ ≤ _ := by rw [one_mul]; exact h1
  have k1 := abs_le.1 h9
  have k2 := abs_le.1 h2
  have k3 := abs_le.1 h3
  rw [abs_le]
  constructor <;> linarith [k1.1, k1.2, k2.1, k2.2, k3.1, k3.2, h7.1, h7.2, h8.1, h8.2]

end FastKsw
