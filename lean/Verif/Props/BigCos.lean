import Verif.Lemmas.BigCos

/-!
# C90: the accuracy of the arbitrary precision cosine and of the table of roots
-/

namespace FastKsw.Props

open FastKsw

/-- **C90.** `ring.Cos` on a `big.Float` of `prec` bits, all roundings included: for an angle of at most a full turn
the result is within `10 (prec + 22)` units of `2^-prec` of the cosine. -/
theorem C90_cos {prec : ℕ} (h12 : 12 ≤ prec) (hlt : prec < 2 ^ 20) {x : ℝ} (hx : |x| ≤ 2 * Real.pi) :
    |bigCos prec x - Real.cos x| ≤ 10 * (prec + 22) / 2 ^ prec := by
  have := bigCos_bound h12 hlt hx
  rwa [bigEps, one_div, inv_pow, ← div_eq_mul_inv] at this

/-- the documented error of the iteration (complex128.go:33), `10^(-0.60206 k)`, that is `4^-k`, without rounding: `n + 1` iterations
have a truncation error of at most `4^-n * x^4` -/
theorem C90_iteration (n : ℕ) {x : ℝ} (hx : |x| ≤ 2 ^ n) :
    |1 - cosLoop id n ((x * (1 / 2) ^ n) ^ 2) / 2 - Real.cos x| ≤ x ^ 4 / 4 ^ n := by
  have key : ∀ (n : ℕ) (θ s : ℝ), 0 ≤ s → s ≤ 4 →
      |cosLoop id n s - vers (2 ^ n * θ)| ≤ 4 ^ n * |s - vers θ| := by
    intro n
    induction n with
    | zero => intro θ s _ _; simp [cosLoop]
    | succ n ih =>
      intro θ s h0 h4
      rw [cosLoop]
      simp only [id]
      have hs0 : 0 ≤ s * (4 - s) := mul_nonneg h0 (by linarith)
      have hs4 : s * (4 - s) ≤ 4 := by nlinarith [sq_nonneg (s - 2)]
      have := ih (2 * θ) _ hs0 hs4
      rw [show (2 : ℝ) ^ n * (2 * θ) = 2 ^ (n + 1) * θ by ring] at this
      refine le_trans this ?_
      rw [vers_double]
      have hv := vers_bounds θ
      have e : s * (4 - s) - vers θ * (4 - vers θ) = (s - vers θ) * (4 - s - vers θ) := by ring
      have h5 : |4 - s - vers θ| ≤ 4 := abs_le.2 ⟨by linarith, by linarith⟩
      rw [e, abs_mul, pow_succ, mul_assoc]
      refine mul_le_mul_of_nonneg_left ?_ (by positivity)
      rw [mul_comm (4 : ℝ)]
      exact mul_le_mul_of_nonneg_left h5 (abs_nonneg _)
  set y := x * (1 / 2) ^ n with hy
  have h2n : (2 : ℝ) ^ n * (1 / 2) ^ n = 1 := by rw [← mul_pow]; norm_num
  have hxy : 2 ^ n * y = x := by rw [hy]; linear_combination x * h2n
  have hy1 : |y| ≤ 1 := by
    rw [hy, abs_mul, abs_of_nonneg (by positivity : (0 : ℝ) ≤ (1 / 2) ^ n)]
    calc _ ≤ (2 : ℝ) ^ n * (1 / 2) ^ n := mul_le_mul_of_nonneg_right hx (by positivity)
      _ = 1 := h2n
  have hy2 : y ^ 2 ≤ 1 := (sq_le_one_iff_abs_le_one y).2 hy1
  have h := key n y (y ^ 2) (sq_nonneg y) (by linarith)
  rw [hxy] at h
  have hb := Real.cos_bound hy1
  have h4 : |y| ^ 4 = y ^ 4 := by rw [show (4 : ℕ) = 2 * 2 by norm_num, pow_mul, sq_abs, ← pow_mul]
  rw [h4] at hb
  have hv : |y ^ 2 - vers y| ≤ y ^ 4 * (5 / 48) := by
    have e : y ^ 2 - vers y = 2 * (Real.cos y - (1 - y ^ 2 / 2)) := by unfold vers; ring
    rw [e, abs_mul, abs_two]; linarith
  have e2 : 1 - cosLoop id n (y ^ 2) / 2 - Real.cos x = -(cosLoop id n (y ^ 2) - vers x) / 2 := by unfold vers; ring
  rw [e2, abs_div, abs_neg, abs_two]
  have e3 : x ^ 4 / 4 ^ n = 4 ^ n * y ^ 4 := by
    rw [← hxy, mul_pow, ← pow_mul, mul_comm n 4, pow_mul, show (2 : ℝ) ^ 4 = 4 * 4 by norm_num, mul_pow]
    field_simp
  have h6 : (4 : ℝ) ^ n * |y ^ 2 - vers y| ≤ 4 ^ n * (y ^ 4 * (5 / 48)) := mul_le_mul_of_nonneg_left hv (by positivity)
  have h7 : (0 : ℝ) ≤ 4 ^ n * y ^ 4 := by positivity
  rw [e3]
  linarith

/-- small integers are not rounded -/
theorem bigRound_nat {prec z : ℕ} (hz : z < 2 ^ prec) : bigRound prec (z : ℝ) = z := by
  rcases Nat.eq_zero_or_pos z with rfl | h0
  · simp [bigRound]
  · have hpos : (0 : ℝ) < z := by exact_mod_cast h0
    have hl : Int.log 2 |(z : ℝ)| = Nat.log 2 z := by
      rw [abs_of_pos hpos]; exact Int.log_natCast 2 z
    have hlt : Nat.log 2 z < prec := Nat.log_lt_of_lt_pow h0.ne' hz
    unfold bigRound
    rw [if_neg hpos.ne']
    simp only
    rw [hl]
    have e1 : (z : ℝ) / 2 ^ ((Nat.log 2 z : ℤ) + 1 - (prec : ℤ)) = (((z * 2 ^ (prec - 1 - Nat.log 2 z) : ℕ) : ℤ) : ℝ) := by
      rw [div_eq_mul_inv, ← zpow_neg, show -((Nat.log 2 z : ℤ) + 1 - (prec : ℤ)) = ((prec - 1 - Nat.log 2 z : ℕ) : ℤ) by omega,
        zpow_natCast]
      push_cast; rfl
    have h2 : (0 : ℝ) < 2 ^ ((Nat.log 2 z : ℤ) + 1 - (prec : ℤ)) := zpow_pos (by norm_num) _
    rw [e1, roundEvenR_int, ← e1, div_mul_cancel₀ _ h2.ne']

theorem eps_three {ε : ℝ} (h0 : 0 ≤ ε) (h1 : ε ≤ 1 / 3900) : (1 + ε) * ((1 + ε) * (1 + ε)) - 1 ≤ 3.01 * ε := by
  have b2 : ε * ε ≤ 1 / 3900 * ε := mul_le_mul_of_nonneg_right h1 h0
  have b3 : ε * (ε * ε) ≤ ε * (1 / 3900 * ε) := mul_le_mul_of_nonneg_left b2 h0
  norm_num
  linarith

theorem eps_five {ε : ℝ} (h0 : 0 ≤ ε) (h1 : ε ≤ 1 / 3900) :
    (1 + ε) * ((1 + ε) * ((1 + ε) * ((1 + ε) * (1 + ε)))) - 1 ≤ 5.01 * ε := by
  have b2 : ε * ε ≤ 1 / 3900 * ε := mul_le_mul_of_nonneg_right h1 h0
  have b3 : ε * (ε * ε) ≤ ε * (1 / 3900 * ε) := mul_le_mul_of_nonneg_left b2 h0
  have b4 : ε * (ε * (ε * ε)) ≤ ε * (ε * (1 / 3900 * ε)) := mul_le_mul_of_nonneg_left b3 h0
  have b5 : ε * (ε * (ε * (ε * ε))) ≤ ε * (ε * (ε * (1 / 3900 * ε))) := mul_le_mul_of_nonneg_left b4 h0
  norm_num
  linarith

/-- **C90 (table).** The entries of the table of `NewEncoderBigComplex` are the powers of the primitive `m`-th root of unity within
`10 (prec + 27)` units of `2^-prec`, if the string `pi` is exact to the given precision (it has 1000 decimals). -/
theorem C90_table {prec m i : ℕ} (h12 : 12 ≤ prec) (hlt : prec < 2 ^ 20) (hm : 8 * m ≤ 2 ^ prec) (hi : i < m) {pi : ℝ}
    (hpi : |pi - Real.pi| ≤ Real.pi / 2 ^ prec) :
    |(bigRoot pi prec m i).1 - Real.cos (2 * Real.pi * i / m)| ≤ 10 * (prec + 27) / 2 ^ prec ∧
    |(bigRoot pi prec m i).2 - Real.sin (2 * Real.pi * i / m)| ≤ 10 * (prec + 27) / 2 ^ prec := by
  have hε0 := bigEps_pos prec
  have h300 := prec_eps h12
  have hprec : (12 : ℝ) ≤ prec := by exact_mod_cast h12
  have hε2 : bigEps prec = 1 / 2 ^ prec := by rw [bigEps, one_div, inv_pow, one_div]
  have goal_eq : (10 * ((prec : ℝ) + 27) / 2 ^ prec) = 10 * (prec + 22) * bigEps prec + 50 * bigEps prec := by rw [hε2]; ring
  have hmr : 8 * (m : ℝ) * bigEps prec ≤ 1 := by
    rw [hε2, mul_one_div, div_le_one (by positivity)]
    exact_mod_cast hm
  rw [goal_eq]
  rw [← mul_one_div, ← hε2] at hpi
  set ε := bigEps prec with hε
  have hε' : ε ≤ 1 / 3900 := by nlinarith
  have hm0 : (0 : ℝ) < m := by exact_mod_cast (by omega : 0 < m)
  have hp0 := Real.pi_gt_three
  have hp1 := Real.pi_lt_d2
  have hr : ∀ z, |bigRound prec z - z| ≤ ε * |z| := bigRound_err prec
  have him : (i : ℝ) + 1 ≤ m := by exact_mod_cast hi
  unfold bigRoot
  simp only
  rw [show bigRound prec 2 = 2 by
      have := bigRound_nat (prec := prec) (z := 2) (by
        calc 2 < 2 ^ 12 := by norm_num
          _ ≤ 2 ^ prec := Nat.pow_le_pow_right (by norm_num) h12)
      exact_mod_cast this,
    bigRound_nat (prec := prec) (z := i) (by omega), bigRound_nat (prec := prec) (z := m) (by omega)]
  obtain ⟨e0, he0, r0⟩ : ∃ e, |e| ≤ ε ∧ pi = Real.pi * (1 + e) := by
    refine ⟨(pi - Real.pi) / Real.pi, ?_, by field_simp; ring⟩
    rw [abs_div, abs_of_pos Real.pi_pos, div_le_iff₀ Real.pi_pos]
    linarith
  obtain ⟨e1, he1, r1⟩ := exists_rel hr hε0.le pi
  obtain ⟨e2, he2, r2⟩ := exists_rel hr hε0.le (2 * bigRound prec pi)
  obtain ⟨e3, he3, r3⟩ := exists_rel hr hε0.le (bigRound prec (2 * bigRound prec pi) * i)
  obtain ⟨e4, he4, r4⟩ := exists_rel hr hε0.le (bigRound prec (bigRound prec (2 * bigRound prec pi) * i) / m)
  obtain ⟨e5, he5, r5⟩ := exists_rel hr hε0.le (bigRound prec pi / 2)
  set α := bigRound prec (bigRound prec (bigRound prec (2 * bigRound prec pi) * i) / m) with hα
  set θ := 2 * Real.pi * i / m with hθ
  have hθ0 : 0 ≤ θ := by positivity
  have hθ1 : θ ≤ 2 * Real.pi - 2 * Real.pi / m := by
    rw [hθ, div_le_iff₀ hm0, sub_mul, div_mul_cancel₀ _ hm0.ne']
    have : 2 * Real.pi * (i + 1) ≤ 2 * Real.pi * m := mul_le_mul_of_nonneg_left him (by positivity)
    linarith
  have hone : ∀ {e : ℝ}, |e| ≤ ε → |(1 + e) - 1| ≤ (1 + ε) - 1 := fun h => by simpa using h
  have h5 : |(1 + e0) * ((1 + e1) * ((1 + e2) * ((1 + e3) * (1 + e4)))) - 1| ≤ 5.01 * ε := by
    refine le_trans (rel_mul (hone he0) (rel_mul (hone he1) (rel_mul (hone he2) (rel_mul (hone he3) (hone he4))))) ?_
    exact eps_five hε0.le hε'
  have h3 : |(1 + e0) * ((1 + e1) * (1 + e5)) - 1| ≤ 3.01 * ε := by
    refine le_trans (rel_mul (hone he0) (rel_mul (hone he1) (hone he5))) ?_
    exact eps_three hε0.le hε'
  have hαe : α = θ * ((1 + e0) * ((1 + e1) * ((1 + e2) * ((1 + e3) * (1 + e4))))) := by
    rw [r4, r3, r2, r1, r0, hθ]; ring
  have hα1 : |α - θ| ≤ 5.01 * ε * θ := by
    rw [hαe, show ∀ w : ℝ, θ * w - θ = (w - 1) * θ from fun w => by ring, abs_mul, abs_of_nonneg hθ0]
    exact mul_le_mul_of_nonneg_right h5 hθ0
  have hθ63 : θ ≤ 6.3 := by
    have : 0 ≤ 2 * Real.pi / m := by positivity
    linarith
  have hα2 : |α - θ| ≤ 32 * ε := by
    refine le_trans hα1 ?_
    have t2 : 5.01 * ε * θ ≤ 5.01 * ε * 6.3 := mul_le_mul_of_nonneg_left hθ63 (by positivity)
    norm_num at t2 ⊢
    linarith
  have hαπ : |α| ≤ 2 * Real.pi := by
    have t := abs_add_le (α - θ) θ
    rw [sub_add_cancel, abs_of_nonneg hθ0] at t
    have : 5.01 * ε * θ ≤ 2 * Real.pi / m := by
      rw [le_div_iff₀ hm0]
      have : 5.01 * ε * θ * m = (5.01 / 8) * (8 * m * ε) * θ := by ring
      rw [this]
      have t2 : (5.01 / 8) * (8 * m * ε) * θ ≤ (5.01 / 8) * 1 * 6.3 :=
        mul_le_mul (mul_le_mul_of_nonneg_left hmr (by norm_num)) hθ63 hθ0 (by norm_num)
      norm_num at t2 ⊢
      linarith
    linarith
  refine ⟨?_, ?_⟩
  · have c1 := bigCos_bound h12 hlt hαπ
    have c2 := Real.abs_cos_sub_cos_le α θ
    have t := abs_add_le (bigCos prec α - Real.cos α) (Real.cos α - Real.cos θ)
    rw [sub_add_sub_cancel] at t
    linarith
  · have hβe : bigRound prec (bigRound prec pi / 2) = Real.pi / 2 * ((1 + e0) * ((1 + e1) * (1 + e5))) := by
      rw [r5, r1, r0]; ring
    set β := bigRound prec (bigRound prec pi / 2) with hβ
    have hβ1 : |β - Real.pi / 2| ≤ 5 * ε := by
      rw [hβe, show ∀ w : ℝ, Real.pi / 2 * w - Real.pi / 2 = (w - 1) * (Real.pi / 2) from fun w => by ring, abs_mul,
        abs_of_nonneg (by positivity : 0 ≤ Real.pi / 2)]
      calc _ ≤ 3.01 * ε * (Real.pi / 2) := mul_le_mul_of_nonneg_right h3 (by positivity)
        _ ≤ 3.01 * ε * (3.15 / 2) := mul_le_mul_of_nonneg_left (by linarith) (by positivity)
        _ ≤ 5 * ε := by norm_num; linarith
    have hγ := hr (β - α)
    have hd : |(β - α) - (Real.pi / 2 - θ)| ≤ 37 * ε := by
      rw [show β - α - (Real.pi / 2 - θ) = (β - Real.pi / 2) - (α - θ) by ring]
      exact le_trans (abs_sub _ _) (by linarith)
    have hs : |Real.pi / 2 - θ| ≤ 3 * Real.pi / 2 := by
      have : 0 ≤ 2 * Real.pi / m := by positivity
      exact abs_le.2 ⟨by linarith, by linarith⟩
    have hba : |β - α| ≤ 5 := by
      have t := abs_add_le ((β - α) - (Real.pi / 2 - θ)) (Real.pi / 2 - θ)
      rw [sub_add_cancel] at t
      linarith
    have hg2 : |bigRound prec (β - α) - (Real.pi / 2 - θ)| ≤ 42 * ε := by
      have t := abs_add_le (bigRound prec (β - α) - (β - α)) ((β - α) - (Real.pi / 2 - θ))
      rw [sub_add_sub_cancel] at t
      have t2 : ε * |β - α| ≤ ε * 5 := mul_le_mul_of_nonneg_left hba hε0.le
      linarith
    have hg3 : |bigRound prec (β - α)| ≤ 2 * Real.pi := by
      have t := abs_add_le (bigRound prec (β - α) - (Real.pi / 2 - θ)) (Real.pi / 2 - θ)
      rw [sub_add_cancel] at t
      linarith
    have c1 := bigCos_bound h12 hlt hg3
    have c2 := Real.abs_cos_sub_cos_le (bigRound prec (β - α)) (Real.pi / 2 - θ)
    rw [Real.cos_pi_div_two_sub] at c2
    have t := abs_add_le (bigCos prec (bigRound prec (β - α)) - Real.cos (bigRound prec (β - α)))
      (Real.cos (bigRound prec (β - α)) - Real.sin θ)
    rw [sub_add_sub_cancel] at t
    linarith

/-- 256 bits of precision and a ring of degree `2^14`: the table is exact to 244 bits -/
example (i : ℕ) (hi : i < 2 ^ 15) :
    |(bigRoot Real.pi 256 (2 ^ 15) i).1 - Real.cos (2 * Real.pi * i / (2 ^ 15 : ℕ))| ≤ 1 / 2 ^ 244 := by
  refine le_trans (C90_table (by norm_num) (by norm_num) (by norm_num) hi (by simp; positivity)).1 ?_
  norm_num

end FastKsw.Props
