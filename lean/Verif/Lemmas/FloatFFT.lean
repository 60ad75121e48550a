import Verif.Model.FloatFFT
import Verif.Lemmas.Float
import Verif.Lemmas.SpecialFFT
import Mathlib.Analysis.Complex.Basic
import Mathlib.Tactic.Positivity
import Mathlib.Tactic.NormNum

/-! Helper lemmas: rounding errors of the transforms in complex128 arithmetic. -/

namespace FastKsw

/-- the complex number of a pair -/
noncomputable def fC (a : ℚ × ℚ) : ℂ := ⟨(a.1 : ℝ), (a.2 : ℝ)⟩

@[simp] theorem fC_zero : fC 0 = 0 := by apply Complex.ext <;> simp [fC]

/-- unit roundoff of float64 -/
noncomputable def uf : ℝ := 1 / 2 ^ 53

/-- half of the least positive float64 value -/
noncomputable def eta : ℝ := (2 : ℝ) ^ (-1075 : ℤ)

theorem uf_pos : 0 < uf := by unfold uf; positivity
theorem uf_le : uf ≤ 1 / 1000 := by unfold uf; norm_num
theorem eta_pos : 0 < eta := zpow_pos (by norm_num) _

theorem f64s_err (x : ℚ) : |(f64s x : ℝ) - x| ≤ uf * |(x : ℝ)| + eta := by
  have key : |f64s x - x| ≤ 1 / 2 ^ 53 * |x| + (2 : ℚ) ^ (-1075 : ℤ) := by
    have he : (0 : ℚ) < (2 : ℚ) ^ (-1075 : ℤ) := zpow_pos (by norm_num) _
    generalize hE : (2 : ℚ) ^ (-1075 : ℤ) = E at he ⊢
    unfold f64s
    split
    · rename_i h; rw [h]; simp only [sub_zero, abs_zero, mul_zero, zero_add]; exact he.le
    · rename_i h
      dsimp only
      have hpos : 0 < |x| := abs_pos.2 h
      set e := max (Int.log 2 |x| - 52) (-1074) with hedef
      have hk : (0 : ℚ) < 2 ^ e := zpow_pos (by norm_num) _
      have h1 := roundEven_err (x / 2 ^ e)
      have h2 : |(roundEven (x / 2 ^ e) : ℚ) * 2 ^ e - x| ≤ 1 / 2 * 2 ^ e := by
        have : (roundEven (x / 2 ^ e) : ℚ) * 2 ^ e - x = ((roundEven (x / 2 ^ e) : ℚ) - x / 2 ^ e) * 2 ^ e := by
          field_simp
        rw [this, abs_mul, abs_of_pos hk]
        exact mul_le_mul_of_nonneg_right h1 hk.le
      refine le_trans h2 ?_
      rcases max_choice (Int.log 2 |x| - 52) (-1074) with c | c
      · rw [hedef, c]
        have h3 := Int.zpow_log_le_self (R := ℚ) (b := 2) (by norm_num) hpos
        have e1 : ((2 : ℕ) : ℚ) ^ Int.log 2 |x| = 2 ^ 52 * 2 ^ (Int.log 2 |x| - 52) := by
          rw [← zpow_natCast, ← zpow_add₀ (by norm_num)]; push_cast; congr 1; ring
        rw [e1] at h3
        generalize (2 : ℚ) ^ (Int.log 2 |x| - 52) = t at *
        linarith
      · rw [hedef, c]
        have e2 : (1 : ℚ) / 2 * 2 ^ (-1074 : ℤ) = E := by
          rw [← hE, show (-1075 : ℤ) = -1 + -1074 by norm_num, zpow_add₀ (by norm_num)]
          congr 1
          norm_num
        rw [e2]
        have : 0 ≤ 1 / 2 ^ 53 * |x| := by positivity
        linarith
  have := (Rat.cast_le (K := ℝ)).2 key
  push_cast at this
  unfold uf eta
  push_cast
  exact this

theorem norm_mk_le {a b c d : ℝ} (h1 : |a| ≤ c) (h2 : |b| ≤ d) : ‖(⟨a, b⟩ : ℂ)‖ ≤ ‖(⟨c, d⟩ : ℂ)‖ := by
  rw [← abs_of_nonneg (norm_nonneg (⟨a, b⟩ : ℂ)), ← abs_of_nonneg (norm_nonneg (⟨c, d⟩ : ℂ)), ← sq_le_sq, Complex.sq_norm,
    Complex.sq_norm, Complex.normSq_mk, Complex.normSq_mk]
  have e1 := mul_self_le_mul_self (abs_nonneg a) h1
  have e2 := mul_self_le_mul_self (abs_nonneg b) h2
  rw [abs_mul_abs_self] at e1 e2
  linarith

theorem norm_mk_abs (a b : ℝ) : ‖(⟨|a|, |b|⟩ : ℂ)‖ = ‖(⟨a, b⟩ : ℂ)‖ :=
  le_antisymm (norm_mk_le (by rw [abs_abs]) (by rw [abs_abs]) |>.trans (by
    rw [← abs_of_nonneg (norm_nonneg (⟨|a|, |b|⟩ : ℂ)), ← abs_of_nonneg (norm_nonneg (⟨a, b⟩ : ℂ)), ← sq_le_sq, Complex.sq_norm,
      Complex.sq_norm, Complex.normSq_mk, Complex.normSq_mk, abs_mul_abs_self, abs_mul_abs_self])) (norm_mk_le le_rfl le_rfl)

/-- two rounded parts -/
theorem round_parts {a b : ℝ} {x y : ℝ} (h1 : |a - x| ≤ uf * |x| + eta) (h2 : |b - y| ≤ uf * |y| + eta) :
    ‖(⟨a, b⟩ : ℂ) - ⟨x, y⟩‖ ≤ uf * ‖(⟨x, y⟩ : ℂ)‖ + 2 * eta := by
  have e0 : (⟨a, b⟩ : ℂ) - ⟨x, y⟩ = ⟨a - x, b - y⟩ := by apply Complex.ext <;> simp
  rw [e0]
  refine le_trans (norm_mk_le h1 h2) ?_
  have e1 : (⟨uf * |x| + eta, uf * |y| + eta⟩ : ℂ) = (uf : ℂ) * ⟨|x|, |y|⟩ + (⟨eta, eta⟩ : ℂ) := by
    apply Complex.ext <;> simp
  rw [e1]
  refine le_trans (norm_add_le _ _) ?_
  rw [norm_mul, norm_mk_abs, Complex.norm_real, Real.norm_eq_abs, abs_of_pos uf_pos]
  have : ‖(⟨eta, eta⟩ : ℂ)‖ ≤ 2 * eta := by
    refine le_trans (Complex.norm_le_abs_re_add_abs_im _) ?_
    simp only [abs_of_pos eta_pos]
    linarith
  linarith

theorem fC_add (a b : ℚ × ℚ) : fC a + fC b = ⟨((a.1 + b.1 : ℚ) : ℝ), ((a.2 + b.2 : ℚ) : ℝ)⟩ := by
  apply Complex.ext <;> simp [fC]

theorem fC_sub (a b : ℚ × ℚ) : fC a - fC b = ⟨((a.1 - b.1 : ℚ) : ℝ), ((a.2 - b.2 : ℚ) : ℝ)⟩ := by
  apply Complex.ext <;> simp [fC]

theorem fcAdd_err (a b : ℚ × ℚ) : ‖fC (fcAdd a b) - (fC a + fC b)‖ ≤ uf * ‖fC a + fC b‖ + 2 * eta := by
  rw [fC_add]
  exact round_parts (f64s_err _) (f64s_err _)

theorem fcSub_err (a b : ℚ × ℚ) : ‖fC (fcSub a b) - (fC a - fC b)‖ ≤ uf * ‖fC a - fC b‖ + 2 * eta := by
  rw [fC_sub]
  exact round_parts (f64s_err _) (f64s_err _)

theorem fcDiv_err (a : ℚ × ℚ) (c : ℚ) : ‖fC (fcDiv a c) - fC a / (c : ℝ)‖ ≤ uf * ‖fC a / (c : ℝ)‖ + 2 * eta := by
  have e : fC a / (c : ℝ) = ⟨((a.1 / c : ℚ) : ℝ), ((a.2 / c : ℚ) : ℝ)⟩ := by
    apply Complex.ext
    · rw [Complex.div_ofReal_re]; simp [fC]
    · rw [Complex.div_ofReal_im]; simp [fC]
  rw [e]
  exact round_parts (f64s_err _) (f64s_err _)

/-- sum or difference of two rounded products -/
theorem prod_err {p q p' q' s t : ℝ} (hp : |p' - p| ≤ uf * |p| + eta) (hq : |q' - q| ≤ uf * |q| + eta)
    (hs : |s - (p + q)| ≤ |p' - p| + |q' - q|) (ht : |t - s| ≤ uf * |s| + eta) :
    |t - (p + q)| ≤ (2 * uf + uf ^ 2) * (|p| + |q|) + 4 * eta := by
  have h1 := abs_add_le (t - s) (s - (p + q))
  rw [sub_add_sub_cancel] at h1
  have h2 : |s| ≤ |p| + |q| + (uf * |p| + eta + (uf * |q| + eta)) := by
    have a1 := abs_add_le (s - (p + q)) (p + q)
    rw [sub_add_cancel] at a1
    have a2 := abs_add_le p q
    linarith
  have h3 := mul_le_mul_of_nonneg_left h2 uf_pos.le
  have h4 : uf * eta ≤ 1 / 1000 * eta := mul_le_mul_of_nonneg_right uf_le eta_pos.le
  have h5 := eta_pos
  nlinarith

theorem fcMul_err (a b : ℚ × ℚ) : ‖fC (fcMul a b) - fC a * fC b‖ ≤ 3 * uf * (‖fC a‖ * ‖fC b‖) + 8 * eta := by
  obtain ⟨a1, a2⟩ := a
  obtain ⟨b1, b2⟩ := b
  have hcs1 : |(a1 : ℝ) * b1| + |-((a2 : ℝ) * b2)| ≤ ‖fC (a1, a2)‖ * ‖fC (b1, b2)‖ := by
    have := Complex.re_le_norm ((⟨|(a1 : ℝ)|, |(a2 : ℝ)|⟩ : ℂ) * ⟨|(b1 : ℝ)|, -|(b2 : ℝ)|⟩)
    rw [norm_mul, norm_mk_abs] at this
    have e : ‖(⟨|(b1 : ℝ)|, -|(b2 : ℝ)|⟩ : ℂ)‖ ≤ ‖fC (b1, b2)‖ := by
      rw [show fC (b1, b2) = ⟨(b1 : ℝ), (b2 : ℝ)⟩ from rfl, ← norm_mk_abs b1 b2]
      exact norm_mk_le (by rw [abs_abs]) (by rw [abs_neg, abs_abs])
    rw [abs_neg, abs_mul, abs_mul]
    have e2 := mul_le_mul_of_nonneg_left e (norm_nonneg (⟨(a1 : ℝ), (a2 : ℝ)⟩ : ℂ))
    simp only [Complex.mul_re] at this
    refine le_trans ?_ e2
    linarith
  have hcs2 : |(a1 : ℝ) * b2| + |(a2 : ℝ) * b1| ≤ ‖fC (a1, a2)‖ * ‖fC (b1, b2)‖ := by
    have := Complex.im_le_norm ((⟨|(a1 : ℝ)|, |(a2 : ℝ)|⟩ : ℂ) * ⟨|(b1 : ℝ)|, |(b2 : ℝ)|⟩)
    rw [norm_mul, norm_mk_abs, norm_mk_abs] at this
    rw [abs_mul, abs_mul]
    simp only [Complex.mul_im] at this
    exact this
  have r1 : |((f64s (f64s (a1 * b1) - f64s (a2 * b2)) : ℚ) : ℝ) - (a1 * b1 + -(a2 * b2))| ≤
      (2 * uf + uf ^ 2) * (|(a1 : ℝ) * b1| + |-((a2 : ℝ) * b2)|) + 4 * eta := by
    have i1 := f64s_err (a1 * b1)
    have i2 := f64s_err (a2 * b2)
    have i3 := f64s_err (f64s (a1 * b1) - f64s (a2 * b2))
    push_cast at i1 i2 i3
    refine prod_err (p' := (f64s (a1 * b1) : ℝ)) (q' := -(f64s (a2 * b2) : ℝ)) i1 ?_ ?_ i3
    · rw [abs_neg, ← neg_sub', abs_neg]; exact i2
    · refine le_trans (le_of_eq ?_) (abs_add_le _ _)
      congr 1; ring
  have r2 : |((f64s (f64s (a1 * b2) + f64s (a2 * b1)) : ℚ) : ℝ) - (a1 * b2 + a2 * b1)| ≤
      (2 * uf + uf ^ 2) * (|(a1 : ℝ) * b2| + |(a2 : ℝ) * b1|) + 4 * eta := by
    have i1 := f64s_err (a1 * b2)
    have i2 := f64s_err (a2 * b1)
    have i3 := f64s_err (f64s (a1 * b2) + f64s (a2 * b1))
    push_cast at i1 i2 i3
    refine prod_err (p' := (f64s (a1 * b2) : ℝ)) (q' := (f64s (a2 * b1) : ℝ)) i1 i2 ?_ i3
    refine le_trans (le_of_eq ?_) (abs_add_le _ _)
    congr 1; ring
  set X := ‖fC (a1, a2)‖ * ‖fC (b1, b2)‖ with hX
  have hX0 : 0 ≤ X := by positivity
  have hg0 : 0 ≤ 2 * uf + uf ^ 2 := by have := uf_pos; positivity
  have m1 := mul_le_mul_of_nonneg_left hcs1 hg0
  have m2 := mul_le_mul_of_nonneg_left hcs2 hg0
  refine le_trans (Complex.norm_le_sqrt_two_mul_max _) ?_
  have hmax : max |(fC (fcMul (a1, a2) (b1, b2)) - fC (a1, a2) * fC (b1, b2)).re|
      |(fC (fcMul (a1, a2) (b1, b2)) - fC (a1, a2) * fC (b1, b2)).im| ≤ (2 * uf + uf ^ 2) * X + 4 * eta := by
    refine max_le ?_ ?_
    · refine le_trans (le_of_eq ?_) (le_trans r1 (by linarith))
      simp [fC, fcMul, sub_eq_add_neg]
    · refine le_trans (le_of_eq ?_) (le_trans r2 (by linarith))
      simp [fC, fcMul]
  have hs2 : Real.sqrt 2 ≤ 1.45 := by
    rw [Real.sqrt_le_left (by norm_num)]; norm_num
  have hs0 := Real.sqrt_nonneg 2
  have hu := uf_le
  have hup := uf_pos
  have he := eta_pos
  have hY0 : 0 ≤ (2 * uf + uf ^ 2) * X + 4 * eta := by positivity
  refine le_trans (mul_le_mul_of_nonneg_left hmax hs0) (le_trans (mul_le_mul_of_nonneg_right hs2 hY0) ?_)
  have hu2 : uf ^ 2 ≤ 1 / 1000 * uf := by rw [sq]; exact mul_le_mul_of_nonneg_right hu hup.le
  have hu3 : uf ^ 2 * X ≤ 1 / 1000 * uf * X := mul_le_mul_of_nonneg_right hu2 hX0
  have : 0 ≤ uf * X := by positivity
  nlinarith

/-! ### Butterflies -/

section
variable {E B δ : ℝ}

theorem add_near {a b : ℚ × ℚ} {u v : ℂ} {E1 E2 B1 B2 : ℝ} (h1 : ‖fC a - u‖ ≤ E1) (h2 : ‖fC b - v‖ ≤ E2) (h3 : ‖u‖ ≤ B1)
    (h4 : ‖v‖ ≤ B2) : ‖fC (fcAdd a b) - (u + v)‖ ≤ ((B1 + E1) + (B2 + E2)) * (1 + uf) + 2 * eta - (B1 + B2) := by
  have e := fcAdd_err a b
  have hn : ‖fC a + fC b‖ ≤ (B1 + E1) + (B2 + E2) := by
    have t1 := norm_add_le (fC a) (fC b)
    have t2 := norm_add_le (fC a - u) u
    have t3 := norm_add_le (fC b - v) v
    rw [sub_add_cancel] at t2 t3
    linarith
  have t := norm_add_le (fC (fcAdd a b) - (fC a + fC b)) ((fC a - u) + (fC b - v))
  have t' := norm_add_le (fC a - u) (fC b - v)
  rw [show fC (fcAdd a b) - (fC a + fC b) + ((fC a - u) + (fC b - v)) = fC (fcAdd a b) - (u + v) by ring] at t
  have := mul_le_mul_of_nonneg_left hn uf_pos.le
  linarith

theorem sub_near {a b : ℚ × ℚ} {u v : ℂ} {E1 E2 B1 B2 : ℝ} (h1 : ‖fC a - u‖ ≤ E1) (h2 : ‖fC b - v‖ ≤ E2) (h3 : ‖u‖ ≤ B1)
    (h4 : ‖v‖ ≤ B2) : ‖fC (fcSub a b) - (u - v)‖ ≤ ((B1 + E1) + (B2 + E2)) * (1 + uf) + 2 * eta - (B1 + B2) := by
  have e := fcSub_err a b
  have hn : ‖fC a - fC b‖ ≤ (B1 + E1) + (B2 + E2) := by
    have t1 := norm_sub_le (fC a) (fC b)
    have t2 := norm_add_le (fC a - u) u
    have t3 := norm_add_le (fC b - v) v
    rw [sub_add_cancel] at t2 t3
    linarith
  have t := norm_add_le (fC (fcSub a b) - (fC a - fC b)) ((fC a - u) - (fC b - v))
  have t' := norm_sub_le (fC a - u) (fC b - v)
  rw [show fC (fcSub a b) - (fC a - fC b) + ((fC a - u) - (fC b - v)) = fC (fcSub a b) - (u - v) by ring] at t
  have := mul_le_mul_of_nonneg_left hn uf_pos.le
  linarith

theorem mul_near {a w' : ℚ × ℚ} {v w : ℂ} (h1 : ‖fC a - v‖ ≤ E) (h2 : ‖v‖ ≤ B) (h3 : ‖fC w' - w‖ ≤ δ) (h4 : ‖w‖ = 1) :
    ‖fC (fcMul a w') - v * w‖ ≤ (B + E) * ((1 + δ) * (1 + 3 * uf)) + 8 * eta - B := by
  have e := fcMul_err a w'
  have hE : 0 ≤ E := le_trans (norm_nonneg _) h1
  have hB : 0 ≤ B := le_trans (norm_nonneg _) h2
  have hδ : 0 ≤ δ := le_trans (norm_nonneg _) h3
  have na : ‖fC a‖ ≤ B + E := by
    have t2 := norm_add_le (fC a - v) v
    rw [sub_add_cancel] at t2
    linarith
  have nw : ‖fC w'‖ ≤ 1 + δ := by
    have t2 := norm_add_le (fC w' - w) w
    rw [sub_add_cancel] at t2
    linarith
  have np : ‖fC a‖ * ‖fC w'‖ ≤ (B + E) * (1 + δ) := mul_le_mul na nw (norm_nonneg _) (by linarith)
  have hd : ‖fC a * fC w' - v * w‖ ≤ E * (1 + δ) + B * δ := by
    rw [show fC a * fC w' - v * w = (fC a - v) * fC w' + v * (fC w' - w) by ring]
    refine le_trans (norm_add_le _ _) ?_
    rw [norm_mul, norm_mul]
    exact add_le_add (mul_le_mul h1 nw (norm_nonneg _) hE) (mul_le_mul h2 h3 (norm_nonneg _) hB)
  have t := norm_add_le (fC (fcMul a w') - fC a * fC w') (fC a * fC w' - v * w)
  rw [sub_add_sub_cancel] at t
  have := mul_le_mul_of_nonneg_left np (show 0 ≤ 3 * uf by have := uf_pos; linarith)
  linarith

/-- growth of the bounds per layer -/
noncomputable def gh (δ : ℝ) : ℝ := (1 + uf) * ((1 + δ) * (1 + 3 * uf))

theorem gh_ge (hδ : 0 ≤ δ) : 1 ≤ gh δ := by
  have := uf_pos
  unfold gh
  have h1 : 1 ≤ (1 + δ) * (1 + 3 * uf) := one_le_mul_of_one_le_of_one_le (by linarith) (by linarith)
  exact one_le_mul_of_one_le_of_one_le (by linarith) h1

/-- the butterfly of the forward transform -/
theorem bf_near {a b w' : ℚ × ℚ} {u v w : ℂ} (a1 : ‖fC a - u‖ ≤ E) (a2 : ‖u‖ ≤ B) (b1 : ‖fC b - v‖ ≤ E) (b2 : ‖v‖ ≤ B)
    (h3 : ‖fC w' - w‖ ≤ δ) (h4 : ‖w‖ = 1) :
    ‖fC (fcAdd a (fcMul b w')) - (u + v * w)‖ ≤ 2 * gh δ * (B + E) + 11 * eta - 2 * B ∧
    ‖fC (fcSub a (fcMul b w')) - (u - v * w)‖ ≤ 2 * gh δ * (B + E) + 11 * eta - 2 * B := by
  have hE : 0 ≤ E := le_trans (norm_nonneg _) a1
  have hB : 0 ≤ B := le_trans (norm_nonneg _) a2
  have hδ : 0 ≤ δ := le_trans (norm_nonneg _) h3
  have hm := mul_near b1 b2 h3 h4
  have hv : ‖v * w‖ ≤ B := by rw [norm_mul, h4, mul_one]; exact b2
  have k1 := add_near a1 hm a2 hv
  have k2 := sub_near a1 hm a2 hv
  have hu := uf_pos
  have hu' := uf_le
  have he := eta_pos
  have hmm : 1 ≤ (1 + δ) * (1 + 3 * uf) := one_le_mul_of_one_le_of_one_le (by linarith) (by linarith)
  have h5 : (B + E) * (1 + uf) ≤ (B + E) * (1 + uf) * ((1 + δ) * (1 + 3 * uf)) :=
    le_mul_of_one_le_right (by positivity) hmm
  have h6 : uf * eta ≤ 1 / 1000 * eta := mul_le_mul_of_nonneg_right hu' he.le
  have key : (B + E + (B + ((B + E) * ((1 + δ) * (1 + 3 * uf)) + 8 * eta - B))) * (1 + uf) + 2 * eta - (B + B) ≤
      2 * gh δ * (B + E) + 11 * eta - 2 * B := by
    unfold gh
    have e : (B + E + (B + ((B + E) * ((1 + δ) * (1 + 3 * uf)) + 8 * eta - B))) * (1 + uf) =
      (B + E) * (1 + uf) + (B + E) * (1 + uf) * ((1 + δ) * (1 + 3 * uf)) + 8 * eta + 8 * (uf * eta) := by ring
    have e' : 2 * ((1 + uf) * ((1 + δ) * (1 + 3 * uf))) * (B + E) = 2 * ((B + E) * (1 + uf) * ((1 + δ) * (1 + 3 * uf))) := by ring
    rw [e, e']
    linarith
  exact ⟨k1.trans key, k2.trans key⟩

/-- the butterfly of the inverse transform -/
theorem ibf_near {a b w' : ℚ × ℚ} {u v w : ℂ} (a1 : ‖fC a - u‖ ≤ E) (a2 : ‖u‖ ≤ B) (b1 : ‖fC b - v‖ ≤ E) (b2 : ‖v‖ ≤ B)
    (h3 : ‖fC w' - w‖ ≤ δ) (h4 : ‖w‖ = 1) (hδ4 : δ ≤ 1 / 4) :
    ‖fC (fcAdd a b) - (u + v)‖ ≤ 2 * gh δ * (B + E) + 11 * eta - 2 * B ∧
    ‖fC (fcMul (fcSub a b) w') - (u - v) * w‖ ≤ 2 * gh δ * (B + E) + 11 * eta - 2 * B := by
  have hE : 0 ≤ E := le_trans (norm_nonneg _) a1
  have hB : 0 ≤ B := le_trans (norm_nonneg _) a2
  have hδ : 0 ≤ δ := le_trans (norm_nonneg _) h3
  have k1 := add_near a1 b1 a2 b2
  have hs := sub_near a1 b1 a2 b2
  have hv : ‖u - v‖ ≤ B + B := le_trans (norm_sub_le _ _) (add_le_add a2 b2)
  have k2 := mul_near hs hv h3 h4
  have hu := uf_pos
  have hu' := uf_le
  have he := eta_pos
  have hmm : 1 ≤ (1 + δ) * (1 + 3 * uf) := one_le_mul_of_one_le_of_one_le (by linarith) (by linarith)
  have hm2 : (1 + δ) * (1 + 3 * uf) ≤ 3 / 2 := by
    have := mul_le_mul (show 1 + δ ≤ 5 / 4 by linarith) (show 1 + 3 * uf ≤ 6 / 5 by linarith) (by linarith) (by norm_num)
    linarith
  unfold gh
  generalize (1 + δ) * (1 + 3 * uf) = m at *
  have h5 : (B + E) * (1 + uf) ≤ (B + E) * (1 + uf) * m := le_mul_of_one_le_right (by positivity) hmm
  have h6 : eta * m ≤ eta * (3 / 2) := mul_le_mul_of_nonneg_left hm2 he.le
  have e' : 2 * ((1 + uf) * m) * (B + E) = 2 * ((B + E) * (1 + uf) * m) := by ring
  refine ⟨k1.trans ?_, k2.trans ?_⟩
  · rw [e']; linarith
  · rw [e']
    have e : (B + B + ((B + E + (B + E)) * (1 + uf) + 2 * eta - (B + B))) * m = 2 * ((B + E) * (1 + uf) * m) + 2 * (eta * m) := by
      ring
    rw [e]
    linarith

end

/-! ### Layers -/

/-- the first `m` values agree up to `E` and are bounded by `B` -/
def Near (m : ℕ) (E B : ℝ) (xf : List (ℚ × ℚ)) (x : List ℂ) : Prop :=
  ∀ k < m, ‖fC (xf.getD k 0) - x.getD k 0‖ ≤ E ∧ ‖x.getD k 0‖ ≤ B

/-- a layer transports the bounds of its butterfly -/
theorem layer_near {bf' : ℚ × ℚ → ℚ × ℚ → ℚ × ℚ → (ℚ × ℚ) × (ℚ × ℚ)} {bf : ℂ → ℂ → ℂ → ℂ × ℂ} {w' : ℕ → ℚ × ℚ} {w : ℕ → ℂ}
    {nb t m : ℕ} {E B E' B' : ℝ} {xf : List (ℚ × ℚ)} {x : List ℂ} (ht : 0 < t) (hm : m ≤ nb * (2 * t)) (hd : 2 * t ∣ m)
    (hx : nb * (2 * t) ≤ xf.length) (hx' : nb * (2 * t) ≤ x.length)
    (hbf : ∀ j a b u v, ‖fC a - u‖ ≤ E → ‖u‖ ≤ B → ‖fC b - v‖ ≤ E → ‖v‖ ≤ B →
      (‖fC (bf' a b (w' j)).1 - (bf u v (w j)).1‖ ≤ E' ∧ ‖fC (bf' a b (w' j)).2 - (bf u v (w j)).2‖ ≤ E') ∧
      ‖(bf u v (w j)).1‖ ≤ B' ∧ ‖(bf u v (w j)).2‖ ≤ B')
    (h : Near m E B xf x) : Near m E' B' (fftLayer bf' w' nb t xf) (fftLayer bf w nb t x) := by
  intro k hk
  rw [fftLayer_at _ _ _ _ _ ht hx, fftLayer_at _ _ _ _ _ ht hx', if_pos (by omega), if_pos (by omega)]
  unfold layerFn
  obtain ⟨c, hc⟩ := hd
  have hdm := Nat.div_add_mod k (2 * t)
  split
  · rename_i hlt
    have hj2 : k + t < m := by
      have hq : k / (2 * t) < c := Nat.div_lt_of_lt_mul (by omega)
      have : 2 * t * (k / (2 * t)) + 2 * t ≤ 2 * t * c := by
        calc _ = 2 * t * (k / (2 * t) + 1) := by ring
          _ ≤ _ := Nat.mul_le_mul_left _ hq
      omega
    have := hbf (k % (2 * t)) _ _ _ _ (h k hk).1 (h k hk).2 (h _ hj2).1 (h _ hj2).2
    exact ⟨this.1.1, this.2.1⟩
  · rename_i hlt
    have hkt : k - t < m := by omega
    have := hbf (k % (2 * t) - t) _ _ _ _ (h _ hkt).1 (h _ hkt).2 (h k hk).1 (h k hk).2
    exact ⟨this.1.2, this.2.2⟩

section
variable {n d : ℕ} {roots : ℕ → ℂ} {roots' : ℕ → ℚ × ℚ} {δ : ℝ}

theorem fftRoot_idx {M len : ℕ} (j : ℕ) : rotGroup M j % (4 * len) * (M / (4 * len)) ≤ M := by
  rcases Nat.eq_zero_or_pos (4 * len) with h | h
  · rw [h]; simp
  · calc _ ≤ 4 * len * (M / (4 * len)) := Nat.mul_le_mul_right _ (Nat.mod_lt _ h).le
      _ ≤ M := Nat.mul_div_le _ _

theorem ifftRoot_idx {M len : ℕ} (j : ℕ) : (4 * len - rotGroup M j % (4 * len)) * (M / (4 * len)) ≤ M :=
  calc _ ≤ 4 * len * (M / (4 * len)) := Nat.mul_le_mul_right _ (Nat.sub_le _ _)
    _ ≤ M := Nat.mul_div_le _ _

theorem fftLayersF_length (u : Bool) (l : ℕ) (x : List (ℚ × ℚ)) :
    (fftLayersF u (2 ^ n) (2 ^ (n + 2 + d)) roots' l x).length = x.length := by
  induction l with
  | zero => rfl
  | succ l ih => rw [fftLayersF, fftLayer_length, ih]

theorem ifftLayersF_length (u : Bool) (l : ℕ) (x : List (ℚ × ℚ)) :
    (ifftLayersF u (2 ^ n) (2 ^ (n + 2 + d)) roots' l x).length = x.length := by
  induction l generalizing x with
  | zero => rfl
  | succ l ih => rw [ifftLayersF, ih, fftLayer_length]

/-- error after `l` layers -/
noncomputable def errF (δ : ℝ) (l : ℕ) (B E : ℝ) : ℝ := (2 * gh δ) ^ l * (B + E + 11 * eta) - 11 * eta - 2 ^ l * B

theorem errF_zero (B E : ℝ) : errF δ 0 B E = E := by unfold errF; ring

theorem errF_step (hδ : 0 ≤ δ) (l : ℕ) (B E : ℝ) :
    2 * gh δ * (2 ^ l * B + errF δ l B E) + 11 * eta - 2 * (2 ^ l * B) ≤ errF δ (l + 1) B E := by
  unfold errF
  have h1 := gh_ge hδ
  have := mul_le_mul_of_nonneg_right h1 eta_pos.le
  rw [pow_succ, pow_succ]
  have := eta_pos
  nlinarith

theorem errF_step' (hδ : 0 ≤ δ) (l : ℕ) (B E : ℝ) :
    errF δ l (2 * B) (2 * gh δ * (B + E) + 11 * eta - 2 * B) ≤ errF δ (l + 1) B E := by
  unfold errF
  have h1 := gh_ge hδ
  have h2 := mul_le_mul_of_nonneg_right h1 eta_pos.le
  have h3 := eta_pos
  have h4 : 0 ≤ (2 * gh δ) ^ l := pow_nonneg (by linarith) _
  have h5 := mul_le_mul_of_nonneg_left (show 22 * eta ≤ 2 * gh δ * (11 * eta) by linarith) h4
  have e1 : (2 * gh δ) ^ l * (2 * B + (2 * gh δ * (B + E) + 11 * eta - 2 * B) + 11 * eta) - 11 * eta - 2 ^ l * (2 * B) =
      (2 * gh δ) ^ l * (2 * gh δ * (B + E)) + (2 * gh δ) ^ l * (22 * eta) - 11 * eta - 2 ^ l * (2 * B) := by ring
  have e2 : (2 * gh δ) ^ (l + 1) * (B + E + 11 * eta) - 11 * eta - 2 ^ (l + 1) * B =
      (2 * gh δ) ^ l * (2 * gh δ * (B + E)) + (2 * gh δ) ^ l * (2 * gh δ * (11 * eta)) - 11 * eta - 2 ^ l * (2 * B) := by ring
  rw [e1, e2]
  linarith

/-- the layers of the forward transform -/
theorem fftLayersF_near (u : Bool) (hδ : 0 ≤ δ) (hn : ∀ i, ‖roots i‖ = 1) (hr : ∀ i ≤ 2 ^ (n + 2 + d), ‖fC (roots' i) - roots i‖ ≤ δ)
    {xf : List (ℚ × ℚ)} {x : List ℂ} (hx : fftCap u (2 ^ n) ≤ xf.length) (hx' : fftCap u (2 ^ n) ≤ x.length) {E B : ℝ}
    (h : Near (2 ^ n) E B xf x) (l : ℕ) (hl : l ≤ n) :
    Near (2 ^ n) (errF δ l B E) (2 ^ l * B) (fftLayersF u (2 ^ n) (2 ^ (n + 2 + d)) roots' l xf)
      (fftLayers u (2 ^ n) (2 ^ (n + 2 + d)) roots l x) := by
  induction l with
  | zero => rw [errF_zero, pow_zero, one_mul]; exact h
  | succ l ih =>
    obtain ⟨b1, b2⟩ := fftBlocks_bounds u (show l < n by omega)
    rw [fftLayersF, fftLayers]
    refine layer_near (Nat.two_pow_pos l) b1 ?_ (by rw [fftLayersF_length]; omega) (by rw [fftLayers_length]; omega) ?_ (ih (by omega))
    · rw [show 2 * 2 ^ l = 2 ^ (l + 1) by ring]; exact pow_dvd_pow 2 hl
    · intro j a b p q h1 h2 h3 h4
      have k := bf_near h1 h2 h3 h4 (hr _ (fftRoot_idx (len := 2 ^ (l + 1)) j)) (hn _)
      have hs := errF_step hδ l B E
      refine ⟨⟨k.1.trans hs, k.2.trans hs⟩, ?_, ?_⟩
      · refine le_trans (norm_add_le _ _) ?_
        rw [norm_mul, fftRoot, hn, mul_one, pow_succ]; linarith
      · refine le_trans (norm_sub_le _ _) ?_
        rw [norm_mul, fftRoot, hn, mul_one, pow_succ]; linarith

/-- the layers of the inverse transform -/
theorem ifftLayersF_near (u : Bool) (hδ : 0 ≤ δ) (hδ4 : δ ≤ 1 / 4) (hn : ∀ i, ‖roots i‖ = 1)
    (hr : ∀ i ≤ 2 ^ (n + 2 + d), ‖fC (roots' i) - roots i‖ ≤ δ) (l : ℕ) (hl : l ≤ n) :
    ∀ (xf : List (ℚ × ℚ)) (x : List ℂ) (E B : ℝ), fftCap u (2 ^ n) ≤ xf.length → fftCap u (2 ^ n) ≤ x.length →
      Near (2 ^ n) E B xf x →
      Near (2 ^ n) (errF δ l B E) (2 ^ l * B) (ifftLayersF u (2 ^ n) (2 ^ (n + 2 + d)) roots' l xf)
        (ifftLayers u (2 ^ n) (2 ^ (n + 2 + d)) roots l x) := by
  induction l with
  | zero => intro xf x E B _ _ h; rw [errF_zero, pow_zero, one_mul]; exact h
  | succ l ih =>
    intro xf x E B hx hx' h
    obtain ⟨b1, b2⟩ := fftBlocks_bounds u (show l < n by omega)
    rw [ifftLayersF, ifftLayers]
    have hd : 2 * 2 ^ l ∣ 2 ^ n := by
      rw [show 2 * 2 ^ l = 2 ^ (l + 1) by ring]; exact pow_dvd_pow 2 hl
    have h1 := layer_near (bf' := fun u v w => (fcAdd u v, fcMul (fcSub u v) w)) (bf := fun u v w => (u + v, (u - v) * w))
      (w' := ifftRoot roots' (2 ^ (n + 2 + d)) (2 ^ (l + 1))) (w := ifftRoot roots (2 ^ (n + 2 + d)) (2 ^ (l + 1)))
      (E' := 2 * gh δ * (B + E) + 11 * eta - 2 * B) (B' := 2 * B) (Nat.two_pow_pos l) b1 hd (xf := xf) (x := x) (by omega) (by omega) ?_ h
    · have h2 := ih (by omega) _ _ _ _ (by rw [fftLayer_length]; exact hx) (by rw [fftLayer_length]; exact hx') h1
      intro k hk
      refine ⟨(h2 k hk).1.trans (errF_step' hδ l B E), (h2 k hk).2.trans (le_of_eq ?_)⟩
      ring
    · intro j a b p q h1 h2 h3 h4
      have k := ibf_near h1 h2 h3 h4 (hr _ (ifftRoot_idx (len := 2 ^ (l + 1)) j)) (hn _) hδ4
      refine ⟨k, ?_, ?_⟩
      · refine le_trans (norm_add_le _ _) ?_
        linarith
      · rw [norm_mul, ifftRoot, hn, mul_one]
        refine le_trans (norm_sub_le _ _) ?_
        linarith

end

end FastKsw
