import Verif.Lemmas.BigComplex
import Verif.Lemmas.BigCos
import Verif.Lemmas.FloatFFT

/-! Helper lemmas: rounding errors of the transforms in `big.Float` arithmetic; compare `Lemmas/FloatFFT`. -/

namespace FastKsw

/-- a rounding with relative error `u` -/
structure RelRound (u : ℝ) (rnd : ℝ → ℝ) : Prop where
  pos : 0 ≤ u
  small : u ≤ 1 / 1000
  err : ∀ x, |rnd x - x| ≤ u * |x|

section
variable {u : ℝ} {rnd : ℝ → ℝ}

theorem RelRound.le (h : RelRound u rnd) (x : ℝ) : |rnd x| ≤ (1 + u) * |x| := by
  have h1 := abs_add_le (rnd x - x) x
  rw [sub_add_cancel] at h1
  have := h.err x
  linarith

theorem RelRound.zero (h : RelRound u rnd) : rnd 0 = 0 := by
  have := h.err 0
  rw [abs_zero, mul_zero, sub_zero] at this
  exact abs_eq_zero.1 (le_antisymm this (abs_nonneg _))

/-- the sign is kept -/
theorem RelRound.nonneg (h : RelRound u rnd) {x : ℝ} (hx : 0 ≤ x) : 0 ≤ rnd x := by
  have h1 := (abs_le.1 (h.err x)).1
  have h2 := h.small
  rw [abs_of_nonneg hx] at h1
  have := mul_le_mul_of_nonneg_right h2 hx
  linarith

theorem RelRound.neg (h : RelRound u rnd) {x : ℝ} (hx : x < 0) : rnd x < 0 := by
  have h1 := (abs_le.1 (h.err x)).2
  have h2 := h.small
  rw [abs_of_neg hx] at h1
  have := mul_le_mul_of_nonneg_right h2 (neg_pos.2 hx).le
  linarith

/-- two rounded parts -/
theorem RelRound.parts (h : 0 ≤ u) {a b x y : ℝ} (h1 : |a - x| ≤ u * |x|) (h2 : |b - y| ≤ u * |y|) :
    ‖(⟨a, b⟩ : ℂ) - ⟨x, y⟩‖ ≤ u * ‖(⟨x, y⟩ : ℂ)‖ := by
  have e0 : (⟨a, b⟩ : ℂ) - ⟨x, y⟩ = ⟨a - x, b - y⟩ := by apply Complex.ext <;> simp
  rw [e0]
  refine le_trans (norm_mk_le h1 h2) ?_
  have e1 : (⟨u * |x|, u * |y|⟩ : ℂ) = (u : ℂ) * ⟨|x|, |y|⟩ := by
    apply Complex.ext <;> simp
  rw [e1, norm_mul, norm_mk_abs, Complex.norm_real, Real.norm_eq_abs, abs_of_nonneg h]

theorem RelRound.add_err (h : RelRound u rnd) (a b : ℝ × ℝ) : ‖toC (bcAdd rnd a b) - (toC a + toC b)‖ ≤ u * ‖toC a + toC b‖ := by
  have e : toC a + toC b = ⟨a.1 + b.1, a.2 + b.2⟩ := by apply Complex.ext <;> simp [toC]
  rw [e]
  exact RelRound.parts h.pos (h.err _) (h.err _)

theorem RelRound.sub_err (h : RelRound u rnd) (a b : ℝ × ℝ) : ‖toC (bcSub rnd a b) - (toC a - toC b)‖ ≤ u * ‖toC a - toC b‖ := by
  have e : toC a - toC b = ⟨a.1 - b.1, a.2 - b.2⟩ := by apply Complex.ext <;> simp [toC]
  rw [e]
  exact RelRound.parts h.pos (h.err _) (h.err _)

/-- sum or difference of two rounded products -/
theorem RelRound.prod_err (h : RelRound u rnd) {p q p' q' s t : ℝ} (hp : |p' - p| ≤ u * |p|) (hq : |q' - q| ≤ u * |q|)
    (hs : |s - (p + q)| ≤ |p' - p| + |q' - q|) (ht : |t - s| ≤ u * |s|) :
    |t - (p + q)| ≤ (2 * u + u ^ 2) * (|p| + |q|) := by
  have h1 := abs_add_le (t - s) (s - (p + q))
  rw [sub_add_sub_cancel] at h1
  have h2 : |s| ≤ |p| + |q| + (u * |p| + u * |q|) := by
    have a1 := abs_add_le (s - (p + q)) (p + q)
    rw [sub_add_cancel] at a1
    have a2 := abs_add_le p q
    linarith
  have h3 := mul_le_mul_of_nonneg_left h2 h.pos
  have e : (2 * u + u ^ 2) * (|p| + |q|) = u * (|p| + |q| + (u * |p| + u * |q|)) + (u * |p| + u * |q|) := by ring
  rw [e]
  linarith

theorem RelRound.mul_err (h : RelRound u rnd) (a b : ℝ × ℝ) :
    ‖toC (bcMul rnd a b) - toC a * toC b‖ ≤ 3 * u * (‖toC a‖ * ‖toC b‖) := by
  obtain ⟨a1, a2⟩ := a
  obtain ⟨b1, b2⟩ := b
  have hcs1 : |a1 * b1| + |-(a2 * b2)| ≤ ‖toC (a1, a2)‖ * ‖toC (b1, b2)‖ := by
    have := Complex.re_le_norm ((⟨|a1|, |a2|⟩ : ℂ) * ⟨|b1|, -|b2|⟩)
    rw [norm_mul, norm_mk_abs] at this
    have e : ‖(⟨|b1|, -|b2|⟩ : ℂ)‖ ≤ ‖toC (b1, b2)‖ := by
      rw [show toC (b1, b2) = ⟨b1, b2⟩ from rfl, ← norm_mk_abs b1 b2]
      exact norm_mk_le (by rw [abs_abs]) (by rw [abs_neg, abs_abs])
    rw [abs_neg, abs_mul, abs_mul]
    have e2 := mul_le_mul_of_nonneg_left e (norm_nonneg (⟨a1, a2⟩ : ℂ))
    simp only [Complex.mul_re] at this
    refine le_trans ?_ e2
    linarith
  have hcs2 : |a1 * b2| + |a2 * b1| ≤ ‖toC (a1, a2)‖ * ‖toC (b1, b2)‖ := by
    have := Complex.im_le_norm ((⟨|a1|, |a2|⟩ : ℂ) * ⟨|b1|, |b2|⟩)
    rw [norm_mul, norm_mk_abs, norm_mk_abs] at this
    rw [abs_mul, abs_mul]
    simp only [Complex.mul_im] at this
    exact this
  have r1 : |rnd (rnd (a1 * b1) - rnd (a2 * b2)) - (a1 * b1 + -(a2 * b2))| ≤ (2 * u + u ^ 2) * (|a1 * b1| + |-(a2 * b2)|) := by
    refine h.prod_err (p' := rnd (a1 * b1)) (q' := -rnd (a2 * b2)) (h.err _) ?_ ?_ (h.err _)
    · rw [abs_neg, ← neg_sub', abs_neg]; exact h.err _
    · refine le_trans (le_of_eq ?_) (abs_add_le _ _)
      congr 1; ring
  have r2 : |rnd (rnd (a1 * b2) + rnd (a2 * b1)) - (a1 * b2 + a2 * b1)| ≤ (2 * u + u ^ 2) * (|a1 * b2| + |a2 * b1|) := by
    refine h.prod_err (p' := rnd (a1 * b2)) (q' := rnd (a2 * b1)) (h.err _) (h.err _) ?_ (h.err _)
    refine le_trans (le_of_eq ?_) (abs_add_le _ _)
    congr 1; ring
  set X := ‖toC (a1, a2)‖ * ‖toC (b1, b2)‖ with hX
  have hX0 : 0 ≤ X := by positivity
  have hup := h.pos
  have hg0 : 0 ≤ 2 * u + u ^ 2 := by positivity
  have m1 := mul_le_mul_of_nonneg_left hcs1 hg0
  have m2 := mul_le_mul_of_nonneg_left hcs2 hg0
  refine le_trans (Complex.norm_le_sqrt_two_mul_max _) ?_
  have hmax : max |(toC (bcMul rnd (a1, a2) (b1, b2)) - toC (a1, a2) * toC (b1, b2)).re|
      |(toC (bcMul rnd (a1, a2) (b1, b2)) - toC (a1, a2) * toC (b1, b2)).im| ≤ (2 * u + u ^ 2) * X := by
    refine max_le ?_ ?_
    · refine le_trans (le_of_eq ?_) (le_trans r1 (by linarith))
      simp [toC, bcMul, sub_eq_add_neg]
    · refine le_trans (le_of_eq ?_) (le_trans r2 (by linarith))
      simp [toC, bcMul]
  have hs2 : Real.sqrt 2 ≤ 1.45 := by
    rw [Real.sqrt_le_left (by norm_num)]; norm_num
  have hs0 := Real.sqrt_nonneg 2
  have hu := h.small
  have hY0 : 0 ≤ (2 * u + u ^ 2) * X := by positivity
  refine le_trans (mul_le_mul_of_nonneg_left hmax hs0) (le_trans (mul_le_mul_of_nonneg_right hs2 hY0) ?_)
  have hu2 : u ^ 2 ≤ 1 / 1000 * u := by rw [sq]; exact mul_le_mul_of_nonneg_right hu hup
  have hu3 : u ^ 2 * X ≤ 1 / 1000 * u * X := mul_le_mul_of_nonneg_right hu2 hX0
  have : 0 ≤ u * X := by positivity
  nlinarith

/-! ### Butterflies -/

variable {E B δ : ℝ}

theorem RelRound.add_near (h : RelRound u rnd) {a b : ℝ × ℝ} {p v : ℂ} {E1 E2 B1 B2 : ℝ} (h1 : ‖toC a - p‖ ≤ E1)
    (h2 : ‖toC b - v‖ ≤ E2) (h3 : ‖p‖ ≤ B1) (h4 : ‖v‖ ≤ B2) :
    ‖toC (bcAdd rnd a b) - (p + v)‖ ≤ ((B1 + E1) + (B2 + E2)) * (1 + u) - (B1 + B2) := by
  have e := h.add_err a b
  have hn : ‖toC a + toC b‖ ≤ (B1 + E1) + (B2 + E2) := by
    have t1 := norm_add_le (toC a) (toC b)
    have t2 := norm_add_le (toC a - p) p
    have t3 := norm_add_le (toC b - v) v
    rw [sub_add_cancel] at t2 t3
    linarith
  have t := norm_add_le (toC (bcAdd rnd a b) - (toC a + toC b)) ((toC a - p) + (toC b - v))
  have t' := norm_add_le (toC a - p) (toC b - v)
  rw [show toC (bcAdd rnd a b) - (toC a + toC b) + ((toC a - p) + (toC b - v)) = toC (bcAdd rnd a b) - (p + v) by ring] at t
  have := mul_le_mul_of_nonneg_left hn h.pos
  linarith

theorem RelRound.sub_near (h : RelRound u rnd) {a b : ℝ × ℝ} {p v : ℂ} {E1 E2 B1 B2 : ℝ} (h1 : ‖toC a - p‖ ≤ E1)
    (h2 : ‖toC b - v‖ ≤ E2) (h3 : ‖p‖ ≤ B1) (h4 : ‖v‖ ≤ B2) :
    ‖toC (bcSub rnd a b) - (p - v)‖ ≤ ((B1 + E1) + (B2 + E2)) * (1 + u) - (B1 + B2) := by
  have e := h.sub_err a b
  have hn : ‖toC a - toC b‖ ≤ (B1 + E1) + (B2 + E2) := by
    have t1 := norm_sub_le (toC a) (toC b)
    have t2 := norm_add_le (toC a - p) p
    have t3 := norm_add_le (toC b - v) v
    rw [sub_add_cancel] at t2 t3
    linarith
  have t := norm_add_le (toC (bcSub rnd a b) - (toC a - toC b)) ((toC a - p) - (toC b - v))
  have t' := norm_sub_le (toC a - p) (toC b - v)
  rw [show toC (bcSub rnd a b) - (toC a - toC b) + ((toC a - p) - (toC b - v)) = toC (bcSub rnd a b) - (p - v) by ring] at t
  have := mul_le_mul_of_nonneg_left hn h.pos
  linarith

theorem RelRound.mul_near (h : RelRound u rnd) {a w' : ℝ × ℝ} {v w : ℂ} (h1 : ‖toC a - v‖ ≤ E) (h2 : ‖v‖ ≤ B)
    (h3 : ‖toC w' - w‖ ≤ δ) (h4 : ‖w‖ = 1) :
    ‖toC (bcMul rnd a w') - v * w‖ ≤ (B + E) * ((1 + δ) * (1 + 3 * u)) - B := by
  have e := h.mul_err a w'
  have hE : 0 ≤ E := le_trans (norm_nonneg _) h1
  have hB : 0 ≤ B := le_trans (norm_nonneg _) h2
  have hδ : 0 ≤ δ := le_trans (norm_nonneg _) h3
  have na : ‖toC a‖ ≤ B + E := by
    have t2 := norm_add_le (toC a - v) v
    rw [sub_add_cancel] at t2
    linarith
  have nw : ‖toC w'‖ ≤ 1 + δ := by
    have t2 := norm_add_le (toC w' - w) w
    rw [sub_add_cancel] at t2
    linarith
  have np : ‖toC a‖ * ‖toC w'‖ ≤ (B + E) * (1 + δ) := mul_le_mul na nw (norm_nonneg _) (by linarith)
  have hd : ‖toC a * toC w' - v * w‖ ≤ E * (1 + δ) + B * δ := by
    rw [show toC a * toC w' - v * w = (toC a - v) * toC w' + v * (toC w' - w) by ring]
    refine le_trans (norm_add_le _ _) ?_
    rw [norm_mul, norm_mul]
    exact add_le_add (mul_le_mul h1 nw (norm_nonneg _) hE) (mul_le_mul h2 h3 (norm_nonneg _) hB)
  have t := norm_add_le (toC (bcMul rnd a w') - toC a * toC w') (toC a * toC w' - v * w)
  rw [sub_add_sub_cancel] at t
  have := mul_le_mul_of_nonneg_left np (show 0 ≤ 3 * u by have := h.pos; linarith)
  linarith

/-- growth of the bounds per layer -/
noncomputable def gB (u δ : ℝ) : ℝ := (1 + u) * ((1 + δ) * (1 + 3 * u))

theorem gB_ge (hu : 0 ≤ u) (hδ : 0 ≤ δ) : 1 ≤ gB u δ := by
  unfold gB
  have h1 : 1 ≤ (1 + δ) * (1 + 3 * u) := one_le_mul_of_one_le_of_one_le (by linarith) (by linarith)
  exact one_le_mul_of_one_le_of_one_le (by linarith) h1

/-- the butterfly of the forward transform -/
theorem RelRound.bf_near (h : RelRound u rnd) {a b w' : ℝ × ℝ} {p v w : ℂ} (a1 : ‖toC a - p‖ ≤ E) (a2 : ‖p‖ ≤ B)
    (b1 : ‖toC b - v‖ ≤ E) (b2 : ‖v‖ ≤ B) (h3 : ‖toC w' - w‖ ≤ δ) (h4 : ‖w‖ = 1) :
    ‖toC (bcAdd rnd a (bcMul rnd b w')) - (p + v * w)‖ ≤ 2 * gB u δ * (B + E) - 2 * B ∧
    ‖toC (bcSub rnd a (bcMul rnd b w')) - (p - v * w)‖ ≤ 2 * gB u δ * (B + E) - 2 * B := by
  have hE : 0 ≤ E := le_trans (norm_nonneg _) a1
  have hB : 0 ≤ B := le_trans (norm_nonneg _) a2
  have hδ : 0 ≤ δ := le_trans (norm_nonneg _) h3
  have hm := h.mul_near b1 b2 h3 h4
  have hv : ‖v * w‖ ≤ B := by rw [norm_mul, h4, mul_one]; exact b2
  have k1 := h.add_near a1 hm a2 hv
  have k2 := h.sub_near a1 hm a2 hv
  have hu := h.pos
  have hmm : 1 ≤ (1 + δ) * (1 + 3 * u) := one_le_mul_of_one_le_of_one_le (by linarith) (by linarith)
  have h5 : (B + E) * (1 + u) ≤ (B + E) * (1 + u) * ((1 + δ) * (1 + 3 * u)) :=
    le_mul_of_one_le_right (by positivity) hmm
  have key : (B + E + (B + ((B + E) * ((1 + δ) * (1 + 3 * u)) - B))) * (1 + u) - (B + B) ≤ 2 * gB u δ * (B + E) - 2 * B := by
    unfold gB
    have e : (B + E + (B + ((B + E) * ((1 + δ) * (1 + 3 * u)) - B))) * (1 + u) =
      (B + E) * (1 + u) + (B + E) * (1 + u) * ((1 + δ) * (1 + 3 * u)) := by ring
    have e' : 2 * ((1 + u) * ((1 + δ) * (1 + 3 * u))) * (B + E) = 2 * ((B + E) * (1 + u) * ((1 + δ) * (1 + 3 * u))) := by ring
    rw [e, e']
    linarith
  exact ⟨k1.trans key, k2.trans key⟩

/-- the butterfly of the inverse transform -/
theorem RelRound.ibf_near (h : RelRound u rnd) {a b w' : ℝ × ℝ} {p v w : ℂ} (a1 : ‖toC a - p‖ ≤ E) (a2 : ‖p‖ ≤ B)
    (b1 : ‖toC b - v‖ ≤ E) (b2 : ‖v‖ ≤ B) (h3 : ‖toC w' - w‖ ≤ δ) (h4 : ‖w‖ = 1) :
    ‖toC (bcAdd rnd a b) - (p + v)‖ ≤ 2 * gB u δ * (B + E) - 2 * B ∧
    ‖toC (bcMul rnd (bcSub rnd a b) w') - (p - v) * w‖ ≤ 2 * gB u δ * (B + E) - 2 * B := by
  have hE : 0 ≤ E := le_trans (norm_nonneg _) a1
  have hB : 0 ≤ B := le_trans (norm_nonneg _) a2
  have hδ : 0 ≤ δ := le_trans (norm_nonneg _) h3
  have k1 := h.add_near a1 b1 a2 b2
  have hs := h.sub_near a1 b1 a2 b2
  have hv : ‖p - v‖ ≤ B + B := le_trans (norm_sub_le _ _) (add_le_add a2 b2)
  have k2 := h.mul_near hs hv h3 h4
  have hu := h.pos
  have hmm : 1 ≤ (1 + δ) * (1 + 3 * u) := one_le_mul_of_one_le_of_one_le (by linarith) (by linarith)
  unfold gB
  generalize (1 + δ) * (1 + 3 * u) = m at *
  have h5 : (B + E) * (1 + u) ≤ (B + E) * (1 + u) * m := le_mul_of_one_le_right (by positivity) hmm
  have e' : 2 * ((1 + u) * m) * (B + E) = 2 * ((B + E) * (1 + u) * m) := by ring
  refine ⟨k1.trans ?_, k2.trans ?_⟩
  · rw [e']; linarith
  · rw [e']
    have e : (B + B + ((B + E + (B + E)) * (1 + u) - (B + B))) * m = 2 * ((B + E) * (1 + u) * m) := by ring
    rw [e]
    linarith

/-! ### Layers -/

/-- the first `m` values agree up to `E` and are bounded by `B` -/
def NearB (m : ℕ) (E B : ℝ) (xf : List (ℝ × ℝ)) (x : List ℂ) : Prop :=
  ∀ k < m, ‖toC (xf.getD k 0) - x.getD k 0‖ ≤ E ∧ ‖x.getD k 0‖ ≤ B

/-- a layer transports the bounds of its butterfly -/
theorem layer_nearB {bf' : ℝ × ℝ → ℝ × ℝ → ℝ × ℝ → (ℝ × ℝ) × (ℝ × ℝ)} {bf : ℂ → ℂ → ℂ → ℂ × ℂ} {w' : ℕ → ℝ × ℝ} {w : ℕ → ℂ}
    {nb t m : ℕ} {E B E' B' : ℝ} {xf : List (ℝ × ℝ)} {x : List ℂ} (ht : 0 < t) (hm : m ≤ nb * (2 * t)) (hd : 2 * t ∣ m)
    (hx : nb * (2 * t) ≤ xf.length) (hx' : nb * (2 * t) ≤ x.length)
    (hbf : ∀ j a b p v, ‖toC a - p‖ ≤ E → ‖p‖ ≤ B → ‖toC b - v‖ ≤ E → ‖v‖ ≤ B →
      (‖toC (bf' a b (w' j)).1 - (bf p v (w j)).1‖ ≤ E' ∧ ‖toC (bf' a b (w' j)).2 - (bf p v (w j)).2‖ ≤ E') ∧
      ‖(bf p v (w j)).1‖ ≤ B' ∧ ‖(bf p v (w j)).2‖ ≤ B')
    (h : NearB m E B xf x) : NearB m E' B' (fftLayer bf' w' nb t xf) (fftLayer bf w nb t x) := by
  intro k hk
  rw [fftLayer_at _ _ _ _ _ ht hx, fftLayer_at _ _ _ _ _ ht hx', if_pos (by omega), if_pos (by omega)]
  unfold layerFn
  obtain ⟨c, hc⟩ := hd
  have hdm := Nat.div_add_mod k (2 * t)
  split
  · rename_i hlt
    have hj2 : k + t < m := by
      have hq : k / (2 * t) < c := Nat.div_lt_of_lt_mul (by omega)
      have : 2 * t * (k / (2 * t)) + 2 * t ≤ 2 * t * c := by
        calc _ = 2 * t * (k / (2 * t) + 1) := by ring
          _ ≤ _ := Nat.mul_le_mul_left _ hq
      omega
    have := hbf (k % (2 * t)) _ _ _ _ (h k hk).1 (h k hk).2 (h _ hj2).1 (h _ hj2).2
    exact ⟨this.1.1, this.2.1⟩
  · rename_i hlt
    have hkt : k - t < m := by omega
    have := hbf (k % (2 * t) - t) _ _ _ _ (h _ hkt).1 (h _ hkt).2 (h k hk).1 (h k hk).2
    exact ⟨this.1.2, this.2.2⟩

/-- the layers of `FFT` -/
noncomputable def bLayers (rnd : ℝ → ℝ) (N M : ℕ) (roots : ℕ → ℝ × ℝ) : ℕ → List (ℝ × ℝ) → List (ℝ × ℝ)
  | 0, x => x
  | l + 1, x => fftLayer (fun u v w => (bcAdd rnd u (bcMul rnd v w), bcSub rnd u (bcMul rnd v w))) (fftRoot roots M (2 ^ (l + 1)))
      (fftBlocks false N (2 ^ (l + 1))) (2 ^ l) (bLayers rnd N M roots l x)

/-- the layers of `InvFFT` -/
noncomputable def bInvLayers (rnd : ℝ → ℝ) (N M : ℕ) (roots : ℕ → ℝ × ℝ) : ℕ → List (ℝ × ℝ) → List (ℝ × ℝ)
  | 0, x => x
  | l + 1, x => bInvLayers rnd N M roots l
      (fftLayer (fun u v w => (bcAdd rnd u v, bcMul rnd (bcSub rnd u v) w)) (ifftRoot roots M (2 ^ (l + 1)))
        (fftBlocks false N (2 ^ (l + 1))) (2 ^ l) x)

theorem bcFFTLayer_eq (m N lenh : ℕ) (roots : ℕ → ℝ × ℝ) (x : List (ℝ × ℝ)) :
    bcFFTLayer rnd m N (2 * lenh) roots x =
      fftLayer (fun u v w => (bcAdd rnd u (bcMul rnd v w), bcSub rnd u (bcMul rnd v w))) (fftRoot roots m (2 * lenh)) (N / (2 * lenh))
        lenh x := by
  unfold bcFFTLayer fftLayer fftRoot
  dsimp only
  simp only [Nat.mul_div_cancel_left _ (by norm_num : 0 < 2), mul_comm 4 (2 * lenh)]

theorem bcInvLayer_eq (m N lenh : ℕ) (roots : ℕ → ℝ × ℝ) (x : List (ℝ × ℝ)) :
    bcInvLayer rnd m N (2 * lenh) roots x =
      fftLayer (fun u v w => (bcAdd rnd u v, bcMul rnd (bcSub rnd u v) w)) (ifftRoot roots m (2 * lenh)) (N / (2 * lenh)) lenh x := by
  unfold bcInvLayer fftLayer ifftRoot
  dsimp only
  simp only [Nat.mul_div_cancel_left _ (by norm_num : 0 < 2), mul_comm 4 (2 * lenh)]

theorem bcInvLayer_one' (m N : ℕ) (roots : ℕ → ℝ × ℝ) (x : List (ℝ × ℝ)) : bcInvLayer rnd m N 1 roots x = x := by
  unfold bcInvLayer
  dsimp only
  have : ∀ l : List ℕ, l.foldl (fun (x : List (ℝ × ℝ)) (_ : ℕ) => x) x = x := by
    intro l; induction l with
    | nil => rfl
    | cons a l ih => exact ih
  exact this _

variable {n d : ℕ} {roots' : ℕ → ℝ × ℝ} {roots : ℕ → ℂ}

theorem bcFFTLoop_eq (m fuel : ℕ) : ∀ (l : ℕ) (x y : List (ℝ × ℝ)), l ≤ n → n - l ≤ fuel → x = bLayers rnd (2 ^ n) m roots' l y →
    bcFFTLoop rnd m (2 ^ n) roots' fuel (2 ^ (l + 1)) x = bLayers rnd (2 ^ n) m roots' n y := by
  induction fuel with
  | zero =>
    intro l x y hl hf h
    obtain rfl : l = n := by omega
    exact h
  | succ fuel ih =>
    intro l x y hl hf h
    rw [bcFFTLoop]
    split
    · rename_i hle
      have hlt : l + 1 ≤ n := (Nat.pow_le_pow_iff_right (by norm_num)).1 hle
      rw [← pow_succ]
      refine ih (l + 1) _ y hlt (by omega) ?_
      rw [show 2 ^ (l + 1) = 2 * 2 ^ l by ring, bcFFTLayer_eq, h, bLayers, show 2 ^ (l + 1) = 2 * 2 ^ l by ring]
      simp [fftBlocks]
    · rename_i hle
      obtain rfl : l = n := by
        by_contra hne
        exact hle (Nat.pow_le_pow_right (by norm_num) (by omega))
      exact h

theorem bcInvLoop_eq (m fuel : ℕ) : ∀ (l : ℕ) (x : List (ℝ × ℝ)), l ≤ fuel →
    bcInvLoop rnd m (2 ^ n) roots' fuel (2 ^ l) x = bInvLayers rnd (2 ^ n) m roots' l x := by
  induction fuel with
  | zero =>
    intro l x hl
    obtain rfl : l = 0 := by omega
    rfl
  | succ fuel ih =>
    intro l x hl
    rw [bcInvLoop, if_pos Nat.one_le_two_pow]
    cases l with
    | zero =>
      rw [pow_zero, bcInvLayer_one', bInvLayers]
      cases fuel with
      | zero => rfl
      | succ f => rw [bcInvLoop, if_neg (by norm_num)]
    | succ l =>
      rw [pow_succ, Nat.mul_div_cancel _ (by norm_num : 0 < 2), ih l _ (by omega), mul_comm (2 ^ l) 2, bcInvLayer_eq, bInvLayers,
        show 2 ^ (l + 1) = 2 * 2 ^ l by ring]
      simp [fftBlocks]

theorem bLayers_length (l : ℕ) (x : List (ℝ × ℝ)) : (bLayers rnd (2 ^ n) (2 ^ (n + 2 + d)) roots' l x).length = x.length := by
  induction l with
  | zero => rfl
  | succ l ih => rw [bLayers, fftLayer_length, ih]

theorem bInvLayers_length (l : ℕ) (x : List (ℝ × ℝ)) :
    (bInvLayers rnd (2 ^ n) (2 ^ (n + 2 + d)) roots' l x).length = x.length := by
  induction l generalizing x with
  | zero => rfl
  | succ l ih => rw [bInvLayers, ih, fftLayer_length]

/-- error after `l` layers -/
noncomputable def errB (u δ : ℝ) (l : ℕ) (B E : ℝ) : ℝ := (2 * gB u δ) ^ l * (B + E) - 2 ^ l * B

theorem errB_zero (B E : ℝ) : errB u δ 0 B E = E := by unfold errB; ring

theorem errB_step (l : ℕ) (B E : ℝ) :
    2 * gB u δ * (2 ^ l * B + errB u δ l B E) - 2 * (2 ^ l * B) = errB u δ (l + 1) B E := by
  unfold errB; ring

theorem errB_step' (l : ℕ) (B E : ℝ) : errB u δ l (2 * B) (2 * gB u δ * (B + E) - 2 * B) = errB u δ (l + 1) B E := by
  unfold errB; ring

/-- the layers of the forward transform -/
theorem bLayers_near (h0 : RelRound u rnd) (hn : ∀ i, ‖roots i‖ = 1)
    (hr : ∀ i ≤ 2 ^ (n + 2 + d), ‖toC (roots' i) - roots i‖ ≤ δ)
    {xf : List (ℝ × ℝ)} {x : List ℂ} (hx : 2 ^ n ≤ xf.length) (hx' : 2 ^ n ≤ x.length) {E B : ℝ}
    (h : NearB (2 ^ n) E B xf x) (l : ℕ) (hl : l ≤ n) :
    NearB (2 ^ n) (errB u δ l B E) (2 ^ l * B) (bLayers rnd (2 ^ n) (2 ^ (n + 2 + d)) roots' l xf)
      (fftLayers false (2 ^ n) (2 ^ (n + 2 + d)) roots l x) := by
  induction l with
  | zero => rw [errB_zero, pow_zero, one_mul]; exact h
  | succ l ih =>
    obtain ⟨b1, b2⟩ := fftBlocks_bounds false (show l < n by omega)
    have hcap : fftCap false (2 ^ n) = 2 ^ n := rfl
    rw [bLayers, fftLayers]
    refine layer_nearB (Nat.two_pow_pos l) b1 ?_ (by rw [bLayers_length]; omega) (by rw [fftLayers_length]; omega) ?_ (ih (by omega))
    · rw [show 2 * 2 ^ l = 2 ^ (l + 1) by ring]; exact pow_dvd_pow 2 hl
    · intro j a b p q h1 h2 h3 h4
      have k := h0.bf_near h1 h2 h3 h4 (hr _ (fftRoot_idx (len := 2 ^ (l + 1)) j)) (hn _)
      rw [errB_step] at k
      refine ⟨k, ?_, ?_⟩
      · refine le_trans (norm_add_le _ _) ?_
        rw [norm_mul, fftRoot, hn, mul_one, pow_succ]; linarith
      · refine le_trans (norm_sub_le _ _) ?_
        rw [norm_mul, fftRoot, hn, mul_one, pow_succ]; linarith

/-- the layers of the inverse transform -/
theorem bInvLayers_near (h0 : RelRound u rnd) (hn : ∀ i, ‖roots i‖ = 1)
    (hr : ∀ i ≤ 2 ^ (n + 2 + d), ‖toC (roots' i) - roots i‖ ≤ δ) (l : ℕ) (hl : l ≤ n) :
    ∀ (xf : List (ℝ × ℝ)) (x : List ℂ) (E B : ℝ), 2 ^ n ≤ xf.length → 2 ^ n ≤ x.length → NearB (2 ^ n) E B xf x →
      NearB (2 ^ n) (errB u δ l B E) (2 ^ l * B) (bInvLayers rnd (2 ^ n) (2 ^ (n + 2 + d)) roots' l xf)
        (ifftLayers false (2 ^ n) (2 ^ (n + 2 + d)) roots l x) := by
  induction l with
  | zero => intro xf x E B _ _ h; rw [errB_zero, pow_zero, one_mul]; exact h
  | succ l ih =>
    intro xf x E B hx hx' h
    obtain ⟨b1, b2⟩ := fftBlocks_bounds false (show l < n by omega)
    have hcap : fftCap false (2 ^ n) = 2 ^ n := rfl
    rw [bInvLayers, ifftLayers]
    have hd : 2 * 2 ^ l ∣ 2 ^ n := by
      rw [show 2 * 2 ^ l = 2 ^ (l + 1) by ring]; exact pow_dvd_pow 2 hl
    have h1 := layer_nearB (bf' := fun u v w => (bcAdd rnd u v, bcMul rnd (bcSub rnd u v) w)) (bf := fun u v w => (u + v, (u - v) * w))
      (w' := ifftRoot roots' (2 ^ (n + 2 + d)) (2 ^ (l + 1))) (w := ifftRoot roots (2 ^ (n + 2 + d)) (2 ^ (l + 1)))
      (E' := 2 * gB u δ * (B + E) - 2 * B) (B' := 2 * B) (Nat.two_pow_pos l) b1 hd (xf := xf) (x := x) (by omega) (by omega) ?_ h
    · have h2 := ih (by omega) _ _ _ _ (by rw [fftLayer_length]; exact hx) (by rw [fftLayer_length]; exact hx') h1
      intro k hk
      refine ⟨(h2 k hk).1.trans (errB_step' l B E).le, (h2 k hk).2.trans (le_of_eq ?_)⟩
      ring
    · intro j a b p q h1 h2 h3 h4
      have k := h0.ibf_near h1 h2 h3 h4 (hr _ (ifftRoot_idx (len := 2 ^ (l + 1)) j)) (hn _)
      refine ⟨k, ?_, ?_⟩
      · refine le_trans (norm_add_le _ _) ?_
        linarith
      · rw [norm_mul, ifftRoot, hn, mul_one]
        refine le_trans (norm_sub_le _ _) ?_
        linarith

end

end FastKsw
