import Verif.Lemmas.GaussianMass

/-!
# The Gaussian sampler with rounded arithmetic

The machine with rounded operations and the one with exact operations read the same bytes.  They take different ways only
for words whose point is near an edge, and for draws near the border of a test.
-/

namespace FastKsw

open MeasureTheory Finset
open scoped ENNReal

/-! ## Two machines on the same bytes -/

section
variable {B : ℕ} {Q Q' β : Type*} [DecidableEq β]

theorem hit_nonneg (step : Q → (Fin B → UInt8) → Q ⊕ β) (W : Finset β) (q : Q) : 0 ≤ hit step W q := ENNReal.toReal_nonneg

theorem hit_le_one (step : Q → (Fin B → UInt8) → Q ⊕ β) (W : Finset β) (q : Q) : hit step W q ≤ 1 := by
  have := ENNReal.toReal_mono ENNReal.one_ne_top (runLaw_le_one step W q)
  rwa [ENNReal.toReal_one] at this

theorem hit_diff {s₁ : Q → (Fin B → UInt8) → Q ⊕ β} {s₂ : Q' → (Fin B → UInt8) → Q' ⊕ β} {W : Finset β} {q₁ : Q} {q₂ : Q'}
    {C : (Fin B → UInt8) → ℝ}
    (h : ∀ b, |Sum.elim (hit s₁ W) (fun w => if w ∈ W then (1 : ℝ) else 0) (s₁ q₁ b)
      - Sum.elim (hit s₂ W) (fun w => if w ∈ W then (1 : ℝ) else 0) (s₂ q₂ b)| ≤ C b) :
    |hit s₁ W q₁ - hit s₂ W q₂| ≤ (1 / 256 ^ B : ℝ) * ∑ b, C b := by
  rw [hit_first, hit_first, ← mul_sub, ← sum_sub_distrib, abs_mul, abs_of_pos (by positivity)]
  gcongr
  exact (abs_sum_le_sum_abs _ _).trans (sum_le_sum fun b _ => h b)

theorem elim_diff_le_one {s₁ : Q → (Fin B → UInt8) → Q ⊕ β} {s₂ : Q' → (Fin B → UInt8) → Q' ⊕ β} {W : Finset β}
    (x : Q ⊕ β) (y : Q' ⊕ β) : |Sum.elim (hit s₁ W) (fun w => if w ∈ W then (1 : ℝ) else 0) x
      - Sum.elim (hit s₂ W) (fun w => if w ∈ W then (1 : ℝ) else 0) y| ≤ 1 := by
  have h1 : 0 ≤ Sum.elim (hit s₁ W) (fun w => if w ∈ W then (1 : ℝ) else 0) x ∧
      Sum.elim (hit s₁ W) (fun w => if w ∈ W then (1 : ℝ) else 0) x ≤ 1 := by
    cases x with
    | inl q => exact ⟨hit_nonneg _ _ _, hit_le_one _ _ _⟩
    | inr w => simp only [Sum.elim_inr]; split_ifs <;> norm_num
  have h2 : 0 ≤ Sum.elim (hit s₂ W) (fun w => if w ∈ W then (1 : ℝ) else 0) y ∧
      Sum.elim (hit s₂ W) (fun w => if w ∈ W then (1 : ℝ) else 0) y ≤ 1 := by
    cases y with
    | inl q => exact ⟨hit_nonneg _ _ _, hit_le_one _ _ _⟩
    | inr w => simp only [Sum.elim_inr]; split_ifs <;> norm_num
  rw [abs_le]
  constructor <;> linarith [h1.1, h1.2, h2.1, h2.2]

end

/-- numbers at most `D` apart are at most `D + 1` many -/
theorem count_diam (N : ℕ) (c : ℕ → Prop) [DecidablePred c] {D : ℝ} (hD : 0 ≤ D)
    (h : ∀ u < N, ∀ v < N, u ≤ v → c u → c v → (v : ℝ) - u ≤ D) : ∑ u ∈ range N, (if c u then (1 : ℝ) else 0) ≤ D + 1 := by
  rw [← sum_filter, sum_const, nsmul_eq_mul, mul_one]
  rcases ((range N).filter c).eq_empty_or_nonempty with he | he
  · rw [he, card_empty]; push_cast; linarith
  · have hmin := min'_mem _ he
    have hmax := max'_mem _ he
    have hle : ((range N).filter c).min' he ≤ ((range N).filter c).max' he := min'_le _ _ hmax
    have hsub : (range N).filter c ⊆ Icc (((range N).filter c).min' he) (((range N).filter c).max' he) := fun u hu =>
      mem_Icc.2 ⟨min'_le _ _ hu, le_max' _ _ hu⟩
    have hc := card_le_card hsub
    rw [Nat.card_Icc] at hc
    generalize ((range N).filter c).min' he = a at *
    generalize ((range N).filter c).max' he = b at *
    rw [mem_filter, mem_range] at hmin hmax
    have hd := h a hmin.1 b hmax.1 hle hmin.2 hmax.2
    have : (((range N).filter c).card : ℝ) ≤ ((b - a + 1 : ℕ) : ℝ) := by
      have : ((range N).filter c).card ≤ b - a + 1 := by omega
      exact_mod_cast this
    push_cast [Nat.cast_sub hle] at this
    linarith

/-! ## Edges -/

/-- the point `x` is so near to the edge `e` that rounding may move it across -/
def NearEdge (e x : ℝ) : Prop := e * (1 - 1 / 2 ^ 22) < x ∧ x < e * (1 + 1 / 2 ^ 22)

theorem edge_iff {s x y z : ℝ} {k : ℕ} (hs : 0 < s) (hs2 : s ≤ 2 ^ 59) (hx : 0 ≤ x)
    (hy : |y - x| ≤ 1 / 2 ^ 23 * x + 1 / 2 ^ 100) (hz : |z - (1 / 2 + y * s)| ≤ 1 / 2 ^ 50 * (1 + |y * s|))
    (hn : ¬ NearEdge ((k + 1 / 2) / s) x) : ⌊z⌋₊ ≤ k ↔ x < (k + 1 / 2) / s := by
  rw [← Nat.lt_succ_iff, Nat.floor_lt' (Nat.succ_ne_zero k), lt_div_iff₀ hs]
  push_cast
  have hk : (0 : ℝ) ≤ k := Nat.cast_nonneg k
  have hX : 0 ≤ x * s := by positivity
  have hY : |y * s - x * s| ≤ 1 / 2 ^ 23 * (x * s) + 1 / 2 ^ 41 := by
    rw [← sub_mul, abs_mul, abs_of_pos hs]
    calc |y - x| * s ≤ (1 / 2 ^ 23 * x + 1 / 2 ^ 100) * s := by gcongr
      _ = 1 / 2 ^ 23 * (x * s) + 1 / 2 ^ 100 * s := by ring
      _ ≤ 1 / 2 ^ 23 * (x * s) + 1 / 2 ^ 100 * 2 ^ 59 := by gcongr
      _ = _ := by norm_num
  have hn' : x * s ≤ (k + 1 / 2) * (1 - 1 / 2 ^ 22) ∨ (k + 1 / 2) * (1 + 1 / 2 ^ 22) ≤ x * s := by
    rw [NearEdge, not_and_or, not_lt, not_lt] at hn
    rcases hn with h | h
    · left
      have := mul_le_mul_of_nonneg_right h hs.le
      rwa [show ((k : ℝ) + 1 / 2) / s * (1 - 1 / 2 ^ 22) * s = (k + 1 / 2) * (1 - 1 / 2 ^ 22) by field_simp] at this
    · right
      have := mul_le_mul_of_nonneg_right h hs.le
      rwa [show ((k : ℝ) + 1 / 2) / s * (1 + 1 / 2 ^ 22) * s = (k + 1 / 2) * (1 + 1 / 2 ^ 22) by field_simp] at this
  generalize x * s = X at *
  generalize y * s = Y at *
  have h1 := abs_le.1 hY
  have h2 := abs_le.1 hz
  have h3 : |Y| ≤ X * (1 + 1 / 2 ^ 23) + 1 / 2 ^ 41 := by
    rw [abs_le]
    constructor <;> linarith [h1.1, h1.2]
  norm_num at h1 h2 h3 hn' ⊢
  constructor
  · intro h
    rcases hn' with hn | hn
    · linarith
    · exfalso; linarith [h1.1, h2.1]
  · intro h
    rcases hn' with hn | hn
    · linarith [h1.2, h2.2]
    · exfalso; linarith

section
variable {F : Type} {O : FloatOps F} {V : F → ℝ → Prop} {sigma : F} {s : ℝ} {bound : UInt64} {n : ℕ}

/-- what follows an accepted point, with rounded arithmetic -/
theorem finish_close (hO : O.Close V) (hsig : V sigma s) (hs : 0 < s) (hs2 : s ≤ 2 ^ 59) (hn : n ≤ bound.toNat) {a : F} {x y : ℝ}
    (ha : V a y) (hx0 : 0 ≤ x) (hx : x ≤ 24) (hy : |y - x| ≤ 1 / 2 ^ 23 * x + 1 / 2 ^ 100)
    (h1 : ¬ NearEdge ((n + 1 / 2) / s) x) (h2 : ¬ NearEdge ((bound.toNat + 1 / 2) / s) x) (sign : Bool) :
    Sum.elim (hit (gaussStep O sigma bound) (Icc (-(n : ℤ)) n)) (fun w => if w ∈ Icc (-(n : ℤ)) n then 1 else 0)
      (gaussFinish O sigma bound a sign)
      = finishVal s bound n (hit (gaussStep O sigma bound) (Icc (-(n : ℤ)) n) .top) x := by
  obtain ⟨h, hh, hh'⟩ := hO.lit 0.5 (by norm_num)
  norm_num at hh'
  have hhb := abs_le.1 hh'
  have hyb := abs_le.1 hy
  norm_num at hhb hyb
  have hyl : -1 ≤ y := by linarith [hyb.1]
  have hyu : y ≤ 25 := by linarith [hyb.2]
  have hys : |y * s| ≤ 25 * 2 ^ 59 := by
    rw [abs_mul, abs_of_pos hs]
    have : |y| ≤ 25 := by rw [abs_le]; constructor <;> linarith
    gcongr
  have hhw : |h| ≤ 1 := by rw [abs_le]; constructor <;> linarith [hhb.1, hhb.2]
  obtain ⟨z, hz, hz'⟩ := hO.mulAdd hh ha hsig (hhw.trans (by norm_num)) (hys.trans (by norm_num))
  have hz2 : |z - (1 / 2 + y * s)| ≤ 1 / 2 ^ 50 * (1 + |y * s|) := by
    have e : z - (1 / 2 + y * s) = (z - (h + y * s)) + (h - 1 / 2) := by ring
    rw [e]
    refine (abs_add_le _ _).trans ?_
    have e2 : |h - 1 / 2| ≤ 1 / 2 ^ 53 := by rw [abs_le]; norm_num; constructor <;> linarith [hhb.1, hhb.2]
    have h5 : |h| ≤ 1 / 2 + 1 / 2 ^ 53 := by rw [abs_le] at e2 ⊢; norm_num at e2 ⊢; constructor <;> linarith [e2.1, e2.2]
    have := abs_nonneg (y * s)
    generalize |y * s| = A at *
    norm_num at hz' e2 h5 ⊢
    linarith
  have hys0 : -(1 / 2 ^ 10 : ℝ) ≤ y * s := by
    have h4 : -(1 / 2 ^ 100 : ℝ) ≤ y := by norm_num; linarith [hyb.1]
    calc -(1 / 2 ^ 10 : ℝ) ≤ -(1 / 2 ^ 100) * 2 ^ 59 := by norm_num
      _ ≤ -(1 / 2 ^ 100) * s := by
        have : (1 / 2 ^ 100 : ℝ) * s ≤ 1 / 2 ^ 100 * 2 ^ 59 := by gcongr
        linarith
      _ ≤ y * s := by gcongr
  have hzb := abs_le.1 hz2
  have hysb := abs_le.1 hys
  have hz0 : 0 ≤ z := by
    have h3 : |y * s| ≤ y * s + 2 * (1 / 2 ^ 10) := by rw [abs_le]; constructor <;> linarith
    generalize |y * s| = A at *
    norm_num at hzb hys0 h3 ⊢
    linarith [hzb.1]
  have hz64 : z < 2 ^ 64 := by
    have := hzb.2
    generalize |y * s| = A at *
    norm_num at this hys hysb ⊢
    linarith [hysb.2]
  have hc := hO.toU64 hz hz0 hz64
  have ke := fun {k : ℕ} => edge_iff (k := k) hs hs2 hx0 hy hz2
  unfold gaussFinish finishVal
  simp only [UInt64.le_iff_toNat_le, hc, ke h2]
  by_cases h : x < (bound.toNat + 1 / 2) / s
  · rw [if_pos h, if_pos h, Sum.elim_inr]
    refine if_congr ?_ rfl rfl
    rw [← ke h1, ← hc, mem_Icc, gaussInt]
    dsimp only
    split <;> omega
  · rw [if_neg h, if_neg h, Sum.elim_inl, if_neg]
    intro h3
    refine h (h3.trans_le ?_)
    gcongr

/-! ## The wedge -/

theorem mask_le (l : List UInt8) : (((beUint l &&& 0x1fffffffffffff).toNat : ℕ) : ℝ) ≤ tailM := by
  have hu : (beUint l &&& 0x1fffffffffffff).toNat < 2 ^ 53 := by
    rw [UInt64.toNat_and, show (0x1fffffffffffff : UInt64).toNat = 2 ^ 53 - 1 by decide, Nat.and_two_pow_sub_one_eq_mod]
    exact Nat.mod_lt _ (by norm_num)
  have : (((beUint l &&& 0x1fffffffffffff).toNat : ℕ) : ℝ) + 1 ≤ 2 ^ 53 := by exact_mod_cast hu
  rw [tailM]
  linarith

theorem rand_close (hO : O.Close V) (l : List UInt8) : ∃ t, V (randFloat64 O l) t ∧
    |t - ((beUint l &&& 0x1fffffffffffff).toNat : ℕ) / tailM|
      ≤ 1 / 2 ^ 53 * (((beUint l &&& 0x1fffffffffffff).toNat : ℕ) / tailM) + 1 / 2 ^ 140 := by
  have hM := tailM_pos
  have hu : (beUint l &&& 0x1fffffffffffff).toNat < 2 ^ 53 := by
    rw [UInt64.toNat_and, show (0x1fffffffffffff : UInt64).toNat = 2 ^ 53 - 1 by decide, Nat.and_two_pow_sub_one_eq_mod]
    exact Nat.mod_lt _ (by norm_num)
  have hu' := mask_le l
  have h1 := hO.ofNat _ hu
  have h2 := hO.ofNat 0x1fffffffffffff (by norm_num)
  have e : ((0x1fffffffffffff : ℕ) : ℝ) = tailM := by rw [tailM]; norm_num
  rw [e] at h2
  rw [randFloat64]
  generalize (beUint l &&& 0x1fffffffffffff).toNat = u at *
  have h0 : (0 : ℝ) ≤ u / tailM := by positivity
  have h3 : (u : ℝ) / tailM ≤ 1 := (div_le_one hM).2 hu'
  obtain ⟨t, h4, h5⟩ := hO.div h1 h2 hM.ne' (by rw [abs_of_nonneg h0]; linarith)
  rw [abs_of_nonneg h0] at h5
  exact ⟨t, h4, h5⟩

theorem zigY_facts {i : ℕ} (h1 : 1 ≤ i) (h2 : i < 128) : (0 : ℝ) ≤ zigY i ∧ (zigY (i - 1) : ℝ) ≤ 1 ∧
    (287 / 10 ^ 5 : ℝ) ≤ zigY (i - 1) - zigY i ∧ (zigY (i - 1) : ℝ) - zigY i ≤ 1 / 20 := by
  have h : ∀ i < 127, (0 : ℚ) ≤ zigY (i + 1) ∧ zigY i ≤ 1 ∧ (287 / 10 ^ 5 : ℚ) ≤ zigY i - zigY (i + 1) ∧ zigY i - zigY (i + 1) ≤ 1 / 20 := by
    decide +kernel
  obtain ⟨a, b, c, d⟩ := h (i - 1) (by omega)
  rw [show i - 1 + 1 = i by omega] at a c d
  refine ⟨by exact_mod_cast a, by exact_mod_cast b, ?_, ?_⟩
  · have := cast_le_real c
    push_cast at this
    exact this
  · have := cast_le_real d
    push_cast at this
    exact this

theorem lhs_close (hO : O.Close V) {i : ℕ} (h1 : 1 ≤ i) (h2 : i < 128) (l : List UInt8) : ∃ z,
    V (O.mulAdd32 (O.lit32 (zigF.getD i 0)) (O.to32 (randFloat64 O l)) (O.sub32 (O.lit32 (zigF.getD (i - 1) 0)) (O.lit32 (zigF.getD i 0)))) z ∧
    |z - ((zigY i : ℝ) + (((beUint l &&& 0x1fffffffffffff).toNat : ℕ) / tailM) * (zigY (i - 1) - zigY i))| ≤ 8 / 2 ^ 24 := by
  obtain ⟨y0, y1, d0, d1⟩ := zigY_facts h1 h2
  obtain ⟨t, ht, ht'⟩ := rand_close hO l
  have hM := tailM_pos
  have hT : (((beUint l &&& 0x1fffffffffffff).toNat : ℕ) : ℝ) / tailM ≤ 1 := by
    rw [div_le_one hM]
    exact mask_le l
  have hT0 : (0 : ℝ) ≤ (((beUint l &&& 0x1fffffffffffff).toNat : ℕ) : ℝ) / tailM := by positivity
  generalize (((beUint l &&& 0x1fffffffffffff).toNat : ℕ) : ℝ) / tailM = T at *
  have ey : ∀ k, ((zigF.getD k 0 : ℚ) : ℝ) = zigY k := fun k => rfl
  obtain ⟨p, hp, hp'⟩ := hO.lit32 (zigF.getD i 0) (by rw [ey, abs_of_nonneg y0]; linarith)
  obtain ⟨p', hq, hq'⟩ := hO.lit32 (zigF.getD (i - 1) 0) (by rw [ey, abs_of_nonneg (by linarith)]; linarith)
  rw [ey, abs_of_nonneg y0] at hp'
  rw [ey, abs_of_nonneg (show (0 : ℝ) ≤ zigY (i - 1) by linarith)] at hq'
  generalize (zigY i : ℝ) = Y at *
  generalize (zigY (i - 1) : ℝ) = Y' at *
  have bp := abs_le.1 hp'
  have bq := abs_le.1 hq'
  norm_num at bp bq
  have hd : |p' - p - (Y' - Y)| ≤ 2.001 / 2 ^ 24 := by
    rw [abs_le]
    norm_num
    constructor <;> linarith [bp.1, bp.2, bq.1, bq.2]
  have bd := abs_le.1 hd
  norm_num at bd
  have hd2 : |p' - p| ≤ 1 / 19 := by
    rw [abs_le]
    constructor <;> linarith [bd.1, bd.2]
  obtain ⟨d, hd3, hd3'⟩ := hO.sub32 hq hp (hd2.trans (by norm_num))
  have hd4 : |d - (Y' - Y)| ≤ 2.1 / 2 ^ 24 := by
    have e : d - (Y' - Y) = (d - (p' - p)) + (p' - p - (Y' - Y)) := by ring
    rw [e]
    refine (abs_add_le _ _).trans ?_
    norm_num at hd3' hd hd2 ⊢
    linarith
  have bt := abs_le.1 ht'
  norm_num at bt
  have ht2 : |t| ≤ 1.001 := by rw [abs_le]; norm_num; constructor <;> linarith [bt.1, bt.2]
  obtain ⟨τ, hτ, hτ'⟩ := hO.to32 ht (ht2.trans (by norm_num))
  have hτ2 : |τ - T| ≤ 1.1 / 2 ^ 24 := by
    have e : τ - T = (τ - t) + (t - T) := by ring
    rw [e]
    refine (abs_add_le _ _).trans ?_
    norm_num at ht' hτ' ht2 ⊢
    linarith
  have bd4 := abs_le.1 hd4
  norm_num at bd4
  have hdd : |d| ≤ 1 / 19 := by rw [abs_le]; constructor <;> linarith [bd4.1, bd4.2]
  have hprod : |τ * d - T * (Y' - Y)| ≤ 2.2 / 2 ^ 24 := by
    have e : τ * d - T * (Y' - Y) = (τ - T) * d + T * (d - (Y' - Y)) := by ring
    rw [e]
    refine (abs_add_le _ _).trans ?_
    rw [abs_mul, abs_mul, abs_of_nonneg hT0]
    have a1 : |τ - T| * |d| ≤ 1.1 / 2 ^ 24 * (1 / 19) := by gcongr
    have a2 : T * |d - (Y' - Y)| ≤ 1 * (2.1 / 2 ^ 24) := by gcongr
    norm_num at a1 a2 ⊢
    linarith
  have hTd : T * (Y' - Y) ≤ 1 * (1 / 20) := mul_le_mul hT d1 (by linarith) (by norm_num)
  have hTd0 : 0 ≤ T * (Y' - Y) := mul_nonneg hT0 (by linarith)
  have bprod := abs_le.1 hprod
  norm_num at bprod
  have hpd : |τ * d| ≤ 1 / 19 := by rw [abs_le]; constructor <;> linarith [bprod.1, bprod.2]
  have hpp : |p| ≤ 1.001 := by rw [abs_le]; norm_num; constructor <;> linarith [bp.1, bp.2]
  obtain ⟨z, hz, hz'⟩ := hO.mulAdd32 hp hτ hd3 (hpp.trans (by norm_num)) (hpd.trans (by norm_num))
  refine ⟨z, hz, ?_⟩
  have e : z - (Y + T * (Y' - Y)) = (z - (p + τ * d)) + (p - Y) + (τ * d - T * (Y' - Y)) := by ring
  rw [e]
  refine (abs_add_le _ _).trans ((add_le_add_left (abs_add_le _ _) _).trans ?_)
  generalize |τ * d| = A at *
  generalize |τ * d - T * (Y' - Y)| = A' at *
  norm_num at hz' hp' hprod hpd hpp ⊢
  linarith

theorem mul_exp_neg_le (t : ℝ) : t * Real.exp (-t) ≤ 1 := by
  have h := Real.add_one_le_exp t
  rw [Real.exp_neg, ← div_eq_mul_inv, div_le_one (Real.exp_pos t)]
  linarith

theorem exp_near {t m Δ : ℝ} (h : |m + t| ≤ Δ) (hΔ : Δ ≤ 1 / 100) : |Real.exp m - Real.exp (-t)| ≤ 1.02 * Δ * Real.exp (-t) := by
  have e : Real.exp m = Real.exp (-t) * Real.exp (m + t) := by rw [← Real.exp_add]; ring_nf
  have h1 : |Real.exp (m + t) - 1| ≤ 1.02 * Δ := by
    have h2 := Real.abs_exp_sub_one_sub_id_le (x := m + t) (by linarith)
    have h3 : (m + t) ^ 2 ≤ 1 / 100 * |m + t| := by
      rw [← sq_abs, sq]
      have : |m + t| ≤ 1 / 100 := h.trans hΔ
      gcongr
    have e2 : Real.exp (m + t) - 1 = (Real.exp (m + t) - 1 - (m + t)) + (m + t) := by ring
    rw [e2]
    refine (abs_add_le _ _).trans ?_
    have := abs_nonneg (m + t)
    norm_num
    linarith
  rw [e, show Real.exp (-t) * Real.exp (m + t) - Real.exp (-t) = (Real.exp (m + t) - 1) * Real.exp (-t) by ring, abs_mul,
    abs_of_pos (Real.exp_pos (-t))]
  gcongr

theorem rhs_close (hO : O.Close V) {a : F} {x y : ℝ} (ha : V a y) (hx0 : 0 ≤ x) (hx : x ≤ 4)
    (hy : |y - x| ≤ 1 / 2 ^ 23 * x + 1 / 2 ^ 100) : ∃ z,
    V (O.to32 (O.exp (O.mul (O.mul (O.lit (-0.5)) a) a))) z ∧ |z - bell x| ≤ 6 / 2 ^ 24 := by
  obtain ⟨c, hc, hc'⟩ := hO.lit (-0.5) (by norm_num)
  have by_ := abs_le.1 hy
  norm_num at by_ hc'
  have hyy : |y| ≤ 4.001 := by rw [abs_le]; norm_num; constructor <;> linarith [by_.1, by_.2]
  have bc := abs_le.1 hc'
  norm_num at bc
  have hcc : |c| ≤ 1 := by rw [abs_le]; norm_num; constructor <;> linarith [bc.1, bc.2]
  have hcy : |c * y| ≤ 4.001 := by
    rw [abs_mul]
    calc |c| * |y| ≤ 1 * 4.001 := by gcongr
      _ = _ := by norm_num
  obtain ⟨m, hm, hm'⟩ := hO.mul hc ha (hcy.trans (by norm_num))
  have hm2 : |m| ≤ 5 := by
    have e : m = (m - c * y) + c * y := by ring
    rw [e]
    refine (abs_add_le _ _).trans ?_
    generalize |c * y| = A at *
    norm_num at hm' hcy ⊢
    linarith
  have hmy : |m * y| ≤ 21 := by
    rw [abs_mul]
    calc |m| * |y| ≤ 5 * 4.001 := by gcongr
      _ ≤ _ := by norm_num
  obtain ⟨w, hw, hw'⟩ := hO.mul hm ha (hmy.trans (by norm_num))
  have hw2 : |w + y * y / 2| ≤ 1 / 2 ^ 45 := by
    have e : w + y * y / 2 = (w - m * y) + ((m - c * y) * y + (c + 1 / 2) * y * y) := by ring
    rw [e]
    refine (abs_add_le _ _).trans ((add_le_add_right (abs_add_le _ _) _).trans ?_)
    rw [abs_mul (m - c * y), abs_mul ((c + 1 / 2) * y), abs_mul (c + 1 / 2)]
    have a1 : |m - c * y| ≤ 1 / 2 ^ 50 := by
      generalize |c * y| = A at *
      norm_num at hm' hcy ⊢
      linarith
    have a2 : |c + 1 / 2| ≤ 1 / 2 ^ 53 := by rw [abs_le]; norm_num; constructor <;> linarith [bc.1, bc.2]
    have a3 : |m - c * y| * |y| ≤ 1 / 2 ^ 50 * 4.001 := by gcongr
    have a4 : |c + 1 / 2| * |y| * |y| ≤ 1 / 2 ^ 53 * 4.001 * 4.001 := by gcongr
    generalize |m - c * y| * |y| = A1 at *
    generalize |c + 1 / 2| * |y| * |y| = A2 at *
    generalize |m * y| = A3 at *
    norm_num at a3 a4 hw' hmy ⊢
    linarith
  have hyx : |y * y / 2 - x ^ 2 / 2| ≤ 1.001 / 2 ^ 22 * (x ^ 2 / 2) + 1 / 2 ^ 90 := by
    have e : y * y / 2 - x ^ 2 / 2 = (y - x) * ((y - x) / 2 + x) := by ring
    have a1 : |(y - x) / 2 + x| ≤ 1.0001 * x + 1 / 2 ^ 100 := by
      rw [abs_le]; norm_num; constructor <;> linarith [by_.1, by_.2]
    rw [e, abs_mul]
    calc |y - x| * |(y - x) / 2 + x| ≤ (1 / 2 ^ 23 * x + 1 / 2 ^ 100) * (1.0001 * x + 1 / 2 ^ 100) := by gcongr
      _ = 1.0001 / 2 ^ 23 * x ^ 2 + (1 / 2 ^ 23 + 1.0001) / 2 ^ 100 * x + 1 / 2 ^ 200 := by ring
      _ ≤ 1.0001 / 2 ^ 23 * x ^ 2 + (1 / 2 ^ 23 + 1.0001) / 2 ^ 100 * 4 + 1 / 2 ^ 200 := by gcongr
      _ ≤ _ := by
        have := sq_nonneg x
        norm_num
        linarith
  have hx2 : x ^ 2 ≤ 4 ^ 2 := by gcongr
  have hx20 := sq_nonneg x
  have hwt : |w + x ^ 2 / 2| ≤ 1.001 / 2 ^ 22 * (x ^ 2 / 2) + 1 / 2 ^ 44 := by
    have e : w + x ^ 2 / 2 = (w + y * y / 2) - (y * y / 2 - x ^ 2 / 2) := by ring
    rw [e]
    refine (abs_sub _ _).trans ?_
    generalize |w + y * y / 2| = A1 at *
    generalize |y * y / 2 - x ^ 2 / 2| = A2 at *
    norm_num at hw2 hyx ⊢
    linarith
  have bw := abs_le.1 hwt
  norm_num at bw hx2
  obtain ⟨v, hv, hv'⟩ := hO.exp hw (by linarith [bw.1]) (by linarith [bw.2])
  have hew := exp_near hwt (by norm_num; linarith)
  have hte := mul_exp_neg_le (x ^ 2 / 2)
  have he1 : Real.exp (-(x ^ 2 / 2)) ≤ 1 := bell_le_one x
  have he0 : 0 < Real.exp (-(x ^ 2 / 2)) := Real.exp_pos _
  have hew2 : |Real.exp w - Real.exp (-(x ^ 2 / 2))| ≤ 4.3 / 2 ^ 24 := by
    refine hew.trans ?_
    have e : 1.02 * (1.001 / 2 ^ 22 * (x ^ 2 / 2) + 1 / 2 ^ 44) * Real.exp (-(x ^ 2 / 2))
        = 1.02 * 1.001 / 2 ^ 22 * (x ^ 2 / 2 * Real.exp (-(x ^ 2 / 2))) + 1.02 / 2 ^ 44 * Real.exp (-(x ^ 2 / 2)) := by ring
    rw [e]
    norm_num at hte ⊢
    linarith
  rw [bell]
  generalize Real.exp (-(x ^ 2 / 2)) = E at *
  have bew := abs_le.1 hew2
  norm_num at bew
  have bv := abs_le.1 hv'
  norm_num at bv
  have hvv : |v| ≤ 1.001 := by rw [abs_le]; norm_num; constructor <;> linarith [bv.1, bv.2, bew.1, bew.2]
  obtain ⟨z, hz, hz'⟩ := hO.to32 hv (hvv.trans (by norm_num))
  refine ⟨z, hz, ?_⟩
  have bz := abs_le.1 hz'
  generalize |v| = A at *
  norm_num at bz hvv
  rw [abs_le]
  norm_num
  constructor <;> linarith [bv.1, bv.2, bew.1, bew.2, bz.1, bz.2]

/-- the average over all draws of an event that draws far apart do not share -/
theorem avg_diam (c : ℕ → Prop) [DecidablePred c] {D : ℝ} (hD : 0 ≤ D)
    (h : ∀ u < 2 ^ 53, ∀ v < 2 ^ 53, u ≤ v → c u → c v → ((v : ℝ) - u) / tailM ≤ D) :
    (1 / 2 ^ 53 : ℝ) * ∑ u ∈ range (2 ^ 53), (if c u then (1 : ℝ) else 0) ≤ D + 1 / 2 ^ 53 := by
  have hM := tailM_pos
  have h1 := count_diam (2 ^ 53) c (D := D * tailM) (by positivity) fun u hu v hv huv cu cv => (div_le_iff₀ hM).1 (h u hu v hv huv cu cv)
  have h2 : D * tailM ≤ D * 2 ^ 53 := by
    gcongr
    rw [tailM]
    norm_num
  generalize ∑ u ∈ range (2 ^ 53), (if c u then (1 : ℝ) else 0) = S at *
  calc (1 / 2 ^ 53 : ℝ) * S ≤ 1 / 2 ^ 53 * (D * 2 ^ 53 + 1) := by gcongr; linarith
    _ = _ := by ring

variable (O V sigma s bound n) in
/-- the distance of the two machines at the start -/
noncomputable def topDiff : ℝ := |hit (gaussStep O sigma bound) (Icc (-(n : ℤ)) n) .top - hit (gaussStep realOps s bound) (Icc (-(n : ℤ)) n) .top|

theorem finishVal_diff {A A' : ℝ} (x : ℝ) : |finishVal s bound n A x - finishVal s bound n A' x| ≤
    if x < (bound.toNat + 1 / 2) / s then 0 else |A - A'| := by
  unfold finishVal
  split_ifs <;> simp

theorem finishVal_diff' {A A' : ℝ} (x : ℝ) : |finishVal s bound n A x - finishVal s bound n A' x| ≤ |A - A'| := by
  refine (finishVal_diff x).trans ?_
  split_ifs
  · exact abs_nonneg _
  · exact le_rfl

open Classical in
theorem strip_close (hO : O.Close V) (hsig : V sigma s) (hs : 0 < s) (hs2 : s ≤ 2 ^ 59) (hn : n ≤ bound.toNat) {a : F} {x y : ℝ}
    (ha : V a y) (hx0 : 0 ≤ x) (hx : x ≤ 4) (hy : |y - x| ≤ 1 / 2 ^ 23 * x + 1 / 2 ^ 100)
    (h1 : ¬ NearEdge ((n + 1 / 2) / s) x) (h2 : ¬ NearEdge ((bound.toNat + 1 / 2) / s) x) (sign : Bool) {i : ℕ} (i1 : 1 ≤ i) (i2 : i < 128) :
    |hit (gaussStep O sigma bound) (Icc (-(n : ℤ)) n) (.strip sign a i) - hit (gaussStep realOps s bound) (Icc (-(n : ℤ)) n) (.strip sign x i)|
      ≤ 6 / 10 ^ 4 + topDiff O sigma s bound n := by
  obtain ⟨y0, y1, d0, d1⟩ := zigY_facts i1 i2
  have hd : (0 : ℝ) < zigY (i - 1) - zigY i := by norm_num at d0; linarith
  have hM := tailM_pos
  have hbad := avg_diam (fun u : ℕ => |((zigY i : ℝ) + (u / tailM) * (zigY (i - 1) - zigY i)) - bell x| ≤ 14 / 2 ^ 24) (D := 59 / 10 ^ 5)
    (by norm_num) (by
      intro u _ v _ _ cu cv
      have b1 := abs_le.1 cu
      have b2 := abs_le.1 cv
      have e : ((v : ℝ) - u) / tailM * (zigY (i - 1) - zigY i) ≤ 28 / 2 ^ 24 := by
        have e2 : ((v : ℝ) - u) / tailM * (zigY (i - 1) - zigY i)
            = (((zigY i : ℝ) + (v / tailM) * (zigY (i - 1) - zigY i)) - bell x) - (((zigY i : ℝ) + (u / tailM) * (zigY (i - 1) - zigY i)) - bell x) := by
          ring
        rw [e2]
        norm_num at b1 b2 ⊢
        linarith [b1.1, b2.2]
      rw [← le_div_iff₀ hd] at e
      refine e.trans ?_
      rw [div_le_iff₀ hd]
      norm_num at d0 ⊢
      linarith)
  have key := hit_diff (s₁ := gaussStep O sigma bound) (s₂ := gaussStep realOps s bound) (W := Icc (-(n : ℤ)) n)
    (q₁ := .strip sign a i) (q₂ := .strip sign x i)
    (C := fun b => (fun u : ℕ => (if |((zigY i : ℝ) + (u / tailM) * (zigY (i - 1) - zigY i)) - bell x| ≤ 14 / 2 ^ 24 then (1 : ℝ) else 0)
      + topDiff O sigma s bound n) (beUint (List.ofFn b) &&& 0x1fffffffffffff).toNat) (by
    intro b
    have hD0 : 0 ≤ topDiff O sigma s bound n := abs_nonneg _
    dsimp only
    split_ifs with hc
    · exact (elim_diff_le_one _ _).trans (by linarith)
    rw [zero_add]
    obtain ⟨l, hl, hl'⟩ := lhs_close hO i1 i2 (List.ofFn b)
    obtain ⟨r, hr, hr'⟩ := rhs_close hO ha hx0 hx hy
    have hc1 : realOps.lt32 (realOps.mulAdd32 (realOps.lit32 (zigF.getD i 0)) (realOps.to32 (randFloat64 realOps (List.ofFn b)))
          (realOps.sub32 (realOps.lit32 (zigF.getD (i - 1) 0)) (realOps.lit32 (zigF.getD i 0))))
        (realOps.to32 (realOps.exp (realOps.mul (realOps.mul (realOps.lit (-0.5)) x) x))) = true ↔
        (zigY i : ℝ) + (((beUint (List.ofFn b) &&& 0x1fffffffffffff).toNat : ℕ) / tailM) * (zigY (i - 1) - zigY i) < bell x := by
      simp only [realOps, randFloat64, decide_eq_true_eq, zigY, bell, tailM]
      have e1 : ((-0.5 : ℚ) : ℝ) * x * x = -(x ^ 2 / 2) := by push_cast; ring
      rw [e1]
      norm_num
    have hc2 := hO.lt32 hl hr
    have hcc : l < r ↔ (zigY i : ℝ) + (((beUint (List.ofFn b) &&& 0x1fffffffffffff).toNat : ℕ) / tailM) * (zigY (i - 1) - zigY i) < bell x := by
      generalize (zigY i : ℝ) + (((beUint (List.ofFn b) &&& 0x1fffffffffffff).toNat : ℕ) / tailM) * (zigY (i - 1) - zigY i) = L at *
      generalize bell x = R at *
      have b1 := abs_le.1 hl'
      have b2 := abs_le.1 hr'
      rw [not_le, lt_abs] at hc
      norm_num at b1 b2 hc
      constructor
      · intro h
        rcases hc with hc | hc <;> linarith [b1.1, b1.2, b2.1, b2.2]
      · intro h
        rcases hc with hc | hc <;> linarith [b1.1, b1.2, b2.1, b2.2]
    rw [hcc, ← hc1] at hc2
    simp only [gaussStep]
    by_cases h : realOps.lt32 (realOps.mulAdd32 (realOps.lit32 (zigF.getD i 0)) (realOps.to32 (randFloat64 realOps (List.ofFn b)))
          (realOps.sub32 (realOps.lit32 (zigF.getD (i - 1) 0)) (realOps.lit32 (zigF.getD i 0))))
        (realOps.to32 (realOps.exp (realOps.mul (realOps.mul (realOps.lit (-0.5)) x) x))) = true
    · rw [if_pos h, if_pos (hc2.2 h), finish_close hO hsig hs hs2 hn ha hx0 (by linarith) hy h1 h2, finish_val hs hs2 hn (by linarith)]
      exact finishVal_diff' x
    · rw [if_neg h, if_neg (fun h' => h (hc2.1 h'))]
      exact le_rfl)
  rw [words53 (fun u : ℕ => (if |((zigY i : ℝ) + (u / tailM) * (zigY (i - 1) - zigY i)) - bell x| ≤ 14 / 2 ^ 24 then (1 : ℝ) else 0)
      + topDiff O sigma s bound n), sum_add_distrib, mul_add, avg_const] at key
  refine key.trans ?_
  gcongr
  refine hbad.trans ?_
  norm_num

/-! ## The tail -/

theorem log_step {u v : ℕ} (hu : 0 < u) (huv : u ≤ v) (hv : v < 2 ^ 53) :
    ((v : ℝ) - u) / tailM ≤ Real.log (v / tailM) - Real.log (u / tailM) := by
  have hM := tailM_pos
  have hu' : (0 : ℝ) < u := by exact_mod_cast hu
  have huv' : (u : ℝ) ≤ v := by exact_mod_cast huv
  have hv' : (0 : ℝ) < v := by linarith
  have hvM : (v : ℝ) ≤ tailM := by
    have : (v : ℝ) + 1 ≤ 2 ^ 53 := by exact_mod_cast hv
    rw [tailM]; linarith
  rw [Real.log_div hv'.ne' hM.ne', Real.log_div hu'.ne' hM.ne', sub_sub_sub_cancel_right, ← Real.log_div hv'.ne' hu'.ne']
  have h := Real.one_sub_inv_le_log_of_pos (show (0 : ℝ) < v / u by positivity)
  refine le_trans ?_ h
  rw [inv_div]
  have e : 1 - (u : ℝ) / v = (v - u) / v := by field_simp
  rw [e]
  have : (0 : ℝ) ≤ v - u := by linarith
  gcongr

theorem log_near {t T : ℝ} (hT : 0 < T) (h : |t - T| ≤ T / 2) : |Real.log t - Real.log T| ≤ 2 * (|t - T| / T) := by
  have hb := abs_le.1 h
  have ht : T / 2 ≤ t := by linarith [hb.1]
  have ht0 : 0 < t := by linarith
  rw [← Real.log_div ht0.ne' hT.ne']
  have h1 := Real.log_le_sub_one_of_pos (show 0 < t / T by positivity)
  have h2 := Real.one_sub_inv_le_log_of_pos (show 0 < t / T by positivity)
  have e1 : t / T - 1 = (t - T) / T := by field_simp
  have e2 : 1 - (t / T)⁻¹ = (t - T) / t := by rw [inv_div]; field_simp
  rw [e1] at h1
  rw [e2] at h2
  have h3 : (t - T) / T ≤ |t - T| / T := by gcongr; exact le_abs_self _
  have h4 : 0 ≤ |t - T| / T := by positivity
  have h5 : -(2 * (|t - T| / T)) ≤ (t - T) / t := by
    have h6 : |t - T| / t ≤ |t - T| / (T / 2) := by gcongr
    have h7 : -(|t - T| / t) ≤ (t - T) / t := by
      rw [← neg_div]
      gcongr
      exact neg_abs_le _
    have e3 : |t - T| / (T / 2) = 2 * (|t - T| / T) := by field_simp
    linarith
  rw [abs_le]
  constructor <;> linarith

theorem log_bound {u : ℕ} (hu : u < 2 ^ 53) : 0 ≤ -Real.log (u / tailM) ∧ -Real.log (u / tailM) ≤ 69 := by
  have hR := zigR_bounds
  have hp := zigR_pos
  have e : -Real.log (u / tailM) = tailX u * zigR := by rw [tailX]; field_simp
  rw [e]
  have h1 := tailX_nonneg hu
  have h2 := (tailX_lt u).le
  refine ⟨by positivity, ?_⟩
  calc tailX u * zigR ≤ 20 * 3.443 := by
        gcongr
        exact hR.2
    _ ≤ 69 := by norm_num

theorem log_close (hO : O.Close V) (l : List UInt8) (hu : 0 < (beUint l &&& 0x1fffffffffffff).toNat) : ∃ z,
    V (O.neg (O.log (randFloat64 O l))) z ∧ |z - -Real.log (((beUint l &&& 0x1fffffffffffff).toNat : ℕ) / tailM)| ≤ 1 / 2 ^ 43 := by
  have hM := tailM_pos
  obtain ⟨t, ht, ht'⟩ := rand_close hO l
  have hu2 := mask_le l
  have hu3 : (beUint l &&& 0x1fffffffffffff).toNat < 2 ^ 53 := by
    have h1 : (((beUint l &&& 0x1fffffffffffff).toNat : ℕ) : ℝ) < 2 ^ 53 := by rw [tailM] at hu2; linarith
    exact_mod_cast h1
  obtain ⟨l0, l1⟩ := log_bound hu3
  generalize (beUint l &&& 0x1fffffffffffff).toNat = u at *
  have hu1 : (1 : ℝ) ≤ u := by exact_mod_cast hu
  have hT1 : (u : ℝ) / tailM ≤ 1 := (div_le_one hM).2 hu2
  have hT0 : 1 / 2 ^ 53 ≤ (u : ℝ) / tailM := by
    have : (1 : ℝ) / 2 ^ 53 ≤ 1 / tailM := by
      apply one_div_le_one_div_of_le hM
      rw [tailM]; norm_num
    refine this.trans ?_
    gcongr
  generalize (u : ℝ) / tailM = T at *
  have hT : 0 < T := lt_of_lt_of_le (by norm_num) hT0
  have hrel : |t - T| ≤ 1 / 2 ^ 52 * T := by norm_num at ht' hT0 ⊢; linarith
  have hn := log_near (t := t) hT (by norm_num at hrel ⊢; linarith)
  have hn2 : |Real.log t - Real.log T| ≤ 1 / 2 ^ 51 := by
    refine hn.trans ?_
    have : |t - T| / T ≤ 1 / 2 ^ 52 := by rwa [div_le_iff₀ hT]
    norm_num at this ⊢
    linarith
  have bt := abs_le.1 hrel
  norm_num at bt
  obtain ⟨z, hz, hz'⟩ := hO.log ht (by linarith [bt.1]) (by linarith [bt.2])
  refine ⟨-z, hO.neg hz, ?_⟩
  have bn := abs_le.1 hn2
  have hlt : |Real.log t| ≤ 70 := by
    norm_num at bn
    rw [abs_le]
    constructor <;> linarith [bn.1, bn.2]
  have bz := abs_le.1 hz'
  generalize |Real.log t| = A at *
  norm_num at bz bn
  rw [abs_le]
  norm_num
  constructor <;> linarith [bz.1, bz.2, bn.1, bn.2]

variable (O sigma s bound n) in
/-- the distance of the two machines in the loop for the base strip -/
noncomputable def tailDiff (sign : Bool) : ℝ :=
  |hit (gaussStep O sigma bound) (Icc (-(n : ℤ)) n) (.tail1 sign) - hit (gaussStep realOps s bound) (Icc (-(n : ℤ)) n) (.tail1 sign)|

/-- the second draw is so near to the border of the test that rounding may matter -/
def TailBorder (x : ℝ) (u : ℕ) : Prop := 0 < u ∧ |(-Real.log (u / tailM) + -Real.log (u / tailM)) - x * x| ≤ 1 / 2 ^ 30

open Classical in
theorem tail2_close (hO : O.Close V) (hsig : V sigma s) (hs : 0 < s) (hs2 : s ≤ 2 ^ 59) (hn : n ≤ bound.toNat) {a : F} {x y : ℝ}
    (ha : V a y) (hx0 : 0 ≤ x) (hx : x ≤ 20) (hy : |y - x| ≤ 1 / 2 ^ 40)
    (h1 : ¬ NearEdge ((n + 1 / 2) / s) (x + zigR)) (h2 : ¬ NearEdge ((bound.toNat + 1 / 2) / s) (x + zigR)) (sign : Bool) :
    |hit (gaussStep O sigma bound) (Icc (-(n : ℤ)) n) (.tail2 sign a) - hit (gaussStep realOps s bound) (Icc (-(n : ℤ)) n) (.tail2 sign x)|
      ≤ 1 / 10 ^ 6 + (tailAcc x * topDiff O sigma s bound n + (1 - tailAcc x) * tailDiff O sigma s bound n sign) := by
  have hM := tailM_pos
  have hR := zigR_bounds
  have hbad1 := avg_diam (fun u : ℕ => u = 0) (D := 0) le_rfl (by
    intro u _ v _ _ cu cv
    simp [cu, cv])
  have hbad2 := avg_diam (TailBorder x) (D := 1 / 2 ^ 30) (by norm_num) (by
    intro u _ v hv huv cu cv
    refine (log_step cu.1 huv hv).trans ?_
    have b1 := abs_le.1 cu.2
    have b2 := abs_le.1 cv.2
    norm_num at b1 b2 ⊢
    linarith [b1.1, b1.2, b2.1, b2.2])
  have key := hit_diff (s₁ := gaussStep O sigma bound) (s₂ := gaussStep realOps s bound) (W := Icc (-(n : ℤ)) n)
    (q₁ := .tail2 sign a) (q₂ := .tail2 sign x)
    (C := fun b => (fun u : ℕ => (if u = 0 then (1 : ℝ) else 0) + (if TailBorder x u then (1 : ℝ) else 0)
      + (if x * x ≤ -Real.log (u / tailM) + -Real.log (u / tailM) then topDiff O sigma s bound n else tailDiff O sigma s bound n sign))
        (beUint (List.ofFn b) &&& 0x1fffffffffffff).toNat) (by
    intro b
    have hD0 : 0 ≤ topDiff O sigma s bound n := abs_nonneg _
    have hD1 : 0 ≤ tailDiff O sigma s bound n sign := abs_nonneg _
    have hlog := log_close hO (List.ofFn b)
    have hlb := log_bound (u := (beUint (List.ofFn b) &&& 0x1fffffffffffff).toNat) (by
      have h3 := mask_le (List.ofFn b)
      have h4 : (((beUint (List.ofFn b) &&& 0x1fffffffffffff).toNat : ℕ) : ℝ) < 2 ^ 53 := by rw [tailM] at h3; linarith
      exact_mod_cast h4)
    have hc1 : realOps.ge (realOps.add (realOps.neg (realOps.log (randFloat64 realOps (List.ofFn b))))
          (realOps.neg (realOps.log (randFloat64 realOps (List.ofFn b))))) (realOps.mul x x) = true ↔
        x * x ≤ -Real.log (((beUint (List.ofFn b) &&& 0x1fffffffffffff).toNat : ℕ) / tailM)
          + -Real.log (((beUint (List.ofFn b) &&& 0x1fffffffffffff).toNat : ℕ) / tailM) := by
      simp only [realOps, randFloat64, decide_eq_true_eq, tailM, ge_iff_le]
      norm_num
    dsimp only
    have hI : (0 : ℝ) ≤ if x * x ≤ -Real.log (((beUint (List.ofFn b) &&& 0x1fffffffffffff).toNat : ℕ) / tailM)
          + -Real.log (((beUint (List.ofFn b) &&& 0x1fffffffffffff).toNat : ℕ) / tailM)
        then topDiff O sigma s bound n else tailDiff O sigma s bound n sign := by split_ifs <;> assumption
    by_cases hz : (beUint (List.ofFn b) &&& 0x1fffffffffffff).toNat = 0
    · rw [if_pos hz]
      refine (elim_diff_le_one _ _).trans ?_
      have : (0 : ℝ) ≤ if TailBorder x (beUint (List.ofFn b) &&& 0x1fffffffffffff).toNat then (1 : ℝ) else 0 := by split_ifs <;> norm_num
      linarith
    by_cases hB : TailBorder x (beUint (List.ofFn b) &&& 0x1fffffffffffff).toNat
    · rw [if_neg hz, if_pos hB]
      refine (elim_diff_le_one _ _).trans ?_
      linarith
    rw [if_neg hz, if_neg hB, zero_add, zero_add]
    obtain ⟨z, hz1, hz2⟩ := hlog (Nat.pos_of_ne_zero hz)
    rw [TailBorder, not_and, not_le] at hB
    replace hB := hB (Nat.pos_of_ne_zero hz)
    have hRop : realOps.add x (realOps.lit 3.442619855899) = x + zigR := rfl
    simp only [gaussStep, hRop]
    generalize -Real.log (((beUint (List.ofFn b) &&& 0x1fffffffffffff).toNat : ℕ) / tailM) = L at *
    have bz := abs_le.1 hz2
    norm_num at bz
    obtain ⟨w, hw, hw'⟩ := hO.add hz1 hz1 (by
      rw [abs_le]
      norm_num
      constructor <;> linarith [bz.1, bz.2, hlb.1, hlb.2])
    have hzz : |z + z| ≤ 150 := by rw [abs_le]; constructor <;> linarith [bz.1, bz.2, hlb.1, hlb.2]
    have byx := abs_le.1 hy
    norm_num at byx
    have hyy : |y * y - x * x| ≤ 1 / 2 ^ 40 * 41 := by
      have e : y * y - x * x = (y - x) * (y + x) := by ring
      rw [e, abs_mul]
      have : |y + x| ≤ 41 := by rw [abs_le]; constructor <;> linarith [byx.1, byx.2]
      gcongr
    have hxx : x * x ≤ 20 * 20 := by gcongr
    have hxx0 : 0 ≤ x * x := by positivity
    have byy := abs_le.1 hyy
    norm_num at byy hxx
    have hy2 : |y * y| ≤ 401 := by rw [abs_le]; constructor <;> linarith [byy.1, byy.2]
    obtain ⟨r, hr, hr'⟩ := hO.mul ha ha (hy2.trans (by norm_num))
    have hc2 := hO.ge hw hr
    have hcc : r ≤ w ↔ x * x ≤ L + L := by
      generalize |y * y| = A at *
      generalize |z + z| = A' at *
      have b1 := abs_le.1 hw'
      have b2 := abs_le.1 hr'
      rw [lt_abs] at hB
      norm_num at b1 b2 hB
      constructor
      · intro h
        rcases hB with hB | hB <;> linarith [b1.1, b1.2, b2.1, b2.2]
      · intro h
        rcases hB with hB | hB <;> linarith [b1.1, b1.2, b2.1, b2.2]
    rw [hcc, ← hc1] at hc2
    by_cases h : x * x ≤ L + L
    · rw [if_pos h, if_pos (hc1.2 h), if_pos (hc2.2 (hc1.2 h))]
      obtain ⟨c, hcl, hcl'⟩ := hO.lit 3.442619855899 (by norm_num)
      have eR : ((3.442619855899 : ℚ) : ℝ) = zigR := rfl
      rw [eR, abs_of_pos zigR_pos] at hcl'
      have bc := abs_le.1 hcl'
      norm_num at bc hR
      have hyc : |y + c| ≤ 25 := by rw [abs_le]; constructor <;> linarith [bc.1, bc.2, byx.1, byx.2]
      obtain ⟨g, hg, hg'⟩ := hO.add ha hcl (hyc.trans (by norm_num))
      have bg := abs_le.1 hg'
      generalize |y + c| = A at *
      norm_num at bg
      rw [finish_close hO hsig hs hs2 hn hg (by linarith) (by linarith) (by
          rw [abs_le]
          norm_num
          constructor <;> linarith [bc.1, bc.2, byx.1, byx.2, bg.1, bg.2]) h1 h2, finish_val hs hs2 hn (by linarith)]
      exact finishVal_diff' _
    · rw [if_neg h, if_neg (fun h' => h (hc1.1 h')), if_neg (fun h' => h (hc1.1 (hc2.1 h')))]
      exact le_rfl)
  rw [words53 (fun u : ℕ => (if u = 0 then (1 : ℝ) else 0) + (if TailBorder x u then (1 : ℝ) else 0)
      + (if x * x ≤ -Real.log (u / tailM) + -Real.log (u / tailM) then topDiff O sigma s bound n else tailDiff O sigma s bound n sign)),
    sum_add_distrib, sum_add_distrib, mul_add, mul_add, avg_ite 53 (fun u : ℕ => x * x ≤ -Real.log (u / tailM) + -Real.log (u / tailM))] at key
  rw [tailAcc]
  refine key.trans ?_
  gcongr
  exact (add_le_add hbad1 hbad2).trans (by norm_num)

theorem tailNear_avg {e : ℝ} (he : 0 < e) [DecidablePred fun u : ℕ => 0 < u ∧ NearEdge e (tailX u + zigR)] :
    (1 / 2 ^ 53 : ℝ) * ∑ u ∈ range (2 ^ 53), (if 0 < u ∧ NearEdge e (tailX u + zigR) then (1 : ℝ) else 0) ≤ 41 / 10 ^ 6 := by
  have hR := zigR_bounds
  have hp := zigR_pos
  refine (avg_diam _ (D := 4 / 10 ^ 5) (by norm_num) ?_).trans (by norm_num)
  rintro u hu v hv huv ⟨u0, cu⟩ ⟨_, cv⟩
  refine (log_step u0 huv hv).trans ?_
  have e1 : ∀ k : ℕ, Real.log (k / tailM) = -(tailX k * zigR) := by intro k; rw [tailX]; field_simp
  rw [e1, e1]
  have h20 := tailX_lt u
  obtain ⟨c1, c2⟩ := cu
  obtain ⟨c3, c4⟩ := cv
  have he24 : e ≤ 24 := by norm_num at c1 hR; linarith
  have hd : tailX u - tailX v ≤ 48 / 2 ^ 22 := by norm_num at c2 c3 ⊢; linarith
  calc -(tailX v * zigR) - -(tailX u * zigR) = (tailX u - tailX v) * zigR := by ring
    _ ≤ 48 / 2 ^ 22 * zigR := by gcongr
    _ ≤ 48 / 2 ^ 22 * 3.443 := by gcongr; exact hR.2
    _ ≤ _ := by norm_num

open Classical in
theorem tail1_close (hO : O.Close V) (hsig : V sigma s) (hs : 0 < s) (hs2 : s ≤ 2 ^ 59) (hn : n ≤ bound.toNat) (sign : Bool) :
    tailDiff O sigma s bound n sign ≤ 2 / 10 ^ 4 + topDiff O sigma s bound n := by
  have hM := tailM_pos
  have hR := zigR_bounds
  have hT := tailTotal_ge
  have hbad1 := avg_diam (fun u : ℕ => u = 0) (D := 0) le_rfl (by
    intro u _ v _ _ cu cv
    simp [cu, cv])
  have hbad2 := tailNear_avg (e := (n + 1 / 2) / s) (by positivity)
  have hbad3 := tailNear_avg (e := (bound.toNat + 1 / 2) / s) (by positivity)
  have hD0 : 0 ≤ topDiff O sigma s bound n := abs_nonneg _
  have hD1 : 0 ≤ tailDiff O sigma s bound n sign := abs_nonneg _
  have key := hit_diff (s₁ := gaussStep O sigma bound) (s₂ := gaussStep realOps s bound) (W := Icc (-(n : ℤ)) n)
    (q₁ := .tail1 sign) (q₂ := .tail1 sign)
    (C := fun b => (fun u : ℕ => (if u = 0 then (1 : ℝ) else 0)
      + (if 0 < u ∧ NearEdge ((n + 1 / 2) / s) (tailX u + zigR) then (1 : ℝ) else 0)
      + (if 0 < u ∧ NearEdge ((bound.toNat + 1 / 2) / s) (tailX u + zigR) then (1 : ℝ) else 0)
      + (1 / 10 ^ 6 + (tailAcc (tailX u) * (topDiff O sigma s bound n - tailDiff O sigma s bound n sign) + tailDiff O sigma s bound n sign)))
        (beUint (List.ofFn b) &&& 0x1fffffffffffff).toNat) (by
    intro b
    have hu3 : (beUint (List.ofFn b) &&& 0x1fffffffffffff).toNat < 2 ^ 53 := by
      have h3 := mask_le (List.ofFn b)
      have h4 : (((beUint (List.ofFn b) &&& 0x1fffffffffffff).toNat : ℕ) : ℝ) < 2 ^ 53 := by rw [tailM] at h3; linarith
      exact_mod_cast h4
    have hlog := log_close hO (List.ofFn b)
    have hlb := log_bound hu3
    have hc : realOps.mul (realOps.neg (realOps.log (randFloat64 realOps (List.ofFn b)))) (realOps.lit (1 / 3.442619855899))
        = tailX (beUint (List.ofFn b) &&& 0x1fffffffffffff).toNat := by
      simp only [realOps, randFloat64, tailM, tailX, zigR]
      norm_num
    simp only [gaussStep, hc, Sum.elim_inl]
    generalize (beUint (List.ofFn b) &&& 0x1fffffffffffff).toNat = u at *
    have hacc := tailAcc_bounds (tailX u)
    have hI : (0 : ℝ) ≤ 1 / 10 ^ 6 + (tailAcc (tailX u) * (topDiff O sigma s bound n - tailDiff O sigma s bound n sign)
        + tailDiff O sigma s bound n sign) := by
      have h1 : 0 ≤ tailAcc (tailX u) * topDiff O sigma s bound n := mul_nonneg hacc.1 hD0
      have h2 : 0 ≤ (1 - tailAcc (tailX u)) * tailDiff O sigma s bound n sign := mul_nonneg (by linarith [hacc.2]) hD1
      norm_num
      linarith
    have one := fun (x : GaussQ F) (y : GaussQ ℝ) => elim_diff_le_one (s₁ := gaussStep O sigma bound) (s₂ := gaussStep realOps s bound)
      (W := Icc (-(n : ℤ)) n) (.inl x) (.inl y)
    simp only [Sum.elim_inl] at one
    have p1 : ∀ (c : Prop) [Decidable c], (0 : ℝ) ≤ if c then 1 else 0 := by intro c _; split_ifs <;> norm_num
    by_cases hz : u = 0
    · rw [if_pos hz]
      refine (one _ _).trans ?_
      have q2 := p1 (0 < u ∧ NearEdge ((n + 1 / 2) / s) (tailX u + zigR))
      have q3 := p1 (0 < u ∧ NearEdge ((bound.toNat + 1 / 2) / s) (tailX u + zigR))
      linarith
    by_cases h1 : 0 < u ∧ NearEdge ((n + 1 / 2) / s) (tailX u + zigR)
    · rw [if_pos h1]
      refine (one _ _).trans ?_
      have q2 := p1 (u = 0)
      have q3 := p1 (0 < u ∧ NearEdge ((bound.toNat + 1 / 2) / s) (tailX u + zigR))
      linarith
    by_cases h2 : 0 < u ∧ NearEdge ((bound.toNat + 1 / 2) / s) (tailX u + zigR)
    · rw [if_pos h2]
      refine (one _ _).trans ?_
      have q2 := p1 (u = 0)
      have q3 := p1 (0 < u ∧ NearEdge ((n + 1 / 2) / s) (tailX u + zigR))
      linarith
    rw [if_neg hz, if_neg h1, if_neg h2, zero_add, zero_add, zero_add]
    have hu0 := Nat.pos_of_ne_zero hz
    have h1' : ¬ NearEdge ((n + 1 / 2) / s) (tailX u + zigR) := fun h => h1 ⟨hu0, h⟩
    have h2' : ¬ NearEdge ((bound.toNat + 1 / 2) / s) (tailX u + zigR) := fun h => h2 ⟨hu0, h⟩
    obtain ⟨z, hz1, hz2⟩ := hlog hu0
    obtain ⟨c, hcl, hcl'⟩ := hO.lit (1 / 3.442619855899) (by norm_num)
    have eR : ((1 / 3.442619855899 : ℚ) : ℝ) = 1 / zigR := by rw [zigR]; norm_num
    have hRi : (1 : ℝ) / zigR ≤ 0.3 := by
      rw [div_le_iff₀ zigR_pos]
      norm_num at hR ⊢
      linarith
    have hRi0 : (0 : ℝ) ≤ 1 / zigR := by have := zigR_pos; positivity
    rw [eR, abs_of_nonneg hRi0] at hcl'
    have eX : tailX u = -Real.log (u / tailM) * (1 / zigR) := rfl
    have bz := abs_le.1 hz2
    have bc := abs_le.1 hcl'
    have hzc : |z * c - tailX u| ≤ 1 / 2 ^ 43 := by
      rw [eX]
      generalize -Real.log (u / tailM) = L at *
      generalize (1 : ℝ) / zigR = I at *
      have e : z * c - L * I = (z - L) * c + L * (c - I) := by ring
      rw [e]
      refine (abs_add_le _ _).trans ?_
      rw [abs_mul, abs_mul, abs_of_nonneg hlb.1]
      have a1 : |c| ≤ 0.31 := by norm_num at bc hRi ⊢; rw [abs_le]; constructor <;> linarith [bc.1, bc.2]
      have a2 : |c - I| ≤ 1 / 2 ^ 53 := by norm_num at hcl' hRi ⊢; linarith
      have a3 : |z - L| * |c| ≤ 1 / 2 ^ 43 * 0.31 := by gcongr
      have a4 : L * |c - I| ≤ 69 * (1 / 2 ^ 53) := by
        have := hlb.2
        gcongr
      norm_num at a3 a4 ⊢
      linarith
    have hx0 := tailX_nonneg hu3
    have hx20 := (tailX_lt u).le
    have bzc := abs_le.1 hzc
    norm_num at bzc
    have hzc2 : |z * c| ≤ 21 := by rw [abs_le]; constructor <;> linarith [bzc.1, bzc.2]
    obtain ⟨g, hg, hg'⟩ := hO.mul hz1 hcl (hzc2.trans (by norm_num))
    have hgx : |g - tailX u| ≤ 1 / 2 ^ 40 := by
      generalize |z * c| = A at *
      have bg := abs_le.1 hg'
      norm_num at bg
      rw [abs_le]
      norm_num
      constructor <;> linarith [bg.1, bg.2, bzc.1, bzc.2]
    refine (tail2_close hO hsig hs hs2 hn hg hx0 hx20 hgx h1' h2' sign).trans (le_of_eq ?_)
    ring)
  rw [words53 (fun u : ℕ => (if u = 0 then (1 : ℝ) else 0)
      + (if 0 < u ∧ NearEdge ((n + 1 / 2) / s) (tailX u + zigR) then (1 : ℝ) else 0)
      + (if 0 < u ∧ NearEdge ((bound.toNat + 1 / 2) / s) (tailX u + zigR) then (1 : ℝ) else 0)
      + (1 / 10 ^ 6 + (tailAcc (tailX u) * (topDiff O sigma s bound n - tailDiff O sigma s bound n sign) + tailDiff O sigma s bound n sign))),
    sum_add_distrib, sum_add_distrib, sum_add_distrib, sum_add_distrib, sum_add_distrib, mul_add, mul_add, mul_add, mul_add, mul_add,
    avg_const, avg_const, ← sum_mul, ← mul_assoc, ← tailTotal] at key
  rw [← tailDiff] at key
  generalize (1 / 2 ^ 53 : ℝ) * ∑ u ∈ range (2 ^ 53), (if u = 0 then (1 : ℝ) else 0) = S1 at *
  generalize (1 / 2 ^ 53 : ℝ) * ∑ u ∈ range (2 ^ 53), (if 0 < u ∧ NearEdge ((n + 1 / 2) / s) (tailX u + zigR) then (1 : ℝ) else 0) = S2 at *
  generalize (1 / 2 ^ 53 : ℝ) * ∑ u ∈ range (2 ^ 53), (if 0 < u ∧ NearEdge ((bound.toNat + 1 / 2) / s) (tailX u + zigR) then (1 : ℝ) else 0) = S3 at *
  generalize tailDiff O sigma s bound n sign = D1 at *
  generalize topDiff O sigma s bound n = D0 at *
  generalize tailTotal = T at *
  norm_num at hbad1 hbad2 hbad3 key hT ⊢
  have h1 : T * (D1 - D0) ≤ 1 / 10000 := by linarith
  by_contra h
  have h2 : 1 / 5000 ≤ D1 - D0 := by linarith
  have : 4 / 5 * (1 / 5000) ≤ T * (D1 - D0) := mul_le_mul hT h2 (by norm_num) (by linarith)
  linarith

/-! ## The first word -/

open Classical in
theorem near_avg {i : ℕ} (hi : i < 128) {e : ℝ} (he : 0 < e) :
    (1 / 2 ^ 24 : ℝ) * ∑ m ∈ range (2 ^ 24), (if NearEdge e (zigPt i m) then (1 : ℝ) else 0) ≤ 6 / 10 ^ 7 := by
  have hw := zigW_pos hi
  have h1 := count_diam (2 ^ 24) (fun m => NearEdge e (zigPt i m)) (D := 9) (by norm_num) (by
    rintro u hu v hv huv ⟨a1, a2⟩ ⟨b1, b2⟩
    rw [zigPt] at a1 a2 b1 b2
    have hu' : ((128 * u + i : ℕ) : ℝ) ≤ 2 ^ 31 := by
      have : 128 * u + i ≤ 2 ^ 31 := by omega
      exact_mod_cast this
    push_cast at a1 a2 b1 b2 hu'
    generalize ((zigW.getD i 0 : ℚ) : ℝ) = w at *
    have he2 : e * (1 - 1 / 2 ^ 22) ≤ 2 ^ 31 * w := by
      refine a1.le.trans ?_
      gcongr
    have hd : ((v : ℝ) - u) * 128 * w ≤ 9 * 128 * w := by
      have e1 : ((v : ℝ) - u) * 128 * w = (128 * (v : ℝ) + i) * w - (128 * (u : ℝ) + i) * w := by ring
      rw [e1]
      norm_num at he2 a1 b2 ⊢
      linarith
    have := le_of_mul_le_mul_right hd hw
    linarith)
  generalize ∑ m ∈ range (2 ^ 24), (if NearEdge e (zigPt i m) then (1 : ℝ) else 0) = S at *
  calc (1 / 2 ^ 24 : ℝ) * S ≤ 1 / 2 ^ 24 * (9 + 1) := by gcongr
    _ ≤ _ := by norm_num

/-- the number of words of strip `i` accepted at once -/
def zigCnt (i : ℕ) : ℕ := (zigK.getD i 0 + 127 - i) / 128

theorem sum_range_map (f : ℕ → ℕ) (k : ℕ) : ((List.range k).map f).sum = ∑ i ∈ range k, f i := by
  induction k with
  | zero => rfl
  | succ k ih => rw [List.range_succ, List.map_append, List.sum_append, ih, sum_range_succ]; simp

theorem zigCnt_sums : 2081000000 ≤ ((List.range 128).map zigCnt).sum ∧
    1500000000 ≤ ((List.range 128).map fun i => if zigX i ≤ 2 then zigCnt i else 0).sum ∧
    (∀ i < 128, zigK.getD i 0 ≤ 2 ^ 31) := by decide +kernel

theorem sum_words {i : ℕ} (hi : i < 128) (c : ℝ) :
    (1 / 2 ^ 24 : ℝ) * ∑ m ∈ range (2 ^ 24), (if 128 * m + i < zigK.getD i 0 then (0 : ℝ) else c) = (1 - zigCnt i / 2 ^ 24) * c := by
  have hk := zigCnt_sums.2.2 i hi
  have e : ∀ m : ℕ, (128 * m + i < zigK.getD i 0 ↔ m < zigCnt i) := by
    intro m
    rw [zigCnt]
    omega
  have hc : zigCnt i ≤ 2 ^ 24 := by rw [zigCnt]; omega
  simp only [e]
  have h1 := avg_ite 24 (fun m => m < zigCnt i) 0 c
  have h2 : ∑ m ∈ range (2 ^ 24), (if m < zigCnt i then (1 : ℝ) else 0) = zigCnt i := by
    rw [← sum_filter]
    have : (range (2 ^ 24)).filter (fun m => m < zigCnt i) = range (zigCnt i) := by
      ext m
      rw [mem_filter, mem_range, mem_range]
      omega
    rw [this]
    simp
  rw [h1, h2]
  ring

open Classical in
theorem top_close (hO : O.Close V) (hsig : V sigma s) (hs : 0 < s) (hs2 : s ≤ 2 ^ 59) (hb : 2 * s ≤ bound.toNat + 1 / 2)
    (hn : n ≤ bound.toNat) : topDiff O sigma s bound n ≤ 4 / 10 ^ 5 := by
  have hD0 : 0 ≤ topDiff O sigma s bound n := abs_nonneg _
  have hbe : 2 ≤ ((bound.toNat : ℝ) + 1 / 2) / s := by rwa [le_div_iff₀ hs]
  set H : ℕ → ℝ := fun j => (if NearEdge ((n + 1 / 2) / s) (j * (zigW.getD (j % 128) 0 : ℚ)) then (1 : ℝ) else 0)
    + (if NearEdge ((bound.toNat + 1 / 2) / s) (j * (zigW.getD (j % 128) 0 : ℚ)) then (1 : ℝ) else 0)
    + (if j < zigK.getD (j % 128) 0 then (if zigX (j % 128) ≤ 2 then 0 else topDiff O sigma s bound n) else topDiff O sigma s bound n)
    + (if j < zigK.getD (j % 128) 0 then 0 else 6 / 10 ^ 4) with hH
  have key := hit_diff (s₁ := gaussStep O sigma bound) (s₂ := gaussStep realOps s bound) (W := Icc (-(n : ℤ)) n)
    (q₁ := .top) (q₂ := .top) (C := fun b => H ((beUint ((List.ofFn b).take 4)).toNat &&& 0x7fffffff)) (by
    intro b
    simp only [gaussStep]
    generalize (beUint ((List.ofFn b).take 4)).toNat = ju
    have hj : ju &&& 0x7fffffff < 2 ^ 31 := by
      rw [show (0x7fffffff : ℕ) = 2 ^ 31 - 1 by norm_num, Nat.and_two_pow_sub_one_eq_mod]
      exact Nat.mod_lt _ (by norm_num)
    generalize (ju &&& 0x7fffffff) = j at hj
    generalize decide (ju >>> 31 = 1) = sign
    have hi : j &&& 0x7F = j % 128 := by
      rw [show (0x7F : ℕ) = 2 ^ 7 - 1 by norm_num, Nat.and_two_pow_sub_one_eq_mod]
    have hi2 : j % 128 < 128 := Nat.mod_lt _ (by norm_num)
    rw [hi, hH]
    have hx : realOps.mul (realOps.ofNat j) (realOps.lit32 (zigW.getD (j % 128) 0)) = j * (zigW.getD (j % 128) 0 : ℚ) := rfl
    rw [hx]
    dsimp only
    have hw := zigW_pos hi2
    have hX := zigX_le hi2
    have hXe := zigX_eq (j % 128)
    obtain ⟨w, hw1, hw2⟩ := hO.lit32 (zigW.getD (j % 128) 0) (by
      rw [abs_of_pos hw]
      norm_num at hX hXe ⊢
      linarith)
    rw [abs_of_pos hw] at hw2
    have hjn := hO.ofNat j (by omega)
    have hj' : (j : ℝ) ≤ 2 ^ 31 := by exact_mod_cast hj.le
    have hj0 : (0 : ℝ) ≤ j := Nat.cast_nonneg j
    have hx0 : 0 ≤ (j : ℝ) * (zigW.getD (j % 128) 0 : ℚ) := by positivity
    have hxX : (j : ℝ) * (zigW.getD (j % 128) 0 : ℚ) ≤ zigX (j % 128) := by
      rw [hXe]
      gcongr
    have hjw : |(j : ℝ) * w - j * (zigW.getD (j % 128) 0 : ℚ)| ≤ 1 / 2 ^ 24 * (j * (zigW.getD (j % 128) 0 : ℚ)) + 1 / 2 ^ 109 := by
      rw [← mul_sub, abs_mul, abs_of_nonneg hj0]
      calc (j : ℝ) * |w - (zigW.getD (j % 128) 0 : ℚ)| ≤ j * (1 / 2 ^ 24 * (zigW.getD (j % 128) 0 : ℚ) + 1 / 2 ^ 140) := by gcongr
        _ = 1 / 2 ^ 24 * (j * (zigW.getD (j % 128) 0 : ℚ)) + j * (1 / 2 ^ 140) := by ring
        _ ≤ 1 / 2 ^ 24 * (j * (zigW.getD (j % 128) 0 : ℚ)) + 2 ^ 31 * (1 / 2 ^ 140) := by gcongr
        _ = _ := by norm_num
    have hx4 : (j : ℝ) * (zigW.getD (j % 128) 0 : ℚ) ≤ 4 := by norm_num at hX; linarith
    clear hXe
    generalize hxd : (j : ℝ) * ((zigW.getD (j % 128) 0 : ℚ) : ℝ) = x at *
    have bjw := abs_le.1 hjw
    norm_num at bjw
    have hjwa : |(j : ℝ) * w| ≤ 1.001 * x + 1 / 2 ^ 108 := by
      rw [abs_le]; norm_num; constructor <;> linarith [bjw.1, bjw.2]
    obtain ⟨y, hy1, hy2⟩ := hO.mul hjn hw1 (by
      refine hjwa.trans ?_
      norm_num
      linarith)
    have hy : |y - x| ≤ 1 / 2 ^ 23 * x + 1 / 2 ^ 100 := by
      generalize |(j : ℝ) * w| = A at *
      have b := abs_le.1 hy2
      norm_num at b hjwa
      rw [abs_le]
      norm_num
      constructor <;> linarith [b.1, b.2, bjw.1, bjw.2]
    have p3 : (0 : ℝ) ≤ if j < zigK.getD (j % 128) 0 then (if zigX (j % 128) ≤ 2 then 0 else topDiff O sigma s bound n)
        else topDiff O sigma s bound n := by split_ifs <;> first | assumption | exact le_rfl
    have p4 : (0 : ℝ) ≤ if j < zigK.getD (j % 128) 0 then 0 else 6 / 10 ^ 4 := by split_ifs <;> norm_num
    have p1 : ∀ (c : Prop) [Decidable c], (0 : ℝ) ≤ if c then 1 else 0 := by intro c _; split_ifs <;> norm_num
    by_cases h1 : NearEdge ((n + 1 / 2) / s) x
    · rw [if_pos h1]
      have := p1 (NearEdge ((bound.toNat + 1 / 2) / s) x)
      exact (elim_diff_le_one _ _).trans (by linarith)
    by_cases h2 : NearEdge ((bound.toNat + 1 / 2) / s) x
    · rw [if_pos h2]
      have := p1 (NearEdge ((n + 1 / 2) / s) x)
      exact (elim_diff_le_one _ _).trans (by linarith)
    rw [if_neg h1, if_neg h2, zero_add, zero_add]
    by_cases hk : j < zigK.getD (j % 128) 0
    · simp only [hk, if_true, add_zero]
      rw [finish_close hO hsig hs hs2 hn hy1 hx0 (by linarith) hy h1 h2, finish_val hs hs2 hn (by linarith)]
      by_cases hX2 : zigX (j % 128) ≤ 2
      · rw [if_pos hX2]
        have hxlt : x < (bound.toNat + 1 / 2) / s := by
          have h4 : ((zigX (j % 128) : ℚ) : ℝ) ≤ 2 := by exact_mod_cast hX2
          have h5 : (j : ℝ) < 2 ^ 31 := by exact_mod_cast hj
          have h6 : x < zigX (j % 128) := by
            rw [zigX_eq, ← hxd]
            gcongr
          linarith
        have := finishVal_diff (s := s) (bound := bound) (n := n) (A := hit (gaussStep O sigma bound) (Icc (-(n : ℤ)) n) .top)
          (A' := hit (gaussStep realOps s bound) (Icc (-(n : ℤ)) n) .top) x
        rwa [if_pos hxlt] at this
      · rw [if_neg hX2]
        exact finishVal_diff' x
    · simp only [hk, if_false]
      by_cases h0 : j % 128 = 0
      · simp only [h0, if_true, Sum.elim_inl]
        have := tail1_close hO hsig hs hs2 hn sign
        rw [tailDiff] at this
        norm_num at this ⊢
        linarith
      · simp only [h0, if_false, Sum.elim_inl]
        have := strip_close hO hsig hs hs2 hn hy1 hx0 hx4 hy h1 h2 sign (i := j % 128) (by omega) hi2
        linarith)
  rw [words31 H, ← topDiff] at key
  have hpos : ∀ i ∈ range 128, (1 / 2 ^ 24 : ℝ) * ∑ m ∈ range (2 ^ 24), H (128 * m + i)
      ≤ 12 / 10 ^ 7 + (1 - ((if zigX i ≤ 2 then zigCnt i else 0 : ℕ) : ℝ) / 2 ^ 24) * topDiff O sigma s bound n
        + (1 - (zigCnt i : ℝ) / 2 ^ 24) * (6 / 10 ^ 4) := by
    intro i hi
    have hi := mem_range.1 hi
    have e : ∀ m, H (128 * m + i) = (if NearEdge ((n + 1 / 2) / s) (zigPt i m) then (1 : ℝ) else 0)
        + (if NearEdge ((bound.toNat + 1 / 2) / s) (zigPt i m) then (1 : ℝ) else 0)
        + (if 128 * m + i < zigK.getD i 0 then (if zigX i ≤ 2 then 0 else topDiff O sigma s bound n) else topDiff O sigma s bound n)
        + (if 128 * m + i < zigK.getD i 0 then 0 else 6 / 10 ^ 4) := by
      intro m
      rw [hH]
      dsimp only
      rw [show (128 * m + i) % 128 = i by omega, ← zigPt]
    rw [sum_congr rfl fun m _ => e m, sum_add_distrib, sum_add_distrib, sum_add_distrib, mul_add, mul_add, mul_add, sum_words hi]
    have n1 := near_avg hi (e := (n + 1 / 2) / s) (by positivity)
    have n2 := near_avg hi (e := (bound.toNat + 1 / 2) / s) (by positivity)
    have n3 : (1 / 2 ^ 24 : ℝ) * ∑ m ∈ range (2 ^ 24), (if 128 * m + i < zigK.getD i 0 then
        (if zigX i ≤ 2 then 0 else topDiff O sigma s bound n) else topDiff O sigma s bound n)
        = (1 - ((if zigX i ≤ 2 then zigCnt i else 0 : ℕ) : ℝ) / 2 ^ 24) * topDiff O sigma s bound n := by
      by_cases h : zigX i ≤ 2
      · simp only [h, if_true]
        exact sum_words hi _
      · simp only [h, if_false, ite_self]
        rw [avg_const]
        push_cast
        ring
    rw [n3]
    gcongr
    refine (add_le_add n1 n2).trans ?_
    norm_num
  have hsum := sum_le_sum hpos
  have hc1 : (2081000000 : ℝ) ≤ ∑ i ∈ range 128, (zigCnt i : ℝ) := by
    have := zigCnt_sums.1
    rw [sum_range_map] at this
    exact_mod_cast this
  have hc2 : (1500000000 : ℝ) ≤ ∑ i ∈ range 128, ((if zigX i ≤ 2 then zigCnt i else 0 : ℕ) : ℝ) := by
    have := zigCnt_sums.2.1
    rw [sum_range_map] at this
    exact_mod_cast this
  rw [sum_add_distrib, sum_add_distrib, ← sum_mul, ← sum_mul, sum_sub_distrib, sum_sub_distrib,
    ← sum_div _ (fun i => (zigCnt i : ℝ)), ← sum_div _ (fun i => ((if zigX i ≤ 2 then zigCnt i else 0 : ℕ) : ℝ)), sum_const, sum_const,
    card_range, nsmul_eq_mul, nsmul_eq_mul] at hsum
  generalize ∑ i ∈ range 128, (zigCnt i : ℝ) = S1 at *
  generalize ∑ i ∈ range 128, ((if zigX i ≤ 2 then zigCnt i else 0 : ℕ) : ℝ) = S2 at *
  generalize ∑ i ∈ range 128, (1 / 2 ^ 24 : ℝ) * ∑ m ∈ range (2 ^ 24), H (128 * m + i) = S3 at *
  generalize topDiff O sigma s bound n = D at *
  have h5 : 1500000000 * D ≤ S2 * D := by gcongr
  norm_num at hsum key ⊢
  linarith

end

end FastKsw
