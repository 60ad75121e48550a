import Verif.Lemmas.FloatFFT
import Verif.Props.Slots
import Verif.Props.BigComplex
import Verif.Props.EndToEnd
import Mathlib.Analysis.Real.Pi.Bounds
import Mathlib.Analysis.SpecialFunctions.Trigonometric.Bounds

/-!
# C92: the transforms in complex128 arithmetic

Every operation rounded as in IEEE 754, with gradual underflow; the table of roots is the one of the encoder up to a bound
`δ` per entry.
-/

namespace FastKsw.Props

open FastKsw Finset

variable {n d : ℕ} {δ : ℝ} {roots : ℕ → ℚ × ℚ}

theorem fC_getD (x : List (ℚ × ℚ)) (k : ℕ) : (x.map fC).getD k 0 = fC (x.getD k 0) := by
  rw [← fC_zero, List.getD_map]

/-- the table holds the roots of unity up to `δ` -/
def RootsNear (M : ℕ) (roots : ℕ → ℚ × ℚ) (δ : ℝ) : Prop := ∀ i ≤ M, ‖fC (roots i) - encRoots M i‖ ≤ δ

theorem RootsNear.nonneg {M : ℕ} (h : RootsNear M roots δ) : 0 ≤ δ := le_trans (norm_nonneg _) (h 0 (Nat.zero_le _))

/-- error of the forward transform of `2^n` values bounded by `B` -/
noncomputable def fftErr (δ : ℝ) (n : ℕ) (B : ℝ) : ℝ := 2 ^ n * (gh δ ^ n * (B + 11 * eta) - B)

/-- error of the inverse transform -/
noncomputable def ifftErr (δ : ℝ) (n : ℕ) (B : ℝ) : ℝ := gh δ ^ (n + 1) * (B + 13 * eta) - B

theorem errF_le (hδ : 0 ≤ δ) (n : ℕ) (B : ℝ) : errF δ n B 0 ≤ fftErr δ n B := by
  unfold errF fftErr
  rw [mul_pow]
  have := eta_pos
  nlinarith

/-- **C92 (forward).** The transform computed in complex128 differs in each value from the exact evaluation at
`ζ^(5^j)` by at most `2^n ((1+u)^n (1+δ)^n (1+3u)^n (B + 11η) - B)`: `B` bounds the inputs, `u = 2^-53`,
`η = 2^-1075`. -/
theorem C92_fft (u : Bool) (hr : RootsNear (2 ^ (n + 2 + d)) roots δ) (x : List (ℚ × ℚ)) (hx : fftCap u (2 ^ n) ≤ x.length) {B : ℝ}
    (hB : ∀ k < 2 ^ n, ‖fC (x.getD k 0)‖ ≤ B) :
    (specialFFTF u (2 ^ n) (2 ^ (n + 2 + d)) roots x).length = x.length ∧
    ∀ j < 2 ^ n, ‖fC ((specialFFTF u (2 ^ n) (2 ^ (n + 2 + d)) roots x).getD j 0) -
      ∑ k ∈ range (2 ^ n), fC (x.getD k 0) * (encZeta (2 ^ (n + 2 + d)) ^ 2 ^ d) ^ (5 ^ j * k)‖ ≤ fftErr δ n B := by
  have hcap : 2 ^ n ≤ fftCap u (2 ^ n) := by unfold fftCap; split <;> omega
  obtain ⟨s1, s2⟩ := cSliceBitReverse_spec x (n := n) (by omega)
  obtain ⟨t1, t2⟩ := cSliceBitReverse_spec (x.map fC) (n := n) (by rw [List.length_map]; omega)
  refine ⟨by unfold specialFFTF; rw [fftLayersF_length, s1], fun j hj => ?_⟩
  have hex := specialFFT_at (encZeta_table n d) u (x.map fC) (by rw [List.length_map]; exact hx) j hj
  have hnear : Near (2 ^ n) 0 B (cSliceBitReverse (2 ^ n) x) (cSliceBitReverse (2 ^ n) (x.map fC)) := by
    intro k hk
    rw [s2, t2, if_pos hk, if_pos hk, fC_getD, sub_self, norm_zero]
    exact ⟨le_rfl, hB _ (revBits_lt n k)⟩
  have key := (fftLayersF_near u hr.nonneg (encRoots_norm (2 ^ (n + 2 + d))) hr (by omega)
    (by rw [t1, List.length_map]; exact hx) hnear n le_rfl j hj).1
  rw [show (∑ k ∈ range (2 ^ n), fC (x.getD k 0) * (encZeta (2 ^ (n + 2 + d)) ^ 2 ^ d) ^ (5 ^ j * k)) =
    (specialFFT u (2 ^ n) (2 ^ (n + 2 + d)) (encRoots (2 ^ (n + 2 + d))) (x.map fC)).getD j 0 by
      rw [hex]; exact Finset.sum_congr rfl fun k _ => by rw [fC_getD]]
  unfold specialFFTF specialFFT
  rw [len64_two_pow_pred]
  exact key.trans (errF_le hr.nonneg n B)

/-- **C92 (inverse).** The inverse transform computed in complex128 differs in each value from the exact one by at most
`((1+u)(1+δ)(1+3u))^(n+1) (B + 13η) - B`; the exact values are at most `B`. -/
theorem C92_ifft (u : Bool) (hr : RootsNear (2 ^ (n + 2 + d)) roots δ) (hδ4 : δ ≤ 1 / 4) (len : ℕ) (hlen : 2 ^ n ≤ len)
    (x : List (ℚ × ℚ)) (hx : ifftCap u (2 ^ n) len ≤ x.length) {B : ℝ} (hB : ∀ k < 2 ^ n, ‖fC (x.getD k 0)‖ ≤ B) :
    (specialiFFTF u (2 ^ n) (2 ^ (n + 2 + d)) roots len x).length = x.length ∧
    ∀ k < 2 ^ n, ‖fC ((specialiFFTF u (2 ^ n) (2 ^ (n + 2 + d)) roots len x).getD k 0) -
      (specialiFFT u (2 ^ n) (2 ^ (n + 2 + d)) (encRoots (2 ^ (n + 2 + d))) len (x.map fC)).getD k 0‖ ≤ ifftErr δ n B ∧
      ‖(specialiFFT u (2 ^ n) (2 ^ (n + 2 + d)) (encRoots (2 ^ (n + 2 + d))) len (x.map fC)).getD k 0‖ ≤ B := by
  have hδ := hr.nonneg
  have hcap : 2 ^ n ≤ fftCap u (2 ^ n) := by unfold fftCap; split <;> omega
  have hx0 := hx
  unfold ifftCap at hx
  have hx1 := le_trans (le_max_left _ _) hx
  have hx2 := le_trans (le_max_right _ _) hx
  set L := ifftLayersF u (2 ^ n) (2 ^ (n + 2 + d)) roots n x with hL
  have hLlen : L.length = x.length := ifftLayersF_length u n x
  set D := if u then divideSliceF len ((2 ^ n : ℕ) : ℚ) L else (L.take (2 ^ n)).map (fcDiv · ((2 ^ n : ℕ) : ℚ)) ++ L.drop (2 ^ n) with hD
  have hDlen : D.length = x.length := by
    rw [hD]
    split
    · unfold divideSliceF; rw [List.length_append, List.length_map, List.length_take, List.length_drop]; omega
    · rw [List.length_append, List.length_map, List.length_take, List.length_drop]; omega
  have hsplit : ∀ (m k : ℕ), k < m → k < L.length → ((L.take m).map (fcDiv · ((2 ^ n : ℕ) : ℚ)) ++ L.drop m).getD k 0 =
      fcDiv (L.getD k 0) ((2 ^ n : ℕ) : ℚ) := by
    intro m k hk hkl
    rw [List.getD_append _ _ _ _ (by simp; omega)]
    simp [List.getD, List.getElem?_take, hk, hkl]
  have hDat : ∀ k < 2 ^ n, D.getD k 0 = fcDiv (L.getD k 0) ((2 ^ n : ℕ) : ℚ) := by
    intro k hk
    rw [hD]
    split
    · unfold divideSliceF; exact hsplit _ k (by omega) (by omega)
    · exact hsplit _ k hk (by omega)
  obtain ⟨s1, s2⟩ := cSliceBitReverse_spec D (n := n) (by omega)
  have hspec : specialiFFTF u (2 ^ n) (2 ^ (n + 2 + d)) roots len x = cSliceBitReverse (2 ^ n) D := by
    unfold specialiFFTF
    rw [len64_two_pow_pred]
  refine ⟨by rw [hspec, s1, hDlen], fun k hk => ?_⟩
  rw [hspec, s2, if_pos hk, hDat _ (revBits_lt n k),
    (specialiFFT_at (d := d) (roots := encRoots (2 ^ (n + 2 + d))) u len hlen (x.map fC) (by rw [List.length_map]; exact hx0)).2.1 k hk]
  have hnear : Near (2 ^ n) 0 B x (x.map fC) := by
    intro i hi
    rw [fC_getD, sub_self, norm_zero]
    exact ⟨le_rfl, hB i hi⟩
  obtain ⟨k1, k2⟩ := ifftLayersF_near u hδ hδ4 (encRoots_norm (2 ^ (n + 2 + d))) hr n le_rfl x (x.map fC) 0 B hx1
    (by rw [List.length_map]; exact hx1) hnear (revBits n k) (revBits_lt n k)
  rw [← hL] at k1
  set a := L.getD (revBits n k) 0
  set y := (ifftLayers u (2 ^ n) (2 ^ (n + 2 + d)) (encRoots (2 ^ (n + 2 + d))) n (x.map fC)).getD (revBits n k) 0
  have hc : ((((2 ^ n : ℕ) : ℚ) : ℝ) : ℂ) = ((2 ^ n : ℕ) : ℂ) := by push_cast; rfl
  have hp : (0 : ℝ) < 2 ^ n := by positivity
  have e1 := fcDiv_err a ((2 ^ n : ℕ) : ℚ)
  rw [hc] at e1
  have hdn : ‖((2 ^ n : ℕ) : ℂ)‖ = 2 ^ n := by simp
  have e2 : ‖fC a / ((2 ^ n : ℕ) : ℂ) - y / ((2 ^ n : ℕ) : ℂ)‖ ≤ errF δ n B 0 / 2 ^ n := by
    rw [← sub_div, norm_div, hdn]
    exact div_le_div_of_nonneg_right k1 hp.le
  have e0 : ‖y / ((2 ^ n : ℕ) : ℂ)‖ ≤ B := by rw [norm_div, hdn, div_le_iff₀ hp, mul_comm]; exact k2
  have e3 : ‖fC a / ((2 ^ n : ℕ) : ℂ)‖ ≤ B + errF δ n B 0 / 2 ^ n := by
    have t := norm_add_le (fC a / ((2 ^ n : ℕ) : ℂ) - y / ((2 ^ n : ℕ) : ℂ)) (y / ((2 ^ n : ℕ) : ℂ))
    rw [sub_add_cancel] at t
    linarith
  have e4 := norm_add_le (fC (fcDiv a ((2 ^ n : ℕ) : ℚ)) - fC a / ((2 ^ n : ℕ) : ℂ)) (fC a / ((2 ^ n : ℕ) : ℂ) - y / ((2 ^ n : ℕ) : ℂ))
  rw [sub_add_sub_cancel] at e4
  have e5 : errF δ n B 0 / 2 ^ n ≤ gh δ ^ n * (B + 11 * eta) - B := by
    rw [div_le_iff₀ hp, mul_comm]; exact errF_le hδ n B
  have hu := uf_pos
  have he := eta_pos
  have hB0 : 0 ≤ B := le_trans (norm_nonneg _) (hB 0 (Nat.two_pow_pos n))
  have e6 := mul_le_mul_of_nonneg_left e3 hu.le
  have e7 := mul_le_mul_of_nonneg_left e5 hu.le
  have hgn : 1 ≤ gh δ ^ n := one_le_pow₀ (gh_ge hδ)
  have hg : 1 + uf ≤ gh δ := by
    unfold gh
    exact le_mul_of_one_le_right (by linarith) (one_le_mul_of_one_le_of_one_le (by linarith) (by linarith))
  have hP : 0 ≤ gh δ ^ n * (B + 11 * eta) := by positivity
  have e8 := mul_le_mul_of_nonneg_left hg hP
  have e9 : 2 * eta ≤ gh δ ^ n * gh δ * (2 * eta) := by
    refine le_mul_of_one_le_left (by linarith) ?_
    exact one_le_mul_of_one_le_of_one_le hgn (gh_ge hδ)
  refine ⟨?_, e0⟩
  unfold ifftErr
  rw [pow_succ]
  calc _ ≤ gh δ ^ n * (B + 11 * eta) * (1 + uf) + 2 * eta - B := by linarith
    _ ≤ gh δ ^ n * (B + 11 * eta) * gh δ + gh δ ^ n * gh δ * (2 * eta) - B := by linarith
    _ = _ := by ring

/-! ### Explicit bounds -/

theorem eta_le : eta ≤ uf / 2 ^ 100 := by
  unfold eta uf
  rw [show (1 : ℝ) / 2 ^ 53 / 2 ^ 100 = 2 ^ (-153 : ℤ) by rw [zpow_neg]; norm_num]
  exact zpow_le_zpow_right₀ (by norm_num) (by norm_num)

theorem gh_pow_le (hδ : 0 ≤ δ) (h : δ ≤ 1 / 2 ^ 48) {m : ℕ} (hm : m ≤ 2 ^ 20) : gh δ ^ m ≤ 1 + 40 * m * uf := by
  have hu := uf_pos
  have hu' : uf = 1 / 2 ^ 53 := rfl
  have g0 : gh δ ≤ 1 + 37 * uf := by
    have : gh δ ≤ (1 + uf) * ((1 + 1 / 2 ^ 48) * (1 + 3 * uf)) := by
      unfold gh
      exact mul_le_mul_of_nonneg_left (mul_le_mul_of_nonneg_right (by linarith) (by linarith)) (by linarith)
    refine this.trans ?_
    rw [hu']; norm_num
  have g1 := gh_ge hδ
  induction m with
  | zero => simp
  | succ m ih =>
    have ih := ih (by omega)
    rw [pow_succ]
    have hm' : (m : ℝ) ≤ 2 ^ 20 := by exact_mod_cast (by omega : m ≤ 2 ^ 20)
    have hm0 : (0 : ℝ) ≤ m := Nat.cast_nonneg m
    calc gh δ ^ m * gh δ ≤ (1 + 40 * m * uf) * (1 + 37 * uf) :=
          mul_le_mul ih g0 (by linarith) (by have := mul_nonneg hm0 hu.le; linarith)
      _ = 1 + 40 * m * uf + 37 * uf + 1480 * (m * uf) * uf := by ring
      _ ≤ 1 + 40 * m * uf + 37 * uf + 3 * uf := by
          have : m * uf ≤ 1 / 2 ^ 33 := by
            calc (m : ℝ) * uf ≤ 2 ^ 20 * uf := mul_le_mul_of_nonneg_right hm' hu.le
              _ = 1 / 2 ^ 33 := by rw [hu']; norm_num
          have h2 : 1480 * (m * uf) ≤ 3 := by linarith
          have := mul_le_mul_of_nonneg_right h2 hu.le
          linarith
      _ = 1 + 40 * (m + 1 : ℕ) * uf := by push_cast; ring

/-- **C92 (size of the errors).** With a table accurate to `2^-48` and up to `2^20` layers, the relative errors grow by less than
`2^-47` per layer: with `2^14` slots the inverse transform is accurate to `2^-43`. -/
theorem C92_size (hδ : 0 ≤ δ) (h : δ ≤ 1 / 2 ^ 48) {n : ℕ} (hn : n < 2 ^ 20) {B : ℝ} (hB : 0 ≤ B) :
    ifftErr δ n B ≤ (n + 1) * B / 2 ^ 47 + 14 * eta ∧ fftErr δ n B ≤ 2 ^ n * (n * B / 2 ^ 47 + 14 * eta) := by
  have hu := uf_pos
  have hu' : uf = 1 / 2 ^ 53 := rfl
  have he := eta_pos
  have key : ∀ m : ℕ, m ≤ 2 ^ 20 → ∀ c : ℝ, 0 ≤ c → c ≤ 13 → gh δ ^ m * (B + c * eta) - B ≤ m * B / 2 ^ 47 + 14 * eta := by
    intro m hm c hc0 hc
    have h1 := gh_pow_le hδ h hm
    have h2 := mul_le_mul_of_nonneg_right h1 (show 0 ≤ B + c * eta by positivity)
    have hm' : (m : ℝ) ≤ 2 ^ 20 := by exact_mod_cast hm
    have hm0 : (0 : ℝ) ≤ m := Nat.cast_nonneg m
    have h3 : 40 * m * uf ≤ 1 / 2 ^ 20 := by rw [hu']; linarith
    have h4 : 40 * m * uf * (c * eta) ≤ 1 / 2 ^ 20 * (13 * eta) :=
      mul_le_mul h3 (mul_le_mul_of_nonneg_right hc he.le) (by positivity) (by norm_num)
    have h5 : 40 * m * uf * B ≤ m * B / 2 ^ 47 := by
      rw [hu']
      have : (0 : ℝ) ≤ m * B := by positivity
      linarith
    have h6 := mul_le_mul_of_nonneg_right hc he.le
    calc _ ≤ (1 + 40 * m * uf) * (B + c * eta) - B := by linarith
      _ = 40 * m * uf * B + 40 * m * uf * (c * eta) + c * eta := by ring
      _ ≤ _ := by linarith
  constructor
  · have := key (n + 1) (by omega) 13 (by norm_num) le_rfl
    push_cast at this
    exact this
  · unfold fftErr
    exact mul_le_mul_of_nonneg_left (key n (by omega) 11 (by norm_num) (by norm_num)) (by positivity)

/-! ### The table of the encoder -/

/-- **C92 (table).** The table that `NewEncoder` fills through float64 angles: if the cosine and the sine of the
mathematical library are accurate to 4 units of `2^-53` at every float64 value up to 7, every entry is within `2^-48` of
the root of unity. -/
theorem C92_table {cosF sinF : ℚ → ℚ} (hc : ∀ x, |f64s x| ≤ 7 → |(cosF (f64s x) : ℝ) - Real.cos (f64s x)| ≤ 4 / 2 ^ 53)
    (hs : ∀ x, |f64s x| ≤ 7 → |(sinF (f64s x) : ℝ) - Real.sin (f64s x)| ≤ 4 / 2 ^ 53) {M : ℕ} (hM : 0 < M) :
    RootsNear M (encRootsF cosF sinF M) (1 / 2 ^ 48) := by
  have key : ∀ i < M, ‖fC (cosF (f64s (f64s (f64s (2 * 3.141592653589793) * i) / M)),
      sinF (f64s (f64s (f64s (2 * 3.141592653589793) * i) / M))) - encRoots M i‖ ≤ 1 / 2 ^ 48 := by
    intro i hi
    have hu := uf_pos
    have hu' : uf = 1 / 2 ^ 53 := rfl
    have he := eta_pos
    have hel := eta_le
    have hM' : (0 : ℝ) < M := by exact_mod_cast hM
    have hMq : (0 : ℚ) < M := by exact_mod_cast hM
    have hp1 := Real.pi_gt_d20
    have hp2 := Real.pi_lt_d20
    set c : ℚ := f64s (2 * 3.141592653589793) with hcdef
    set t : ℝ := (i : ℝ) / M with ht
    have ht0 : 0 ≤ t := by positivity
    have ht1 : t ≤ 1 := by rw [ht, div_le_one hM']; exact_mod_cast hi.le
    have c1 := f64s_err (2 * 3.141592653589793)
    rw [← hcdef] at c1
    rw [show (((2 * 3.141592653589793 : ℚ)) : ℝ) = 6.283185307179586 by norm_num,
      abs_of_pos (show (0 : ℝ) < 6.283185307179586 by norm_num)] at c1
    rw [abs_le] at c1
    have c2 : (c : ℝ) ≤ 6.3 := by have := c1.2; rw [hu'] at *; linarith
    have c3 : 0 ≤ (c : ℝ) := by have := c1.1; rw [hu'] at *; linarith
    have c4 : |(c : ℝ) - 2 * Real.pi| ≤ 11 * uf := by
      rw [abs_le]
      have := c1.1; have := c1.2
      rw [hu'] at *
      constructor <;> linarith
    have p1 := f64s_err (c * i)
    set p : ℚ := f64s (c * i)
    have a1 := f64s_err (p / M)
    set a : ℚ := f64s (p / M) with hadef
    push_cast at p1 a1
    rw [abs_of_nonneg (show (0 : ℝ) ≤ c * i by positivity)] at p1
    have p2 : |(p : ℝ) / M - c * t| ≤ uf * (c * t) + eta := by
      rw [ht, show (p : ℝ) / M - c * (i / M) = (p - c * i) / M by ring, abs_div, abs_of_pos hM', div_le_iff₀ hM']
      have hM1 : (1 : ℝ) ≤ M := by exact_mod_cast hM
      have : (uf * (c * (↑i / ↑M)) + eta) * (M : ℝ) = uf * (c * i) + eta * M := by field_simp
      rw [this]
      have := le_mul_of_one_le_right he.le hM1
      linarith
    have ct : (c : ℝ) * t ≤ 6.3 := le_trans (mul_le_of_le_one_right c3 ht1) c2
    have ct0 : 0 ≤ (c : ℝ) * t := by positivity
    have p3 : |(p : ℝ) / M| ≤ 6.5 := by
      have := abs_add_le ((p : ℝ) / M - c * t) (c * t)
      rw [sub_add_cancel, abs_of_nonneg ct0] at this
      have h2 := mul_le_mul_of_nonneg_left ct hu.le
      rw [hu'] at *
      linarith
    have q1 : |c * t - 2 * Real.pi * t| ≤ 11 * uf := by
      rw [← sub_mul, abs_mul, abs_of_nonneg ht0]
      exact (mul_le_of_le_one_right (abs_nonneg _) ht1).trans c4
    have q2 : |(a : ℝ) - 2 * Real.pi * t| ≤ 24 * uf := by
      have e1 := abs_add_le ((a : ℝ) - p / M) (p / M - c * t)
      have e2 := abs_add_le ((a : ℝ) - c * t) (c * t - 2 * Real.pi * t)
      rw [sub_add_sub_cancel] at e1 e2
      have h1 := mul_le_mul_of_nonneg_left ct hu.le
      have h2 := mul_le_mul_of_nonneg_left p3 hu.le
      have h3 : eta ≤ uf / 100 := by
        refine hel.trans (div_le_div_of_nonneg_left hu.le (by norm_num) (by norm_num))
      linarith
    have q3 : |a| ≤ 7 := by
      have h1 := abs_add_le ((a : ℝ) - 2 * Real.pi * t) (2 * Real.pi * t)
      rw [sub_add_cancel, abs_of_nonneg (show 0 ≤ 2 * Real.pi * t by positivity)] at h1
      have h2 : 2 * Real.pi * t ≤ 2 * Real.pi := mul_le_of_le_one_right (by positivity) ht1
      have : |(a : ℝ)| ≤ 7 := by rw [hu'] at *; linarith
      exact_mod_cast this
    have d1 := hc (p / M) q3
    have d2 := hs (p / M) q3
    rw [← hadef] at d1 d2
    have e1 : encRoots M i = Complex.exp (((2 * Real.pi * t : ℝ) : ℂ) * Complex.I) := by
      unfold encRoots
      rw [Complex.exp_mul_I, ← Complex.ofReal_cos, ← Complex.ofReal_sin, ht, mul_div_assoc]
    have e2 : ‖Complex.exp (((a : ℝ) : ℂ) * Complex.I) - Complex.exp (((2 * Real.pi * t : ℝ) : ℂ) * Complex.I)‖ ≤ 24 * uf := by
      have : Complex.exp (((a : ℝ) : ℂ) * Complex.I) = Complex.exp (((2 * Real.pi * t : ℝ) : ℂ) * Complex.I) *
          Complex.exp (Complex.I * ((a - 2 * Real.pi * t : ℝ) : ℂ)) := by
        rw [← Complex.exp_add]; congr 1; push_cast; ring
      rw [this, show ∀ x y : ℂ, x * y - x = x * (y - 1) by intros; ring, norm_mul, Complex.norm_exp_ofReal_mul_I, one_mul]
      exact (Real.norm_exp_I_mul_ofReal_sub_one_le).trans (by rw [Real.norm_eq_abs]; exact q2)
    have e3 : ‖fC (cosF a, sinF a) - Complex.exp (((a : ℝ) : ℂ) * Complex.I)‖ ≤ 8 * uf := by
      refine (Complex.norm_le_abs_re_add_abs_im _).trans ?_
      rw [Complex.exp_mul_I, ← Complex.ofReal_cos, ← Complex.ofReal_sin]
      simp only [fC, Complex.sub_re, Complex.sub_im, Complex.add_re, Complex.add_im, Complex.ofReal_re, Complex.ofReal_im,
        Complex.mul_re, Complex.mul_im, Complex.I_re, Complex.I_im, mul_zero, mul_one, sub_zero, zero_add, add_zero]
      rw [hu']
      linarith
    have e4 := norm_add_le (fC (cosF a, sinF a) - Complex.exp (((a : ℝ) : ℂ) * Complex.I))
      (Complex.exp (((a : ℝ) : ℂ) * Complex.I) - Complex.exp (((2 * Real.pi * t : ℝ) : ℂ) * Complex.I))
    rw [sub_add_sub_cancel] at e4
    rw [e1]
    refine e4.trans ?_
    rw [hu'] at *
    linarith
  intro i hi
  unfold encRootsF
  by_cases h : i = M
  · have h0 := key 0 hM
    have e : encRoots M i = encRoots M 0 := by
      subst h
      unfold encRoots
      rw [mul_div_assoc, div_self (by exact_mod_cast hM.ne')]
      simp
    rw [e]
    simpa [h] using h0
  · have := key i (by omega)
    simpa [h] using this

/-! ### Encoder and decoder -/

section
variable {logSlots d : ℕ} {δ : ℝ} {roots : ℕ → ℚ × ℚ}

theorem take_getD {K : Type} [Zero K] (y : List K) {m k : ℕ} (hk : k < m) : (y.take m).getD k 0 = y.getD k 0 := by
  simp [List.getD, List.getElem?_take, hk]

/-- **C92 (encoder).** The values that the encoder passes to the rounding are those of the exact inverse transform up to
`ifftErr`, whatever the buffer of the encoder holds. -/
theorem C92_encode (hr : RootsNear (2 ^ (logSlots + 2 + d)) roots δ) (hδ4 : δ ≤ 1 / 4) (mem : List (ℚ × ℚ))
    (hmem : 2 ^ (logSlots + d) ≤ mem.length ∧ (3 ≤ logSlots → 16 ≤ mem.length)) (values : List (ℚ × ℚ))
    (hv : values.length ≤ 2 ^ logSlots) {V : ℝ} (hV0 : 0 ≤ V) (hV : ∀ v ∈ values, ‖fC v‖ ≤ V) :
    ∃ y w, encodeFFT (2 ^ (logSlots + 2 + d)) (encRoots (2 ^ (logSlots + 2 + d))) (mem.map fC) (values.map fC) logSlots = some y ∧
      encodeFFTF (2 ^ (logSlots + 2 + d)) roots mem values logSlots = some w ∧ w.length = 2 ^ logSlots ∧
      ∀ k < 2 ^ logSlots, ‖fC (w.getD k 0) - y.getD k 0‖ ≤ ifftErr δ logSlots V ∧ ‖y.getD k 0‖ ≤ V := by
  have hMq : 2 ^ (logSlots + 2 + d) / 4 = 2 ^ (logSlots + d) := by
    rw [show 2 ^ (logSlots + 2 + d) = 4 * 2 ^ (logSlots + d) by ring, Nat.mul_div_cancel_left _ (by norm_num)]
  have hle : 2 ^ logSlots ≤ 2 ^ (logSlots + d) := Nat.pow_le_pow_right (by norm_num) (by omega)
  unfold encodeFFT encodeFFTF
  dsimp only
  rw [hMq, List.length_map, if_neg (by omega), if_neg (by omega)]
  refine ⟨_, _, rfl, rfl, ?_⟩
  set buf : List (ℚ × ℚ) := values ++ List.replicate (2 ^ logSlots - values.length) 0 ++ mem.drop (2 ^ logSlots) with hbuf
  have hbm : values.map fC ++ List.replicate (2 ^ logSlots - values.length) 0 ++ (mem.map fC).drop (2 ^ logSlots) = buf.map fC := by
    rw [hbuf, List.map_append, List.map_append, List.map_replicate, fC_zero, List.map_drop]
  have hbl : buf.length = mem.length := by rw [hbuf]; simp; omega
  have hcap : ifftCap (decide (3 ≤ logSlots)) (2 ^ logSlots) (2 ^ (logSlots + d)) ≤ buf.length := by
    unfold ifftCap
    refine max_le (by rw [hbl]; exact fftCap_le (by omega) hmem.2) ?_
    split
    · rename_i h
      have h3 : 3 ≤ logSlots := by simpa using h
      have : 8 ∣ 2 ^ (logSlots + d) := pow_dvd_pow 2 (show 3 ≤ logSlots + d by omega)
      omega
    · omega
  have hB : ∀ k < 2 ^ logSlots, ‖fC (buf.getD k 0)‖ ≤ V := by
    intro k hk
    rw [hbuf, List.append_assoc]
    by_cases h : k < values.length
    · rw [List.getD_append _ _ _ _ h, List.getD_eq_getElem _ _ h]
      exact hV _ (List.getElem_mem h)
    · rw [List.getD_append_right _ _ _ _ (by omega), List.getD_append _ _ _ _ (by simp; omega)]
      have : (List.replicate (2 ^ logSlots - values.length) (0 : ℚ × ℚ)).getD (k - values.length) 0 = 0 := by
        simp only [List.getD, List.getElem?_replicate]
        split <;> rfl
      rw [this, fC_zero, norm_zero]
      exact hV0
  rw [hbm]
  obtain ⟨h1, h2⟩ := C92_ifft (decide (3 ≤ logSlots)) hr hδ4 (2 ^ (logSlots + d)) hle buf hcap hB
  refine ⟨by rw [List.length_take, h1, hbl]; omega, fun k hk => ?_⟩
  rw [take_getD _ hk, take_getD _ hk]
  exact h2 k hk

theorem norm_fC_le {a : ℚ × ℚ} {c : ℝ} (h1 : |(a.1 : ℝ)| ≤ c) (h2 : |(a.2 : ℝ)| ≤ c) : ‖fC a‖ ≤ 2 * c := by
  refine (Complex.norm_le_abs_re_add_abs_im _).trans ?_
  show |(a.1 : ℝ)| + |(a.2 : ℝ)| ≤ _
  linarith

/-- **C92 (decoder).** The decoder returns the slots of the polynomial divided by the scale, up to the rounding of the
coefficients and the error of the transform. -/
theorem C92_decode {r : Ring} {level : ℕ} (hr : r.Valid (logSlots + 1 + d)) (sr : r.Small) (hl : level < r.subs.length)
    (hroots : RootsNear r.nthRoot roots δ) (mem : List (ℚ × ℚ)) (hmem : 2 ^ logSlots ≤ mem.length ∧ (3 ≤ logSlots → 16 ≤ mem.length))
    {scale : ℚ} (hs : 0 < scale) (z : ℕ → ℤ) (hz : InRange r level z) {B : ℚ}
    (hB : ∀ k < 2 ^ (logSlots + 1), |(z (k * 2 ^ d) : ℚ)| ≤ B) (pt pool : Rows) (hpool : pool.length = r.subs.length)
    (hp : Holds r (logSlots + 1 + d) level pt z) :
    ∃ s, r.decodeSlotsF roots mem true level scale logSlots pt pool = some s ∧ s.length = 2 ^ logSlots ∧
      ∀ j < 2 ^ logSlots, ‖fC (s.getD j 0) - slotVal logSlots d z j / ((scale : ℚ) : ℂ)‖ ≤
        2 ^ (logSlots + 1) * ((B / 2 ^ 51 / scale : ℚ) : ℝ) + fftErr δ logSlots ((2 * (B + B / 2 ^ 51) / scale : ℚ) : ℝ) := by
  have hM : r.nthRoot = 2 ^ (logSlots + 2 + d) := by
    rw [hr.root]; congr 1; omega
  obtain ⟨s, a1, a2, a3⟩ := decode_slotVal hr sr hl (mem.map fC) (by rw [List.length_map]; exact hmem) hs z hz hB pt pool hpool hp
  obtain ⟨s', b1, b2, b3⟩ := decodeSlots_eval hr sr hl (encZeta_table logSlots d) Complex.I (mem.map fC)
    (by rw [List.length_map]; exact hmem) scale z hz pt pool hpool hp
  rw [hM, b1] at a1
  obtain rfl : s' = s := by simpa using a1
  unfold Ring.decodeSlotsF
  rw [C74_toComplex_partial hr sr hl scale z hz pt pool hpool hp, Option.map_some, hM]
  refine ⟨_, rfl, ?_⟩
  set x : List (ℚ × ℚ) := _ ++ List.drop (2 ^ logSlots) mem with hx
  have hxl : x.length = mem.length := by rw [hx]; simp; omega
  have hat : ∀ k < 2 ^ logSlots, x.getD k 0 =
      (f64Div (f64 (z (k * 2 ^ d))) scale, f64Div (f64 (z ((2 ^ logSlots + k) * 2 ^ d))) scale) := by
    intro k hk
    rw [hx, List.getD_append _ _ _ _ (by simpa using hk)]
    simp [List.getD, hk]
  have hco : ∀ k < 2 ^ (logSlots + 1), |((f64Div (f64 (z (k * 2 ^ d))) scale : ℚ) : ℝ)| ≤ (((B + B / 2 ^ 51) / scale : ℚ) : ℝ) := by
    intro k hk
    have h1 := f64Div_err (z (k * 2 ^ d)) hs
    have h2 := abs_add_le (f64Div (f64 (z (k * 2 ^ d))) scale - z (k * 2 ^ d) / scale) (z (k * 2 ^ d) / scale)
    rw [sub_add_cancel, abs_div _ scale, abs_of_pos hs] at h2
    have h3 := hB k hk
    have h4 : |(z (k * 2 ^ d) : ℚ)| / 2 ^ 51 / scale ≤ B / 2 ^ 51 / scale := by gcongr
    have h5 : |(z (k * 2 ^ d) : ℚ)| / scale ≤ B / scale := by gcongr
    have : |f64Div (f64 (z (k * 2 ^ d))) scale| ≤ (B + B / 2 ^ 51) / scale := by
      rw [add_div]; linarith
    exact_mod_cast this
  rw [hM] at hroots
  obtain ⟨c1, c2⟩ := C92_fft (d := d) (decide (3 ≤ logSlots)) hroots x (by rw [hxl]; exact fftCap_le hmem.1 hmem.2)
    (B := ((2 * (B + B / 2 ^ 51) / scale : ℚ) : ℝ)) (fun k hk => by
      rw [hat k hk]
      have := norm_fC_le (a := (f64Div (f64 (z (k * 2 ^ d))) scale, f64Div (f64 (z ((2 ^ logSlots + k) * 2 ^ d))) scale))
        (hco k (by rw [pow_succ]; omega)) (hco (2 ^ logSlots + k) (by rw [pow_succ]; omega))
      refine this.trans (le_of_eq ?_)
      push_cast; ring)
  refine ⟨by rw [List.length_take, c1, hxl]; omega, fun j hj => ?_⟩
  rw [take_getD _ hj]
  have e1 := c2 j hj
  rw [show (∑ k ∈ range (2 ^ logSlots), fC (x.getD k 0) * (encZeta (2 ^ (logSlots + 2 + d)) ^ 2 ^ d) ^ (5 ^ j * k)) = s'.getD j 0 by
    rw [b3 j hj]
    refine Finset.sum_congr rfl fun k hk => ?_
    rw [hat k (Finset.mem_range.1 hk)]
    congr 1
    apply Complex.ext <;> simp [fC, ← Complex.ofReal_ratCast]] at e1
  have e2 := norm_add_le (fC ((specialFFTF (decide (3 ≤ logSlots)) (2 ^ logSlots) (2 ^ (logSlots + 2 + d)) roots x).getD j 0) -
    s'.getD j 0) (s'.getD j 0 - slotVal logSlots d z j / ((scale : ℚ) : ℂ))
  rw [sub_add_sub_cancel] at e2
  have := a3 j hj
  linarith

/-- the conditions of the encoder on the result of the transform follow from a bound on the values -/
theorem floatOK_of {y : List ℂ} {w : List (ℚ × ℚ)} {V : ℝ} {scale B : ℚ} (hs : 0 < scale) (hw : w.length = 2 ^ logSlots)
    (h : ∀ k < 2 ^ logSlots, ‖fC (w.getD k 0) - y.getD k 0‖ ≤ ifftErr δ logSlots V ∧ ‖y.getD k 0‖ ≤ V)
    (hB : (V + ifftErr δ logSlots V) * scale ≤ B) (hB64 : B ≤ 2 ^ 63) :
    FloatOK (2 ^ logSlots) scale (ifftErr δ logSlots V) B w y := by
  have hs' : (0 : ℝ) < scale := by exact_mod_cast hs
  have hle : ∀ v ∈ w, |v.1 * scale| ≤ B ∧ |v.2 * scale| ≤ B := by
    intro v hv
    obtain ⟨k, hk, rfl⟩ := List.getElem_of_mem hv
    obtain ⟨h1, h2⟩ := h k (by omega)
    rw [List.getD_eq_getElem _ _ hk] at h1
    have h3 := norm_add_le (fC w[k] - y.getD k 0) (y.getD k 0)
    rw [sub_add_cancel] at h3
    have h4 : ‖fC w[k]‖ * scale ≤ B := le_trans (mul_le_mul_of_nonneg_right (by linarith) hs'.le) hB
    have r1 : |((w[k].1 : ℚ) : ℝ)| ≤ ‖fC w[k]‖ := Complex.abs_re_le_norm (fC w[k])
    have r2 : |((w[k].2 : ℚ) : ℝ)| ≤ ‖fC w[k]‖ := Complex.abs_im_le_norm (fC w[k])
    have s1 : |((w[k].1 : ℚ) : ℝ)| * scale ≤ B := (mul_le_mul_of_nonneg_right r1 hs'.le).trans h4
    have s2 : |((w[k].2 : ℚ) : ℝ)| * scale ≤ B := (mul_le_mul_of_nonneg_right r2 hs'.le).trans h4
    rw [abs_mul, abs_mul, abs_of_pos hs]
    exact ⟨by exact_mod_cast s1, by exact_mod_cast s2⟩
  have h64 : ∀ x : ℚ, |x| ≤ B → f64 |x| ≠ 2 ^ 64 := by
    intro x hx he
    have := (f64_bounds (abs_nonneg x)).2
    rw [he] at this
    have hu : (1 + uro) * |x| ≤ (1 + uro) * 2 ^ 63 := mul_le_mul_of_nonneg_left (hx.trans hB64) (by unfold uro; positivity)
    have : (2 : ℚ) ^ 64 ≤ (1 + uro) * 2 ^ 63 := this.trans hu
    unfold uro at this
    norm_num at this
  refine ⟨hw, fun k hk => ?_, fun v hv => ⟨h64 _ (hle v hv).1, h64 _ (hle v hv).2⟩, hle⟩
  have h1 := (h k hk).1
  exact ⟨(Complex.abs_re_le_norm (fC (w.getD k 0) - y.getD k 0)).trans h1,
    (Complex.abs_im_le_norm (fC (w.getD k 0) - y.getD k 0)).trans h1⟩

/-- **C92 (round trip).** `Decode` after `Encode` with all transforms in complex128 arithmetic: neither fails and every slot comes
back, missing values as 0, up to an explicit error.  `V` bounds the values, `B` the scaled ones, `C` the coefficients.
Missing: scaled values beyond `2^63`, and for fewer than 8 slots a plaintext that was used before. -/
theorem C92_roundtrip_partial {r : Ring} {lp : ℕ} (hr : r.Valid (logSlots + 1 + d)) (sr : r.Small) (hl : lp < r.subs.length)
    (hroots : RootsNear r.nthRoot roots δ) (hδ4 : δ ≤ 1 / 4) {mem mem' : List (ℚ × ℚ)}
    (hmem : 2 ^ (logSlots + d) ≤ mem.length ∧ (3 ≤ logSlots → 16 ≤ mem.length))
    (hmem' : 2 ^ logSlots ≤ mem'.length ∧ (3 ≤ logSlots → 16 ≤ mem'.length)) {values : List (ℚ × ℚ)}
    (hv : values.length ≤ 2 ^ logSlots) {V : ℝ} (hV0 : 0 ≤ V) (hV : ∀ v ∈ values, ‖fC v‖ ≤ V) {pt : Pt} (hp : PoolOK r.n lp pt)
    (hscale : 0 < pt.scale)
    (hzero : 3 ≤ logSlots ∨ ∀ i ≤ lp, ∀ k, 2 ^ (logSlots + 1) ≤ k → k < 16 → (pt.value.coeffs.row i).at k = 0)
    {B C : ℚ} (hB : (V + ifftErr δ logSlots V) * pt.scale ≤ B) (hB64 : B ≤ 2 ^ 63) (hC : B + (B + 1) / 2 ^ 51 + 1 / 2 ≤ C)
    (hsize : 2 * C + 1 < r.prodQ lp) {polypool : Rows} (hpool : polypool.length = r.subs.length) :
    ∃ pt' s, r.encodeSlotsF roots mem values logSlots pt = some pt' ∧
      r.decodeSlotsF roots mem' pt'.value.isNTT pt'.value.level pt'.scale logSlots pt'.value.coeffs polypool = some s ∧
      s.length = 2 ^ logSlots ∧ ∀ j < 2 ^ logSlots, ‖fC (s.getD j 0) - fC (values.getD j 0)‖ ≤
        2 ^ (logSlots + 1) * (ifftErr δ logSlots V + ((1 / 2 + (B + 1) / 2 ^ 51 + C / 2 ^ 51) / pt.scale : ℚ)) +
          fftErr δ logSlots ((2 * (C + C / 2 ^ 51) / pt.scale : ℚ) : ℝ) := by
  have hM : r.nthRoot = 2 ^ (logSlots + 2 + d) := by
    rw [hr.root]; congr 1; omega
  obtain ⟨y, hy, -, henc⟩ := encode_slotVal (level := lp) hr sr hl (mem.map fC) (by rw [List.length_map]; exact hmem)
    (values.map fC) (by rw [List.length_map]; exact hv) hscale
  obtain ⟨y', w, hy', hw, hwl, hnear⟩ := C92_encode (by rw [← hM]; exact hroots) hδ4 mem hmem values hv hV0 hV
  rw [← hM, hy] at hy'
  obtain rfl : y = y' := by simpa using hy'
  have F := floatOK_of hscale hwl hnear hB hB64
  obtain ⟨z, -, hz2, hz3, hz4⟩ := henc w _ B F.len F.close F.ne64 F.le pt.value.coeffs (by rw [hp.len]; omega) hp.row hzero
  have hlev := hp.level
  have hlev' : Poly.level ⟨r.embedPoly lp logSlots w pt.scale false pt.value.coeffs, pt.value.isNTT⟩ = lp := by
    have := hz3.len
    unfold Poly.level at hlev ⊢
    dsimp only
    omega
  have hgap : ∀ k < 2 ^ (logSlots + 1), k * 2 ^ d < 2 ^ (logSlots + 1 + d) := by
    intro k hk
    rw [pow_add 2 (logSlots + 1) d]
    exact Nat.mul_lt_mul_of_pos_right hk (Nat.two_pow_pos d)
  have hZ : ∀ k < 2 ^ (logSlots + 1 + d), |(z k : ℚ)| ≤ C := fun k hk => (hz2 k (by rw [hr.deg]; exact hk)).trans hC
  obtain ⟨s, s1, s2, s3⟩ := C92_decode hr sr hl hroots mem' hmem' hscale z (bounded_of hr hZ hsize).inRange
    (fun k hk => hZ _ (hgap k hk)) _ polypool hpool hz3.is
  refine ⟨_, s, by unfold Ring.encodeSlotsF; rw [hM, hw, Option.map_some], ?_, s2, fun j hj => ?_⟩
  · dsimp only
    rw [hlev, hlev', hp.ntt]
    exact s1
  · have h4 := hz4 j hj
    rw [fC_getD] at h4
    refine (msg_close hscale (s3 j hj) h4).trans (le_of_eq ?_)
    have hs' : (pt.scale : ℝ) ≠ 0 := by exact_mod_cast hscale.ne'
    push_cast
    field_simp
    ring

/-- decryption with the decoder in complex128 arithmetic -/
theorem decryptToMsgF_is {r : Ring} (hr : r.Valid (logSlots + 1 + d)) (sr : r.Small) (hroots : RootsNear r.nthRoot roots δ)
    {sk : Rows} {S : ℕ → ℤ} {deg level lp : ℕ} {A : ℕ → ℕ}
    {ct : Ct} {Z : ℕ → ℤ} (h : CtEnc (logSlots + 1 + d) r level A deg ct (fun u => intR _ _ S) (fun u => intR _ _ Z))
    (hA : (∀ u ≤ level, A u ≤ r.qs u) ∨ (∀ u ≤ level, A u ≤ 6 * r.qs u) ∧ deg % 8 ≠ 7)
    {pool : Pt} (hp : PoolOK r.n lp pool) (hl : min level lp < r.subs.length)
    (hs : EltIs (logSlots + 1 + d) r (min level lp) r.qs true sk (fun u => 2 ^ 64 * intR _ _ S))
    (hscale : 0 < ct.scale) (hZ : Bounded r (min level lp) Z) {B : ℚ}
    (hB : ∀ k < 2 ^ (logSlots + 1), |(Z (k * 2 ^ d) : ℚ)| ≤ B) {mem : List (ℚ × ℚ)}
    (hmem : 2 ^ logSlots ≤ mem.length ∧ (3 ≤ logSlots → 16 ≤ mem.length)) {polypool : Rows}
    (hpool : polypool.length = r.subs.length) :
    ∃ s pool', decryptToMsgF r roots mem polypool logSlots sk ct pool = some (s, pool') ∧
      PoolOK r.n (min level lp) pool' ∧ s.length = 2 ^ logSlots ∧
      ∀ j < 2 ^ logSlots, ‖fC (s.getD j 0) - slotVal logSlots d Z j / ((ct.scale : ℚ) : ℂ)‖ ≤
        2 ^ (logSlots + 1) * ((B / 2 ^ 51 / ct.scale : ℚ) : ℝ) + fftErr δ logSlots ((2 * (B + B / 2 ^ 51) / ct.scale : ℚ) : ℝ) := by
  have hne : pool.value.coeffs ≠ [] := by intro h; have := hp.len; rw [h] at this; simp at this
  obtain ⟨a1, a2, a3⟩ := CtEnc.decrypt hr sr h hA (sk := sk) (pt := pool.value) hne
    (by rw [hp.level]; exact hl) (by rw [hp.level]; exact hs)
  rw [hp.level] at a2 a3
  rw [hp.ntt] at a1 a3
  have hH : Holds r (logSlots + 1 + d) (min level lp) (decrypt r sk ct.value pool.value).coeffs Z :=
    EltIs.nttVec hr hl a3 (fun _ _ => rfl)
  obtain ⟨s, b1, b2, b3⟩ := C92_decode hr sr hl hroots mem hmem hscale Z hZ.inRange hB _ polypool hpool hH
  refine ⟨s, ckksDecrypt r sk ct pool, ?_, ⟨a1, ?_, fun i hi => ?_⟩, b2, b3⟩
  · unfold decryptToMsgF
    dsimp only
    have e1 : (ckksDecrypt r sk ct pool).value = decrypt r sk ct.value pool.value := rfl
    have e2 : (ckksDecrypt r sk ct pool).scale = ct.scale := rfl
    rw [e1, e2, a1, a2, b1, Option.map_some]
  · have := a3.lvl
    unfold Poly.level at a2
    show (decrypt r sk ct.value pool.value).coeffs.length = _
    omega
  · rw [hr.deg]
    exact a3.len i hi

/-- **C92 (decryption).** `DecryptToMsg` with the decoder in complex128 arithmetic returns the slots of the decrypted polynomial, up to an
explicit error. -/
theorem C92_decryptToMsg {r : Ring} (hr : r.Valid (logSlots + 1 + d)) (sr : r.Small) (hroots : RootsNear r.nthRoot roots δ)
    {sk : Rows} {S : ℕ → ℤ} {deg level lp : ℕ}
    {ct : Ct} {Z : ℕ → ℤ} (h : CtEnc (logSlots + 1 + d) r level r.qs deg ct (fun u => intR _ _ S) (fun u => intR _ _ Z))
    {pool : Pt} (hp : PoolOK r.n lp pool) (hl : min level lp < r.subs.length)
    (hs : EltIs (logSlots + 1 + d) r (min level lp) r.qs true sk (fun u => 2 ^ 64 * intR _ _ S))
    (hscale : 0 < ct.scale) (hZ : Bounded r (min level lp) Z) {B : ℚ}
    (hB : ∀ k < 2 ^ (logSlots + 1), |(Z (k * 2 ^ d) : ℚ)| ≤ B) {mem : List (ℚ × ℚ)}
    (hmem : 2 ^ logSlots ≤ mem.length ∧ (3 ≤ logSlots → 16 ≤ mem.length)) {polypool : Rows}
    (hpool : polypool.length = r.subs.length) :
    ∃ s pool', decryptToMsgF r roots mem polypool logSlots sk ct pool = some (s, pool') ∧ s.length = 2 ^ logSlots ∧
      ∀ j < 2 ^ logSlots, ‖fC (s.getD j 0) - slotVal logSlots d Z j / ((ct.scale : ℚ) : ℂ)‖ ≤
        2 ^ (logSlots + 1) * ((B / 2 ^ 51 / ct.scale : ℚ) : ℝ) + fftErr δ logSlots ((2 * (B + B / 2 ^ 51) / ct.scale : ℚ) : ℝ) := by
  obtain ⟨s, pool', a1, -, a2, a3⟩ := decryptToMsgF_is hr sr hroots h (Or.inl fun u _ => le_rfl) hp hl hs hscale hZ hB hmem hpool
  exact ⟨s, pool', a1, a2, a3⟩

end

/-- **C92 (encrypted round trip).** `EncryptMsg` with a public key and `DecryptToMsg` with its secret key, with all transforms in
complex128 arithmetic: both return and every slot comes back up to an explicit error, which has no parameter left but the accuracy
`δ` of the table.  Missing: as in `C81_roundtrip_partial` and `C92_roundtrip_partial`. -/
theorem C92_encrypted_partial {logSlots d : ℕ} {δ : ℝ} {roots : ℕ → ℚ × ℚ} {rQ rP : Ring} (K : KeyParams (logSlots + 1 + d) rQ rP)
    (hroots : RootsNear rQ.nthRoot roots δ) (hδ4 : δ ≤ 1 / 4) {S E : ℕ → ℤ}
    {sk : PolyQP} {pk : PolyQP × PolyQP} {bound : ℕ}
    (hsk : sk.IsMont (logSlots + 1 + d) rQ rP (rQ.subs.length - 1) (rP.subs.length - 1) S)
    (hpk : IsPublicKey (logSlots + 1 + d) rQ rP (rQ.subs.length - 1) 0 pk S E)
    (hS : ∀ k, |S k| ≤ 1) (hE : ∀ k < 2 ^ (logSlots + 1 + d), |E k| ≤ bound)
    (hb : ∀ u < rQ.subs.length, bound ≤ rQ.qs u) (hb0 : 2 * bound < rQ.qs 0) (hbp : bound ≤ rP.qs 0)
    {t : EncTape} {U G0 G1 : ℕ → ℤ} (ht : TapeIs (logSlots + 1 + d) rQ bound t U G0 G1)
    {mem mem' : List (ℚ × ℚ)} (hmem : 2 ^ (logSlots + d) ≤ mem.length ∧ (3 ≤ logSlots → 16 ≤ mem.length))
    (hmem' : 2 ^ logSlots ≤ mem'.length ∧ (3 ≤ logSlots → 16 ≤ mem'.length))
    {polypool : Rows} (hpool : polypool.length = rQ.subs.length)
    {msg : List (ℚ × ℚ)} (hmsg : msg.length ≤ 2 ^ logSlots) {V : ℝ} (hV0 : 0 ≤ V) (hV : ∀ v ∈ msg, ‖fC v‖ ≤ V)
    {pool dpool : Pt} {lp lc ld : ℕ} (hp : PoolOK rQ.n lp pool)
    (hd : PoolOK rQ.n ld dpool) (hlp : lp < rQ.subs.length) (hscale : 0 < pool.scale)
    (hzero : 3 ≤ logSlots ∨ ∀ i ≤ lp, ∀ k, 2 ^ (logSlots + 1) ≤ k → k < 16 → (pool.value.coeffs.row i).at k = 0)
    {B C : ℚ} (hB : (V + ifftErr δ logSlots V) * pool.scale ≤ B) (hB64 : B ≤ 2 ^ 63) {ct : Ct} (hc : CtShape 1 lc ct)
    (hC : B + (B + 1) / 2 ^ 51 + 1 / 2 + encBound (2 ^ (logSlots + 1 + d)) (rP.qs 0) bound ≤ C)
    (hsize : 2 * C + 1 < rQ.prodQ (min (min lp lc) ld)) :
    ∃ pool' ct' s dpool', encryptMsgF rQ rP roots mem logSlots pk t msg pool ct = some (pool', ct') ∧
      decryptToMsgF rQ roots mem' polypool logSlots sk.q ct' dpool = some (s, dpool') ∧
      s.length = 2 ^ logSlots ∧ ∀ j < 2 ^ logSlots, ‖fC (s.getD j 0) - fC (msg.getD j 0)‖ ≤
        2 ^ (logSlots + 1) * (ifftErr δ logSlots V + ((1 / 2 + (B + 1) / 2 ^ 51 +
          encBound (2 ^ (logSlots + 1 + d)) (rP.qs 0) bound + C / 2 ^ 51) / pool.scale : ℚ)) +
        fftErr δ logSlots ((2 * (C + C / 2 ^ 51) / pool.scale : ℚ) : ℝ) := by
  have R := K.rings
  have hM : rQ.nthRoot = 2 ^ (logSlots + 2 + d) := by
    rw [R.hQ.root]; congr 1; omega
  obtain ⟨y, w, hy, hw, hwl, hnear⟩ := C92_encode (by rw [← hM]; exact hroots) hδ4 mem hmem msg hmsg hV0 hV
  rw [← hM] at hy hw
  obtain ⟨pool', ct', e1, -, -, e4, z, D, hz, hzb, hD, hct⟩ :=
    C81_encryptMsg_partial K hpk hS hE hb hb0 hbp ht (mem := mem.map fC) (by rw [List.length_map]; exact hmem)
      (msg := msg.map fC) (by rw [List.length_map]; exact hmsg) hp hlp hscale hzero (fl := fun _ => w)
      (δ := ifftErr δ logSlots V) (B := B) (fun y' hy' => by
        rw [hy] at hy'
        obtain rfl : y = y' := by simpa using hy'
        exact floatOK_of hscale hwl hnear hB hB64) hc
  have hl : min (min lp lc) ld < rQ.subs.length := by omega
  have hZ : ∀ k < 2 ^ (logSlots + 1 + d), |((z k + D k : ℤ) : ℚ)| ≤ C := by
    intro k hk
    have h1 := hzb k (by rw [R.hQ.deg]; exact hk)
    have h2 := hD k hk
    push_cast
    exact (abs_add_le _ _).trans (by linarith)
  have hgap : ∀ k < 2 ^ (logSlots + 1), k * 2 ^ d < 2 ^ (logSlots + 1 + d) := by
    intro k hk
    rw [pow_add 2 (logSlots + 1) d]
    exact Nat.mul_lt_mul_of_pos_right hk (Nat.two_pow_pos d)
  obtain ⟨s, dpool', f1, f3, f4⟩ := C92_decryptToMsg (Z := fun k => z k + D k) R.hQ R.sQ hroots hct hd hl
    ((elt_mont R.hQ R.lQ hsk.q).below (show min (min lp lc) ld ≤ rQ.subs.length - 1 by omega)) (by rw [e4]; exact hscale)
    (bounded_of R.hQ hZ hsize) (B := C) (fun k hk => hZ _ (hgap k hk)) hmem' hpool
  refine ⟨pool', ct', s, dpool', ?_, f1, f3, fun j hj => ?_⟩
  · unfold encryptMsg Ring.encodeSlots at e1
    unfold encryptMsgF Ring.encodeSlotsF
    rw [hy, Option.map_some] at e1
    rw [hw, Option.map_some]
    exact e1
  · have h1 := f4 j hj
    rw [e4] at h1
    have h0 := hz.close j hj
    rw [fC_getD] at h0
    have h2 := msg_close hscale h1 (slotVal_noise h0 hD)
    refine h2.trans (le_of_eq ?_)
    have hs' : (pool.scale : ℝ) ≠ 0 := by exact_mod_cast hscale.ne'
    push_cast
    field_simp
    ring

/-- functions as accurate as `C92_table` asks exist -/
theorem exists_trig : ∃ cosF sinF : ℚ → ℚ, (∀ x, |f64s x| ≤ 7 → |(cosF (f64s x) : ℝ) - Real.cos (f64s x)| ≤ 4 / 2 ^ 53) ∧
    (∀ x, |f64s x| ≤ 7 → |(sinF (f64s x) : ℝ) - Real.sin (f64s x)| ≤ 4 / 2 ^ 53) := by
  have h : ∀ y : ℝ, ∃ q : ℚ, |(q : ℝ) - y| ≤ 4 / 2 ^ 53 := by
    intro y
    obtain ⟨q, h1, h2⟩ := exists_rat_btwn (show y < y + 4 / 2 ^ 53 by norm_num)
    exact ⟨q, by rw [abs_le]; constructor <;> linarith⟩
  choose f hf using h
  exact ⟨fun a => f (Real.cos a), fun a => f (Real.sin a), fun x _ => hf _, fun x _ => hf _⟩

/-- the table, the transforms and the rounding together: 8 slots in a ring of degree 16 with the moduli 97 and 193, scale 1024 -/
example : ∃ (r : Ring) (cosF sinF : ℚ → ℚ) (pt' : Pt) (s : List (ℚ × ℚ)), r.Valid 4 ∧ newRing 100 16 [97, 193] = .ok r ∧
    r.encodeSlotsF (encRootsF cosF sinF r.nthRoot) (List.replicate 16 (5, 7)) [(1 / 2, 1 / 2), (1, 0)] 3 (newPlaintext r.n 1 1024) =
      some pt' ∧
    r.decodeSlotsF (encRootsF cosF sinF r.nthRoot) (List.replicate 16 (5, 7)) pt'.value.isNTT pt'.value.level pt'.scale 3
      pt'.value.coeffs (newPoly r.n 2) = some s ∧ ‖fC (s.getD 0 0) - fC (1 / 2, 1 / 2)‖ ≤ 1 / 100 ∧ ‖fC (s.getD 2 0)‖ ≤ 1 / 100 := by
  obtain ⟨r, hnew, hr, sr, hl, hn, h0, h1⟩ := exists_small_ring
  obtain ⟨cosF, sinF, hc, hs⟩ := exists_trig
  have hQ1 : r.prodQ 1 = 97 * 193 := by rw [prodQ_succ, prodQ_zero, h0, h1]; rfl
  have hM : 0 < r.nthRoot := by rw [hr.root]; positivity
  have T := C92_table hc hs hM
  have hu : eta ≤ 1 / 2 ^ 100 := eta_le.trans (by unfold uf; norm_num)
  have hI : ∀ V : ℝ, 0 ≤ V → V ≤ 10 → ifftErr (1 / 2 ^ 48) 3 V ≤ 1 / 2 ^ 40 := fun V h0 h1 =>
    ((C92_size (by norm_num) le_rfl (show 3 < 2 ^ 20 by norm_num) h0).1).trans (by push_cast; linarith)
  have hF : ∀ V : ℝ, 0 ≤ V → V ≤ 10 → fftErr (1 / 2 ^ 48) 3 V ≤ 1 / 2 ^ 38 := fun V h0 h1 =>
    ((C92_size (by norm_num) le_rfl (show 3 < 2 ^ 20 by norm_num) h0).2).trans (by push_cast; linarith)
  have hI1 := hI 1 (by norm_num) (by norm_num)
  have hF1 := hF ((2 * ((1027 : ℚ) + 1027 / 2 ^ 51) / 1024 : ℚ) : ℝ) (by positivity) (by norm_num)
  obtain ⟨pt', s, a1, a2, -, a4⟩ := C92_roundtrip_partial (logSlots := 3) (d := 0) (lp := 1) (V := 1) (B := 1025) (C := 1027) hr sr
    (by omega) T (by norm_num) (mem := List.replicate 16 (5, 7)) (mem' := List.replicate 16 (5, 7)) (by norm_num) (by norm_num)
    (values := [(1 / 2, 1 / 2), (1, 0)]) (by norm_num) (by norm_num) (fun v hv => by
      simp only [List.mem_cons, List.not_mem_nil, or_false] at hv
      rcases hv with rfl | rfl
      · refine (norm_fC_le (c := 1 / 2) ?_ ?_).trans (by norm_num) <;> norm_num [abs_of_pos]
      · refine (Complex.norm_le_abs_re_add_abs_im _).trans ?_
        simp [fC])
    (newPlaintext_ok r.n 1 1024) (by norm_num [newPlaintext]) (Or.inl le_rfl)
    (by show (1 + ifftErr (1 / 2 ^ 48) 3 1) * ((1024 : ℚ) : ℝ) ≤ ((1025 : ℚ) : ℝ); push_cast; linarith) (by norm_num) (by norm_num)
    (by rw [hQ1]; norm_num) (polypool := newPoly r.n 2) (by rw [length_newPoly, hl])
  refine ⟨r, cosF, sinF, pt', s, hr, hnew, a1, a2, ?_, ?_⟩
  all_goals
    have hb : ∀ j < 2 ^ 3, ‖fC (s.getD j 0) - fC (([(1 / 2, 1 / 2), (1, 0)] : List (ℚ × ℚ)).getD j 0)‖ ≤ 1 / 100 := by
      intro j hj
      refine (a4 j hj).trans ?_
      change 2 ^ (3 + 1) * (ifftErr (1 / 2 ^ 48) 3 1 + ((1 / 2 + (1025 + 1) / 2 ^ 51 + 1027 / 2 ^ 51) / 1024 : ℚ)) +
          fftErr (1 / 2 ^ 48) 3 ((2 * (1027 + 1027 / 2 ^ 51) / 1024 : ℚ) : ℝ) ≤ 1 / 100
      push_cast at hF1 ⊢
      linarith
  · exact hb 0 (by norm_num)
  · have := hb 2 (by norm_num)
    rwa [show fC (([(1 / 2, 1 / 2), (1, 0)] : List (ℚ × ℚ)).getD 2 0) = 0 from fC_zero, sub_zero] at this

end FastKsw.Props
