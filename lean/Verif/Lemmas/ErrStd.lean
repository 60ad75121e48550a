import Verif.Model.ErrStd
import Verif.Lemmas.FloatFFT
import Mathlib.Analysis.InnerProductSpace.PiL2
import Mathlib.Analysis.Complex.Basic
import Mathlib.Tactic.Linarith
import Mathlib.Tactic.Positivity
import Mathlib.Tactic.FieldSimp

/-! Helper lemmas: rounding errors of the standard deviation, and the transform preserves the sum of squares. -/

namespace FastKsw.ErrStd

open FastKsw Finset

/-! ### Sum of squares of the transform -/

/-- the points of evaluation are orthogonal -/
theorem orth {K : Type} [Field K] : ∀ (n : ℕ) {w : K}, w ^ (2 * 2 ^ n) = -1 → ∀ m, 0 < m → m < 2 ^ n →
    ∑ j ∈ range (2 ^ n), w ^ (5 ^ j * m) = 0
  | 0, _, _, m, h0, h1 => by rw [pow_zero] at h1; omega
  | n + 1, w, hw, m, h0, h1 => by
    obtain ⟨t, ht⟩ := five_pow n
    have hw' : w ^ (4 * 2 ^ n) = -1 := by rw [← hw]; congr 1; ring
    have hsh : ∀ j, w ^ (5 ^ (2 ^ n + j) * m) = w ^ (5 ^ j * m) * (-1) ^ m := by
      intro j
      have e : 5 ^ (2 ^ n + j) * m = 5 ^ j * m + 4 * 2 ^ n * ((2 * t + 1) * 5 ^ j * m) := by
        rw [pow_add, ht]; ring
      have o : (-1 : K) ^ ((2 * t + 1) * 5 ^ j) = -1 := Odd.neg_one_pow (Odd.mul ⟨t, rfl⟩ (Odd.pow ⟨2, rfl⟩))
      rw [e, pow_add, pow_mul w (4 * 2 ^ n), hw', pow_mul (-1 : K) _ m, o]
    rw [pow_succ, mul_two, sum_range_add, sum_congr rfl fun j _ => hsh j, ← Finset.sum_mul]
    rcases Nat.even_or_odd m with ⟨k, hk⟩ | hk
    · have ih := orth n (w := w ^ 2) (by rw [← hw, ← pow_mul]; congr 1; ring) k (by omega) (by rw [pow_succ] at h1; omega)
      have : ∑ j ∈ range (2 ^ n), w ^ (5 ^ j * m) = 0 := by
        rw [← ih]
        refine sum_congr rfl fun j _ => ?_
        rw [← pow_mul]; congr 1; rw [hk]; ring
      rw [this]; simp
    · rw [hk.neg_one_pow]; ring

theorem norm_root {n : ℕ} {w : ℂ} (hw : w ^ (2 * 2 ^ n) = -1) : ‖w‖ = 1 := by
  have h := congrArg norm hw
  rw [norm_pow, norm_neg, norm_one] at h
  exact (pow_eq_one_iff_of_nonneg (norm_nonneg w) (by positivity)).1 h

theorem sum_conj {n : ℕ} {w : ℂ} (hw : w ^ (2 * 2 ^ n) = -1) {k l : ℕ} (hk : k < 2 ^ n) (hl : l < 2 ^ n) :
    ∑ j ∈ range (2 ^ n), w ^ (5 ^ j * k) * (starRingEnd ℂ) (w ^ (5 ^ j * l)) = if k = l then (2 : ℂ) ^ n else 0 := by
  have hc : ∀ a b, b ≤ a → w ^ a * (starRingEnd ℂ) (w ^ b) = w ^ (a - b) := by
    intro a b hb
    have : w ^ b * (starRingEnd ℂ) (w ^ b) = 1 := by
      rw [Complex.mul_conj, Complex.normSq_eq_norm_sq, norm_pow, norm_root hw]; simp
    calc w ^ a * (starRingEnd ℂ) (w ^ b) = w ^ (a - b) * (w ^ b * (starRingEnd ℂ) (w ^ b)) := by
          rw [← mul_assoc, ← pow_add, Nat.sub_add_cancel hb]
      _ = w ^ (a - b) := by rw [this, mul_one]
  have key : ∀ a b, b < a → a < 2 ^ n → ∑ j ∈ range (2 ^ n), w ^ (5 ^ j * a) * (starRingEnd ℂ) (w ^ (5 ^ j * b)) = 0 := by
    intro a b hb ha
    rw [← orth n hw (a - b) (by omega) (by omega)]
    refine sum_congr rfl fun j _ => ?_
    rw [hc _ _ (Nat.mul_le_mul_left _ hb.le), ← Nat.mul_sub]
  rcases lt_trichotomy k l with h | h | h
  · rw [if_neg (by omega)]
    have := congrArg (starRingEnd ℂ) (key l k h hl)
    rw [map_sum, map_zero] at this
    rw [← this]
    refine sum_congr rfl fun j _ => ?_
    rw [map_mul, Complex.conj_conj, mul_comm]
  · subst h
    rw [if_pos rfl, sum_congr rfl fun j _ => (by rw [hc _ _ le_rfl, Nat.sub_self, pow_zero] :
      w ^ (5 ^ j * k) * (starRingEnd ℂ) (w ^ (5 ^ j * k)) = 1)]
    simp
  · rw [if_neg (by omega)]
    exact key k l h hk

/-- the transform multiplies the sum of squares by the number of values -/
theorem parseval {n : ℕ} {w : ℂ} (hw : w ^ (2 * 2 ^ n) = -1) (c : ℕ → ℂ) :
    ∑ j ∈ range (2 ^ n), ‖∑ k ∈ range (2 ^ n), c k * w ^ (5 ^ j * k)‖ ^ 2 = 2 ^ n * ∑ k ∈ range (2 ^ n), ‖c k‖ ^ 2 := by
  have h2 : ∀ z : ℂ, ((‖z‖ ^ 2 : ℝ) : ℂ) = z * (starRingEnd ℂ) z := fun z => by
    rw [Complex.mul_conj, Complex.normSq_eq_norm_sq]
  have : ((∑ j ∈ range (2 ^ n), ‖∑ k ∈ range (2 ^ n), c k * w ^ (5 ^ j * k)‖ ^ 2 : ℝ) : ℂ) =
      ((2 ^ n * ∑ k ∈ range (2 ^ n), ‖c k‖ ^ 2 : ℝ) : ℂ) := by
    rw [Complex.ofReal_sum, Complex.ofReal_mul, Complex.ofReal_sum]
    simp only [h2, map_sum, map_mul, Finset.sum_mul_sum]
    rw [Finset.sum_comm, Finset.mul_sum]
    refine sum_congr rfl fun k hk => ?_
    rw [Finset.sum_comm]
    have : ∀ l ∈ range (2 ^ n), ∑ j ∈ range (2 ^ n), c k * w ^ (5 ^ j * k) * ((starRingEnd ℂ) (c l) * (starRingEnd ℂ) (w ^ (5 ^ j * l))) =
        if k = l then (2 : ℂ) ^ n * (c k * (starRingEnd ℂ) (c l)) else 0 := by
      intro l hl
      have e := sum_conj hw (mem_range.1 hk) (mem_range.1 hl)
      rw [sum_congr rfl fun j _ => (by ring : c k * w ^ (5 ^ j * k) * ((starRingEnd ℂ) (c l) * (starRingEnd ℂ) (w ^ (5 ^ j * l))) =
        c k * (starRingEnd ℂ) (c l) * (w ^ (5 ^ j * k) * (starRingEnd ℂ) (w ^ (5 ^ j * l)))), ← Finset.mul_sum, e]
      split
      · ring
      · ring
    rw [sum_congr rfl this, Finset.sum_ite_eq, if_pos hk]
    push_cast
    rfl
  exact_mod_cast this

/-- the coefficients are determined by the values -/
theorem coeff_unique {n : ℕ} {w : ℂ} (hw : w ^ (2 * 2 ^ n) = -1) {c c' : ℕ → ℂ}
    (h : ∀ j < 2 ^ n, ∑ k ∈ range (2 ^ n), c k * w ^ (5 ^ j * k) = ∑ k ∈ range (2 ^ n), c' k * w ^ (5 ^ j * k)) {k : ℕ}
    (hk : k < 2 ^ n) : c k = c' k := by
  have p := parseval hw fun k => c k - c' k
  rw [Finset.sum_eq_zero] at p
  · have hz : ∑ k ∈ range (2 ^ n), ‖c k - c' k‖ ^ 2 = 0 := by
      rcases mul_eq_zero.1 p.symm with h | h
      · exact absurd h (by positivity)
      · exact h
    have := (Finset.sum_eq_zero_iff_of_nonneg fun k _ => by positivity).1 hz k (mem_range.2 hk)
    rw [sq_eq_zero_iff, norm_eq_zero] at this
    exact sub_eq_zero.1 this
  · intro j hj
    simp only [sub_mul, Finset.sum_sub_distrib]
    rw [h j (mem_range.1 hj), sub_self, norm_zero]
    norm_num

/-! ### Root mean square -/

/-- the first `n` values as a vector -/
noncomputable def vec (n : ℕ) (f : ℕ → ℝ) : EuclideanSpace ℝ (Fin n) := WithLp.toLp 2 fun i => f i

/-- root mean square of the first `n` values -/
noncomputable def rms (n : ℕ) (f : ℕ → ℝ) : ℝ := Real.sqrt ((∑ k ∈ range n, f k ^ 2) / n)

theorem rms_eq (n : ℕ) (f : ℕ → ℝ) : rms n f = ‖vec n f‖ / Real.sqrt n := by
  rw [rms, EuclideanSpace.norm_eq, Real.sqrt_div (Finset.sum_nonneg fun k _ => sq_nonneg _)]
  congr 2
  rw [← Fin.sum_univ_eq_sum_range fun k => f k ^ 2]
  refine sum_congr rfl fun i _ => ?_
  show _ = ‖f i‖ ^ 2
  rw [Real.norm_eq_abs, sq_abs]

theorem rms_nonneg (n : ℕ) (f : ℕ → ℝ) : 0 ≤ rms n f := Real.sqrt_nonneg _

theorem rms_sq (n : ℕ) (f : ℕ → ℝ) : rms n f ^ 2 = (∑ k ∈ range n, f k ^ 2) / n :=
  Real.sq_sqrt (div_nonneg (Finset.sum_nonneg fun _ _ => sq_nonneg _) (Nat.cast_nonneg _))

theorem rms_add (n : ℕ) (f g : ℕ → ℝ) : rms n (fun k => f k + g k) ≤ rms n f + rms n g := by
  rw [rms_eq, rms_eq, rms_eq, ← add_div]
  refine div_le_div_of_nonneg_right ?_ (Real.sqrt_nonneg _)
  exact norm_add_le (vec n f) (vec n g)

theorem rms_mono {n : ℕ} {f g : ℕ → ℝ} (h : ∀ k < n, |f k| ≤ g k) : rms n f ≤ rms n g := by
  refine Real.sqrt_le_sqrt (div_le_div_of_nonneg_right (Finset.sum_le_sum fun k hk => ?_) (Nat.cast_nonneg _))
  have := h k (mem_range.1 hk)
  rw [← sq_abs]
  exact pow_le_pow_left₀ (abs_nonneg _) this 2

theorem rms_const {n : ℕ} (hn : 0 < n) {c : ℝ} (hc : 0 ≤ c) : rms n (fun _ => c) = c := by
  have : (0 : ℝ) < n := Nat.cast_pos.2 hn
  rw [rms, Finset.sum_const, card_range, nsmul_eq_mul, mul_div_cancel_left₀ _ this.ne', Real.sqrt_sq hc]

theorem rms_smul (n : ℕ) {a : ℝ} (ha : 0 ≤ a) (f : ℕ → ℝ) : rms n (fun k => a * f k) = a * rms n f := by
  rw [rms, rms]
  simp only [mul_pow, ← Finset.mul_sum]
  rw [mul_div_assoc, Real.sqrt_mul (sq_nonneg a), Real.sqrt_sq ha]

theorem rms_abs (n : ℕ) (f : ℕ → ℝ) : rms n (fun k => |f k|) = rms n f := by simp [rms, sq_abs]

/-- vectors that differ by a relative error `u` and an absolute error `e` -/
theorem rms_close {n : ℕ} (hn : 0 < n) {f g : ℕ → ℝ} {u e : ℝ} (hu : 0 ≤ u) (he : 0 ≤ e) (h : ∀ k < n, |f k - g k| ≤ u * |g k| + e) :
    |rms n f - rms n g| ≤ u * rms n g + e := by
  have key : rms n (fun k => f k - g k) ≤ u * rms n g + e := by
    refine (rms_mono h).trans ((rms_add n _ _).trans ?_)
    rw [rms_smul n hu, rms_abs, rms_const hn he]
  have key' : rms n (fun k => g k - f k) ≤ u * rms n g + e := by
    rw [← rms_abs] at key ⊢
    simpa only [abs_sub_comm] using key
  have h1 := rms_add n (fun k => f k - g k) g
  have h2 := rms_add n (fun k => g k - f k) f
  simp only [sub_add_cancel] at h1 h2
  rw [abs_le]
  constructor <;> linarith

/-- mean of the first `n` values -/
noncomputable def avg (n : ℕ) (f : ℕ → ℝ) : ℝ := (∑ k ∈ range n, f k) / n

/-! ### Rounding errors -/

/-- the loop that sums the values -/
theorem sum_err (l : List ℚ) {B : ℝ} (hB : ∀ c ∈ l, |(c : ℝ)| ≤ B) :
    |((l.foldl (fun m c => f64s (m + c)) 0 : ℚ) : ℝ) - (l.map fun c : ℚ => (c : ℝ)).sum| ≤
      ((1 + uf) ^ l.length - 1) * (l.length * B) + l.length * (1 + uf) ^ l.length * eta ∧
    |(l.map fun c : ℚ => (c : ℝ)).sum| ≤ l.length * B := by
  have hu := uf_pos
  have he := eta_pos
  induction l using List.reverseRecOn with
  | nil => simp
  | append_singleton l c ih =>
    obtain ⟨i1, i2⟩ := ih fun c hc => hB c (by simp [hc])
    have hc := hB c (by simp)
    have hB0 : 0 ≤ B := (abs_nonneg _).trans hc
    rw [List.foldl_append, List.map_append, List.sum_append, List.length_append]
    simp only [List.foldl_cons, List.foldl_nil, List.map_cons, List.map_nil, List.sum_singleton, List.length_singleton]
    set s := l.foldl (fun m c => f64s (m + c)) 0
    set S := (l.map fun c : ℚ => (c : ℝ)).sum
    have f1 := f64s_err (s + c)
    push_cast at f1 ⊢
    have hS : |S + c| ≤ (l.length + 1) * B := (abs_add_le _ _).trans (by linarith)
    refine ⟨?_, hS⟩
    have hsc : |(s : ℝ) + c| ≤ |(s : ℝ) - S| + |S + c| := by
      have := abs_add_le ((s : ℝ) - S) (S + c)
      rwa [show (s : ℝ) - S + (S + c) = s + c by ring] at this
    have ht : |(f64s (s + c) : ℝ) - (S + c)| ≤ |(f64s (s + c) : ℝ) - (s + c)| + |(s : ℝ) - S| := by
      have := abs_add_le ((f64s (s + c) : ℝ) - (s + c)) ((s : ℝ) - S)
      rwa [show (f64s (s + c) : ℝ) - (s + c) + (s - S) = f64s (s + c) - (S + c) by ring] at this
    have g1 : 1 ≤ (1 + uf) ^ l.length := one_le_pow₀ (by linarith)
    rw [pow_succ]
    generalize (1 + uf) ^ l.length = G at *
    have hn : (0 : ℝ) ≤ l.length := Nat.cast_nonneg _
    generalize (l.length : ℝ) = L at *
    have m1 := mul_le_mul_of_nonneg_left hsc hu.le
    have m2 := mul_le_mul_of_nonneg_left hS hu.le
    have m3 := mul_le_mul_of_nonneg_left i1 (by linarith : 0 ≤ 1 + uf)
    have m4 : 0 ≤ (G * (1 + uf) - 1 - uf) * B := mul_nonneg (by nlinarith) hB0
    have m5 : 0 ≤ (G * (1 + uf) - 1) * eta := mul_nonneg (by nlinarith) he.le
    nlinarith

/-- the loop that sums the squares -/
theorem sq_err (l : List ℚ) (f : ℚ → ℚ) :
    |((l.foldl (fun e c => f64s (e + f64s (f c * f c))) 0 : ℚ) : ℝ) - (l.map fun c : ℚ => (f c : ℝ) ^ 2).sum| ≤
      ((1 + uf) ^ (l.length + 1) - 1) * (l.map fun c : ℚ => (f c : ℝ) ^ 2).sum + 2 * l.length * (1 + uf) ^ l.length * eta ∧
    0 ≤ (l.map fun c : ℚ => (f c : ℝ) ^ 2).sum := by
  have hu := uf_pos
  have he := eta_pos
  induction l using List.reverseRecOn with
  | nil => simp
  | append_singleton l c ih =>
    obtain ⟨i1, i2⟩ := ih
    rw [List.foldl_append, List.map_append, List.sum_append, List.length_append]
    simp only [List.foldl_cons, List.foldl_nil, List.map_cons, List.map_nil, List.sum_singleton, List.length_singleton]
    set s := l.foldl (fun e c => f64s (e + f64s (f c * f c))) 0
    set S := (l.map fun c : ℚ => (f c : ℝ) ^ 2).sum
    refine ⟨?_, by positivity⟩
    have f0 := f64s_err (f c * f c)
    have f1 := f64s_err (s + f64s (f c * f c))
    set q := f64s (f c * f c)
    push_cast at f0 f1 ⊢
    have hq0 : (0 : ℝ) ≤ (f c : ℝ) * f c := mul_self_nonneg _
    rw [abs_of_nonneg hq0] at f0
    rw [show ((f c : ℝ)) ^ 2 = f c * f c by ring]
    generalize (f c : ℝ) * f c = x at *
    have hsc : |(s : ℝ) + q| ≤ |(s : ℝ) - S| + |q - x| + (S + x) := by
      have h1 := abs_add_le ((s : ℝ) - S + (q - x)) (S + x)
      have h2 := abs_add_le ((s : ℝ) - S) (q - x)
      rw [show (s : ℝ) - S + (q - x) + (S + x) = s + q by ring, abs_of_nonneg (by linarith : 0 ≤ S + x)] at h1
      linarith
    have ht : |(f64s (s + q) : ℝ) - (S + x)| ≤ |(f64s (s + q) : ℝ) - (s + q)| + (|(s : ℝ) - S| + |q - x|) := by
      have h1 := abs_add_le ((f64s (s + q) : ℝ) - (s + q)) ((s : ℝ) - S + (q - x))
      have h2 := abs_add_le ((s : ℝ) - S) (q - x)
      rw [show (f64s (s + q) : ℝ) - (s + q) + ((s : ℝ) - S + (q - x)) = f64s (s + q) - (S + x) by ring] at h1
      linarith
    have g1 : 1 ≤ (1 + uf) ^ l.length := one_le_pow₀ (by linarith)
    rw [pow_succ, pow_succ]
    rw [pow_succ] at i1
    generalize (1 + uf) ^ l.length = G at *
    have hn : (0 : ℝ) ≤ l.length := Nat.cast_nonneg _
    generalize (l.length : ℝ) = L at *
    have m1 := mul_le_mul_of_nonneg_left hsc hu.le
    have m3 := mul_le_mul_of_nonneg_left i1 (by linarith : 0 ≤ 1 + uf)
    have m4 := mul_le_mul_of_nonneg_left f0 (by linarith : 0 ≤ 1 + uf)
    have m5 : 0 ≤ (G - 1) * ((1 + uf) * (1 + uf)) * x := mul_nonneg (mul_nonneg (by linarith) (by positivity)) hq0
    have m6 : 0 ≤ (G - 1) * ((1 + uf) * eta) := mul_nonneg (by linarith) (by positivity)
    have m7 : 0 ≤ uf * eta := by positivity
    nlinarith

/-- the root of a value near a square -/
theorem sqrt_close {v t θ κ : ℝ} (ht : 0 ≤ t) (h0 : 0 ≤ θ) (h1 : θ ≤ 1) (hκ : 0 ≤ κ) (h : |v - t ^ 2| ≤ θ * t ^ 2 + κ) :
    |Real.sqrt v - t| ≤ θ * t + Real.sqrt κ := by
  rw [abs_le] at h ⊢
  have a1 : Real.sqrt v ≤ (1 + θ) * t + Real.sqrt κ := by
    rw [Real.sqrt_le_left (by positivity)]
    have := Real.sq_sqrt hκ
    have h2 : 0 ≤ (1 + θ) * t * Real.sqrt κ := by positivity
    have h3 : 0 ≤ θ * (1 + θ) * t ^ 2 := by positivity
    nlinarith
  have a2 : (1 - θ) * t ≤ Real.sqrt v + Real.sqrt κ := by
    by_cases hv : 0 ≤ v
    · have h3 := Real.sq_sqrt hκ
      have h4 := Real.sq_sqrt hv
      refine abs_le_of_sq_le_sq' ?_ (by positivity) |>.2
      have h5 : 0 ≤ Real.sqrt v * Real.sqrt κ := by positivity
      have h6 : 0 ≤ θ * (1 - θ) * t ^ 2 := mul_nonneg (mul_nonneg h0 (by linarith)) (sq_nonneg _)
      nlinarith
    · have h3 : ((1 - θ) * t) ^ 2 ≤ κ := by
        have h6 : 0 ≤ θ * (1 - θ) * t ^ 2 := mul_nonneg (mul_nonneg h0 (by linarith)) (sq_nonneg _)
        nlinarith
      have := Real.le_sqrt_of_sq_le h3
      have := Real.sqrt_nonneg v
      linarith
  constructor <;> linarith

theorem roundEven_intCast (z : ℤ) : roundEven (z : ℚ) = z := by
  have h := roundEven_err (z : ℚ)
  have h2 : |((roundEven (z : ℚ) - z : ℤ) : ℚ)| < 1 := by push_cast; linarith
  rw [← Int.cast_abs] at h2
  have h3 : |roundEven (z : ℚ) - z| < 1 := by exact_mod_cast h2
  have := Int.abs_lt_one_iff.1 h3
  omega

/-- a small integer is a float64 value -/
theorem f64s_natCast {n : ℕ} (h0 : 0 < n) (h : n < 2 ^ 53) : f64s (n : ℚ) = n := by
  have hq : (n : ℚ) ≠ 0 := by positivity
  rw [f64s, if_neg hq]
  dsimp only
  set e := max (Int.log 2 |(n : ℚ)| - 52) (-1074) with he
  have hlog : Int.log 2 |(n : ℚ)| ≤ 52 := by
    rw [abs_of_pos (by positivity), ← Int.lt_add_one_iff, ← Int.lt_zpow_iff_log_lt (by norm_num) (by positivity)]
    have : (n : ℚ) < 2 ^ 53 := by exact_mod_cast h
    exact_mod_cast this
  have he0 : e ≤ 0 := max_le (by omega) (by norm_num)
  obtain ⟨k, hk⟩ := Int.eq_ofNat_of_zero_le (show 0 ≤ -e by omega)
  have hE : (2 : ℚ) ^ e = (2 ^ k : ℚ)⁻¹ := by
    rw [show e = -(k : ℤ) by omega, zpow_neg, zpow_natCast]
  have hx : (n : ℚ) / 2 ^ e = ((n * 2 ^ k : ℤ) : ℚ) := by rw [hE]; push_cast; field_simp
  rw [hx, roundEven_intCast, hE]
  push_cast
  field_simp

end FastKsw.ErrStd
