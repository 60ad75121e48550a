import Verif.Model.Float
import Mathlib.Tactic.Linarith
import Mathlib.Tactic.Positivity
import Mathlib.Tactic.FieldSimp
import Mathlib.Tactic.NormNum
import Mathlib.Algebra.Order.BigOperators.Group.Finset

/-!
# Error of the float64 sums in the basis extension
-/

namespace FastKsw

open Finset

theorem roundEven_err (x : ℚ) : |(roundEven x : ℚ) - x| ≤ 1 / 2 := by
  have h1 := Int.floor_le x
  have h2 := Int.lt_floor_add_one x
  unfold roundEven
  simp only
  rw [abs_le]
  split
  · constructor <;> linarith
  · split
    · push_cast; constructor <;> linarith
    · split
      · constructor <;> linarith
      · push_cast; constructor <;> linarith

/-- unit roundoff of float64 -/
def uro : ℚ := 1 / 2 ^ 53

theorem f64_err (x : ℚ) : |f64 x - x| ≤ uro * |x| := by
  unfold f64
  split
  · rename_i h; simp [h]
  · rename_i h
    simp only
    have hpos : 0 < |x| := abs_pos.2 h
    have hlog := Int.zpow_log_le_self (R := ℚ) (b := 2) (by norm_num) hpos
    set e := Int.log 2 |x| with he
    have h2 : (0 : ℚ) < 2 ^ (e - 52) := zpow_pos (by norm_num) _
    have hr := roundEven_err (x / 2 ^ (e - 52))
    have e1 : (roundEven (x / 2 ^ (e - 52)) : ℚ) * 2 ^ (e - 52) - x =
        ((roundEven (x / 2 ^ (e - 52)) : ℚ) - x / 2 ^ (e - 52)) * 2 ^ (e - 52) := by
      rw [sub_mul, div_mul_cancel₀ _ h2.ne']
    rw [e1, abs_mul, abs_of_pos h2]
    have e2 : (2 : ℚ) ^ (e - 52) = 2 ^ e / 2 ^ 52 := by
      rw [zpow_sub₀ (by norm_num)]; norm_num
    calc _ ≤ 1 / 2 * (2 : ℚ) ^ (e - 52) := mul_le_mul_of_nonneg_right hr h2.le
      _ = uro * (2 : ℚ) ^ e := by rw [e2]; unfold uro; ring
      _ ≤ uro * |x| := mul_le_mul_of_nonneg_left (by exact_mod_cast hlog) (by unfold uro; positivity)

theorem f64_bounds {x : ℚ} (hx : 0 ≤ x) : (1 - uro) * x ≤ f64 x ∧ f64 x ≤ (1 + uro) * x := by
  have h := abs_le.1 (f64_err x)
  rw [abs_of_nonneg hx] at h
  constructor <;> linarith [h.1, h.2]

/-- error of one rounded quotient -/
theorem quot_err {y q : ℕ} (hy : y < q) :
    |f64Div (f64OfNat y) (f64OfNat q) - (y : ℚ) / q| ≤ 4 * uro ∧
    0 ≤ f64Div (f64OfNat y) (f64OfNat q) := by
  unfold f64Div f64OfNat
  have hq0 : (0 : ℚ) < q := by exact_mod_cast (by omega : 0 < q)
  have hy0 : (0 : ℚ) ≤ y := by positivity
  have hyq : (y : ℚ) ≤ q := by exact_mod_cast hy.le
  obtain ⟨a1, a2⟩ := f64_bounds hy0
  obtain ⟨b1, b2⟩ := f64_bounds hq0.le
  have hu : uro = 1 / 2 ^ 53 := rfl
  have hb0 : 0 < f64 (q : ℚ) := lt_of_lt_of_le (by rw [hu]; apply mul_pos <;> [norm_num; exact hq0]) b1
  have ha0 : 0 ≤ f64 (y : ℚ) := le_trans (mul_nonneg (by rw [hu]; norm_num) hy0) a1
  have hd0 : 0 ≤ f64 (y : ℚ) / f64 (q : ℚ) := div_nonneg ha0 hb0.le
  obtain ⟨c1, c2⟩ := f64_bounds hd0
  set t := (y : ℚ) / q with ht
  have ht0 : 0 ≤ t := div_nonneg hy0 hq0.le
  have ht1 : t ≤ 1 := by rw [ht, div_le_one hq0]; exact hyq
  -- quotient of the rounded operands
  have d1 : f64 (y : ℚ) / f64 (q : ℚ) ≤ (1 + 5 / 2 * uro) * t := by
    rw [div_le_iff₀ hb0]
    have : (1 + uro) * (y : ℚ) ≤ (1 + 5 / 2 * uro) * t * ((1 - uro) * q) := by
      have e : t * q = y := div_mul_cancel₀ _ hq0.ne'
      calc (1 + uro) * (y : ℚ) ≤ ((1 + 5 / 2 * uro) * (1 - uro)) * y := by
            apply mul_le_mul_of_nonneg_right _ hy0
            rw [hu]; norm_num
        _ = _ := by rw [← e]; ring
    calc _ ≤ _ := a2
      _ ≤ _ := this
      _ ≤ _ := mul_le_mul_of_nonneg_left b1 (mul_nonneg (by rw [hu]; norm_num) ht0)
  have d2 : (1 - 5 / 2 * uro) * t ≤ f64 (y : ℚ) / f64 (q : ℚ) := by
    rw [le_div_iff₀ hb0]
    have : (1 - 5 / 2 * uro) * t * ((1 + uro) * q) ≤ (1 - uro) * (y : ℚ) := by
      have e : t * q = y := div_mul_cancel₀ _ hq0.ne'
      calc _ = ((1 - 5 / 2 * uro) * (1 + uro)) * y := by rw [← e]; ring
        _ ≤ _ := by
            apply mul_le_mul_of_nonneg_right _ hy0
            rw [hu]; norm_num
    calc _ ≤ _ := mul_le_mul_of_nonneg_left b2 (mul_nonneg (by rw [hu]; norm_num) ht0)
      _ ≤ _ := this
      _ ≤ _ := a1
  refine ⟨?_, le_trans (mul_nonneg (by rw [hu]; norm_num) hd0) c1⟩
  rw [abs_le]
  constructor
  · have : (1 - 4 * uro) * t ≤ f64 (f64 (y : ℚ) / f64 (q : ℚ)) := by
      calc _ ≤ (1 - uro) * ((1 - 5 / 2 * uro) * t) := by
            rw [← mul_assoc]
            apply mul_le_mul_of_nonneg_right _ ht0
            rw [hu]; norm_num
        _ ≤ _ := mul_le_mul_of_nonneg_left d2 (by rw [hu]; norm_num)
        _ ≤ _ := c1
    have h4 : 4 * uro * t ≤ 4 * uro := mul_le_of_le_one_right (by rw [hu]; norm_num) ht1
    linarith
  · have : f64 (f64 (y : ℚ) / f64 (q : ℚ)) ≤ (1 + 4 * uro) * t := by
      calc _ ≤ _ := c2
        _ ≤ (1 + uro) * ((1 + 5 / 2 * uro) * t) := mul_le_mul_of_nonneg_left d1 (by rw [hu]; norm_num)
        _ ≤ _ := by
            rw [← mul_assoc]
            apply mul_le_mul_of_nonneg_right _ ht0
            rw [hu]; norm_num
    have h4 : 4 * uro * t ≤ 4 * uro := mul_le_of_le_one_right (by rw [hu]; norm_num) ht1
    linarith

/-- the float sum of at most 32 quotients is within `2^-42` of the exact sum -/
theorem sum_err (y q : ℕ → ℕ) (n : ℕ) (hn : n ≤ 32) (hy : ∀ i < n, y i < q i) :
    |(List.range n).foldl (fun vi i => f64Add vi (f64Div (f64OfNat (y i)) (f64OfNat (q i)))) 0 -
      ∑ i ∈ range n, (y i : ℚ) / q i| ≤ 38 * n * uro ∧
    0 ≤ (List.range n).foldl (fun vi i => f64Add vi (f64Div (f64OfNat (y i)) (f64OfNat (q i)))) 0 := by
  have hu : uro = 1 / 2 ^ 53 := rfl
  induction n with
  | zero => simp
  | succ n ih =>
    obtain ⟨h1, h0⟩ := ih (by omega) (fun i hi => hy i (by omega))
    rw [List.range_succ, List.foldl_append, Finset.sum_range_succ]
    simp only [List.foldl_cons, List.foldl_nil]
    set s := (List.range n).foldl (fun vi i => f64Add vi (f64Div (f64OfNat (y i)) (f64OfNat (q i)))) 0
    set S := ∑ i ∈ range n, (y i : ℚ) / q i with hS
    obtain ⟨t1, t0⟩ := quot_err (hy n (by omega))
    set τ := f64Div (f64OfNat (y n)) (f64OfNat (q n))
    set t := (y n : ℚ) / q n with ht
    have hq0 : (0 : ℚ) < q n := by have := hy n (by omega); exact_mod_cast (by omega : 0 < q n)
    have ht1 : t ≤ 1 := by
      rw [ht, div_le_one hq0]; exact_mod_cast (hy n (by omega)).le
    have hSn : S ≤ n := by
      calc S ≤ ∑ i ∈ range n, (1 : ℚ) := by
            apply Finset.sum_le_sum
            intro i hi
            have := hy i (by have := Finset.mem_range.1 hi; omega)
            have hq : (0 : ℚ) < q i := by exact_mod_cast (by omega : 0 < q i)
            rw [div_le_one hq]; exact_mod_cast this.le
        _ = n := by simp
    have hn32 : (n : ℚ) ≤ 31 := by exact_mod_cast (by omega : n ≤ 31)
    have hst : 0 ≤ s + τ := by linarith
    obtain ⟨f1, f2⟩ := f64_bounds hst
    have hfe : f64Add s τ = f64 (s + τ) := rfl
    rw [hfe]
    have g := abs_le.1 h1
    have g' := abs_le.1 t1
    have hup : s + τ ≤ 34 := by
      have : 38 * (n : ℚ) * uro ≤ 1 := by
        rw [hu]
        have : 38 * (n : ℚ) ≤ 38 * 31 := by linarith
        linarith
      have h4 : 4 * uro ≤ 1 := by rw [hu]; norm_num
      linarith [g.2, g'.2]
    have hue : uro * (s + τ) ≤ 34 * uro := by
      have : 0 ≤ uro := by rw [hu]; norm_num
      nlinarith
    refine ⟨?_, le_trans (mul_nonneg (by rw [hu]; norm_num) hst) f1⟩
    rw [abs_le]
    push_cast
    constructor
    · linarith [g.1, g'.1, f1, hue]
    · linarith [g.2, g'.2, f2, hue]

end FastKsw
