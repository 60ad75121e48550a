import Mathlib.Analysis.SumIntegralComparisons

/-!
# Sums of antitone functions over grids
-/

namespace FastKsw

open Finset intervalIntegral

theorem antitone_sum_integral {f : ℝ → ℝ} (hf : Antitone f) (h0 : ∀ x, 0 ≤ f x) (h1 : ∀ x, f x ≤ 1) {a b : ℕ} {p q : ℝ}
    (hab : a ≤ b) (pa : p ≤ a) (pa' : (a : ℝ) ≤ p + 1) (qb : q ≤ b) (qb' : (b : ℝ) ≤ q + 1) :
    |∑ m ∈ Ico a b, f m - ∫ x in p..q, f x| ≤ 2 := by
  have hi : ∀ u v, IntervalIntegrable f MeasureTheory.volume u v := fun u v => hf.intervalIntegrable
  have e1 := AntitoneOn.integral_le_sum_Ico hab (hf.antitoneOn (Set.Icc (a : ℝ) b))
  have e2 := AntitoneOn.sum_le_integral_Ico hab (hf.antitoneOn (Set.Icc (a : ℝ) b))
  have e3 : ∑ m ∈ Ico a b, f m ≤ ∑ m ∈ Ico a b, f ((m + 1 : ℕ) : ℝ) + 1 := by
    have : ∑ m ∈ Ico a b, (f ((m + 1 : ℕ) : ℝ) - f m) = f b - f a := sum_Ico_sub (fun m : ℕ => f (m : ℝ)) hab
    rw [sum_sub_distrib] at this
    linarith [h0 b, h1 a]
  have e4 : ∫ x in p..q, f x = (∫ x in p..a, f x) + (∫ x in (a : ℝ)..b, f x) - ∫ x in q..b, f x := by
    rw [integral_add_adjacent_intervals (hi _ _) (hi _ _), ← integral_add_adjacent_intervals (hi p q) (hi q b)]
    ring
  have key : ∀ u v : ℝ, u ≤ v → v ≤ u + 1 → 0 ≤ ∫ x in u..v, f x ∧ ∫ x in u..v, f x ≤ 1 := by
    intro u v huv hvu
    refine ⟨integral_nonneg huv fun x _ => h0 x, ?_⟩
    calc ∫ x in u..v, f x ≤ ∫ _x in u..v, (1 : ℝ) := integral_mono_on huv (hi _ _) intervalIntegrable_const fun x _ => h1 x
      _ ≤ 1 := by simp; linarith
  have k1 := key p a pa pa'
  have k2 := key q b qb qb'
  rw [e4, abs_le]
  constructor <;> linarith [k1.1, k1.2, k2.1, k2.2]

theorem antitone_grid {f : ℝ → ℝ} (hf : Antitone f) (h0 : ∀ x, 0 ≤ f x) (h1 : ∀ x, f x ≤ 1) {a b : ℕ} {h θ p q : ℝ} (hh : 0 < h)
    (hab : a ≤ b) (pa : p ≤ (a + θ) * h) (pa' : (a + θ) * h ≤ p + h) (qb : q ≤ (b + θ) * h) (qb' : (b + θ) * h ≤ q + h) :
    |h * ∑ m ∈ Ico a b, f ((m + θ) * h) - ∫ x in p..q, f x| ≤ 2 * h := by
  have hg : Antitone fun t : ℝ => f ((t + θ) * h) := by
    intro x y hxy
    refine hf ?_
    gcongr
  have e1 : p = (p / h - θ + θ) * h := by field_simp; ring
  have e2 : q = (q / h - θ + θ) * h := by field_simp; ring
  have c1 : p / h - θ ≤ a := by
    rw [sub_le_iff_le_add, div_le_iff₀ hh]; exact pa
  have c2 : (a : ℝ) ≤ p / h - θ + 1 := by
    have : (a : ℝ) + θ ≤ p / h + 1 := by
      rw [← sub_le_iff_le_add, le_div_iff₀ hh]; linarith
    linarith
  have c3 : q / h - θ ≤ b := by
    rw [sub_le_iff_le_add, div_le_iff₀ hh]; exact qb
  have c4 : (b : ℝ) ≤ q / h - θ + 1 := by
    have : (b : ℝ) + θ ≤ q / h + 1 := by
      rw [← sub_le_iff_le_add, le_div_iff₀ hh]; linarith
    linarith
  have key := antitone_sum_integral hg (fun _ => h0 _) (fun _ => h1 _) hab c1 c2 c3 c4
  have hint : ∫ x in p..q, f x = h * ∫ t in (p / h - θ)..(q / h - θ), f ((t + θ) * h) := by
    have := integral_comp_mul_right (a := p / h) (b := q / h) f hh.ne'
    have h2 := integral_comp_add_right (a := p / h - θ) (b := q / h - θ) (fun t => f (t * h)) θ
    rw [h2, sub_add_cancel, sub_add_cancel, this, div_mul_cancel₀ _ hh.ne', div_mul_cancel₀ _ hh.ne', smul_eq_mul,
      mul_inv_cancel_left₀ hh.ne']
  rw [hint, ← mul_sub, abs_mul, abs_of_pos hh, mul_comm 2 h]
  gcongr

/-- the points of a grid that lie in an interval -/
theorem sum_grid_interval {f : ℝ → ℝ} {h θ p q : ℝ} (hh : 0 < h) (N : ℕ) (hz : ∀ m : ℕ, N ≤ m → f ((m + θ) * h) = 0) :
    ∑ m ∈ range N, (if p ≤ (m + θ) * h ∧ (m + θ) * h < q then f ((m + θ) * h) else 0)
      = ∑ m ∈ Ico ⌈p / h - θ⌉₊ ⌈q / h - θ⌉₊, f ((m + θ) * h) := by
  rw [← sum_filter]
  have e : ∀ (r : ℝ) (m : ℕ), ⌈r / h - θ⌉₊ ≤ m ↔ r ≤ (m + θ) * h := by
    intro r m
    rw [Nat.ceil_le, sub_le_iff_le_add, div_le_iff₀ hh]
  refine sum_subset_zero_on_sdiff ?_ ?_ fun _ _ => rfl
  · intro m hm
    rw [mem_filter] at hm
    rw [mem_Ico, e, ← not_le, e, not_le]
    exact hm.2
  · intro m hm
    rw [mem_sdiff, mem_Ico, e, ← not_le, e, not_le, mem_filter, mem_range] at hm
    by_contra hne
    refine hm.2 ⟨?_, hm.1⟩
    by_contra hN
    exact hne (hz m (by omega))

theorem sum_grid_integral {f : ℝ → ℝ} (hf : Antitone f) (h0 : ∀ x, 0 ≤ f x) (h1 : ∀ x, f x ≤ 1) {h θ p q : ℝ} (hh : 0 < h)
    (hθ : θ ≤ 1) (hp : 0 ≤ p) (hpq : p ≤ q) (N : ℕ) (hz : ∀ m : ℕ, N ≤ m → f ((m + θ) * h) = 0) :
    |h * ∑ m ∈ range N, (if p ≤ (m + θ) * h ∧ (m + θ) * h < q then f ((m + θ) * h) else 0) - ∫ x in p..q, f x| ≤ 2 * h := by
  rw [sum_grid_interval hh N hz]
  have lo : ∀ r : ℝ, r ≤ ((⌈r / h - θ⌉₊ : ℕ) + θ) * h := by
    intro r
    rw [← div_le_iff₀ hh, ← sub_le_iff_le_add]
    exact Nat.le_ceil _
  have hi : ∀ r : ℝ, 0 ≤ r → ((⌈r / h - θ⌉₊ : ℕ) + θ) * h ≤ r + h := by
    intro r hr
    rcases le_or_gt 0 (r / h - θ) with hs | hs
    · have := (Nat.ceil_lt_add_one hs).le
      have h2 : ((⌈r / h - θ⌉₊ : ℕ) : ℝ) + θ ≤ r / h + 1 := by linarith
      calc ((⌈r / h - θ⌉₊ : ℕ) + θ) * h ≤ (r / h + 1) * h := by gcongr
        _ = r + h := by field_simp
    · rw [Nat.ceil_eq_zero.2 hs.le]
      simp only [Nat.cast_zero, zero_add]
      nlinarith
  refine antitone_grid hf h0 h1 hh ?_ (lo p) (hi p hp) (lo q) (hi q (hp.trans hpq))
  exact Nat.ceil_mono (by gcongr)

end FastKsw
