import Verif.Lemmas.Margin
import Verif.Lemmas.Gauss

/-!
# float64 rounding is monotone and idempotent
-/

namespace FastKsw

theorem roundEven_mono {x y : ℚ} (h : x ≤ y) : roundEven x ≤ roundEven y := by
  have hf : ⌊x⌋ ≤ ⌊y⌋ := Int.floor_le_floor h
  rcases hf.lt_or_eq with hlt | heq
  · have h1 : roundEven x ≤ ⌊x⌋ + 1 := by
      unfold roundEven; simp only; split_ifs <;> omega
    have h2 : ⌊y⌋ ≤ roundEven y := le_roundEven (Int.floor_le y)
    omega
  · unfold roundEven
    simp only [heq]
    have hd : x - ((⌊y⌋ : ℤ) : ℚ) ≤ y - ((⌊y⌋ : ℤ) : ℚ) := by linarith
    split_ifs <;> first | omega | (exfalso; linarith)

/-- the value of a rounded positive number: a significand of 53 bits -/
theorem f64_repr {t : ℚ} (ht : 0 < t) : ∃ m : ℕ, 2 ^ 52 ≤ m ∧ m ≤ 2 ^ 53 ∧ f64 t = m * (2 : ℚ) ^ (Int.log 2 t - 52) := by
  have hk : (0 : ℚ) < 2 ^ (Int.log 2 t - 52) := zpow_pos (by norm_num) _
  have h1 := Int.zpow_log_le_self (R := ℚ) (b := 2) (by norm_num) ht
  have h2 := Int.lt_zpow_succ_log_self (R := ℚ) (b := 2) (by norm_num) t
  have e1 : ((2 : ℕ) : ℚ) ^ Int.log 2 t = 2 ^ 52 * 2 ^ (Int.log 2 t - 52) := by
    rw [← zpow_natCast, ← zpow_add₀ (by norm_num)]; push_cast; congr 1; ring
  have e2 : ((2 : ℕ) : ℚ) ^ (Int.log 2 t + 1) = 2 ^ 53 * 2 ^ (Int.log 2 t - 52) := by
    rw [← zpow_natCast, ← zpow_add₀ (by norm_num)]; push_cast; congr 1; ring
  have hlo : ((2 ^ 52 : ℤ)) ≤ roundEven (t / 2 ^ (Int.log 2 t - 52)) :=
    le_roundEven (by rw [le_div_iff₀ hk]; rw [e1] at h1; exact_mod_cast h1)
  have hhi : roundEven (t / 2 ^ (Int.log 2 t - 52)) ≤ (2 ^ 53 : ℤ) :=
    roundEven_le (by rw [div_le_iff₀ hk]; rw [e2] at h2; exact_mod_cast h2.le)
  refine ⟨(roundEven (t / 2 ^ (Int.log 2 t - 52))).toNat, by omega, by omega, ?_⟩
  unfold f64
  rw [if_neg ht.ne', abs_of_pos ht]
  simp only
  congr 1
  have : ((roundEven (t / 2 ^ (Int.log 2 t - 52))).toNat : ℤ) = roundEven (t / 2 ^ (Int.log 2 t - 52)) :=
    Int.toNat_of_nonneg (by omega)
  exact_mod_cast this.symm

theorem f64_pos {t : ℚ} (ht : 0 < t) : 0 < f64 t := by
  obtain ⟨m, h1, -, e⟩ := f64_repr ht
  rw [e]
  exact mul_pos (by exact_mod_cast (show 0 < m by omega)) (zpow_pos (by norm_num) _)

theorem f64_idem (t : ℚ) (ht : 0 < t) : f64 (f64 t) = f64 t := by
  obtain ⟨m, h1, h2, e⟩ := f64_repr ht
  have hp := f64_pos ht
  rcases h2.lt_or_eq with hlt | heq
  · refine f64_exact (m := m) (k := Int.log 2 t - 52) (by rw [e]; push_cast; rfl) ?_
    rw [abs_of_pos hp]
    have : Int.log 2 (f64 t) ≤ Int.log 2 t := by
      apply log_le_of_le hp
      rw [e, show Int.log 2 t + 1 = 53 + (Int.log 2 t - 52) by ring, zpow_add₀ (by norm_num)]
      apply mul_lt_mul_of_pos_right _ (zpow_pos (by norm_num) _)
      exact_mod_cast hlt
    omega
  · refine f64_exact (m := 2 ^ 52) (k := Int.log 2 t - 51) ?_ ?_
    · rw [e, heq, show Int.log 2 t - 51 = (Int.log 2 t - 52) + 1 by ring, zpow_add₀ (by norm_num)]; push_cast; ring
    · rw [abs_of_pos hp]
      have : Int.log 2 (f64 t) ≤ Int.log 2 t + 1 := by
        apply log_le_of_le hp
        rw [e, show Int.log 2 t + 1 + 1 = 54 + (Int.log 2 t - 52) by ring, zpow_add₀ (by norm_num)]
        apply mul_lt_mul_of_pos_right _ (zpow_pos (by norm_num) _)
        rw [heq]; norm_num
      omega

theorem f64_mono {x y : ℚ} (hx : 0 < x) (h : x ≤ y) : f64 x ≤ f64 y := by
  have hy : 0 < y := lt_of_lt_of_le hx h
  have hl : Int.log 2 x ≤ Int.log 2 y := Int.log_mono_right hx h
  rcases hl.lt_or_eq with hlt | heq
  · obtain ⟨m, h1, h2, e⟩ := f64_repr hx
    obtain ⟨m', h1', h2', e'⟩ := f64_repr hy
    rw [e, e']
    obtain ⟨d, hd⟩ : ∃ d : ℕ, Int.log 2 y = Int.log 2 x + 1 + d := ⟨(Int.log 2 y - Int.log 2 x - 1).toNat, by omega⟩
    rw [show Int.log 2 y - 52 = (d : ℤ) + (1 + (Int.log 2 x - 52)) by omega, zpow_add₀ (by norm_num), zpow_add₀ (by norm_num),
      ← mul_assoc, ← mul_assoc]
    apply mul_le_mul_of_nonneg_right _ (zpow_pos (by norm_num) _).le
    have hd1 : (1 : ℚ) ≤ 2 ^ (d : ℤ) := by rw [zpow_natCast]; exact one_le_pow₀ (by norm_num)
    have a1 : (m : ℚ) ≤ 2 ^ 53 := by exact_mod_cast h2
    have a2 : (2 : ℚ) ^ 52 ≤ m' := by exact_mod_cast h1'
    have a3 : (m' : ℚ) * 1 ≤ m' * 2 ^ (d : ℤ) := mul_le_mul_of_nonneg_left hd1 (by positivity)
    rw [zpow_one]
    linarith
  · unfold f64
    rw [if_neg hx.ne', if_neg hy.ne', abs_of_pos hx, abs_of_pos hy]
    simp only [heq]
    have hk : (0 : ℚ) < 2 ^ (Int.log 2 y - 52) := zpow_pos (by norm_num) _
    apply mul_le_mul_of_nonneg_right _ hk.le
    exact_mod_cast roundEven_mono (div_le_div_of_nonneg_right h hk.le)

/-- rounding does not exceed a representable upper bound -/
theorem f64_le_f64 {x t : ℚ} (hx : 0 < x) (ht : 0 < t) (h : x ≤ f64 t) : f64 x ≤ f64 t := by
  rw [← f64_idem t ht]; exact f64_mono hx h

end FastKsw
