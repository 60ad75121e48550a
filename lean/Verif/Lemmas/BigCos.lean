import Verif.Model.BigComplex
import Verif.Lemmas.Float
import Mathlib.Analysis.Complex.Trigonometric
import Mathlib.Analysis.SpecialFunctions.Trigonometric.Bounds
import Mathlib.Tactic.LinearCombination

/-!
# The rounding of `big.Float` and the error of `ring.Cos`
-/

namespace FastKsw

theorem roundEvenR_err (x : ℝ) : |(roundEvenR x : ℝ) - x| ≤ 1 / 2 := by
  have h1 := Int.floor_le x
  have h2 := Int.lt_floor_add_one x
  unfold roundEvenR
  simp only
  rw [abs_le]
  split
  · constructor <;> linarith
  · split
    · push_cast; constructor <;> linarith
    · split
      · constructor <;> linarith
      · push_cast; constructor <;> linarith

theorem roundEvenR_int (z : ℤ) : roundEvenR (z : ℝ) = z := by
  unfold roundEvenR
  simp only [Int.floor_intCast, sub_self]
  rw [if_pos (by norm_num)]

/-- unit roundoff of a `big.Float` with `prec` bits -/
noncomputable def bigEps (prec : ℕ) : ℝ := (1 / 2) ^ prec

theorem bigEps_pos (prec : ℕ) : 0 < bigEps prec := by unfold bigEps; positivity

theorem bigRound_err (prec : ℕ) (x : ℝ) : |bigRound prec x - x| ≤ bigEps prec * |x| := by
  unfold bigRound
  split
  · rename_i h; simp [h]
  · rename_i h
    simp only
    have hpos : 0 < |x| := abs_pos.2 h
    have hlog := Int.zpow_log_le_self (R := ℝ) (b := 2) (by norm_num) hpos
    set e := Int.log 2 |x| with he
    have h2 : (0 : ℝ) < 2 ^ (e + 1 - prec) := zpow_pos (by norm_num) _
    have hr := roundEvenR_err (x / 2 ^ (e + 1 - prec))
    have e1 : (roundEvenR (x / 2 ^ (e + 1 - (prec : ℤ))) : ℝ) * 2 ^ (e + 1 - (prec : ℤ)) - x =
        ((roundEvenR (x / 2 ^ (e + 1 - (prec : ℤ))) : ℝ) - x / 2 ^ (e + 1 - (prec : ℤ))) * 2 ^ (e + 1 - (prec : ℤ)) := by
      rw [sub_mul, div_mul_cancel₀ _ h2.ne']
    rw [e1, abs_mul, abs_of_pos h2]
    have e2 : (2 : ℝ) ^ (e + 1 - (prec : ℤ)) = 2 * 2 ^ e * bigEps prec := by
      rw [zpow_sub₀ (by norm_num), zpow_add₀ (by norm_num), zpow_natCast]
      unfold bigEps
      rw [one_div, inv_pow]
      simp
      ring
    calc _ ≤ 1 / 2 * (2 : ℝ) ^ (e + 1 - (prec : ℤ)) := mul_le_mul_of_nonneg_right hr h2.le
      _ = bigEps prec * (2 : ℝ) ^ e := by rw [e2]; ring
      _ ≤ bigEps prec * |x| := mul_le_mul_of_nonneg_left (by exact_mod_cast hlog) (bigEps_pos prec).le

/-- powers of two are not rounded -/
theorem bigRound_half_pow {prec : ℕ} (hp : 0 < prec) (n : ℕ) : bigRound prec ((1 / 2) ^ n) = (1 / 2) ^ n := by
  have h0 : (0 : ℝ) < (1 / 2) ^ n := by positivity
  have e0 : ((1 / 2 : ℝ)) ^ n = 2 ^ (-(n : ℤ)) := by
    rw [zpow_neg, zpow_natCast, one_div, inv_pow]
  have hl : Int.log 2 |((1 / 2 : ℝ)) ^ n| = -(n : ℤ) := by
    rw [abs_of_pos h0, e0]
    exact_mod_cast Int.log_zpow (R := ℝ) (b := 2) (by norm_num) (-(n : ℤ))
  unfold bigRound
  rw [if_neg h0.ne']
  simp only
  rw [hl, e0]
  have e1 : (2 : ℝ) ^ (-(n : ℤ)) / 2 ^ (-(n : ℤ) + 1 - (prec : ℤ)) = ((2 ^ (prec - 1) : ℤ) : ℝ) := by
    rw [← zpow_sub₀ (by norm_num), show -(n : ℤ) - (-(n : ℤ) + 1 - (prec : ℤ)) = ((prec - 1 : ℕ) : ℤ) by omega, zpow_natCast]
    push_cast; rfl
  have h2 : (0 : ℝ) < 2 ^ (-(n : ℤ) + 1 - (prec : ℤ)) := zpow_pos (by norm_num) _
  rw [e1, roundEvenR_int, ← e1, div_mul_cancel₀ _ h2.ne']

theorem exists_rel {rnd : ℝ → ℝ} {ε : ℝ} (h : ∀ z, |rnd z - z| ≤ ε * |z|) (hε : 0 ≤ ε) (z : ℝ) :
    ∃ e, |e| ≤ ε ∧ rnd z = z * (1 + e) := by
  rcases eq_or_ne z 0 with rfl | hz
  · refine ⟨0, by simpa using hε, ?_⟩
    have := h 0
    simp at this
    simp [this]
  · refine ⟨(rnd z - z) / z, ?_, by field_simp; ring⟩
    rw [abs_div, div_le_iff₀ (abs_pos.2 hz)]
    exact h z

theorem rel_mul {a b A B : ℝ} (ha : |a - 1| ≤ A - 1) (hb : |b - 1| ≤ B - 1) : |a * b - 1| ≤ A * B - 1 := by
  have hA : 0 ≤ A - 1 := le_trans (abs_nonneg _) ha
  have hB : 0 ≤ B - 1 := le_trans (abs_nonneg _) hb
  have e : a * b - 1 = (a - 1) + (b - 1) + (a - 1) * (b - 1) := by ring
  have h1 := abs_add_le ((a - 1) + (b - 1)) ((a - 1) * (b - 1))
  have h2 := abs_add_le (a - 1) (b - 1)
  have h3 : |(a - 1) * (b - 1)| ≤ (A - 1) * (B - 1) := by
    rw [abs_mul]; exact mul_le_mul ha hb (abs_nonneg _) hA
  rw [e]
  linarith

/-- `2 - 2 cos`, the quantity that the loop of `Cos` doubles the angle of -/
noncomputable def vers (θ : ℝ) : ℝ := 2 - 2 * Real.cos θ

theorem vers_double (θ : ℝ) : vers (2 * θ) = vers θ * (4 - vers θ) := by
  unfold vers; rw [Real.cos_two_mul]; ring

theorem vers_bounds (θ : ℝ) : 0 ≤ vers θ ∧ vers θ ≤ 4 := by
  unfold vers
  constructor <;> linarith [Real.neg_one_le_cos θ, Real.cos_le_one θ]

theorem vers_le_two {θ : ℝ} (h : |θ| ≤ Real.pi / 2) : vers θ ≤ 2 := by
  unfold vers
  have := Real.cos_nonneg_of_mem_Icc (x := θ) ⟨by linarith [(abs_le.1 h).1], (abs_le.1 h).2⟩
  linarith

section
variable {rnd : ℝ → ℝ} {ε : ℝ} (hr : ∀ z, |rnd z - z| ≤ ε * |z|) (hε : 0 ≤ ε)
include hr hε

/-- one doubling for an angle of at most a right angle does not increase the relative error but for the two roundings -/
theorem cosStep_rel {σ a A : ℝ} (h0 : 0 ≤ σ) (h2 : σ ≤ 2) (ha : |a - 1| ≤ A - 1) (hA : A ≤ 2) :
    ∃ a', |a' - 1| ≤ A * (1 + ε) ^ 2 - 1 ∧ rnd (σ * a * rnd (4 - σ * a)) = σ * (4 - σ) * a' := by
  obtain ⟨e1, he1, r1⟩ := exists_rel hr hε (4 - σ * a)
  obtain ⟨e2, he2, r2⟩ := exists_rel hr hε (σ * a * rnd (4 - σ * a))
  have h4 : (0 : ℝ) < 4 - σ := by linarith
  set κ := σ / (4 - σ) with hκ
  have hκ0 : 0 ≤ κ := div_nonneg h0 h4.le
  have hκ1 : κ ≤ 1 := by rw [hκ, div_le_one h4]; linarith
  have hκe : κ * (4 - σ) = σ := by rw [hκ, div_mul_cancel₀ _ h4.ne']
  have hin : |a * (1 - κ * (a - 1)) - 1| ≤ A - 1 := by
    set η := a - 1 with hη
    have e : a * (1 - κ * η) - 1 = (1 - κ) * η - κ * (η * η) := by rw [show a = 1 + η by rw [hη]; ring]; ring
    have hη2 : |η * η| ≤ A - 1 := by
      rw [abs_mul]
      nlinarith [abs_nonneg η]
    rw [e]
    have t1 := abs_sub ((1 - κ) * η) (κ * (η * η))
    rw [abs_mul, abs_of_nonneg (by linarith : 0 ≤ 1 - κ), abs_mul κ, abs_of_nonneg hκ0] at t1
    have t2 := mul_le_mul_of_nonneg_left ha (by linarith : 0 ≤ 1 - κ)
    have t3 := mul_le_mul_of_nonneg_left hη2 hκ0
    linarith
  refine ⟨a * (1 - κ * (a - 1)) * ((1 + e1) * (1 + e2)), ?_, ?_⟩
  · rw [pow_two]
    exact rel_mul hin (rel_mul (by simpa using he1) (by simpa using he2))
  · rw [r2, r1]
    have : 4 - σ * a = (4 - σ) * (1 - κ * (a - 1)) := by
      linear_combination (a - 1) * hκe
    rw [this]; ring

theorem cosLoop_rel (n : ℕ) : ∀ {θ s a A : ℝ}, s = vers θ * a → |a - 1| ≤ A - 1 → A * (1 + ε) ^ (2 * n) ≤ 2 →
    2 ^ n * |θ| ≤ Real.pi →
    ∃ a', |a' - 1| ≤ A * (1 + ε) ^ (2 * n) - 1 ∧ cosLoop rnd n s = vers (2 ^ n * θ) * a' := by
  induction n with
  | zero =>
    intro θ s a A hs ha _ _
    exact ⟨a, by simpa using ha, by simp [cosLoop, hs]⟩
  | succ n ih =>
    intro θ s a A hs ha hA hθ
    have h1 : (1 : ℝ) ≤ (1 + ε) := by linarith
    have hA1 : 1 ≤ A := by linarith [abs_nonneg (a - 1)]
    have hA2 : A ≤ 2 := by
      refine le_trans ?_ hA
      exact le_mul_of_one_le_right (by linarith) (one_le_pow₀ h1)
    have hpow : (2 : ℝ) ^ (n + 1) * |θ| = 2 ^ n * |2 * θ| := by rw [abs_mul]; simp; ring
    have hθ2 : |θ| ≤ Real.pi / 2 := by
      have : 2 * |θ| ≤ 2 ^ (n + 1) * |θ| := by
        refine mul_le_mul_of_nonneg_right ?_ (abs_nonneg _)
        rw [pow_succ]; nlinarith [one_le_pow₀ (n := n) (show (1 : ℝ) ≤ 2 by norm_num)]
      linarith
    obtain ⟨a1, ha1, e1⟩ := cosStep_rel hr hε (vers_bounds θ).1 (vers_le_two hθ2) ha hA2
    obtain ⟨a2, ha2, e2⟩ := ih (θ := 2 * θ) (s := vers θ * (4 - vers θ) * a1) (a := a1) (A := A * (1 + ε) ^ 2)
      (by rw [vers_double]) ha1 (by rw [mul_assoc, ← pow_add]; convert hA using 3; ring) (by rw [← hpow]; exact hθ)
    refine ⟨a2, ?_, ?_⟩
    · rw [mul_assoc, ← pow_add] at ha2
      convert ha2 using 4; ring
    · rw [cosLoop, hs, e1, e2]
      congr 2; ring

/-- the last doubling and the end of `Cos`, for any angle -/
theorem cosLast {σ a A : ℝ} (h0 : 0 ≤ σ) (h4 : σ ≤ 4) (ha : |a - 1| ≤ A - 1) (hA : A ≤ 9 / 8) (hε' : ε ≤ 1 / 1000) :
    |rnd (1 - rnd (rnd (σ * a * rnd (4 - σ * a)) / 2)) - (1 - σ * (4 - σ) / 2)| ≤ 9 * (A - 1) + 12 * ε := by
  obtain ⟨e1, he1, r1⟩ := exists_rel hr hε (4 - σ * a)
  obtain ⟨e2, he2, r2⟩ := exists_rel hr hε (σ * a * rnd (4 - σ * a))
  obtain ⟨e3, he3, r3⟩ := exists_rel hr hε (rnd (σ * a * rnd (4 - σ * a)) / 2)
  obtain ⟨e4, he4, r4⟩ := exists_rel hr hε (1 - rnd (rnd (σ * a * rnd (4 - σ * a)) / 2))
  set b := A - 1 with hb
  have hb0 : 0 ≤ b := le_trans (abs_nonneg _) ha
  have hb8 : b ≤ 1 / 8 := by linarith
  set η := a - 1 with hη
  have hp : |σ * a * (4 - σ * a) - σ * (4 - σ)| ≤ 18 * b := by
    have e : σ * a * (4 - σ * a) - σ * (4 - σ) = σ * η * (4 - 2 * σ - σ * η) := by
      rw [show a = 1 + η by rw [hη]; ring]; ring
    have h1 : |σ * η| ≤ 4 * b := by
      rw [abs_mul, abs_of_nonneg h0]; exact mul_le_mul h4 ha (abs_nonneg _) (by norm_num)
    have h2 : |4 - 2 * σ - σ * η| ≤ 9 / 2 := by
      have := abs_sub (4 - 2 * σ) (σ * η)
      have h3 : |4 - 2 * σ| ≤ 4 := abs_le.2 ⟨by linarith, by linarith⟩
      linarith
    rw [e, abs_mul]
    calc _ ≤ 4 * b * (9 / 2) := mul_le_mul h1 h2 (abs_nonneg _) (by linarith)
      _ = 18 * b := by ring
  set u := σ * a * (4 - σ * a) with hu
  set w := σ * (4 - σ) with hw
  have hw0 : 0 ≤ w := mul_nonneg h0 (by linarith)
  have hw4 : w ≤ 4 := by rw [hw]; nlinarith [sq_nonneg (σ - 2)]
  have hs : rnd (σ * a * rnd (4 - σ * a)) = u * ((1 + e1) * (1 + e2)) := by rw [r2, r1, hu]; ring
  rw [hs] at r3 r4 ⊢
  have hall : |(1 + e1) * (1 + e2) * (1 + e3) - 1| ≤ 3.01 * ε := by
    have := rel_mul (rel_mul (a := 1 + e1) (b := 1 + e2) (A := 1 + ε) (B := 1 + ε) (by simpa using he1) (by simpa using he2))
      (b := 1 + e3) (B := 1 + ε) (by simpa using he3)
    refine le_trans this ?_
    have h1 : ε * ε ≤ 1 / 1000 * ε := mul_le_mul_of_nonneg_right hε' hε
    have h2 : ε * (ε * ε) ≤ ε * (1 / 1000 * ε) := mul_le_mul_of_nonneg_left h1 hε
    norm_num
    linarith
  have hv : |rnd (u * ((1 + e1) * (1 + e2)) / 2) - w / 2| ≤ 9 * b + 9.5 * ε := by
    rw [r3]
    set m := (1 + e1) * (1 + e2) * (1 + e3) with hm
    have e : u * ((1 + e1) * (1 + e2)) / 2 * (1 + e3) - w / 2 = (u - w) / 2 + u / 2 * (m - 1) := by rw [hm]; ring
    have hu6 : |u| ≤ 4 + 18 * b := by
      have := abs_add_le (u - w) w
      rw [sub_add_cancel, abs_of_nonneg hw0] at this
      linarith
    have t1 := abs_add_le ((u - w) / 2) (u / 2 * (m - 1))
    rw [abs_div, abs_mul, abs_div, abs_two] at t1
    have t2 : |u| / 2 * |m - 1| ≤ (4 + 18 * b) / 2 * (3.01 * ε) :=
      mul_le_mul (by linarith) hall (abs_nonneg _) (by linarith)
    have t3 : b * ε ≤ 1 / 8 * ε := mul_le_mul_of_nonneg_right hb8 hε
    rw [e]
    norm_num at t2 ⊢
    linarith
  rw [r4]
  set y := rnd (u * ((1 + e1) * (1 + e2)) / 2) with hy
  have e : (1 - y) * (1 + e4) - (1 - w / 2) = -(y - w / 2) + (1 - y) * e4 := by ring
  have hy1 : |1 - y| ≤ 1 + (9 * b + 9.5 * ε) := by
    have e : 1 - y = (1 - w / 2) - (y - w / 2) := by ring
    have t := abs_sub (1 - w / 2) (y - w / 2)
    have : |1 - w / 2| ≤ 1 := abs_le.2 ⟨by linarith, by linarith⟩
    rw [e]; linarith
  have t1 := abs_add_le (-(y - w / 2)) ((1 - y) * e4)
  rw [abs_neg, abs_mul] at t1
  have t2 : |1 - y| * |e4| ≤ (1 + (9 * b + 9.5 * ε)) * ε := mul_le_mul hy1 he4 (abs_nonneg _) (by norm_num; linarith)
  have t3 : b * ε ≤ 1 / 8 * ε := mul_le_mul_of_nonneg_right hb8 hε
  have t4 : ε * ε ≤ 1 / 1000 * ε := mul_le_mul_of_nonneg_right hε' hε
  rw [e]
  refine le_trans t1 ?_
  norm_num at t2 hv ⊢
  linarith

end

theorem cosT_eq {prec : ℕ} (hp : 0 < prec) (n : ℕ) : cosT (bigRound prec) n = (1 / 2) ^ (n + 1) := by
  induction n with
  | zero => rw [cosT]; norm_num
  | succ n ih =>
    rw [cosT, ih, show ((1 / 2 : ℝ)) ^ (n + 1) * 0.5 = (1 / 2) ^ (n + 1 + 1) by rw [pow_succ _ (n + 1)]; norm_num,
      bigRound_half_pow hp]

/-- the start value of the loop as a multiple of the exact one -/
theorem vers_start {y : ℝ} (hy : y ^ 2 ≤ 1 / 2) : ∃ a, |a - 1| ≤ (1 + y ^ 2 / 9) - 1 ∧ y ^ 2 = vers y * a := by
  have h1 : |y| ≤ 1 := by
    rw [← sq_le_one_iff_abs_le_one]; linarith
  have hb := Real.cos_bound h1
  have h4 : |y| ^ 4 = y ^ 2 * y ^ 2 := by rw [← sq_abs]; ring
  rw [h4] at hb
  have hlo := Real.one_sub_sq_div_two_le_cos (x := y)
  have hv : y ^ 2 * (1 - 5 / 48 * y ^ 2) ≤ vers y ∧ vers y ≤ y ^ 2 := by
    unfold vers
    have := (abs_le.1 hb).2
    constructor
    · nlinarith
    · linarith
  rcases eq_or_ne y 0 with rfl | h0
  · exact ⟨1, by simp, by simp [vers]⟩
  · have hy2 : 0 < y ^ 2 := by positivity
    have hvp : 0 < vers y := lt_of_lt_of_le (mul_pos hy2 (by linarith)) hv.1
    refine ⟨y ^ 2 / vers y, ?_, by field_simp⟩
    have e : y ^ 2 / vers y - 1 = (y ^ 2 - vers y) / vers y := by field_simp
    rw [e, abs_of_nonneg (div_nonneg (by linarith) hvp.le), div_le_iff₀ hvp]
    nlinarith

theorem bigCos_err {prec : ℕ} (hp : 0 < prec) {x A : ℝ} (hx : |x| ≤ 2 * Real.pi) (hk : 3 ≤ cosIter prec)
    (hy : x ^ 2 / 4 ^ (cosIter prec - 1) ≤ 1 / 2) (hε : bigEps prec ≤ 1 / 1000)
    (hA : (1 + x ^ 2 / 4 ^ (cosIter prec - 1) / 9) * (1 + bigEps prec) ^ (2 * cosIter prec - 1) ≤ A) (hA8 : A ≤ 9 / 8) :
    |bigCos prec x - Real.cos x| ≤ 9 * (A - 1) + 12 * bigEps prec := by
  obtain ⟨n, hn⟩ : ∃ n, cosIter prec = n + 2 := ⟨cosIter prec - 2, by omega⟩
  set ε := bigEps prec with hεdef
  have hε0 : 0 ≤ ε := (bigEps_pos prec).le
  set rnd := bigRound prec with hrnd
  have hr : ∀ z, |rnd z - z| ≤ ε * |z| := bigRound_err prec
  rw [hn, show n + 2 - 1 = n + 1 by omega] at hy hA
  set y := x * (1 / 2) ^ (n + 1) with hydef
  have hy2 : x ^ 2 / 4 ^ (n + 1) = y ^ 2 := by
    rw [hydef, mul_pow, ← pow_mul, mul_comm (n + 1) 2, pow_mul, one_div, inv_pow, inv_pow]
    norm_num
    rw [div_eq_mul_inv]
  rw [hy2] at hy hA
  obtain ⟨a0, ha0, e0⟩ := vers_start hy
  unfold bigCos
  simp only
  rw [← hrnd, hn, show n + 2 - 2 = n by omega, show n + 2 - 1 = n + 1 by omega, hrnd, cosT_eq hp, ← hrnd]
  obtain ⟨e1, he1, r1⟩ := exists_rel hr hε0 (x * (1 / 2) ^ (n + 1))
  obtain ⟨e2, he2, r2⟩ := exists_rel hr hε0 (rnd (x * (1 / 2) ^ (n + 1)) * x)
  obtain ⟨e3, he3, r3⟩ := exists_rel hr hε0 (rnd (rnd (x * (1 / 2) ^ (n + 1)) * x) * (1 / 2) ^ (n + 1))
  set s0 := rnd (rnd (rnd (x * (1 / 2) ^ (n + 1)) * x) * (1 / 2) ^ (n + 1)) with hs0
  have hs : s0 = vers y * (a0 * ((1 + e1) * ((1 + e2) * (1 + e3)))) := by
    rw [r3, r2, r1, ← mul_assoc (vers y), ← e0, hydef]; ring
  have ha1 : |a0 * ((1 + e1) * ((1 + e2) * (1 + e3))) - 1| ≤ (1 + y ^ 2 / 9) * ((1 + ε) * ((1 + ε) * (1 + ε))) - 1 :=
    rel_mul ha0 (rel_mul (by simpa using he1) (rel_mul (by simpa using he2) (by simpa using he3)))
  have hA' : (1 + y ^ 2 / 9) * ((1 + ε) * ((1 + ε) * (1 + ε))) * (1 + ε) ^ (2 * n) ≤ A := by
    refine le_trans (le_of_eq ?_) hA
    rw [show 2 * (n + 2) - 1 = 2 * n + 3 by omega, pow_add]; ring
  have hlast : cosLoop rnd (n + 1) s0 = rnd (cosLoop rnd n s0 * rnd (4 - cosLoop rnd n s0)) := by
    have : ∀ (m : ℕ) (s : ℝ), cosLoop rnd (m + 1) s = rnd (cosLoop rnd m s * rnd (4 - cosLoop rnd m s)) := by
      intro m
      induction m with
      | zero => intro s; rfl
      | succ m ih => intro s; rw [cosLoop, ih]; rfl
    exact this n s0
  obtain ⟨a, ha, e⟩ := cosLoop_rel hr hε0 n hs ha1 (by linarith) (by
    rw [hydef, abs_mul, abs_of_nonneg (by positivity : (0 : ℝ) ≤ (1 / 2) ^ (n + 1)), pow_succ]
    have : (2 : ℝ) ^ n * (|x| * ((1 / 2) ^ n * (1 / 2))) = |x| / 2 * (2 ^ n * (1 / 2) ^ n) := by ring
    rw [this, ← mul_pow]
    norm_num
    linarith)
  rw [hlast, e]
  have hx2 : (2 : ℝ) ^ n * y = x / 2 := by
    rw [hydef, pow_succ]
    have : (2 : ℝ) ^ n * (x * ((1 / 2) ^ n * (1 / 2))) = x / 2 * (2 ^ n * (1 / 2) ^ n) := by ring
    rw [this, ← mul_pow]
    norm_num
  rw [hx2]
  have hv := vers_bounds (x / 2)
  have hc : Real.cos x = 1 - vers (x / 2) * (4 - vers (x / 2)) / 2 := by
    rw [← vers_double, show 2 * (x / 2) = x by ring, vers]; ring
  rw [hc]
  exact cosLast hr hε0 hv.1 hv.2 (le_trans ha (by linarith)) hA8 hε

/-- the number of iterations is half the precision -/
theorem cosIter_bounds {prec : ℕ} (h : prec < 2 ^ 20) (h2 : 2 ≤ prec) : prec ≤ 2 * cosIter prec ∧ 2 * cosIter prec ≤ prec + 1 := by
  have hc := f64_bounds (x := 3.3219280948873626 * 0.60206) (by norm_num)
  unfold cosIter f64Div
  set c : ℚ := f64 (3.3219280948873626 * 0.60206) with hcdef
  have c1 : 2.00000002 ≤ c := le_trans (by unfold uro; norm_num) hc.1
  have c2 : c ≤ 2.00000004 := le_trans hc.2 (by unfold uro; norm_num)
  have hp : (prec : ℚ) ≤ 1048576 := by exact_mod_cast (show prec ≤ 1048576 by omega)
  have hp2 : (2 : ℚ) ≤ prec := by exact_mod_cast h2
  have c0 : 0 < c := by norm_num at c1; linarith
  have x1 : (prec : ℚ) / c ≤ prec / 2.00000002 := div_le_div_of_nonneg_left (by linarith) (by norm_num) c1
  have x2 : (prec : ℚ) / 2.00000004 ≤ prec / c := div_le_div_of_nonneg_left (by linarith) c0 c2
  have hx := f64_bounds (x := (prec : ℚ) / c) (by positivity)
  set x := f64 ((prec : ℚ) / c) with hxdef
  have h1 : x ≤ prec / 2 := by
    refine le_trans hx.2 ?_
    unfold uro
    norm_num at x1 ⊢
    linarith
  have h3 : (prec : ℚ) / 2 - 1 / 50 ≤ x := by
    refine le_trans ?_ hx.1
    unfold uro
    norm_num at x2 ⊢
    linarith
  have f1 := Int.le_ceil x
  have f2 := Int.ceil_lt_add_one x
  have z1 : 0 ≤ ⌈x⌉ := Int.ceil_nonneg (by linarith)
  have g1 : (prec : ℤ) ≤ 2 * ⌈x⌉ := by
    have : ((prec : ℤ) : ℚ) < 2 * ⌈x⌉ + 1 := by push_cast; linarith
    have : (prec : ℤ) < 2 * ⌈x⌉ + 1 := by exact_mod_cast this
    omega
  have g2 : 2 * ⌈x⌉ ≤ (prec : ℤ) + 1 := by
    have : (2 * ⌈x⌉ : ℚ) < (prec : ℤ) + 2 := by push_cast; linarith
    have : 2 * ⌈x⌉ < (prec : ℤ) + 2 := by exact_mod_cast this
    omega
  omega

theorem pow_bound {ε : ℝ} {n : ℕ} (h0 : 0 ≤ ε) (h1 : n * ε ≤ 1) : (1 + ε) ^ n ≤ 1 + n * ε + (n * ε) ^ 2 := by
  have a : (1 + ε) ^ n ≤ Real.exp (n * ε) := by
    rw [Real.exp_nat_mul]
    exact pow_le_pow_left₀ (by linarith) (by linarith [Real.add_one_le_exp ε]) n
  have b := Real.abs_exp_sub_one_sub_id_le (x := n * ε) (by rw [abs_of_nonneg (by positivity)]; exact h1)
  have := (abs_le.1 b).2
  linarith

theorem prec_eps {prec : ℕ} (h : 12 ≤ prec) : ((prec : ℝ) + 1) * bigEps prec ≤ 1 / 300 := by
  unfold bigEps
  induction prec, h using Nat.le_induction with
  | base => norm_num
  | succ n hn ih =>
    rw [pow_succ]
    push_cast
    have : (0 : ℝ) < (1 / 2) ^ n := by positivity
    have hn' : (12 : ℝ) ≤ n := by exact_mod_cast hn
    nlinarith

/-- the error of `Cos` for angles up to a full turn: about `log2(prec) + 4` bits are lost -/
theorem bigCos_bound {prec : ℕ} (h12 : 12 ≤ prec) (hlt : prec < 2 ^ 20) {x : ℝ} (hx : |x| ≤ 2 * Real.pi) :
    |bigCos prec x - Real.cos x| ≤ 10 * (prec + 22) * bigEps prec := by
  obtain ⟨k1, k2⟩ := cosIter_bounds hlt (by omega)
  have hε0 := bigEps_pos prec
  set k := cosIter prec with hk
  have h300 := prec_eps h12
  have hprec : (12 : ℝ) ≤ prec := by exact_mod_cast h12
  set ε := bigEps prec with hε
  have hε' : ε ≤ 1 / 3900 := by nlinarith
  have hx2 : x ^ 2 ≤ 39.5 := by
    rw [← sq_abs]
    have := Real.pi_lt_d4
    have h : |x| ≤ 6.2832 := by linarith
    nlinarith [abs_nonneg x]
  have h4k : 1 / (4 : ℝ) ^ (k - 1) ≤ 4 * ε := by
    have e : (4 : ℝ) ^ (k - 1) = 4 ^ k / 4 := by
      rw [show k = k - 1 + 1 by omega, pow_succ]; simp
    have h : (2 : ℝ) ^ prec ≤ 4 ^ k := by
      rw [show (4 : ℝ) = 2 ^ 2 by norm_num, ← pow_mul]
      exact pow_le_pow_right₀ (by norm_num) k1
    rw [e, hε, bigEps, one_div_div, one_div, inv_pow, div_eq_mul_inv]
    exact mul_le_mul_of_nonneg_left (inv_anti₀ (by positivity) h) (by norm_num)
  have hy : x ^ 2 / 4 ^ (k - 1) ≤ 158 * ε := by
    rw [div_eq_mul_one_div]
    calc x ^ 2 * (1 / 4 ^ (k - 1)) ≤ 39.5 * (4 * ε) := mul_le_mul hx2 h4k (by positivity) (by norm_num)
      _ = 158 * ε := by ring
  have hn : ((2 * k - 1 : ℕ) : ℝ) * ε ≤ prec * ε := by
    refine mul_le_mul_of_nonneg_right ?_ hε0.le
    exact_mod_cast (show 2 * k - 1 ≤ prec by omega)
  have hpe : prec * ε ≤ 1 / 300 := by nlinarith
  have hn0 : 0 ≤ ((2 * k - 1 : ℕ) : ℝ) * ε := by positivity
  have hpow := pow_bound (n := 2 * k - 1) hε0.le (by linarith)
  set p := ((2 * k - 1 : ℕ) : ℝ) * ε with hp
  have hA : (1 + x ^ 2 / 4 ^ (k - 1) / 9) * (1 + ε) ^ (2 * k - 1) ≤ 1 + 1.01 * (prec + 19) * ε := by
    have h1 : (1 + ε) ^ (2 * k - 1) ≤ 1 + 301 / 300 * (prec * ε) := by
      nlinarith
    calc _ ≤ (1 + 17.6 * ε) * (1 + 301 / 300 * (prec * ε)) := by
          refine mul_le_mul (by linarith) h1 (by positivity) (by positivity)
      _ ≤ _ := by nlinarith
  have := bigCos_err (A := 1 + 1.01 * (prec + 19) * ε) (by omega : 0 < prec) hx (by omega) (by linarith) (by linarith) hA (by nlinarith)
  refine le_trans this ?_
  nlinarith

end FastKsw
