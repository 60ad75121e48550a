import Verif.Lemmas.ErrStd
import Verif.Props.FloatFFT

/-!
# C113: the functions that measure the standard deviation of an error
-/

namespace FastKsw.Props

open FastKsw FastKsw.ErrStd Finset

/-- standard deviation of the first `n` values -/
noncomputable def popStd (n : ℕ) (c : ℕ → ℝ) : ℝ :=
  Real.sqrt ((∑ k ∈ range n, (c k - (∑ i ∈ range n, c i) / n) ^ 2) / n)

/-- `math.Sqrt` rounds the root of a float64 value -/
def SqrtNear (sqrtF : ℚ → ℚ) : Prop :=
  ∀ x : ℚ, 0 ≤ f64s x → |(sqrtF (f64s x) : ℝ) - Real.sqrt (f64s x : ℝ)| ≤ uf * Real.sqrt (f64s x : ℝ)

theorem popStd_eq (n : ℕ) (c : ℕ → ℝ) : popStd n c = rms n fun k => c k - avg n c := rfl

theorem sum_dev {n : ℕ} (hn : 0 < n) (c : ℕ → ℝ) :
    (∑ k ∈ range n, (c k - avg n c) ^ 2) / n = (∑ k ∈ range n, c k ^ 2) / n - avg n c ^ 2 := by
  have hn' : (n : ℝ) ≠ 0 := by positivity
  have hs : ∑ k ∈ range n, c k = n * avg n c := by unfold avg; field_simp
  have : ∑ k ∈ range n, (c k - avg n c) ^ 2 = ∑ k ∈ range n, c k ^ 2 - n * avg n c ^ 2 := by
    simp only [sub_sq, Finset.sum_add_distrib, Finset.sum_sub_distrib, Finset.sum_const, card_range, nsmul_eq_mul]
    rw [← Finset.sum_mul, ← Finset.mul_sum, hs]
    ring
  rw [this]
  field_simp

/-- The square is the mean of the squares minus the square of the mean. -/
theorem popStd_sq {n : ℕ} (hn : 0 < n) (c : ℕ → ℝ) :
    popStd n c ^ 2 = (∑ k ∈ range n, c k ^ 2) / n - ((∑ k ∈ range n, c k) / n) ^ 2 := by
  rw [popStd_eq, rms_sq, sum_dev hn]
  rfl

theorem popStd_congr {n : ℕ} (hn : 0 < n) {c c' : ℕ → ℝ} (h1 : ∑ k ∈ range n, c k = ∑ k ∈ range n, c' k)
    (h2 : ∑ k ∈ range n, c k ^ 2 = ∑ k ∈ range n, c' k ^ 2) : popStd n c = popStd n c' := by
  have h := popStd_sq hn c
  rw [h1, h2, ← popStd_sq hn c'] at h
  exact (pow_left_inj₀ (rms_nonneg n _) (rms_nonneg n _) two_ne_zero).1 h

theorem popStd_le_rms {n : ℕ} (hn : 0 < n) (c : ℕ → ℝ) : popStd n c ≤ rms n c := by
  refine Real.sqrt_le_sqrt ?_
  have := sum_dev hn c
  have h0 := sq_nonneg (avg n c)
  show (∑ k ∈ range n, (c k - avg n c) ^ 2) / n ≤ _
  linarith

theorem popStd_le {n : ℕ} (hn : 0 < n) {c : ℕ → ℝ} {B : ℝ} (hB : ∀ k < n, |c k| ≤ B) : popStd n c ≤ B :=
  (popStd_le_rms hn c).trans ((rms_mono (g := fun _ => B) hB).trans (rms_const hn ((abs_nonneg _).trans (hB 0 hn))).le)

theorem popStd_sub {n : ℕ} (hn : 0 < n) (c c' : ℕ → ℝ) : popStd n c ≤ popStd n c' + rms n fun k => c k - c' k := by
  have h1 := rms_add n (fun k => c' k - avg n c') fun k => (c k - c' k) - avg n fun k => c k - c' k
  have h2 := popStd_le_rms hn fun k => c k - c' k
  have e : (fun k => c' k - avg n c' + (c k - c' k - avg n fun k => c k - c' k)) = fun k => c k - avg n c := by
    funext k
    unfold avg
    rw [Finset.sum_sub_distrib]
    ring
  rw [e] at h1
  rw [popStd_eq, popStd_eq] at *
  linarith

theorem popStd_close {n : ℕ} (hn : 0 < n) {c c' : ℕ → ℝ} {e : ℝ} (h : ∀ k < n, |c k - c' k| ≤ e) : |popStd n c - popStd n c'| ≤ e := by
  have he := (abs_nonneg _).trans (h 0 hn)
  have k1 := (rms_mono (g := fun _ => e) h).trans (rms_const hn he).le
  have k2 := (rms_mono (f := fun k => c' k - c k) (g := fun _ => e) fun k hk => by rw [abs_sub_comm]; exact h k hk).trans
    (rms_const hn he).le
  have h1 := popStd_sub hn c c'
  have h2 := popStd_sub hn c' c
  rw [abs_le]
  constructor <;> linarith

theorem list_sum_range (l : List ℚ) (f : ℚ → ℝ) : (l.map f).sum = ∑ k ∈ range l.length, f (l.getD k 0) := by
  induction l with
  | nil => simp
  | cons a l ih =>
    rw [List.length_cons, Finset.sum_range_succ', List.map_cons, List.sum_cons, ih, add_comm]
    simp

theorem f64s_nonneg {x : ℚ} (h : 0 ≤ x) : 0 ≤ f64s x := by
  unfold f64s
  split
  · exact le_rfl
  · dsimp only
    set e := max (Int.log 2 |x| - 52) (-1074)
    have hk : (0 : ℚ) < 2 ^ e := zpow_pos (by norm_num) _
    have h1 := (abs_le.1 (roundEven_err (x / 2 ^ e))).1
    have h2 : (0 : ℚ) ≤ x / 2 ^ e := div_nonneg h hk.le
    have h3 : (-1 : ℚ) < (roundEven (x / 2 ^ e) : ℚ) := by linarith
    have h4 : -1 < roundEven (x / 2 ^ e) := by exact_mod_cast h3
    have h5 : 0 ≤ roundEven (x / 2 ^ e) := by omega
    exact mul_nonneg (by exact_mod_cast h5) hk.le

theorem sq_nonneg_fold (l : List ℚ) (f : ℚ → ℚ) : 0 ≤ l.foldl (fun e c => f64s (e + f64s (f c * f c))) 0 := by
  induction l using List.reverseRecOn with
  | nil => exact le_rfl
  | append_singleton l c ih =>
    rw [List.foldl_append]
    exact f64s_nonneg (add_nonneg ih (f64s_nonneg (mul_self_nonneg _)))

/-- error of the deviation before the last rounding -/
noncomputable def devErr (n : ℕ) (B σ : ℝ) : ℝ :=
  ((1 + uf) ^ (n + 4) - 1) * σ + (1 + uf) ^ (n + 4) * (((1 + uf) ^ (n + 1) - 1) * B + ((1 + uf) ^ (n + 1) + 1) * eta) +
    (1 + uf) ^ (n + 3) * eta + (1 + uf) * Real.sqrt ((2 * (1 + uf) ^ (n + 1) + 1) * eta)

theorem one_uf_pow {m : ℕ} (hm : m ≤ 2 ^ 21) : (1 + uf) ^ m ≤ 1 + 2 * m * uf := by
  have hu := uf_pos
  have h1 : (1 + uf) ^ m ≤ Real.exp (m * uf) := by
    rw [Real.exp_nat_mul]
    exact pow_le_pow_left₀ (by linarith) (by linarith [Real.add_one_le_exp uf]) m
  have hm' : (m : ℝ) ≤ 2 ^ 21 := by exact_mod_cast hm
  have hmu : m * uf ≤ 1 := by
    have : uf = 1 / 2 ^ 53 := rfl
    rw [this]; linarith
  have h0 : 0 ≤ m * uf := by positivity
  have h2 := Real.abs_exp_sub_one_le (x := m * uf) (by rw [abs_of_nonneg h0]; exact hmu)
  rw [abs_of_nonneg h0] at h2
  have := (abs_le.1 h2).2
  linarith

theorem devErr_le {n : ℕ} (hn : n ≤ 2 ^ 20) {B σ : ℝ} (h0 : 0 ≤ σ) (h : σ ≤ B) :
    uf * (σ + devErr n B σ) + devErr n B σ ≤ (n + 5) * B / 2 ^ 50 + 32 * Real.sqrt eta := by
  have hu := uf_pos
  have he := eta_pos
  have huv : uf = 1 / 2 ^ 53 := rfl
  have hn' : (n : ℝ) ≤ 2 ^ 20 := by exact_mod_cast hn
  have hn0 : (0 : ℝ) ≤ n := Nat.cast_nonneg _
  have p1 := one_uf_pow (m := n + 1) (by omega)
  have p3 := one_uf_pow (m := n + 3) (by omega)
  have p4 := one_uf_pow (m := n + 4) (by omega)
  push_cast at p1 p3 p4
  have o1 : 1 ≤ (1 + uf) ^ (n + 1) := one_le_pow₀ (by linarith)
  have o3 : 1 ≤ (1 + uf) ^ (n + 3) := one_le_pow₀ (by linarith)
  have o4 : 1 ≤ (1 + uf) ^ (n + 4) := one_le_pow₀ (by linarith)
  have e4 : eta ≤ Real.sqrt eta := by
    refine Real.le_sqrt_of_sq_le ?_
    have := eta_le
    have : eta ≤ 1 := this.trans (by rw [huv]; norm_num)
    nlinarith
  unfold devErr
  generalize (1 + uf) ^ (n + 1) = G1 at *
  generalize (1 + uf) ^ (n + 3) = G3 at *
  generalize (1 + uf) ^ (n + 4) = G4 at *
  have b4 : G4 ≤ 1 + 1 / 2 ^ 10 := by rw [huv] at p4; linarith
  have b3 : G3 ≤ 1 + 1 / 2 ^ 10 := by rw [huv] at p3; linarith
  have b1 : G1 ≤ 1 + 1 / 2 ^ 10 := by rw [huv] at p1; linarith
  have hB : 0 ≤ B := h0.trans h
  have hsq : Real.sqrt ((2 * G1 + 1) * eta) ≤ 2 * Real.sqrt eta := by
    have h4 : (2 * G1 + 1) * eta ≤ 2 ^ 2 * eta := mul_le_mul_of_nonneg_right (by linarith) he.le
    refine (Real.sqrt_le_sqrt h4).trans ?_
    rw [Real.sqrt_mul (by norm_num), Real.sqrt_sq (by norm_num)]
  have hs0 := Real.sqrt_nonneg ((2 * G1 + 1) * eta)
  generalize Real.sqrt ((2 * G1 + 1) * eta) = S at *
  have t1 : (G4 - 1) * σ ≤ 2 * (n + 4) * uf * B :=
    mul_le_mul (by linarith) h h0 (by positivity)
  have t2 : (G1 - 1) * B ≤ 2 * (n + 1) * uf * B := mul_le_mul_of_nonneg_right (by linarith) hB
  have t3 : (G1 + 1) * eta ≤ 3 * eta := mul_le_mul_of_nonneg_right (by linarith) he.le
  have t23 : 0 ≤ (G1 - 1) * B + (G1 + 1) * eta := by
    have : 0 ≤ (G1 - 1) * B := mul_nonneg (by linarith) hB
    have : 0 ≤ (G1 + 1) * eta := mul_nonneg (by linarith) he.le
    linarith
  have t4 : G4 * ((G1 - 1) * B + (G1 + 1) * eta) ≤ (1 + 1 / 2 ^ 10) * (2 * (n + 1) * uf * B + 3 * eta) :=
    mul_le_mul b4 (by linarith) t23 (by norm_num)
  have t5 : G3 * eta ≤ 2 * eta := mul_le_mul_of_nonneg_right (by linarith) he.le
  have t6 : (1 + uf) * S ≤ 4 * Real.sqrt eta := by
    have : (1 + uf) * S ≤ 2 * S := mul_le_mul_of_nonneg_right (by linarith) hs0
    linarith
  have hnB : 0 ≤ n * B := mul_nonneg hn0 hB
  set D := (G4 - 1) * σ + G4 * ((G1 - 1) * B + (G1 + 1) * eta) + G3 * eta + (1 + uf) * S with hD
  have hD1 : D ≤ (5 * n + 11) * uf * B + 6 * eta + 4 * Real.sqrt eta := by
    have : D ≤ 2 * (n + 4) * uf * B + (1 + 1 / 2 ^ 10) * (2 * (n + 1) * uf * B + 3 * eta) + 2 * eta + 4 * Real.sqrt eta := by
      rw [hD]; linarith
    refine this.trans ?_
    have e1 : 0 ≤ uf * (n * B) := by positivity
    have e2 : 0 ≤ uf * B := by positivity
    nlinarith
  have hD2 : D * uf ≤ D * 1 / 1000 ∨ D ≤ 0 := by
    by_cases hd : 0 ≤ D
    · left
      have := mul_le_mul_of_nonneg_left uf_le hd
      linarith
    · right; linarith
  have e6 : (n + 5) * B / 2 ^ 50 = 8 * (n + 5) * uf * B := by rw [huv]; ring
  rw [e6]
  have e7 : 0 ≤ uf * (n * B) := by positivity
  have e8 : 0 ≤ uf * B := by positivity
  have e9 : uf * σ ≤ uf * B := mul_le_mul_of_nonneg_left h hu.le
  have e10 := Real.sqrt_nonneg eta
  generalize Real.sqrt eta = w at *
  rcases hD2 with hd | hd
  · nlinarith
  · have : uf * D ≤ 0 := mul_nonpos_of_nonneg_of_nonpos hu.le hd
    nlinarith

/-- **C113 (StandardDeviation).** -/
theorem C113_standardDeviation {sqrtF : ℚ → ℚ} (hsq : SqrtNear sqrtF) {vec : List ℚ} (hv : vec ≠ []) (hl : vec.length ≤ 2 ^ 20)
    {B : ℝ} (hB : ∀ c ∈ vec, |(c : ℝ)| ≤ B) {scale : ℚ} (hs : 0 ≤ scale) :
    ∃ v, standardDeviation sqrtF vec scale = some v ∧
      |(v : ℝ) - popStd vec.length (fun k => (vec.getD k 0 : ℝ)) * scale| ≤
        scale * ((vec.length + 5) * B / 2 ^ 50 + 32 * Real.sqrt eta) + eta := by
  have hpos : 0 < vec.length := List.length_pos_iff.2 hv
  have hu := uf_pos
  have he := eta_pos
  unfold standardDeviation
  rw [if_neg hpos.ne', f64s_natCast hpos (by omega)]
  refine ⟨_, rfl, ?_⟩
  dsimp only
  set n := vec.length with hn
  set c : ℕ → ℝ := fun k => (vec.getD k 0 : ℝ) with hc
  have hnr : (0 : ℝ) < n := Nat.cast_pos.2 hpos
  have hcB : ∀ k < n, |c k| ≤ B := by
    intro k hk
    rw [hc]
    dsimp only
    rw [List.getD_eq_getElem _ _ hk]
    exact hB _ (List.getElem_mem hk)
  set g := 1 + uf with hg
  have hug : uf = g - 1 := by rw [hg]; ring
  -- the mean
  obtain ⟨s1, s2⟩ := ErrStd.sum_err vec hB
  set s := vec.foldl (fun m c => f64s (m + c)) 0
  rw [list_sum_range vec fun c => (c : ℝ)] at s1 s2
  have hS : ∑ k ∈ range vec.length, ((vec.getD k 0 : ℚ) : ℝ) = n * avg n c := by unfold avg; field_simp; rfl
  rw [hS, ← hn, ← hg] at s1
  rw [hS, ← hn] at s2
  set m := f64s (s / n) with hm
  have m1 := f64s_err (s / n)
  rw [← hm] at m1
  push_cast at m1
  have hG : 1 ≤ g ^ n := one_le_pow₀ (by linarith)
  have hmean : |(m : ℝ) - avg n c| ≤ (g ^ (n + 1) - 1) * B + (g ^ (n + 1) + 1) * eta := by
    have a1 : |(s : ℝ) / n - avg n c| ≤ (g ^ n - 1) * B + g ^ n * eta := by
      have : (s : ℝ) / n - avg n c = (s - n * avg n c) / n := by field_simp
      rw [this, abs_div, abs_of_pos hnr, div_le_iff₀ hnr]
      linarith
    have a2 : |avg n c| ≤ B := by
      rw [abs_mul, abs_of_pos hnr] at s2
      exact le_of_mul_le_mul_left s2 hnr
    have a3 : |(s : ℝ) / n| ≤ |(s : ℝ) / n - avg n c| + |avg n c| := by
      have := abs_add_le ((s : ℝ) / n - avg n c) (avg n c)
      rwa [sub_add_cancel] at this
    have a4 : |(m : ℝ) - avg n c| ≤ |(m : ℝ) - s / n| + |(s : ℝ) / n - avg n c| := by
      have := abs_add_le ((m : ℝ) - s / n) ((s : ℝ) / n - avg n c)
      rwa [sub_add_sub_cancel] at this
    have a8 : uf * ((g ^ n - 1) * B + g ^ n * eta + B) + eta + ((g ^ n - 1) * B + g ^ n * eta) =
        (g ^ (n + 1) - 1) * B + (g ^ (n + 1) + 1) * eta := by
      rw [hug]; ring
    have a9 := mul_le_mul_of_nonneg_left (a3.trans (add_le_add a1 a2)) hu.le
    linarith
  set Δ := (g ^ (n + 1) - 1) * B + (g ^ (n + 1) + 1) * eta with hΔ
  have hΔ0 : 0 ≤ Δ := (abs_nonneg _).trans hmean
  -- distances to the mean
  set σ := popStd n c with hσ
  have hσ0 : 0 ≤ σ := rms_nonneg n _
  have hσB : σ ≤ B := popStd_le hpos hcB
  have d1 : |rms n (fun k => c k - m) - σ| ≤ 0 * σ + Δ := by
    refine rms_close hpos le_rfl hΔ0 fun k _ => ?_
    show |c k - m - (c k - avg n c)| ≤ 0 * |c k - avg n c| + Δ
    rw [show c k - m - (c k - avg n c) = -(m - avg n c) by ring, abs_neg, zero_mul, zero_add]
    exact hmean
  have d2 : |rms n (fun k => ((f64s (vec.getD k 0 - m) : ℚ) : ℝ)) - rms n (fun k => c k - m)| ≤ uf * rms n (fun k => c k - m) + eta := by
    refine rms_close hpos hu.le he.le fun k _ => ?_
    have := f64s_err (vec.getD k 0 - m)
    push_cast at this
    exact this
  -- the sum of squares
  obtain ⟨q1, q2⟩ := ErrStd.sq_err vec fun c => f64s (c - m)
  have q3 := sq_nonneg_fold vec fun c => f64s (c - m)
  set e := vec.foldl (fun e c => f64s (e + f64s (f64s (c - m) * f64s (c - m)))) 0 with hedef
  rw [list_sum_range vec fun c => ((f64s (c - m) : ℚ) : ℝ) ^ 2] at q1 q2
  set τ := rms n (fun k => ((f64s (vec.getD k 0 - m) : ℚ) : ℝ)) with hτ
  have hτ0 : 0 ≤ τ := rms_nonneg n _
  have hT : ∑ k ∈ range vec.length, ((f64s (vec.getD k 0 - m) : ℚ) : ℝ) ^ 2 = n * τ ^ 2 := by
    rw [hτ, rms_sq]; field_simp; rfl
  rw [hT, ← hn, ← hg] at q1
  set v := f64s (e / n) with hv'
  have v1 := f64s_err (e / n)
  rw [← hv'] at v1
  push_cast at v1
  have hv0 : 0 ≤ v := f64s_nonneg (div_nonneg q3 (Nat.cast_nonneg _))
  have hvT : |(v : ℝ) - τ ^ 2| ≤ (g ^ (n + 2) - 1) * τ ^ 2 + (2 * g ^ (n + 1) + 1) * eta := by
    have a1 : |(e : ℝ) / n - τ ^ 2| ≤ (g ^ (n + 1) - 1) * τ ^ 2 + 2 * g ^ n * eta := by
      have : (e : ℝ) / n - τ ^ 2 = (e - n * τ ^ 2) / n := by field_simp
      rw [this, abs_div, abs_of_pos hnr, div_le_iff₀ hnr]
      linarith
    have a3 : |(e : ℝ) / n| ≤ |(e : ℝ) / n - τ ^ 2| + τ ^ 2 := by
      have := abs_add_le ((e : ℝ) / n - τ ^ 2) (τ ^ 2)
      rwa [sub_add_cancel, abs_of_nonneg (sq_nonneg τ)] at this
    have a4 : |(v : ℝ) - τ ^ 2| ≤ |(v : ℝ) - e / n| + |(e : ℝ) / n - τ ^ 2| := by
      have := abs_add_le ((v : ℝ) - e / n) ((e : ℝ) / n - τ ^ 2)
      rwa [sub_add_sub_cancel] at this
    have a8 : uf * ((g ^ (n + 1) - 1) * τ ^ 2 + 2 * g ^ n * eta + τ ^ 2) + eta + ((g ^ (n + 1) - 1) * τ ^ 2 + 2 * g ^ n * eta) =
        (g ^ (n + 2) - 1) * τ ^ 2 + (2 * g ^ (n + 1) + 1) * eta := by
      rw [hug]; ring
    have a9 := mul_le_mul_of_nonneg_left (a3.trans (add_le_add_left a1 _)) hu.le
    linarith
  have g2 : g ^ (n + 2) ≤ 1 + 1 := by
    have := one_uf_pow (m := n + 2) (by omega)
    have hn' : (n : ℝ) ≤ 2 ^ 20 := by exact_mod_cast hl
    have huv : uf = 1 / 2 ^ 53 := rfl
    push_cast at this
    rw [← hg] at this
    have h3 : 2 * ((n : ℝ) + 2) * uf ≤ 1 := by rw [huv]; linarith
    linarith
  have g2' : 1 ≤ g ^ (n + 2) := one_le_pow₀ (by linarith)
  have g1' : 1 ≤ g ^ (n + 1) := one_le_pow₀ (by linarith)
  have r1 := sqrt_close hτ0 (by linarith : 0 ≤ g ^ (n + 2) - 1) (by linarith) (by positivity) hvT
  have r2 := hsq (e / n) hv0
  rw [← hv'] at r2
  -- all together
  set S := Real.sqrt ((2 * g ^ (n + 1) + 1) * eta) with hS'
  set δ := rms n (fun k => c k - m) with hδ
  have b1 : |τ - σ| ≤ uf * σ + g * Δ + eta := by
    have := abs_add_le (τ - δ) (δ - σ)
    rw [sub_add_sub_cancel] at this
    have h1 := (abs_le.1 d1).2
    have h2 : uf * δ ≤ uf * (σ + Δ) := mul_le_mul_of_nonneg_left (by linarith) hu.le
    rw [hg]
    linarith
  have b2 : |Real.sqrt v - σ| ≤ (g ^ (n + 3) - 1) * σ + g ^ (n + 3) * Δ + g ^ (n + 2) * eta + S := by
    have := abs_add_le (Real.sqrt v - τ) (τ - σ)
    rw [sub_add_sub_cancel] at this
    have h1 := (abs_le.1 b1).2
    have h2 := mul_le_mul_of_nonneg_left (show τ ≤ σ + (uf * σ + g * Δ + eta) by linarith) (by linarith : 0 ≤ g ^ (n + 2) - 1)
    have h3 : (g ^ (n + 2) - 1) * (σ + (uf * σ + g * Δ + eta)) + S + (uf * σ + g * Δ + eta) =
        (g ^ (n + 3) - 1) * σ + g ^ (n + 3) * Δ + g ^ (n + 2) * eta + S := by
      rw [hug]; ring
    linarith
  have b3 : |(sqrtF v : ℝ) - σ| ≤ devErr n B σ := by
    have := abs_add_le ((sqrtF v : ℝ) - Real.sqrt v) (Real.sqrt v - σ)
    rw [sub_add_sub_cancel] at this
    have h1 := (abs_le.1 b2).2
    have h2 := mul_le_mul_of_nonneg_left (show Real.sqrt v ≤ σ + ((g ^ (n + 3) - 1) * σ + g ^ (n + 3) * Δ + g ^ (n + 2) * eta + S) by
      linarith) hu.le
    have h3 : devErr n B σ = uf * (σ + ((g ^ (n + 3) - 1) * σ + g ^ (n + 3) * Δ + g ^ (n + 2) * eta + S)) +
        ((g ^ (n + 3) - 1) * σ + g ^ (n + 3) * Δ + g ^ (n + 2) * eta + S) := by
      unfold devErr
      rw [← hg, ← hΔ, ← hS', hug]
      ring
    rw [h3]
    linarith
  have hs' : (0 : ℝ) ≤ scale := by exact_mod_cast hs
  have w1 := f64s_err (sqrtF v * scale)
  push_cast at w1
  rw [abs_mul, abs_of_nonneg hs'] at w1
  have w2 := devErr_le hl hσ0 hσB
  have w3 : |(sqrtF v : ℝ)| ≤ σ + devErr n B σ := by
    have := abs_add_le ((sqrtF v : ℝ) - σ) σ
    rw [sub_add_cancel, abs_of_nonneg hσ0] at this
    linarith
  have w4 : |(f64s (sqrtF v * scale) : ℝ) - σ * scale| ≤ |(f64s (sqrtF v * scale) : ℝ) - sqrtF v * scale| + devErr n B σ * scale := by
    have := abs_add_le ((f64s (sqrtF v * scale) : ℝ) - sqrtF v * scale) (sqrtF v * scale - σ * scale)
    rw [sub_add_sub_cancel, ← sub_mul, abs_mul, abs_of_nonneg hs'] at this
    have h2 := mul_le_mul_of_nonneg_right b3 hs'
    linarith
  have w5 := mul_le_mul_of_nonneg_left w3 (mul_nonneg hu.le hs')
  have w6 := mul_le_mul_of_nonneg_left w2 hs'
  linarith

/-- two sequences, interleaved -/
def inter {α : Type} (x y : ℕ → α) (i : ℕ) : α := if i % 2 = 0 then x (i / 2) else y (i / 2)

theorem sum_inter {R : Type} [AddCommMonoid R] (x y : ℕ → R) (n : ℕ) :
    ∑ i ∈ range (2 * n), inter x y i = ∑ k ∈ range n, x k + ∑ k ∈ range n, y k := by
  induction n with
  | zero => simp
  | succ n ih =>
    rw [show 2 * (n + 1) = 2 * n + 1 + 1 by ring, sum_range_succ, sum_range_succ, ih, sum_range_succ, sum_range_succ]
    have e1 : inter x y (2 * n) = x n := by simp [inter]
    have e2 : inter x y (2 * n + 1) = y n := by
      unfold inter
      rw [if_neg (by omega), show (2 * n + 1) / 2 = n by omega]
    rw [e1, e2]
    abel

theorem inter_map {α β : Type} (f : α → β) (x y : ℕ → α) (i : ℕ) : f (inter x y i) = inter (fun k => f (x k)) (fun k => f (y k)) i := by
  unfold inter
  split <;> rfl

theorem interleave_length (v : List (ℚ × ℚ)) : (interleave v).length = 2 * v.length := by
  induction v with
  | nil => rfl
  | cons a v ih =>
    show (a.1 :: a.2 :: interleave v).length = _
    simp [ih]; ring

theorem interleave_getD (v : List (ℚ × ℚ)) (i : ℕ) :
    (interleave v).getD i 0 = inter (fun k => (v.getD k 0).1) (fun k => (v.getD k 0).2) i := by
  induction v generalizing i with
  | nil => simp [interleave, inter]
  | cons a v ih =>
    show (a.1 :: a.2 :: interleave v).getD i 0 = _
    match i with
    | 0 => rfl
    | 1 => rfl
    | i + 2 =>
      rw [List.getD_cons_succ, List.getD_cons_succ, ih]
      unfold inter
      rw [show (i + 2) % 2 = i % 2 by omega, show (i + 2) / 2 = i / 2 + 1 by omega]
      simp

/-- the deviation of a list of complex128 values near `z` -/
theorem std_near {sqrtF : ℚ → ℚ} (hsq : SqrtNear sqrtF) {v : List (ℚ × ℚ)} (hv : v ≠ []) (hl : v.length ≤ 2 ^ 19) {z : ℕ → ℂ}
    {V e : ℝ} (hz : ∀ k < v.length, ‖z k‖ ≤ V) (he : ∀ k < v.length, ‖fC (v.getD k 0) - z k‖ ≤ e) {scale : ℚ} (hs : 0 ≤ scale) :
    ∃ w, standardDeviation sqrtF (interleave v) scale = some w ∧
      |(w : ℝ) - popStd (2 * v.length) (inter (fun k => (z k).re) fun k => (z k).im) * scale| ≤
        scale * ((2 * v.length + 5) * (V + e) / 2 ^ 50 + 32 * Real.sqrt eta + e) + eta := by
  have hpos : 0 < v.length := List.length_pos_iff.2 hv
  have hlen := interleave_length v
  have hfc : ∀ k < v.length, ‖fC (v.getD k 0)‖ ≤ V + e := by
    intro k hk
    have := norm_add_le (fC (v.getD k 0) - z k) (z k)
    rw [sub_add_cancel] at this
    have := hz k hk
    have := he k hk
    linarith
  have hfun : (fun k => (((interleave v).getD k 0 : ℚ) : ℝ)) =
      inter (fun k => (fC (v.getD k 0)).re) fun k => (fC (v.getD k 0)).im := by
    funext i
    rw [interleave_getD, inter_map (fun q : ℚ => (q : ℝ))]
    rfl
  have hcl : ∀ i < 2 * v.length, |inter (fun k => (fC (v.getD k 0)).re) (fun k => (fC (v.getD k 0)).im) i -
      inter (fun k => (z k).re) (fun k => (z k).im) i| ≤ e := by
    intro i hi
    have h1 := he (i / 2) (by omega)
    unfold inter
    split
    · exact (Complex.abs_re_le_norm _).trans h1
    · exact (Complex.abs_im_le_norm _).trans h1
  obtain ⟨w, w1, w2⟩ := C113_standardDeviation hsq (vec := interleave v) (B := V + e)
    (by rw [← List.length_pos_iff, hlen]; omega) (by rw [hlen]; omega) (by
      intro c hc
      obtain ⟨k, hk, rfl⟩ := List.getElem_of_mem hc
      have h2 := congrFun hfun k
      rw [List.getD_eq_getElem _ _ hk] at h2
      rw [h2]
      have h1 := hfc (k / 2) (by rw [hlen] at hk; omega)
      unfold inter
      split
      · exact (Complex.abs_re_le_norm _).trans h1
      · exact (Complex.abs_im_le_norm _).trans h1) hs
  refine ⟨w, w1, ?_⟩
  rw [hfun, hlen] at w2
  push_cast at w2
  have h3 := popStd_close (by omega : 0 < 2 * v.length) hcl
  have hs' : (0 : ℝ) ≤ scale := by exact_mod_cast hs
  set p := popStd (2 * v.length) (inter (fun k => (fC (v.getD k 0)).re) fun k => (fC (v.getD k 0)).im)
  set p' := popStd (2 * v.length) (inter (fun k => (z k).re) fun k => (z k).im)
  have h4 := abs_add_le ((w : ℝ) - p * scale) (p * scale - p' * scale)
  rw [sub_add_sub_cancel, ← sub_mul, abs_mul, abs_of_nonneg hs'] at h4
  have h5 := mul_le_mul_of_nonneg_right h3 hs'
  linarith

theorem zipWith_getD {v w : List (ℚ × ℚ)} (h : v.length = w.length) {k : ℕ} (hk : k < v.length) :
    (List.zipWith fcSub v w).getD k 0 = fcSub (v.getD k 0) (w.getD k 0) := by
  rw [List.getD_eq_getElem _ _ (by simp; omega), List.getElem_zipWith, List.getD_eq_getElem _ _ hk, List.getD_eq_getElem _ _ (by omega)]

/-- **C113 (slots).** `GetErrSTDSlotDomain` returns the standard deviation of the `2L` parts of the `L` differences, multiplied by
the scale, up to rounding errors: `V` bounds the differences. -/
theorem C113_slotDomain {sqrtF : ℚ → ℚ} (hsq : SqrtNear sqrtF) {M : ℕ} {want have_ : List (ℚ × ℚ)} (hlen : want.length = have_.length)
    (h0 : want ≠ []) (hM : want.length ≤ M / 4) (hl : want.length ≤ 2 ^ 19) {V : ℝ}
    (hV : ∀ k < want.length, ‖fC (want.getD k 0) - fC (have_.getD k 0)‖ ≤ V) {scale : ℚ} (hs : 0 ≤ scale) :
    ∃ w, getErrSTDSlotDomain sqrtF M want have_ scale = some w ∧
      |(w : ℝ) - popStd (2 * want.length) (inter (fun k => (fC (want.getD k 0) - fC (have_.getD k 0)).re)
          fun k => (fC (want.getD k 0) - fC (have_.getD k 0)).im) * scale| ≤
        scale * ((2 * want.length + 5) * (V + (uf * V + 2 * eta)) / 2 ^ 50 + 32 * Real.sqrt eta + (uf * V + 2 * eta)) + eta := by
  unfold getErrSTDSlotDomain
  rw [if_neg (by omega)]
  have hzl : (List.zipWith fcSub want have_).length = want.length := by simp; omega
  have hpos : 0 < want.length := List.length_pos_iff.2 h0
  obtain ⟨w, w1, w2⟩ := std_near hsq (v := List.zipWith fcSub want have_) (z := fun k => fC (want.getD k 0) - fC (have_.getD k 0))
    (V := V) (e := uf * V + 2 * eta) (by rw [← List.length_pos_iff]; omega) (by omega) (fun k hk => hV k (by omega))
    (fun k hk => by
      rw [zipWith_getD hlen (by omega)]
      refine (fcSub_err _ _).trans ?_
      have := mul_le_mul_of_nonneg_left (hV k (by omega)) uf_pos.le
      linarith) hs
  rw [hzl] at w2
  exact ⟨w, w1, w2⟩

/-- the polynomial in `Y` with real coefficients `a` takes the values `e` at `ω^(5^j)`, `ω = exp(2πi/(4n))`, `n = 2^logSlots`: `a` is
what `Encode` computes for the slots `e`, before scaling and rounding -/
def IsEncoding (logSlots : ℕ) (a : ℕ → ℝ) (e : ℕ → ℂ) : Prop :=
  ∀ j < 2 ^ logSlots, ∑ k ∈ range (2 ^ (logSlots + 1)), (a k : ℂ) * encZeta (2 ^ (logSlots + 2)) ^ (5 ^ j * k) = e j

theorem encZeta_pow (m d : ℕ) : encZeta (2 ^ (m + d)) ^ 2 ^ d = encZeta (2 ^ m) := by
  unfold encZeta
  rw [← Complex.exp_nat_mul]
  congr 1
  have h : (2 : ℂ) ^ d ≠ 0 := pow_ne_zero _ two_ne_zero
  have h' : (2 : ℂ) ^ m ≠ 0 := pow_ne_zero _ two_ne_zero
  push_cast
  rw [pow_add]
  field_simp

theorem encZeta_half (n : ℕ) : encZeta (2 ^ (n + 2)) ^ (2 * 2 ^ n) = -1 := by
  rw [mul_comm, pow_mul, encZeta_im, Complex.I_sq]

/-- the pairs of coefficients form the complex polynomial -/
theorem IsEncoding.pairs {logSlots : ℕ} {a : ℕ → ℝ} {e : ℕ → ℂ} (h : IsEncoding logSlots a e) {j : ℕ} (hj : j < 2 ^ logSlots) :
    ∑ k ∈ range (2 ^ logSlots), (⟨a k, a (2 ^ logSlots + k)⟩ : ℂ) * encZeta (2 ^ (logSlots + 2)) ^ (5 ^ j * k) = e j := by
  rw [← h j hj, show 2 ^ (logSlots + 1) = 2 ^ logSlots + 2 ^ logSlots by ring, sum_range_add, ← sum_add_distrib]
  refine sum_congr rfl fun k _ => ?_
  have hI : encZeta (2 ^ (logSlots + 2)) ^ (5 ^ j * 2 ^ logSlots) = Complex.I := by
    rw [mul_comm, pow_mul, encZeta_im, show 5 ^ j = 4 * (5 ^ j / 4) + 1 by
      have : 5 ^ j % 4 = 1 := by rw [Nat.pow_mod]; simp
      omega, pow_add, pow_mul, Complex.I_pow_four]
    simp
  generalize encZeta (2 ^ (logSlots + 2)) = w at hI ⊢
  have hc : (⟨a k, a (2 ^ logSlots + k)⟩ : ℂ) = a k + a (2 ^ logSlots + k) * Complex.I := by apply Complex.ext <;> simp
  rw [mul_add (5 ^ j), pow_add, hI, hc]
  ring

/-- **C113 (sum of squares).** The sum of the squares of the `2n` coefficients is the sum of the squares of the norms of the `n` slots
divided by `n`. -/
theorem C113_parseval {logSlots : ℕ} {a : ℕ → ℝ} {e : ℕ → ℂ} (h : IsEncoding logSlots a e) :
    ∑ k ∈ range (2 ^ (logSlots + 1)), a k ^ 2 = (∑ j ∈ range (2 ^ logSlots), ‖e j‖ ^ 2) / 2 ^ logSlots := by
  have p := parseval (encZeta_half logSlots) fun k => (⟨a k, a (2 ^ logSlots + k)⟩ : ℂ)
  rw [sum_congr rfl fun j hj => by rw [h.pairs (mem_range.1 hj)]] at p
  rw [p, mul_div_cancel_left₀ _ (by positivity), show 2 ^ (logSlots + 1) = 2 ^ logSlots + 2 ^ logSlots by ring, sum_range_add, ← sum_add_distrib]
  refine sum_congr rfl fun k _ => ?_
  rw [Complex.sq_norm, Complex.normSq_mk]
  ring

theorem coeff_le {logSlots : ℕ} {c : ℕ → ℂ} {e : ℕ → ℂ} {V : ℝ} (hV0 : 0 ≤ V)
    (h : ∀ j < 2 ^ logSlots, ∑ k ∈ range (2 ^ logSlots), c k * encZeta (2 ^ (logSlots + 2)) ^ (5 ^ j * k) = e j)
    (hV : ∀ j < 2 ^ logSlots, ‖e j‖ ≤ V) {k : ℕ} (hk : k < 2 ^ logSlots) : ‖c k‖ ≤ V := by
  have p := parseval (encZeta_half logSlots) c
  rw [sum_congr rfl fun j hj => by rw [h j (mem_range.1 hj)]] at p
  have h1 : ∑ j ∈ range (2 ^ logSlots), ‖e j‖ ^ 2 ≤ 2 ^ logSlots * V ^ 2 := by
    refine (Finset.sum_le_sum fun j hj => pow_le_pow_left₀ (norm_nonneg _) (hV j (mem_range.1 hj)) 2).trans ?_
    simp
  rw [p] at h1
  have h2 := le_of_mul_le_mul_left h1 (by positivity)
  have h3 := (Finset.single_le_sum (f := fun k => ‖c k‖ ^ 2) (fun k _ => by positivity) (mem_range.2 hk)).trans h2
  exact abs_le_of_sq_le_sq' h3 hV0 |>.2

/-- error of the coefficients: the rounding of the differences and the error of the transform -/
noncomputable def coeffErr (δ : ℝ) (logSlots : ℕ) (V : ℝ) : ℝ :=
  uf * V + 2 * eta + ifftErr δ logSlots (V + (uf * V + 2 * eta))

/-- `bits.Len64(L-1)` is the number of slots that hold the input -/
theorem len64_pred {l : ℕ} (h : 0 < l) : l ≤ 2 ^ len64 (l - 1) := by
  unfold len64
  split
  · omega
  · have := Nat.lt_log2_self (n := l - 1)
    omega

/-- the encoder computes the coefficients of the polynomial that takes the given values -/
theorem encodeFFT_eval {logSlots d : ℕ} {mem values : List ℂ}
    (hmem : 2 ^ (logSlots + d) ≤ mem.length ∧ (3 ≤ logSlots → 16 ≤ mem.length)) {y : List ℂ}
    (h : encodeFFT (2 ^ (logSlots + 2 + d)) (encRoots (2 ^ (logSlots + 2 + d))) mem values logSlots = some y) {j : ℕ}
    (hj : j < 2 ^ logSlots) :
    ∑ k ∈ range (2 ^ logSlots), y.getD k 0 * encZeta (2 ^ (logSlots + 2)) ^ (5 ^ j * k) = values.getD j 0 := by
  have hMq : 2 ^ (logSlots + 2 + d) / 4 = 2 ^ (logSlots + d) := by
    rw [show 2 ^ (logSlots + 2 + d) = 4 * 2 ^ (logSlots + d) by ring, Nat.mul_div_cancel_left _ (by norm_num)]
  have hle : 2 ^ logSlots ≤ 2 ^ (logSlots + d) := Nat.pow_le_pow_right (by norm_num) (by omega)
  unfold encodeFFT at h
  dsimp only at h
  rw [hMq] at h
  split at h
  · exact absurd h (by simp)
  rename_i hcond
  have hvl : values.length ≤ 2 ^ logSlots := by omega
  obtain rfl := Option.some.inj h
  set buf := values ++ List.replicate (2 ^ logSlots - values.length) 0 ++ mem.drop (2 ^ logSlots) with hbuf
  have hbl : buf.length = mem.length := by rw [hbuf]; simp; omega
  have T : RootTable (2 ^ (logSlots + 2 + d)) (encRoots (2 ^ (logSlots + 2 + d))) (encZeta (2 ^ (logSlots + 2 + d))) :=
    encRoots_table (by positivity) (dvd_pow_self 2 (by omega))
  have hx : decide (3 ≤ logSlots) = true ∨ decide (3 ≤ logSlots) = true →
      (2 ^ logSlots + 15) / 16 * 16 ≤ buf.length ∧ (2 ^ (logSlots + d) + 7) / 8 * 8 ≤ buf.length := by
    intro h
    have h3 : 3 ≤ logSlots := by simpa using h
    have : 8 ∣ 2 ^ (logSlots + d) := pow_dvd_pow 2 (show 3 ≤ logSlots + d by omega)
    have h16 := hmem.2 h3
    refine ⟨?_, by omega⟩
    have := fftCap_le (logSlots := logSlots) (by omega : 2 ^ logSlots ≤ mem.length) hmem.2
    simp only [h3, decide_true] at this
    unfold fftCap at this
    rw [if_pos rfl] at this
    omega
  obtain ⟨-, inv⟩ := C72_inverse T (by norm_num) (decide (3 ≤ logSlots)) (decide (3 ≤ logSlots)) (2 ^ (logSlots + d)) hle buf (by omega) hx
  have hb : buf.getD j 0 = values.getD j 0 := by
    rw [hbuf, List.append_assoc]
    by_cases h : j < values.length
    · rw [List.getD_append _ _ _ _ h]
    · rw [List.getD_append_right _ _ _ _ (by omega), List.getD_append _ _ _ _ (by simp; omega), List.getD_eq_default (n := j) _ _ (by omega)]
      simp only [List.getD, List.getElem?_replicate]
      split <;> rfl
  rw [← hb, ← inv j hj]
  set z := specialiFFT (decide (3 ≤ logSlots)) (2 ^ logSlots) (2 ^ (logSlots + 2 + d)) (encRoots (2 ^ (logSlots + 2 + d)))
    (2 ^ (logSlots + d)) buf with hz
  have hcap : ifftCap (decide (3 ≤ logSlots)) (2 ^ logSlots) (2 ^ (logSlots + d)) ≤ buf.length := by
    unfold ifftCap
    refine max_le (by rw [hbl]; exact fftCap_le (by omega) hmem.2) ?_
    split
    · exact (hx (Or.inl (by assumption))).2
    · omega
  have hzl : z.length = buf.length := (specialiFFT_at (d := d) (roots := encRoots (2 ^ (logSlots + 2 + d))) _ _ hle buf hcap).1
  rw [(C71_specialFFT T (decide (3 ≤ logSlots)) z (by omega) fun h => by rw [hzl]; exact (hx (Or.inl h)).1).2 j hj]
  refine sum_congr rfl fun k hk => ?_
  rw [take_getD _ (mem_range.1 hk), show logSlots + 2 + d = logSlots + 2 + d from rfl, encZeta_pow]

theorem getD_map_fC (v : List (ℚ × ℚ)) (k : ℕ) : (v.map fC).getD k 0 = fC (v.getD k 0) := fC_getD v k

/-- **C113 (coefficients), partial.** `GetErrSTDCoeffDomain` returns, up to rounding errors and multiplied by the scale, the standard
deviation of the real and imaginary parts of the first `L` values of the inverse transform: of the coefficients `a` of the
polynomial that encodes the `L` differences, those of index `k` and `2^logSlots + k` with `k < L`.
What is missing: if `L` is not a power of two, other coefficients are left out, see `C113_coeff_violated`. -/
theorem C113_coeffDomain_partial {sqrtF : ℚ → ℚ} (hsq : SqrtNear sqrtF) {logSlots d : ℕ} {roots : ℕ → ℚ × ℚ} {δ : ℝ}
    (hr : RootsNear (2 ^ (logSlots + 2 + d)) roots δ) (hδ4 : δ ≤ 1 / 4) {mem : List (ℚ × ℚ)}
    (hmem : 2 ^ (logSlots + d) ≤ mem.length ∧ (3 ≤ logSlots → 16 ≤ mem.length)) {want have_ : List (ℚ × ℚ)}
    (hlen : want.length = have_.length) (h0 : want ≠ []) (hlog : len64 (want.length - 1) = logSlots) (hl : logSlots ≤ 19) {V : ℝ}
    (hV : ∀ k < want.length, ‖fC (want.getD k 0) - fC (have_.getD k 0)‖ ≤ V) {a : ℕ → ℝ}
    (ha : IsEncoding logSlots a fun j => fC (want.getD j 0) - fC (have_.getD j 0)) {scale : ℚ} (hs : 0 ≤ scale) :
    ∃ w, getErrSTDCoeffDomain sqrtF (2 ^ (logSlots + 2 + d)) roots mem want have_ scale = some w ∧
      |(w : ℝ) - popStd (2 * want.length) (inter a fun k => a (2 ^ logSlots + k)) * scale| ≤
        scale * ((2 * want.length + 5) * (V + coeffErr δ logSlots V) / 2 ^ 50 + 32 * Real.sqrt eta + coeffErr δ logSlots V) + eta := by
  have hpos : 0 < want.length := List.length_pos_iff.2 h0
  have hV0 : 0 ≤ V := (norm_nonneg _).trans (hV 0 hpos)
  have hL : want.length ≤ 2 ^ logSlots := hlog ▸ len64_pred hpos
  have hMq : 2 ^ (logSlots + 2 + d) / 4 = 2 ^ (logSlots + d) := by
    rw [show 2 ^ (logSlots + 2 + d) = 4 * 2 ^ (logSlots + d) by ring, Nat.mul_div_cancel_left _ (by norm_num)]
  have hle : 2 ^ logSlots ≤ 2 ^ (logSlots + d) := Nat.pow_le_pow_right (by norm_num) (by omega)
  have hu := uf_pos
  have he := eta_pos
  set diffs := List.zipWith fcSub want have_ with hdiffs
  have hdl : diffs.length = want.length := by rw [hdiffs]; simp; omega
  have hde : ∀ k < want.length, ‖fC (diffs.getD k 0) - (fC (want.getD k 0) - fC (have_.getD k 0))‖ ≤ uf * V + 2 * eta := by
    intro k hk
    rw [hdiffs, zipWith_getD hlen hk]
    refine (fcSub_err _ _).trans ?_
    have := mul_le_mul_of_nonneg_left (hV k hk) uf_pos.le
    linarith
  set V' := V + (uf * V + 2 * eta) with hV'
  have hdV : ∀ v ∈ diffs, ‖fC v‖ ≤ V' := by
    intro v hv
    obtain ⟨k, hk, rfl⟩ := List.getElem_of_mem hv
    have h1 := hde k (by omega)
    have h2 := hV k (by omega)
    rw [List.getD_eq_getElem _ _ hk] at h1
    have h3 := norm_add_le (fC diffs[k] - (fC (want.getD k 0) - fC (have_.getD k 0))) (fC (want.getD k 0) - fC (have_.getD k 0))
    rw [sub_add_cancel] at h3
    linarith
  set mem' : List (ℚ × ℚ) := List.replicate (2 ^ (logSlots + d)) 0 ++ mem.drop (2 ^ (logSlots + d)) with hmem'
  have hml : mem'.length = mem.length := by rw [hmem']; simp; omega
  obtain ⟨y, w, y1, w1, w2, w3⟩ := C92_encode hr hδ4 mem' (by rw [hml]; exact hmem) diffs (by omega) (by positivity) hdV
  have hev : ∀ j < 2 ^ logSlots, ∑ k ∈ range (2 ^ logSlots), y.getD k 0 * encZeta (2 ^ (logSlots + 2)) ^ (5 ^ j * k) =
      fC (diffs.getD j 0) := by
    intro j hj
    rw [encodeFFT_eval (by rw [List.length_map, hml]; exact hmem) y1 hj, fC_getD]
  -- the exact coefficients
  have hya : ∀ k < 2 ^ logSlots, ‖y.getD k 0 - ⟨a k, a (2 ^ logSlots + k)⟩‖ ≤ uf * V + 2 * eta := by
    intro k hk
    refine coeff_le (c := fun k => y.getD k 0 - ⟨a k, a (2 ^ logSlots + k)⟩) (by positivity)
      (e := fun j => fC (diffs.getD j 0) - (fC (want.getD j 0) - fC (have_.getD j 0))) (fun j hj => ?_) (fun j hj => ?_) hk
    · simp only [sub_mul, Finset.sum_sub_distrib]
      rw [hev j hj, ha.pairs hj]
    · by_cases hjl : j < want.length
      · exact hde j hjl
      · rw [List.getD_eq_default _ _ (by omega), List.getD_eq_default _ _ (by omega), List.getD_eq_default _ _ (by omega)]
        simp only [fC_zero, sub_self, norm_zero]
        positivity
  have hza : ∀ k < 2 ^ logSlots, ‖(⟨a k, a (2 ^ logSlots + k)⟩ : ℂ)‖ ≤ V := by
    intro k hk
    refine coeff_le (c := fun k => ⟨a k, a (2 ^ logSlots + k)⟩) hV0 (fun j hj => ha.pairs hj) (fun j hj => ?_) hk
    by_cases hjl : j < want.length
    · exact hV j hjl
    · rw [List.getD_eq_default _ _ (by omega), List.getD_eq_default _ _ (by omega)]
      simpa using hV0
  -- the code
  have hcode : getErrSTDCoeffDomain sqrtF (2 ^ (logSlots + 2 + d)) roots mem want have_ scale =
      standardDeviation sqrtF (interleave (w.take want.length)) scale := by
    unfold getErrSTDCoeffDomain
    dsimp only
    rw [hMq, if_neg (by omega), ← hlen, hlog]
    unfold encodeFFTF at w1
    dsimp only at w1
    rw [hMq, if_neg (by omega)] at w1
    rw [← Option.some.inj w1, List.take_take, min_eq_left hL]
    congr 4
    rw [hmem', List.drop_append, List.length_replicate, List.drop_replicate, List.drop_drop, List.append_assoc, List.append_assoc,
      ← List.append_assoc (List.replicate _ _) (List.replicate _ _), List.replicate_append_replicate, hdl, ← hdiffs]
    congr 3
    · omega
    · omega
  rw [hcode]
  have hwl : (w.take want.length).length = want.length := by rw [List.length_take, w2]; omega
  obtain ⟨x, x1, x2⟩ := std_near hsq (v := w.take want.length) (z := fun k => ⟨a k, a (2 ^ logSlots + k)⟩) (V := V)
    (e := coeffErr δ logSlots V) (by rw [← List.length_pos_iff]; omega)
    (by rw [hwl]; exact hL.trans (Nat.pow_le_pow_right (by norm_num) hl)) (fun k hk => hza k (by omega)) (fun k hk => by
      rw [hwl] at hk
      rw [take_getD _ hk]
      have h1 := (w3 k (by omega)).1
      have h2 := hya k (by omega)
      have h3 := norm_add_le (fC (w.getD k 0) - y.getD k 0) (y.getD k 0 - ⟨a k, a (2 ^ logSlots + k)⟩)
      rw [sub_add_sub_cancel] at h3
      unfold coeffErr
      linarith) hs
  rw [hwl] at x2
  exact ⟨x, x1, x2⟩

/-- **C113 (coefficients).** For a power of two of values, `GetErrSTDCoeffDomain` returns the standard deviation of all the
coefficients of the polynomial that encodes the differences, multiplied by the scale, up to rounding errors. -/
theorem C113_coeffDomain {sqrtF : ℚ → ℚ} (hsq : SqrtNear sqrtF) {logSlots d : ℕ} {roots : ℕ → ℚ × ℚ} {δ : ℝ}
    (hr : RootsNear (2 ^ (logSlots + 2 + d)) roots δ) (hδ4 : δ ≤ 1 / 4) {mem : List (ℚ × ℚ)}
    (hmem : 2 ^ (logSlots + d) ≤ mem.length ∧ (3 ≤ logSlots → 16 ≤ mem.length)) {want have_ : List (ℚ × ℚ)}
    (hw : want.length = 2 ^ logSlots) (hh : have_.length = 2 ^ logSlots) (hl : logSlots ≤ 19) {V : ℝ}
    (hV : ∀ k < 2 ^ logSlots, ‖fC (want.getD k 0) - fC (have_.getD k 0)‖ ≤ V) {a : ℕ → ℝ}
    (ha : IsEncoding logSlots a fun j => fC (want.getD j 0) - fC (have_.getD j 0)) {scale : ℚ} (hs : 0 ≤ scale) :
    ∃ w, getErrSTDCoeffDomain sqrtF (2 ^ (logSlots + 2 + d)) roots mem want have_ scale = some w ∧
      |(w : ℝ) - popStd (2 ^ (logSlots + 1)) a * scale| ≤
        scale * ((2 ^ (logSlots + 1) + 5) * (V + coeffErr δ logSlots V) / 2 ^ 50 + 32 * Real.sqrt eta + coeffErr δ logSlots V) + eta := by
  have hlog : len64 (2 ^ logSlots - 1) = logSlots := by
    unfold len64
    split
    · rename_i h
      have h1 : 1 ≤ 2 ^ logSlots := Nat.one_le_two_pow
      have h2 : 2 ^ logSlots = 2 ^ 0 := by rw [pow_zero]; omega
      exact (Nat.pow_right_injective le_rfl h2).symm
    · rename_i h
      obtain ⟨m, rfl⟩ : ∃ m, logSlots = m + 1 := ⟨logSlots - 1, by
        rcases Nat.eq_zero_or_pos logSlots with rfl | h'
        · simp at h
        · omega⟩
      rw [Nat.log2_eq_iff h |>.2]
      have := Nat.one_le_two_pow (n := m)
      rw [pow_succ] at *
      omega
  obtain ⟨w, w1, w2⟩ := C113_coeffDomain_partial hsq hr hδ4 hmem (by omega) (by rw [← List.length_pos_iff, hw]; positivity)
    (by rw [hw]; exact hlog) hl (by rw [hw]; exact hV) ha hs
  refine ⟨w, w1, ?_⟩
  have e : popStd (2 * 2 ^ logSlots) (inter a fun k => a (2 ^ logSlots + k)) = popStd (2 ^ (logSlots + 1)) a := by
    rw [show 2 ^ (logSlots + 1) = 2 * 2 ^ logSlots by ring]
    refine popStd_congr (by positivity) ?_ ?_
    · rw [sum_inter, two_mul, sum_range_add]
    · rw [sum_congr rfl fun i _ => inter_map (fun x : ℝ => x ^ 2) _ _ i, sum_inter, two_mul, sum_range_add]
  rw [hw, e] at w2
  push_cast at w2
  rw [show (2 : ℝ) ^ (logSlots + 1) = 2 * 2 ^ logSlots by ring]
  exact w2

/-- the polynomial exists -/
theorem exists_encoding (logSlots : ℕ) (e : ℕ → ℂ) : ∃ a, IsEncoding logSlots a e := by
  set values := (List.range (2 ^ logSlots)).map e with hv
  set mem : List ℂ := List.replicate (2 ^ logSlots + 16) 0 with hm
  have hMq : 2 ^ (logSlots + 2 + 0) / 4 = 2 ^ logSlots := by
    rw [show 2 ^ (logSlots + 2 + 0) = 4 * 2 ^ logSlots by ring, Nat.mul_div_cancel_left _ (by norm_num)]
  have hs : ∃ y, encodeFFT (2 ^ (logSlots + 2 + 0)) (encRoots (2 ^ (logSlots + 2 + 0))) mem values logSlots = some y := by
    unfold encodeFFT
    dsimp only
    rw [hMq, if_neg (by rw [hv]; simp)]
    exact ⟨_, rfl⟩
  obtain ⟨y, hy⟩ := hs
  refine ⟨fun k => if k < 2 ^ logSlots then (y.getD k 0).re else (y.getD (k - 2 ^ logSlots) 0).im, fun j hj => ?_⟩
  have := encodeFFT_eval (d := 0) (by rw [hm]; simp) hy hj
  rw [hv, List.getD_eq_getElem _ _ (by simpa using hj)] at this
  simp only [List.getElem_map, List.getElem_range] at this
  rw [← this, show 2 ^ (logSlots + 1) = 2 ^ logSlots + 2 ^ logSlots by ring, sum_range_add, ← sum_add_distrib]
  refine sum_congr rfl fun k hk => ?_
  have hI : encZeta (2 ^ (logSlots + 2)) ^ (5 ^ j * 2 ^ logSlots) = Complex.I := by
    rw [mul_comm, pow_mul, encZeta_im, show 5 ^ j = 4 * (5 ^ j / 4) + 1 by
      have : 5 ^ j % 4 = 1 := by rw [Nat.pow_mod]; simp
      omega, pow_add, pow_mul, Complex.I_pow_four]
    simp
  generalize encZeta (2 ^ (logSlots + 2)) = w at hI ⊢
  dsimp only
  rw [if_pos (mem_range.1 hk), if_neg (by omega), Nat.add_sub_cancel_left, mul_add (5 ^ j), pow_add, hI]
  conv_rhs => rw [← Complex.re_add_im (y.getD k 0)]
  ring

/-- **C113 (relation).** For errors with mean 0 in both domains, the deviation of the coefficients is that of the slots divided by the root
of the number of slots; in general the squares of the means are subtracted. -/
theorem C113_relation {logSlots : ℕ} {a : ℕ → ℝ} {e : ℕ → ℂ} (h : IsEncoding logSlots a e) :
    2 ^ logSlots * (popStd (2 ^ (logSlots + 1)) a ^ 2 + ((∑ k ∈ range (2 ^ (logSlots + 1)), a k) / 2 ^ (logSlots + 1)) ^ 2) =
      popStd (2 ^ (logSlots + 1)) (inter (fun k => (e k).re) fun k => (e k).im) ^ 2 +
        ((∑ k ∈ range (2 ^ logSlots), ((e k).re + (e k).im)) / 2 ^ (logSlots + 1)) ^ 2 := by
  have p := C113_parseval h
  rw [popStd_sq (by positivity), popStd_sq (by positivity), p]
  have e1 : ∑ k ∈ range (2 ^ (logSlots + 1)), inter (fun k => (e k).re) (fun k => (e k).im) k =
      ∑ k ∈ range (2 ^ logSlots), ((e k).re + (e k).im) := by
    rw [show 2 ^ (logSlots + 1) = 2 * 2 ^ logSlots by ring, sum_inter, sum_add_distrib]
  have e2 : ∑ k ∈ range (2 ^ (logSlots + 1)), inter (fun k => (e k).re) (fun k => (e k).im) k ^ 2 =
      ∑ j ∈ range (2 ^ logSlots), ‖e j‖ ^ 2 := by
    rw [sum_congr rfl fun i _ => inter_map (fun x : ℝ => x ^ 2) _ _ i, show 2 ^ (logSlots + 1) = 2 * 2 ^ logSlots by ring, sum_inter,
      ← sum_add_distrib]
    refine sum_congr rfl fun k _ => ?_
    rw [Complex.sq_norm, Complex.normSq_apply]
    ring
  rw [e1, e2]
  push_cast
  field_simp
  ring

/-- size of the error of the coefficients, with the table of the encoder -/
theorem C113_size {δ : ℝ} (hδ : 0 ≤ δ) (h : δ ≤ 1 / 2 ^ 48) {n : ℕ} (hn : n < 2 ^ 20) {V : ℝ} (hV : 0 ≤ V) :
    coeffErr δ n V ≤ (n + 2) * V / 2 ^ 46 + 20 * eta := by
  have hu := uf_pos
  have he := eta_pos
  have huv : uf = 1 / 2 ^ 53 := rfl
  have h1 := (C92_size hδ h hn (B := V + (uf * V + 2 * eta)) (by have := mul_nonneg hu.le hV; linarith)).1
  have hn' : (n : ℝ) ≤ 2 ^ 20 := by exact_mod_cast hn.le
  have hn0 : (0 : ℝ) ≤ n := Nat.cast_nonneg _
  unfold coeffErr
  rw [huv] at *
  have h2 : (n + 1) * (V + (1 / 2 ^ 53 * V + 2 * eta)) / 2 ^ 47 ≤ (n + 1) * V * (1 + 1 / 2 ^ 53) / 2 ^ 47 + eta := by
    have : (n + 1) * (2 * eta) / 2 ^ 47 ≤ eta := by nlinarith
    have e : (n + 1) * (V + (1 / 2 ^ 53 * V + 2 * eta)) / 2 ^ 47 = (n + 1) * V * (1 + 1 / 2 ^ 53) / 2 ^ 47 + (n + 1) * (2 * eta) / 2 ^ 47 := by
      ring
    rw [e]
    linarith
  have h3 : 0 ≤ n * V := mul_nonneg hn0 hV
  nlinarith

theorem sqrt_eta_le : Real.sqrt eta ≤ 1 / 2 ^ 70 := by
  rw [Real.sqrt_le_left (by positivity)]
  refine eta_le.trans ?_
  unfold uf
  norm_num

/-- the coefficients of the polynomial that takes the values 1, 0, 0, 0 -/
theorem delta_encoding {a : ℕ → ℝ} (ha : IsEncoding 2 a fun j => if j = 0 then 1 else 0) {k : ℕ} (hk : k < 4) :
    (⟨a k, a (4 + k)⟩ : ℂ) = (⟨Real.cos (Real.pi / 8), -Real.sin (Real.pi / 8)⟩ : ℂ) ^ k / 4 := by
  have hz : encZeta (2 ^ (2 + 2)) = ⟨Real.cos (Real.pi / 8), Real.sin (Real.pi / 8)⟩ := by
    unfold encZeta
    have : (2 * Real.pi / ((2 ^ (2 + 2) : ℕ) : ℂ) * Complex.I) = ((Real.pi / 8 : ℝ) : ℂ) * Complex.I := by push_cast; ring
    rw [this, Complex.exp_mul_I, ← Complex.ofReal_cos, ← Complex.ofReal_sin]
    apply Complex.ext <;> simp
  have hI : encZeta (2 ^ (2 + 2)) ^ 4 = Complex.I := encZeta_im (e := 2)
  have hv : encZeta (2 ^ (2 + 2)) * (⟨Real.cos (Real.pi / 8), -Real.sin (Real.pi / 8)⟩ : ℂ) = 1 := by
    rw [hz]
    have := Real.cos_sq_add_sin_sq (Real.pi / 8)
    apply Complex.ext
    · simp only [Complex.mul_re, Complex.one_re]; linarith
    · simp only [Complex.mul_im, Complex.one_im]; ring
  refine coeff_unique (encZeta_half 2) (c := fun k => ⟨a k, a (2 ^ 2 + k)⟩)
    (c' := fun k => (⟨Real.cos (Real.pi / 8), -Real.sin (Real.pi / 8)⟩ : ℂ) ^ k / 4) (fun j hj => ?_) hk
  rw [ha.pairs hj]
  set w := encZeta (2 ^ (2 + 2))
  set v : ℂ := ⟨Real.cos (Real.pi / 8), -Real.sin (Real.pi / 8)⟩
  have hm : ∀ m k : ℕ, v ^ k / 4 * w ^ ((4 * m + 1) * k) = Complex.I ^ (m * k) / 4 := by
    intro m k
    rw [pow_mul w, pow_add, pow_mul, hI, pow_one, div_mul_eq_mul_div, ← mul_pow, mul_comm v, mul_assoc, hv, mul_one, ← pow_mul]
  have key : ∀ m, 5 ^ j = 4 * m + 1 → ∑ k ∈ range (2 ^ 2), v ^ k / 4 * w ^ (5 ^ j * k) =
      (1 + Complex.I ^ m + Complex.I ^ (m * 2) + Complex.I ^ (m * 3)) / 4 := by
    intro m h
    rw [h, sum_congr rfl fun k _ => hm m k]
    simp only [Nat.reducePow, sum_range_succ, range_zero, sum_empty]
    ring
  have i2 : Complex.I ^ 2 = -1 := Complex.I_sq
  interval_cases j
  · rw [key 0 (by norm_num)]; norm_num
  · rw [key 1 (by norm_num)]
    rw [show Complex.I ^ (1 * 3) = Complex.I ^ 2 * Complex.I by ring, show Complex.I ^ (1 * 2) = Complex.I ^ 2 by ring, i2]
    simp
  · rw [key 6 (by norm_num)]
    rw [show Complex.I ^ 6 = (Complex.I ^ 2) ^ 3 by ring, show Complex.I ^ (6 * 2) = (Complex.I ^ 2) ^ 6 by ring,
      show Complex.I ^ (6 * 3) = (Complex.I ^ 2) ^ 9 by ring, i2]
    norm_num
  · rw [key 31 (by norm_num)]
    rw [show Complex.I ^ 31 = (Complex.I ^ 2) ^ 15 * Complex.I by ring, show Complex.I ^ (31 * 2) = (Complex.I ^ 2) ^ 31 by ring,
      show Complex.I ^ (31 * 3) = (Complex.I ^ 2) ^ 46 * Complex.I by ring, i2]
    norm_num

/-- the deviation of all the coefficients, and of those that are taken -/
theorem delta_dev {a : ℕ → ℝ} (ha : IsEncoding 2 a fun j => if j = 0 then 1 else 0) :
    popStd 8 a ^ 2 = 31 / 1024 ∧ popStd 6 (inter a fun k => a (4 + k)) ^ 2 ≤ 28 / 1024 := by
  set C := Real.cos (Real.pi / 8) with hC
  set S := Real.sin (Real.pi / 8) with hS
  have hCS : C ^ 2 + S ^ 2 = 1 := Real.cos_sq_add_sin_sq _
  have h4 : Real.pi / 4 = 2 * (Real.pi / 8) := by ring
  have hx : 2 * S * C = Real.sqrt 2 / 2 := by rw [← Real.sin_pi_div_four, h4, Real.sin_two_mul]
  have hy : C ^ 2 - S ^ 2 = Real.sqrt 2 / 2 := by rw [← Real.cos_pi_div_four, h4, Real.cos_two_mul']
  have hC0 : 0 < C := Real.cos_pos_of_mem_Ioo ⟨by linarith [Real.pi_pos], by linarith [Real.pi_pos]⟩
  have hS0 : 0 < S := Real.sin_pos_of_pos_of_lt_pi (by linarith [Real.pi_pos]) (by linarith [Real.pi_pos])
  have hs2 : Real.sqrt 2 < 3 / 2 := by rw [Real.sqrt_lt' (by norm_num)]; norm_num
  have hs20 : 0 < Real.sqrt 2 := Real.sqrt_pos.2 (by norm_num)
  have hgt : S < C := by nlinarith
  have hd : 1 / 2 ≤ C - S := by
    refine abs_le_of_sq_le_sq' (a := 1 / 2) ?_ (by linarith) |>.2
    nlinarith
  have hk : C - S = 4 * S ^ 2 * C := by
    have hx2 : (2 * S * C) ^ 2 = 1 / 2 := by rw [hx, div_pow, Real.sq_sqrt (by norm_num)]; norm_num
    have hxy : 2 * S * C = C ^ 2 - S ^ 2 := by rw [hx, hy]
    refine (pow_left_inj₀ (by linarith) (by positivity) two_ne_zero).1 ?_
    linear_combination -hxy - 4 * S ^ 2 * hx2
  -- the coefficients
  have c0 := delta_encoding ha (k := 0) (by norm_num)
  have c1 := delta_encoding ha (k := 1) (by norm_num)
  have c2 := delta_encoding ha (k := 2) (by norm_num)
  have c3 := delta_encoding ha (k := 3) (by norm_num)
  rw [← hC, ← hS] at c0 c1 c2 c3
  have hq : ∀ z : ℂ, z / 4 = ⟨z.re / 4, z.im / 4⟩ := fun z => by
    rw [show (4 : ℂ) = ((4 : ℝ) : ℂ) by norm_num]
    apply Complex.ext
    · rw [Complex.div_ofReal_re]
    · rw [Complex.div_ofReal_im]
  rw [hq, Complex.mk.injEq] at c0 c1 c2 c3
  rw [pow_zero] at c0
  rw [pow_one] at c1
  rw [pow_two] at c2
  rw [pow_succ, pow_two] at c3
  simp only [Complex.mul_re, Complex.mul_im, Complex.one_re, Complex.one_im] at c0 c1 c2 c3
  obtain ⟨a0, a4⟩ := c0
  obtain ⟨a1, a5⟩ := c1
  obtain ⟨a2, a6⟩ := c2
  obtain ⟨a3, a7⟩ := c3
  simp only [Nat.reduceAdd] at a4 a5 a6 a7
  -- 8 coefficients
  have p8 : popStd 8 a ^ 2 = 31 / 1024 := by
    have hp := C113_parseval ha
    rw [popStd_sq (by norm_num), show (8 : ℕ) = 2 ^ (2 + 1) by norm_num, hp]
    have e1 : ∑ j ∈ range (2 ^ 2), ‖(if j = 0 then 1 else 0 : ℂ)‖ ^ 2 = 1 := by simp [sum_range_succ]
    have e2 : ∑ k ∈ range (2 ^ (2 + 1)), a k = 1 / 4 := by
      simp only [Nat.reduceAdd, Nat.reducePow, sum_range_succ, range_zero, sum_empty]
      rw [a0, a1, a2, a3, a4, a5, a6, a7]
      have h3 : C * C - S * S = 2 * S * C := by rw [hx, ← hy]; ring
      linear_combination (1 / 4) * (1 + C - S) * h3 + (1 / 4) * hk
    rw [e1, e2]
    norm_num
  have p6 : popStd 6 (inter a fun k => a (4 + k)) ^ 2 ≤ 28 / 1024 := by
    rw [popStd_sq (by norm_num)]
    have e1 : ∑ k ∈ range 6, inter a (fun k => a (4 + k)) k = (1 + C - S) / 4 := by
      rw [show 6 = 2 * 3 by norm_num, sum_inter]
      simp only [sum_range_succ, range_zero, sum_empty, Nat.reduceAdd]
      rw [a0, a1, a2, a4, a5, a6]
      have h3 : C * C - S * S = 2 * S * C := by rw [hx, ← hy]; ring
      linarith
    have e2 : ∑ k ∈ range 6, inter a (fun k => a (4 + k)) k ^ 2 = 3 / 16 := by
      rw [sum_congr rfl fun i _ => inter_map (fun x : ℝ => x ^ 2) _ _ i, show 6 = 2 * 3 by norm_num, sum_inter]
      simp only [sum_range_succ, range_zero, sum_empty, Nat.reduceAdd]
      rw [a0, a1, a2, a4, a5, a6]
      have h3 : (C ^ 2 + S ^ 2) ^ 2 = 1 := by rw [hCS]; norm_num
      linear_combination (1 / 16) * hCS + (1 / 16) * h3
    rw [e1, e2]
    push_cast
    nlinarith
  exact ⟨p8, p6⟩

/-- **C113, violated** for 3 values: the encoding of the 3 differences 1, 0, 0 has 8 coefficients, the function takes 6 of them; the
result is off by 3%, whatever the rounding. -/
theorem C113_coeff_violated {sqrtF : ℚ → ℚ} (hsq : SqrtNear sqrtF) {roots : ℕ → ℚ × ℚ} {δ : ℝ} (hr : RootsNear 32 roots δ)
    (hδ : δ ≤ 1 / 2 ^ 48) {mem : List (ℚ × ℚ)} (hmem : 8 ≤ mem.length) :
    ∃ a w, (IsEncoding 2 a fun j => fC ([(1, 0), (0, 0), (0, 0)].getD j 0) - fC ([(0, 0), (0, 0), (0, 0)].getD j 0)) ∧
      getErrSTDCoeffDomain sqrtF 32 roots mem [(1, 0), (0, 0), (0, 0)] [(0, 0), (0, 0), (0, 0)] 1 = some w ∧
      1 / 200 ≤ |(w : ℝ) - popStd 8 a| ∧ popStd 8 a ≤ 3 / 16 := by
  obtain ⟨a, ha⟩ := exists_encoding 2 fun j => fC ([(1, 0), (0, 0), (0, 0)].getD j 0) - fC ([(0, 0), (0, 0), (0, 0)].getD j 0)
  have hf : (fun j => fC (([(1, 0), (0, 0), (0, 0)] : List (ℚ × ℚ)).getD j 0) - fC ([(0, 0), (0, 0), (0, 0)].getD j 0)) =
      fun j => if j = 0 then 1 else 0 := by
    funext j
    match j with
    | 0 => apply Complex.ext <;> simp [fC]
    | 1 => apply Complex.ext <;> simp [fC]
    | 2 => apply Complex.ext <;> simp [fC]
    | j + 3 => simp
  have hδ0 : 0 ≤ δ := hr.nonneg
  obtain ⟨w, w1, w2⟩ := C113_coeffDomain_partial hsq (logSlots := 2) (d := 1) hr (hδ.trans (by norm_num)) (mem := mem)
    ⟨hmem, by omega⟩ (want := [(1, 0), (0, 0), (0, 0)]) (have_ := [(0, 0), (0, 0), (0, 0)]) rfl (by simp) (by decide) (by norm_num) (V := 1)
    (fun k _ => by
      have := congrFun hf k
      rw [this]
      split <;> simp) ha (scale := 1) (by norm_num)
  refine ⟨a, w, ha, w1, ?_⟩
  rw [hf] at ha
  obtain ⟨p8, p6⟩ := delta_dev ha
  have n8 : 0 ≤ popStd 8 a := rms_nonneg _ _
  have n6 : 0 ≤ popStd 6 (inter a fun k => a (4 + k)) := rms_nonneg _ _
  have u8 : popStd 8 a ≤ 3 / 16 := by
    refine abs_le_of_sq_le_sq' ?_ (by norm_num) |>.2
    rw [p8]; norm_num
  have hdiff : popStd 6 (inter a fun k => a (4 + k)) + 1 / 128 ≤ popStd 8 a := by
    by_contra hcon
    have : popStd 6 (inter a fun k => a (4 + k)) ≤ popStd 8 a := by
      refine abs_le_of_sq_le_sq' ?_ n8 |>.2
      rw [p8]; linarith
    generalize popStd 6 (inter a fun k => a (4 + k)) = p at *
    generalize popStd 8 a = q at *
    clear w1 w2
    nlinarith
  refine ⟨?_, u8⟩
  have hsz := C113_size hδ0 hδ (n := 2) (by norm_num) (V := 1) (by norm_num)
  have hse := sqrt_eta_le
  have heta : eta ≤ 1 / 2 ^ 70 := by
    refine eta_le.trans ?_
    unfold uf
    norm_num
  push_cast at hsz
  simp only [List.length_cons, List.length_nil, Nat.reduceAdd, Nat.reduceMul, Nat.reducePow] at w2
  push_cast at w2
  set E := coeffErr δ 2 1
  set p := popStd 6 (inter a fun k => a (4 + k))
  have hE : E ≤ 1 / 2 ^ 40 := by linarith
  have hfin : |(w : ℝ) - p * 1| ≤ 1 / 1000 := by
    refine w2.trans ?_
    linarith
  have := abs_le.1 hfin
  rw [abs_sub_comm]
  refine le_trans ?_ (le_abs_self _)
  linarith

/-- a root function as assumed exists -/
theorem exists_sqrt : ∃ sqrtF, SqrtNear sqrtF := by
  have : ∀ x : ℚ, ∃ y : ℚ, 0 ≤ x → |(y : ℝ) - Real.sqrt x| ≤ uf * Real.sqrt x := by
    intro x
    by_cases h : 0 < x
    · have hp : 0 < uf * Real.sqrt x := mul_pos uf_pos (Real.sqrt_pos.2 (by exact_mod_cast h))
      obtain ⟨y, h1, h2⟩ := exists_rat_btwn (show Real.sqrt x - uf * Real.sqrt x < Real.sqrt x + uf * Real.sqrt x by linarith)
      exact ⟨y, fun _ => abs_le.2 ⟨by linarith, by linarith⟩⟩
    · refine ⟨0, fun h0 => ?_⟩
      obtain rfl : x = 0 := le_antisymm (not_lt.1 h) h0
      simp
  choose f hf using this
  exact ⟨f, fun x hx => hf _ hx⟩

/-- A case that meets the hypotheses: the table of an encoder of a ring of degree 16, 4 values. -/
example : ∃ sqrtF roots w, SqrtNear sqrtF ∧ RootsNear 32 roots (1 / 2 ^ 48) ∧
    getErrSTDCoeffDomain sqrtF 32 roots (List.replicate 8 0) [(1, 0), (0, 2), (3, 0), (1, 1)] [(1, 1), (0, 2), (2, 0), (1, 1)] 5 = some w := by
  obtain ⟨sqrtF, hsq⟩ := exists_sqrt
  obtain ⟨cosF, sinF, hc, hs⟩ := exists_trig
  have hr := C92_table hc hs (M := 32) (by norm_num)
  obtain ⟨a, ha⟩ := exists_encoding 2 fun j => fC (([(1, 0), (0, 2), (3, 0), (1, 1)] : List (ℚ × ℚ)).getD j 0) -
    fC ([(1, 1), (0, 2), (2, 0), (1, 1)].getD j 0)
  obtain ⟨w, hw, -⟩ := C113_coeffDomain hsq (logSlots := 2) (d := 1) hr (by norm_num) (mem := List.replicate 8 0) ⟨by simp, by omega⟩
    rfl rfl (by norm_num) (V := ‖fC (1, 0) - fC (1, 1)‖ + ‖fC (3, 0) - fC (2, 0)‖) (fun k hk => by
      have h1 := norm_nonneg (fC (1, 0) - fC (1, 1))
      have h2 := norm_nonneg (fC (3, 0) - fC (2, 0))
      interval_cases k
      · show ‖fC (1, 0) - fC (1, 1)‖ ≤ _
        linarith
      · show ‖fC (0, 2) - fC (0, 2)‖ ≤ _
        rw [sub_self, norm_zero]; linarith
      · show ‖fC (3, 0) - fC (2, 0)‖ ≤ _
        linarith
      · show ‖fC (1, 1) - fC (1, 1)‖ ≤ _
        rw [sub_self, norm_zero]; linarith) ha (scale := 5) (by norm_num)
  exact ⟨sqrtF, _, w, hsq, hr, hw⟩

end FastKsw.Props
