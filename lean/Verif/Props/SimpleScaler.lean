import Verif.Lemmas.SimpleScaler
import Verif.Props.Scaling
import Verif.Props.RingTestParams

/-!
# C111: `reconstructAndScale` of the `SimpleScaler`
-/

namespace FastKsw

open Finset

variable {r : Ring} {n level : ℕ} {t : UInt64}

/-! ### the loop over the moduli -/

/-- the accumulators after `m` moduli -/
def scaleAcc (t : UInt64) (r : Ring) (x : ℕ → UInt64) (m : ℕ) : UInt64 × ℚ :=
  (List.range m).foldl (fun acc j => (newSimpleScaler t r).step acc j (x j)) (0, 0)

theorem scaleAcc_succ (t : UInt64) (r : Ring) (x : ℕ → UInt64) (m : ℕ) :
    scaleAcc t r x (m + 1) = (newSimpleScaler t r).step (scaleAcc t r x m) m (x m) := by
  unfold scaleAcc
  rw [List.range_succ, List.foldl_append]; rfl

/-- first accumulator: the sum of the reduced products, without wrap-around -/
theorem scaleAcc_fst (ht : ScaleMod t) (x : ℕ → UInt64) (w : ℕ → UInt64)
    (hw : ∀ j < r.subs.length, scalerWi t r j = wiOf t (w j)) (hs : r.subs.length * t.toNat < 2 ^ 64) (m : ℕ)
    (hm : m ≤ r.subs.length) :
    (scaleAcc t r x m).1.toNat = ∑ j ∈ range m, (w j).toNat * (x j).toNat % t.toNat ∧
      (scaleAcc t r x m).1.toNat ≤ m * t.toNat := by
  induction m with
  | zero => simp [scaleAcc]
  | succ m ih =>
    obtain ⟨h1, h2⟩ := ih (by omega)
    have e : (newSimpleScaler t r).wi.getD m 0 = wiOf t (w m) := by
      rw [← hw m (by omega)]
      exact getD_map_range _ _ (by omega)
    have hmul := scaler_mul ht r (w m) (x m)
    have hlt := Nat.mod_lt ((w m).toNat * (x m).toNat) ht.pos
    have hle : (m + 1) * t.toNat ≤ r.subs.length * t.toNat := Nat.mul_le_mul_right _ hm
    have hexp : (m + 1) * t.toNat = m * t.toNat + t.toNat := by ring
    have key : (scaleAcc t r x (m + 1)).1.toNat = (scaleAcc t r x m).1.toNat + (w m).toNat * (x m).toNat % t.toNat := by
      rw [scaleAcc_succ]
      simp only [SimpleScaler.step]
      rw [e, UInt64.toNat_add, hmul]
      exact Nat.mod_eq_of_lt (by omega)
    constructor
    · rw [key, h1, sum_range_succ]
    · rw [key]; omega

/-- second accumulator: the sum of the products with the fractional parts, up to the roundings -/
theorem scaleAcc_snd (x : ℕ → UInt64) (R : ℕ → ℕ) (q : ℕ → ℕ)
    (hR : ∀ j < r.subs.length, scalerTi t r j = bigRoundQ 80 ((R j : ℚ) / q j)) (m : ℕ) (hm : m ≤ r.subs.length) :
    Rel ((1 / 2) ^ 80) (m + 2) (scaleAcc t r x m).2 (∑ j ∈ range m, (x j).toNat * ((R j : ℚ) / q j)) := by
  have hu : (0 : ℚ) ≤ (1 / 2) ^ 80 := by positivity
  have hpos : ∀ m, (0 : ℚ) ≤ ∑ j ∈ range m, (x j).toNat * ((R j : ℚ) / q j) :=
    fun m => sum_nonneg fun j _ => by positivity
  induction m with
  | zero => simp [scaleAcc, Rel]
  | succ m ih =>
    have e : (newSimpleScaler t r).ti.getD m 0 = bigRoundQ 80 ((R m : ℚ) / q m) := by
      rw [← hR m (by omega)]
      exact getD_map_range _ _ (by omega)
    have h0 : (0 : ℚ) ≤ (R m : ℚ) / q m := by positivity
    have h1 := (((Rel.refl ((1 / 2) ^ 80) ((R m : ℚ) / q m)).rnd h0).mul (c := ((x m).toNat : ℚ)) (by positivity)).rnd
      (by positivity)
    have h2 := ((ih (by omega)).add (h1.mono hu (show 0 + 1 + 1 ≤ m + 2 by omega) (by positivity))).rnd
      (add_nonneg (hpos m) (by positivity))
    rw [scaleAcc_succ, sum_range_succ]
    simp only [SimpleScaler.step]
    rw [e]
    exact h2

/-- the coefficient: `Σ x_j w_j` plus the rounded sum of fractional parts, reduced modulo `t` -/
theorem andScaleCoeff_spec (ht : ScaleMod t) (x : ℕ → UInt64) (w : ℕ → UInt64) (R q : ℕ → ℕ)
    (hw : ∀ j < r.subs.length, scalerWi t r j = wiOf t (w j))
    (hR : ∀ j < r.subs.length, scalerTi t r j = bigRoundQ 80 ((R j : ℚ) / q j))
    (hx : ∀ j < r.subs.length, (x j).toNat < q j)
    (hs : ∑ j ∈ range r.subs.length, R j + r.subs.length * t.toNat + 1 < 2 ^ 64)
    (hL : r.subs.length ≤ 2 ^ 10) :
    ∃ b : ℤ, (((newSimpleScaler t r).andScaleCoeff x).toNat : ℤ)
        = (∑ j ∈ range r.subs.length, ((w j).toNat * (x j).toNat : ℤ) + b) % t.toNat ∧
      |(b : ℚ) - ∑ j ∈ range r.subs.length, (x j).toNat * ((R j : ℚ) / q j)|
        ≤ 1 / 2 + (r.subs.length + 4) * (1 / 2) ^ 80 * (∑ j ∈ range r.subs.length, (R j : ℚ) + 1) := by
  set L := r.subs.length with hLd
  set S : ℚ := ∑ j ∈ range L, (x j).toNat * ((R j : ℚ) / q j) with hS
  have hS0 : 0 ≤ S := sum_nonneg fun j _ => by positivity
  have hSR : S ≤ ∑ j ∈ range L, (R j : ℚ) := by
    refine sum_le_sum fun j hj => ?_
    have hj := mem_range.1 hj
    have hq : (0 : ℚ) < q j := by have := hx j hj; exact_mod_cast (by omega : 0 < q j)
    have h1 : ((x j).toNat : ℚ) ≤ q j := by exact_mod_cast (hx j hj).le
    rw [mul_div_assoc', div_le_iff₀ hq, mul_comm]
    exact mul_le_mul_of_nonneg_left h1 (by positivity)
  obtain ⟨ha, ha'⟩ := scaleAcc_fst (r := r) ht x w hw (by rw [← hLd]; omega) L le_rfl
  have hb := scaleAcc_snd (r := r) (t := t) x R q hR L le_rfl
  have hu : (0 : ℚ) ≤ (1 / 2) ^ 80 := by positivity
  have hb2 : Rel ((1 / 2) ^ 80) (L + 3) (bigRoundQ 80 ((scaleAcc t r x L).2 + 1 / 2)) (S + 1 / 2) :=
    (hb.add ((Rel.refl ((1 / 2) ^ 80) (1 / 2)).mono hu (Nat.zero_le (L + 2)) (by norm_num))).rnd (by linarith)
  set B := bigRoundQ 80 ((scaleAcc t r x L).2 + 1 / 2) with hB
  have hLq : (L : ℚ) ≤ 2 ^ 10 := by exact_mod_cast hL
  have hpow := one_add_pow_le hu (L + 3) (by
    push_cast
    have h0 : (0 : ℚ) ≤ L := by positivity
    nlinarith)
  have hRs : (∑ j ∈ range L, (R j : ℚ)) + L * t.toNat + 1 ≤ 2 ^ 64 - 1 := by
    have : ∑ j ∈ range L, R j + L * t.toNat + 1 ≤ 2 ^ 64 - 1 := by omega
    have h2 : ((∑ j ∈ range L, R j + L * t.toNat + 1 : ℕ) : ℚ) ≤ ((2 ^ 64 - 1 : ℕ) : ℚ) := by exact_mod_cast this
    push_cast at h2 ⊢
    norm_num at h2 ⊢
    linarith
  have hLt : (0 : ℚ) ≤ L * t.toNat := by positivity
  have hd : |B - (S + 1 / 2)| ≤ (L + 4) * (1 / 2) ^ 80 * (S + 1 / 2) := by
    refine hb2.trans ?_
    refine mul_le_mul_of_nonneg_right ?_ (by linarith)
    refine hpow.trans (le_of_eq ?_)
    push_cast; ring
  have hd1 : |B - (S + 1 / 2)| ≤ 1 / 4 := by
    refine hd.trans ?_
    have h1 : (L + 4 : ℚ) * (1 / 2) ^ 80 ≤ 2 ^ 11 * (1 / 2) ^ 80 := mul_le_mul_of_nonneg_right (by linarith) hu
    calc _ ≤ 2 ^ 11 * (1 / 2) ^ 80 * (2 ^ 64 : ℚ) := mul_le_mul h1 (by linarith) (by linarith) (by norm_num)
      _ ≤ _ := by norm_num
  have hd2 : |B - (S + 1 / 2)| ≤ (L + 4) * (1 / 2) ^ 80 * (∑ j ∈ range L, (R j : ℚ) + 1) :=
    hd.trans (mul_le_mul_of_nonneg_left (by linarith) (by positivity))
  rw [abs_le] at hd1
  have hB0 : 0 ≤ ⌊B⌋ := Int.floor_nonneg.2 (by linarith)
  have hBR : ⌊B⌋ < (∑ j ∈ range L, R j : ℕ) + 1 := by
    rw [Int.floor_lt]
    push_cast
    linarith
  have hbu : (bigToU64 B).toNat = ⌊B⌋.toNat := by
    unfold bigToU64
    rw [if_neg (by rw [not_le]; linarith), UInt64.toNat_ofNat', Nat.mod_eq_of_lt (by omega)]
  refine ⟨⌊B⌋, ?_, ?_⟩
  · have e : (newSimpleScaler t r).andScaleCoeff x = (newSimpleScaler t r).reduceAdd ((scaleAcc t r x L).1 + bigToU64 B) := rfl
    rw [e, scaler_add ht, UInt64.toNat_add, hbu, Nat.mod_eq_of_lt (a := _ + _) (by omega), ha]
    push_cast
    rw [Int.toNat_of_nonneg hB0, Int.add_emod, Finset.sum_int_mod, ← Int.add_emod]
    simp only [Int.emod_emod_of_dvd _ (dvd_refl _)]
    rw [Int.add_emod, ← Finset.sum_int_mod, ← Int.add_emod]
  · have h1 := Int.floor_le B
    have h2 := Int.lt_floor_add_one B
    rw [abs_le] at hd2 ⊢
    constructor <;> linarith

/-! ### the tables -/

theorem qiBarre_bounds (hr : r.Valid n) {i : ℕ} (hi : i < r.subs.length) :
    0 ≤ r.qiBarre i ∧ r.qiBarre i < (r.sub i).q.toNat := by
  have hp := (hr.subAt hi).prime.pos
  exact ⟨Int.emod_nonneg _ (by omega), Int.emod_lt_of_pos _ (by omega)⟩

theorem crt_qiBarre (r : Ring) (i : ℕ) :
    r.crtReconstruction i = r.modulusBigint / ((r.sub i).q.toNat : ℤ) * r.qiBarre i := rfl

/-- `QiBarre` is the inverse of `Q/Qi` -/
theorem qiBarre_eq (hr : r.Valid n) (hL : r.subs.length = level + 1) {i B : ℕ} (hi : i ≤ level)
    (hB : B * (r.prodQ level / (r.sub i).q.toNat) % (r.sub i).q.toNat = 1) :
    r.qiBarre i = (B % (r.sub i).q.toNat : ℕ) := by
  have hi' : i < r.subs.length := by omega
  have hfact := (hr.subAt hi').fact
  have hc := crt_cong hr hi' hi'
  rw [if_pos rfl, crt_qiBarre] at hc
  have hmod : r.modulusBigint / ((r.sub i).q.toNat : ℤ) = (r.prodQ level / (r.sub i).q.toNat : ℕ) := by
    rw [modulusBigint_eq, hL]; unfold Ring.prodQ; push_cast; rfl
  rw [hmod, Int.cast_mul, Int.cast_natCast] at hc
  have h1 : ((B * (r.prodQ level / (r.sub i).q.toNat) : ℕ) : ZMod (r.sub i).q.toNat) = 1 := by
    rw [← ZMod.natCast_mod, hB, Nat.cast_one]
  rw [Nat.cast_mul] at h1
  have h2 : ((r.qiBarre i : ℤ) : ZMod (r.sub i).q.toNat) = B := by
    have hne : ((r.prodQ level / (r.sub i).q.toNat : ℕ) : ZMod (r.sub i).q.toNat) ≠ 0 := by
      intro h0; rw [h0, mul_zero] at h1; exact zero_ne_one h1
    exact mul_left_cancel₀ hne (by rw [hc, mul_comm, h1])
  obtain ⟨b0, b1⟩ := qiBarre_bounds hr hi'
  rw [← Int.cast_natCast, ZMod.intCast_eq_intCast_iff] at h2
  have := h2
  unfold Int.ModEq at this
  rw [Int.emod_eq_of_lt b0 b1] at this
  rw [this]; push_cast; rfl

theorem scalerTi_eq (hr : r.Valid n) (hL : r.subs.length = level + 1) {i B : ℕ} (hi : i ≤ level)
    (hB : B * (r.prodQ level / (r.sub i).q.toNat) % (r.sub i).q.toNat = 1) :
    scalerTi t r i = bigRoundQ 80 (((t.toNat * B % (r.sub i).q.toNat : ℕ) : ℚ) / (r.sub i).q.toNat) := by
  unfold scalerTi
  simp only
  rw [qiBarre_eq hr hL hi hB]
  congr 2
  have : ((B % (r.sub i).q.toNat : ℕ) : ℤ) * (t.toNat : ℤ) % ((r.sub i).q.toNat : ℤ)
      = (t.toNat * B % (r.sub i).q.toNat : ℕ) := by
    push_cast
    rw [mul_comm, Int.mul_emod, Int.emod_emod_of_dvd _ (dvd_refl _), ← Int.mul_emod]
  rw [this, Int.cast_natCast]

theorem scalerWi_eq (hr : r.Valid n) (hL : r.subs.length = level + 1) (ht : 0 < t.toNat) {i B : ℕ} (hi : i ≤ level)
    (hB : B * (r.prodQ level / (r.sub i).q.toNat) % (r.sub i).q.toNat = 1)
    (h1 : t.toNat * (r.sub i).q.toNat ≤ t.toNat * B % (r.sub i).q.toNat * 2 ^ 62)
    (h2 : t.toNat * B % (r.sub i).q.toNat * 2 ^ 62 + t.toNat * (r.sub i).q.toNat ≤ (r.sub i).q.toNat * 2 ^ 62) :
    scalerWi t r i = wiOf t (UInt64.ofNat (t.toNat * (B % (r.sub i).q.toNat) / (r.sub i).q.toNat)) := by
  have hq := (hr.subAt (show i < r.subs.length by omega)).prime.pos
  have hb := Nat.mod_lt B hq
  have hmm : t.toNat * B % (r.sub i).q.toNat = t.toNat * (B % (r.sub i).q.toNat) % (r.sub i).q.toNat := by
    rw [Nat.mul_mod, Nat.mul_mod t.toNat (B % _), Nat.mod_mod]
  rw [hmm] at h1 h2
  have hf := floor_two_rnd ht hq hb h1 h2
  unfold scalerWi wiOf
  simp only
  rw [qiBarre_eq hr hL hi hB]
  have hle : t.toNat * (B % (r.sub i).q.toNat) / (r.sub i).q.toNat ≤ t.toNat := by
    apply Nat.div_le_of_le_mul
    rw [mul_comm]
    exact Nat.mul_le_mul_right _ hb.le
  have e : bigToU64 (bigRoundQ 64 (bigRoundQ 64 ((t.toNat : ℚ) / ((r.sub i).q.toNat : ℚ))
      * (((B % (r.sub i).q.toNat : ℕ) : ℤ) : ℚ)))
      = UInt64.ofNat (t.toNat * (B % (r.sub i).q.toNat) / (r.sub i).q.toNat) := by
    rw [Int.cast_natCast]
    unfold bigToU64
    rw [hf, Int.toNat_natCast, if_neg]
    intro hc
    have h3 : ((2 ^ 64 : ℤ)) ≤ ⌊bigRoundQ 64 (bigRoundQ 64 ((t.toNat : ℚ) / ((r.sub i).q.toNat : ℚ))
      * ((B % (r.sub i).q.toNat : ℕ) : ℚ))⌋ := Int.le_floor.2 (by exact_mod_cast hc)
    rw [hf] at h3
    have := t.toNat_lt
    omega
  rw [e]

namespace Props

theorem split_aux {q C D M T b x : ℚ} (hq : q ≠ 0) (hC : C ≠ 0) (h : q * D + M = T * b) :
    T * (x * (C * b)) / (q * C) = D * x + x * (M / q) := by
  field_simp
  linear_combination -x * h

/-- `t X / Q` from the residues: the integer parts, the fractional parts, and a multiple of `t` -/
theorem scale_split (hr : r.Valid n) (hL : r.subs.length = level + 1) (B : ℕ → ℕ)
    (hB : ∀ i ≤ level, B i * (r.prodQ level / (r.sub i).q.toNat) % (r.sub i).q.toNat = 1) (x : ℕ → ℕ) (X : ℤ)
    (hX : ∀ i ≤ level, (X : ZMod (r.sub i).q.toNat) = (x i : ZMod (r.sub i).q.toNat)) (T : ℕ) :
    ∃ v : ℤ, (T : ℚ) * X / r.prodQ level
      = ∑ j ∈ range (level + 1), ((T * (B j % (r.sub j).q.toNat) / (r.sub j).q.toNat : ℕ) : ℚ) * x j
        + ∑ j ∈ range (level + 1), (x j : ℚ) * (((T * B j % (r.sub j).q.toNat : ℕ) : ℚ) / (r.sub j).q.toNat) - T * v := by
  have hl : level < r.subs.length := by omega
  obtain ⟨v, hv⟩ := hr.dvd_of_cong hl (a := ∑ j ∈ range (level + 1), (x j : ℤ) * r.crtReconstruction j) (b := X)
    (fun i hi => by
      rw [Int.cast_sum, Finset.sum_eq_single i]
      · rw [Int.cast_mul, crt_cong hr (by omega) (by omega), if_pos rfl, mul_one, Int.cast_natCast, hX i hi]
      · intro k hk hne
        have := mem_range.1 hk
        rw [Int.cast_mul, crt_cong hr (by omega) (by omega), if_neg hne, mul_zero]
      · intro h
        exact absurd (mem_range.2 (by omega)) h)
  have hpos : (0 : ℚ) < r.prodQ level := by exact_mod_cast prodQ_pos hr hl
  refine ⟨v, ?_⟩
  have hX' : (X : ℚ) = ∑ j ∈ range (level + 1), (x j : ℚ) * (r.crtReconstruction j : ℚ) - r.prodQ level * v := by
    have := congrArg (fun z : ℤ => (z : ℚ)) hv
    push_cast at this
    linarith
  rw [hX', mul_sub, sub_div, ← sum_add_distrib]
  congr 1
  · rw [mul_sum, sum_div]
    refine sum_congr rfl fun j hj => ?_
    have hj := mem_range.1 hj
    have hqn := (hr.subAt (show j < r.subs.length by omega)).prime.pos
    have hq : (0 : ℚ) < (r.sub j).q.toNat := by exact_mod_cast hqn
    have hmod : r.modulusBigint / ((r.sub j).q.toNat : ℤ) = (r.prodQ level / (r.sub j).q.toNat : ℕ) := by
      rw [modulusBigint_eq, hL]; unfold Ring.prodQ; push_cast; rfl
    rw [crt_qiBarre, qiBarre_eq hr hL (by omega) (hB j (by omega)), hmod]
    obtain ⟨C, hC⟩ := prodQ_cast_dvd (r := r) (show j ≤ level by omega)
    have hC' : r.prodQ level / (r.sub j).q.toNat = C := by rw [hC, Nat.mul_div_cancel_left _ hqn]
    have hC0 : (0 : ℚ) < C := by
      rw [hC] at hpos
      push_cast at hpos
      exact (pos_iff_pos_of_mul_pos hpos).1 hq
    rw [hC', hC]
    have hmm : T * B j % (r.sub j).q.toNat = T * (B j % (r.sub j).q.toNat) % (r.sub j).q.toNat := by
      rw [Nat.mul_mod, Nat.mul_mod T (B j % _), Nat.mod_mod]
    rw [hmm]
    have hdm := Nat.div_add_mod (T * (B j % (r.sub j).q.toNat)) (r.sub j).q.toNat
    have hdq := congrArg (fun z : ℕ => (z : ℚ)) hdm
    simp only [Nat.cast_add, Nat.cast_mul] at hdq
    simp only [Int.cast_mul, Int.cast_natCast, Nat.cast_mul]
    exact split_aux hq.ne' hC0.ne' hdq
  · field_simp

/-- **C111.** `reconstructAndScale` gives on every row of the receiver the same words, reduced modulo `t`, which are `y mod t`
for an integer `y` with `|y - t X/Q| ≤ 1/2 + δ`, `δ = (L + 4) 2^-80 (1 + Σ R_i)`, where `L` is the number of moduli and `R_i` is
`t (Q/q_i)^-1 mod q_i`.  `t` is a power of two or odd; the words `R_i/q_i` are not within `2^-62 t` of 0 or 1; and
`Σ R_i + L t` is below the word size.  Missing: the other parameters, where the property fails (`C111_*_violated`). -/
theorem C111_reconstructAndScale_partial {X : ℕ → ℤ} {p0 : Rows} (hr : r.Valid n) (hL : r.subs.length = level + 1)
    (h10 : level < 2 ^ 10) (ht : (∃ k, t.toNat = 2 ^ k) ∨ (t.toNat % 2 = 1 ∧ t.toNat < 2 ^ 63)) (B : ℕ → ℕ)
    (hB : ∀ i ≤ level, B i * (r.prodQ level / (r.sub i).q.toNat) % (r.sub i).q.toNat = 1)
    (h1 : ∀ i ≤ level, t.toNat * (r.sub i).q.toNat ≤ t.toNat * B i % (r.sub i).q.toNat * 2 ^ 62)
    (h2 : ∀ i ≤ level, t.toNat * B i % (r.sub i).q.toNat * 2 ^ 62 + t.toNat * (r.sub i).q.toNat
      ≤ (r.sub i).q.toNat * 2 ^ 62)
    (hs : ∑ i ∈ range (level + 1), t.toNat * B i % (r.sub i).q.toNat + (level + 1) * t.toNat + 1 < 2 ^ 64)
    (h0 : PolyIs r level r.qs p0 (r.intVec X)) (p1 : Rows) (j : ℕ) (hj : j < p1.length) (hp1 : (p1.row j).length = r.n) :
    (((newSimpleScaler t r).reconstructAndScale p0 p1).row j).length = r.n ∧ ∀ k < r.n,
      ∃ y : ℤ, (((((newSimpleScaler t r).reconstructAndScale p0 p1).row j).at k).toNat : ℤ) = y % t.toNat ∧
        |(y : ℚ) - t.toNat * X k / r.prodQ level|
          ≤ 1 / 2 + (level + 5) * (1 / 2) ^ 80 * (∑ i ∈ range (level + 1), ((t.toNat * B i % (r.sub i).q.toNat : ℕ) : ℚ) + 1) := by
  have ht' : ScaleMod t := ht
  have erow : ((newSimpleScaler t r).reconstructAndScale p0 p1).row j
      = setRow (fun i => (newSimpleScaler t r).andScaleCoeff fun j => (p0.row j).at i) (List.range r.n) (p1.row j) := by
    unfold SimpleScaler.reconstructAndScale
    simp [Rows.row, List.getD, hj, newSimpleScaler]
  rw [erow]
  refine ⟨by simp [setRow]; omega, fun k hk => ?_⟩
  rw [setRow_at _ _ _ 0 (by simpa using hk), show (List.range r.n).getD k 0 = k by simp [List.getD, hk]]
  obtain ⟨b, hb1, hb2⟩ := andScaleCoeff_spec (r := r) ht' (fun j => (p0.row j).at k)
    (fun i => UInt64.ofNat (t.toNat * (B i % (r.sub i).q.toNat) / (r.sub i).q.toNat))
    (fun i => t.toNat * B i % (r.sub i).q.toNat) (fun i => (r.sub i).q.toNat)
    (fun i hi => scalerWi_eq hr hL ht'.pos (by omega) (hB i (by omega)) (h1 i (by omega)) (h2 i (by omega)))
    (fun i hi => scalerTi_eq hr hL (by omega) (hB i (by omega)))
    (fun i hi => (h0.row i (by omega)).lt k hk) (by rw [hL]; exact hs) (by omega)
  obtain ⟨v, hv⟩ := scale_split hr hL B hB (fun j => ((p0.row j).at k).toNat) (X k)
    (fun i hi => ((h0.row i hi).val k hk).symm) t.toNat
  have hw : ∀ i ≤ level, (UInt64.ofNat (t.toNat * (B i % (r.sub i).q.toNat) / (r.sub i).q.toNat)).toNat
      = t.toNat * (B i % (r.sub i).q.toNat) / (r.sub i).q.toNat := by
    intro i hi
    have hq := (hr.subAt (show i < r.subs.length by omega)).prime.pos
    have hle : t.toNat * (B i % (r.sub i).q.toNat) / (r.sub i).q.toNat ≤ t.toNat := by
      apply Nat.div_le_of_le_mul
      rw [mul_comm]
      exact Nat.mul_le_mul_right _ (Nat.mod_lt _ hq).le
    have := t.toNat_lt
    rw [UInt64.toNat_ofNat', Nat.mod_eq_of_lt (by omega)]
  refine ⟨∑ i ∈ range (level + 1), ((t.toNat * (B i % (r.sub i).q.toNat) / (r.sub i).q.toNat : ℕ)
    * ((p0.row i).at k).toNat : ℤ) + b - t.toNat * v, ?_, ?_⟩
  · rw [hb1, hL, Int.sub_mul_emod_self_left]
    congr 2
    refine sum_congr rfl fun i hi => ?_
    rw [hw i (by have := mem_range.1 hi; omega)]
  · rw [hL] at hb2
    rw [hv]
    have e : ((∑ i ∈ range (level + 1), ((t.toNat * (B i % (r.sub i).q.toNat) / (r.sub i).q.toNat : ℕ)
        * ((p0.row i).at k).toNat : ℤ) + b - t.toNat * v : ℤ) : ℚ)
        - (∑ j ∈ range (level + 1), ((t.toNat * (B j % (r.sub j).q.toNat) / (r.sub j).q.toNat : ℕ) : ℚ) * ((p0.row j).at k).toNat
        + ∑ j ∈ range (level + 1), (((p0.row j).at k).toNat : ℚ)
          * (((t.toNat * B j % (r.sub j).q.toNat : ℕ) : ℚ) / (r.sub j).q.toNat) - t.toNat * v)
        = b - ∑ j ∈ range (level + 1), (((p0.row j).at k).toNat : ℚ)
          * (((t.toNat * B j % (r.sub j).q.toNat : ℕ) : ℚ) / (r.sub j).q.toNat) := by
      simp only [Int.cast_sub, Int.cast_add, Int.cast_sum, Int.cast_mul, Int.cast_natCast]
      ring
    rw [e]
    refine hb2.trans (le_of_eq ?_)
    push_cast
    ring

/-- **C111.** With `t X/Q` at a distance above `δ` from the half-integers the words are the rounded quotient modulo `t`. -/
theorem C111_exact {M : ℕ} (hM : 0 < M) {T : ℕ} {X y : ℤ} {δ : ℚ} (h : |(y : ℚ) - T * X / M| ≤ 1 / 2 + δ)
    (hd : ∀ z : ℤ, δ < |(T * X / M : ℚ) - (z + 1 / 2)|) : y = (2 * (T * X) + M) / (2 * M) := by
  have hM0 : (0 : ℚ) < M := by exact_mod_cast hM
  rw [abs_le] at h
  have h1 := hd y
  have h2 := hd (y - 1)
  push_cast at h2
  have a1 : (T * X / M : ℚ) < y + 1 / 2 := by
    by_contra hc
    rw [abs_of_nonneg (by linarith)] at h1
    linarith
  have a2 : (y : ℚ) - 1 / 2 < T * X / M := by
    by_contra hc
    rw [abs_of_nonpos (by linarith)] at h2
    linarith
  rw [div_lt_iff₀ hM0] at a1
  rw [lt_div_iff₀ hM0] at a2
  symm
  rw [Int.ediv_eq_iff_of_pos (by omega)]
  constructor
  · have : ((2 * y * M - M : ℤ) : ℚ) < ((2 * (T * X) : ℤ) : ℚ) := by push_cast; linarith
    have := Int.cast_lt.1 this
    nlinarith
  · have : ((2 * (T * X) : ℤ) : ℚ) < ((2 * y * M + M : ℤ) : ℚ) := by push_cast; linarith
    have := Int.cast_lt.1 this
    nlinarith

/-! ### concrete parameters -/

/-- a ring with the given moduli, for computing with -/
def modRing (Q : List UInt64) : Ring := ⟨16, 32, Q.map fun q => { (default : SubRing) with q := q }, [], .standard⟩

theorem modRing_moduli (Q : List UInt64) : (modRing Q).moduli = Q := by
  simp [modRing, Ring.moduli, Function.comp_def]

theorem sub_q_congr {r' : Ring} (h : r.moduli = r'.moduli) {i : ℕ} (hi : i < r.subs.length) : (r.sub i).q = (r'.sub i).q := by
  have hl : r.subs.length = r'.subs.length := by simpa [Ring.moduli] using congrArg List.length h
  rw [← at_moduli r hi, ← at_moduli r' (by omega), h]

theorem qiBarre_congr {r' : Ring} (h : r.moduli = r'.moduli) {i : ℕ} (hi : i < r.subs.length) : r.qiBarre i = r'.qiBarre i := by
  unfold Ring.qiBarre Ring.modulusBigint
  rw [sub_q_congr h hi, h]

/-- the tables depend on the moduli only -/
theorem andScaleCoeff_congr {r' : Ring} (h : r.moduli = r'.moduli) (t : UInt64) (x : ℕ → UInt64) :
    (newSimpleScaler t r).andScaleCoeff x = (newSimpleScaler t r').andScaleCoeff x := by
  have hl : r.subs.length = r'.subs.length := by simpa [Ring.moduli] using congrArg List.length h
  have hw : (newSimpleScaler t r).wi = (newSimpleScaler t r').wi := by
    simp only [newSimpleScaler, ← hl]
    refine List.map_congr_left fun i hi => ?_
    unfold scalerWi
    rw [sub_q_congr h (List.mem_range.1 hi), qiBarre_congr h (List.mem_range.1 hi)]
  have hti : (newSimpleScaler t r).ti = (newSimpleScaler t r').ti := by
    simp only [newSimpleScaler, ← hl]
    refine List.map_congr_left fun i hi => ?_
    unfold scalerTi
    rw [sub_q_congr h (List.mem_range.1 hi), qiBarre_congr h (List.mem_range.1 hi)]
  have hstep : ∀ acc j x, (newSimpleScaler t r).step acc j x = (newSimpleScaler t r').step acc j x := by
    intro acc j x
    unfold SimpleScaler.step
    rw [hw, hti]
    rfl
  unfold SimpleScaler.andScaleCoeff
  simp only [hstep]
  rw [show (newSimpleScaler t r).ringQ.subs.length = (newSimpleScaler t r').ringQ.subs.length from hl]
  rfl

theorem reconstructAndScale_at (t : UInt64) (r : Ring) (p0 p1 : Rows) {j k : ℕ} (hj : j < p1.length) (hk : k < r.n) :
    (((newSimpleScaler t r).reconstructAndScale p0 p1).row j).at k
      = (newSimpleScaler t r).andScaleCoeff fun i => (p0.row i).at k := by
  have erow : ((newSimpleScaler t r).reconstructAndScale p0 p1).row j
      = setRow (fun i => (newSimpleScaler t r).andScaleCoeff fun j => (p0.row j).at i) (List.range r.n) (p1.row j) := by
    unfold SimpleScaler.reconstructAndScale
    simp [Rows.row, List.getD, hj, newSimpleScaler]
  rw [erow, setRow_at _ _ _ 0 (by simpa using hk), show (List.range r.n).getD k 0 = k by simp [List.getD, hk]]

/-- hypotheses of `C111_reconstructAndScale_partial` on the moduli, decided -/
def scaleOk (t : UInt64) (Q : List UInt64) : Bool :=
  let r := modRing Q
  let R := fun i => t.toNat * (r.qiBarre i).toNat % (r.sub i).q.toNat
  ((List.range Q.length).all fun i => t.toNat * (r.sub i).q.toNat ≤ R i * 2 ^ 62
    && R i * 2 ^ 62 + t.toNat * (r.sub i).q.toNat ≤ (r.sub i).q.toNat * 2 ^ 62)
  && ((List.range Q.length).map R).sum + Q.length * t.toNat + 1 < 2 ^ 64

theorem sum_map_range (f : ℕ → ℕ) (m : ℕ) : ((List.range m).map f).sum = ∑ i ∈ range m, f i := by
  induction m with
  | zero => simp
  | succ m ih => rw [List.range_succ, List.map_append, List.sum_append, ih, sum_range_succ]; simp

theorem qiBarre_inv (hr : r.Valid n) (hL : r.subs.length = level + 1) {i : ℕ} (hi : i ≤ level) :
    (r.qiBarre i).toNat * (r.prodQ level / (r.sub i).q.toNat) % (r.sub i).q.toNat = 1 := by
  have hi' : i < r.subs.length := by omega
  have hc := crt_cong hr hi' hi'
  have hq := (hr.subAt hi').prime.one_lt
  have hmod : r.modulusBigint / ((r.sub i).q.toNat : ℤ) = (r.prodQ level / (r.sub i).q.toNat : ℕ) := by
    rw [modulusBigint_eq, hL]; unfold Ring.prodQ; push_cast; rfl
  rw [if_pos rfl, crt_qiBarre, hmod, ← Int.toNat_of_nonneg (qiBarre_bounds hr hi').1] at hc
  have e : (((r.prodQ level / (r.sub i).q.toNat * (r.qiBarre i).toNat : ℕ)) : ZMod (r.sub i).q.toNat) = ((1 : ℕ) : ZMod (r.sub i).q.toNat) := by
    rw [Nat.cast_mul, Nat.cast_one]
    simpa only [Int.cast_mul, Int.cast_natCast] using hc
  rw [ZMod.natCast_eq_natCast_iff] at e
  rw [mul_comm, e, Nat.mod_eq_of_lt hq]

/-- **C111 (decided).** The conditions can be computed from `t` and the moduli; the error is then below `(L + 4) 2^-16`. -/
theorem C111_of_scaleOk {X : ℕ → ℤ} {p0 : Rows} (hr : r.Valid n) (hL : r.subs.length = level + 1) (h10 : level < 2 ^ 10)
    (ht : (∃ k, t.toNat = 2 ^ k) ∨ (t.toNat % 2 = 1 ∧ t.toNat < 2 ^ 63)) (hok : scaleOk t r.moduli = true)
    (h0 : PolyIs r level r.qs p0 (r.intVec X)) (p1 : Rows) (j : ℕ) (hj : j < p1.length) (hp1 : (p1.row j).length = r.n) :
    (((newSimpleScaler t r).reconstructAndScale p0 p1).row j).length = r.n ∧ ∀ k < r.n,
      ∃ y : ℤ, (((((newSimpleScaler t r).reconstructAndScale p0 p1).row j).at k).toNat : ℤ) = y % t.toNat ∧
        |(y : ℚ) - t.toNat * X k / r.prodQ level| ≤ 1 / 2 + (level + 5) * (1 / 2) ^ 16 := by
  have hlen : r.moduli.length = level + 1 := by simpa [Ring.moduli] using hL
  have hm : r.moduli = (modRing r.moduli).moduli := (modRing_moduli _).symm
  have hR : ∀ i ≤ level, t.toNat * ((modRing r.moduli).qiBarre i).toNat % ((modRing r.moduli).sub i).q.toNat
      = t.toNat * (r.qiBarre i).toNat % (r.sub i).q.toNat := by
    intro i hi
    rw [← qiBarre_congr hm (by omega), ← sub_q_congr hm (by omega)]
  unfold scaleOk at hok
  simp only [Bool.and_eq_true, decide_eq_true_eq, List.all_eq_true, List.mem_range, hlen] at hok
  obtain ⟨ha, hs⟩ := hok
  have hsum : ((List.range (level + 1)).map fun i => t.toNat * ((modRing r.moduli).qiBarre i).toNat
      % ((modRing r.moduli).sub i).q.toNat).sum = ∑ i ∈ range (level + 1), t.toNat * (r.qiBarre i).toNat % (r.sub i).q.toNat := by
    rw [sum_map_range]
    exact sum_congr rfl fun i hi => hR i (by have := mem_range.1 hi; omega)
  rw [hsum] at hs
  have main := C111_reconstructAndScale_partial hr hL h10 ht (fun i => (r.qiBarre i).toNat)
    (fun i hi => qiBarre_inv hr hL hi)
    (fun i hi => by have := (ha i (by omega)).1; rwa [hR i hi, ← sub_q_congr hm (by omega)] at this)
    (fun i hi => by have := (ha i (by omega)).2; rwa [hR i hi, ← sub_q_congr hm (by omega)] at this) hs h0 p1 j hj hp1
  refine ⟨main.1, fun k hk => ?_⟩
  obtain ⟨y, y1, y2⟩ := main.2 k hk
  refine ⟨y, y1, y2.trans ?_⟩
  have hsq : (∑ i ∈ range (level + 1), ((t.toNat * (r.qiBarre i).toNat % (r.sub i).q.toNat : ℕ) : ℚ) + 1) ≤ 2 ^ 64 := by
    have : ∑ i ∈ range (level + 1), t.toNat * (r.qiBarre i).toNat % (r.sub i).q.toNat + 1 ≤ 2 ^ 64 := by omega
    exact_mod_cast this
  have := mul_le_mul_of_nonneg_left hsq (show (0 : ℚ) ≤ (level + 5) * (1 / 2) ^ 80 by positivity)
  norm_num at this ⊢
  linarith

/-- `T`, ring_test.go:32 -/
def ringTestT : UInt64 := 0x3ee0001

set_option maxRecDepth 100000 in
theorem scaleOk_tests : [2, 4, 7, 14].all (fun k => scaleOk ringTestT (lastK k qi60)) = true := by decide +kernel

/-- **C111 (benchmark).** On the first four parameter sets of the benchmark (`benchDivByRNSBasis`) every coefficient is, modulo
`T`, an integer at a distance of at most `1/2 + 2^-11` from `T X/Q`. -/
theorem C111_benchmark (p : ℕ × List UInt64 × List UInt64) (hp : p ∈ ringTestParams.take 4) {fuel : ℕ}
    (hf : 2 ^ 61 ≤ fuel) {rQ rP : Ring} (hr : genTestRings fuel p = .ok (rQ, rP)) {X : ℕ → ℤ} {p0 : Rows}
    (h0 : PolyIs rQ (rQ.subs.length - 1) rQ.qs p0 (rQ.intVec X)) (p1 : Rows) (j : ℕ) (hj : j < p1.length)
    (hp1 : (p1.row j).length = rQ.n) (k : ℕ) (hk : k < rQ.n) :
    ∃ y : ℤ, (((((newSimpleScaler ringTestT rQ).reconstructAndScale p0 p1).row j).at k).toNat : ℤ) = y % ringTestT.toNat ∧
        |(y : ℚ) - ringTestT.toNat * X k / rQ.prodQ (rQ.subs.length - 1)| ≤ 1 / 2 + (1 / 2) ^ 11 := by
  obtain ⟨rQ', rP', h1, hv, -, hm, -, -, -, -, -, h32⟩ := C112_rings p (List.mem_of_mem_take hp)
  have he : rQ' = rQ := by
    have := h1 fuel hf
    rw [hr] at this
    simp only [Except.ok.injEq, Prod.mk.injEq] at this
    exact this.1.symm
  subst he
  have hok : scaleOk ringTestT rQ'.moduli = true ∧ rQ'.moduli.length ≤ 14 ∧ 0 < rQ'.moduli.length := by
    have hall := List.all_eq_true.1 scaleOk_tests
    rw [hm]
    simp only [ringTestParams, List.take_succ_cons, List.take_zero, List.mem_cons, List.not_mem_nil, or_false] at hp
    rcases hp with rfl | rfl | rfl | rfl
    · exact ⟨hall 2 (by simp), by decide, by decide⟩
    · exact ⟨hall 4 (by simp), by decide, by decide⟩
    · exact ⟨hall 7 (by simp), by decide, by decide⟩
    · exact ⟨hall 14 (by simp), by decide, by decide⟩
  have hlen : rQ'.moduli.length = rQ'.subs.length := by simp [Ring.moduli]
  obtain ⟨y, y1, y2⟩ := (C111_of_scaleOk hv (level := rQ'.subs.length - 1) (by omega) (by omega) (.inr (by decide)) hok.1 h0 p1 j hj
    hp1).2 k hk
  refine ⟨y, y1, y2.trans ?_⟩
  have : ((rQ'.subs.length - 1 : ℕ) : ℚ) ≤ 13 := by exact_mod_cast (by omega : rQ'.subs.length - 1 ≤ 13)
  norm_num
  linarith

/-! ### where the property fails -/

/-- coefficients from the moduli and the value -/
def scaleAt (t : UInt64) (Q : List UInt64) (X : ℤ) : UInt64 :=
  (newSimpleScaler t (modRing Q)).andScaleCoeff fun j => bigModU64 X (Q.getD j 0)

theorem andScale_of_poly (hr : r.Valid n) (hL : r.subs.length = level + 1) {X : ℕ → ℤ} {p0 : Rows}
    (h0 : PolyIs r level r.qs p0 (r.intVec X)) (p1 : Rows) {j k : ℕ} (hj : j < p1.length) (hk : k < r.n) :
    (((newSimpleScaler t r).reconstructAndScale p0 p1).row j).at k = scaleAt t r.moduli (X k) := by
  have hm : r.moduli = (modRing r.moduli).moduli := (modRing_moduli _).symm
  rw [reconstructAndScale_at t r p0 p1 hj hk, andScaleCoeff_congr hm]
  have hx : ∀ i < r.subs.length, (p0.row i).at k = bigModU64 (X k) (r.moduli.getD i 0) := by
    intro i hi
    have hq : r.moduli.getD i 0 = (r.sub i).q := at_moduli r hi
    have hp := (hr.subAt hi).prime.pos
    have h1 := (h0.row i (by omega)).lt k hk
    have h2 := (h0.row i (by omega)).val k hk
    have h3 := bigModU64_spec (X k) (q := (r.sub i).q) hp
    rw [hq]
    apply UInt64.toNat_inj.1
    have h4 : (((p0.row i).at k).toNat : ZMod (r.sub i).q.toNat) = ((bigModU64 (X k) (r.sub i).q).toNat : ZMod (r.sub i).q.toNat) := by
      rw [h3.2]; exact h2
    rw [ZMod.natCast_eq_natCast_iff] at h4
    exact Nat.ModEq.eq_of_lt_of_lt h4 h1 h3.1
  have hlen : (newSimpleScaler t (modRing r.moduli)).ringQ.subs.length = r.subs.length := by
    simp [newSimpleScaler, modRing, Ring.moduli]
  unfold scaleAt SimpleScaler.andScaleCoeff
  rw [hlen]
  have hf : ∀ m ≤ r.subs.length,
      (List.range m).foldl (fun acc j => (newSimpleScaler t (modRing r.moduli)).step acc j ((p0.row j).at k)) (0, 0)
      = (List.range m).foldl (fun acc j => (newSimpleScaler t (modRing r.moduli)).step acc j
        (bigModU64 (X k) (r.moduli.getD j 0))) (0, 0) := by
    intro m
    induction m with
    | zero => intro _; rfl
    | succ m ih =>
      intro hm
      rw [List.range_succ, List.foldl_append, List.foldl_append, ih (by omega)]
      simp only [List.foldl_cons, List.foldl_nil]
      rw [hx m (by omega)]
  rw [hf _ le_rfl]

/-- the word that the scaled value should have -/
def scaled (t : UInt64) (Q : ℕ) (X : ℤ) : ℤ := (t.toNat * X + Q / 2) / Q % t.toNat

set_option maxRecDepth 100000 in
theorem wrap_eval : scaleAt ringTestT (lastK 29 qi60) (((lastK 29 qi60).map UInt64.toNat).prod - 1) = 25385856 := by decide +kernel

set_option maxRecDepth 100000 in
theorem floor_eval : scaleAt 0x4ee9c6ae7ffa1 (lastK 2 qi60) (((lastK 2 qi60).map UInt64.toNat).prod - 1)
    = 1338907720050692 := by decide +kernel

set_option maxRecDepth 100000 in
theorem even_eval : scaleAt 6 [97, 193] 900 = 3 := by decide +kernel

theorem scaled_top {t : UInt64} {Q : ℕ} (ht : 0 < t.toNat) (h : 2 * t.toNat < Q) : scaled t Q (Q - 1) = 0 := by
  unfold scaled
  have : ((t.toNat : ℤ) * (Q - 1) + Q / 2) / Q = t.toNat := by
    rw [Int.ediv_eq_iff_of_pos (by omega), mul_sub]
    constructor <;> omega
  rw [this, Int.emod_self]

theorem list_prodQ {m : List UInt64} (h : r.moduli = m) (hL : r.subs.length = level + 1) :
    r.prodQ level = (m.map UInt64.toNat).prod := by
  have e := modulusLvl_eq r level
  have h2 : r.modulusLvl level = r.modulusBigint := by
    rw [modulusBigint_eq, modulusLvl_eq, hL]; unfold Ring.prodQ; push_cast; rfl
  have h3 : ∀ (l : List UInt64) (a : ℤ), l.foldl (fun m q => m * (q.toNat : ℤ)) a = a * ((l.map UInt64.toNat).prod : ℕ) := by
    intro l
    induction l with
    | nil => intro a; simp
    | cons x l ih => intro a; rw [List.foldl_cons, ih, List.map_cons, List.prod_cons]; push_cast; ring
  rw [h2] at e
  unfold Ring.modulusBigint at e
  rw [h3, one_mul, h] at e
  exact_mod_cast e.symm

/-- **C111 is violated by the fifth parameter set of the benchmark** (29 moduli, degree `2^16`, `t = T`): the fractional parts add
up to more than a word and the conversion of the sum saturates.  The coefficient `Q - 1` should be scaled to `T = 0 mod T`. -/
theorem C111_wrap_violated : ∃ r, (∀ fuel, 2 ^ 61 ≤ fuel → newRing fuel (2 ^ 16) (lastK 29 qi60) = .ok r) ∧ r.Valid 16 ∧
    ((16, lastK 29 qi60, lastK 29 pi60) ∈ ringTestParams) ∧ (∃ p0, PolyIs r 28 r.qs p0 (r.intVec fun _ => r.prodQ 28 - 1)) ∧
    ∀ p0, PolyIs r 28 r.qs p0 (r.intVec fun _ => r.prodQ 28 - 1) → ∀ (p1 : Rows) (j k : ℕ), j < p1.length → k < r.n →
      (((newSimpleScaler ringTestT r).reconstructAndScale p0 p1).row j).at k = 25385856 ∧
      scaled ringTestT (r.prodQ 28) (r.prodQ 28 - 1) = 0 := by
  obtain ⟨r, h1, hv, -, hm⟩ := exists_testRing (l := qi60) (k := 29) (n := 16) (List.sublist_append_left _ _) (by decide)
    (by norm_num) (by norm_num) (by norm_num)
  have hL : r.subs.length = 28 + 1 := by
    simpa [Ring.moduli, show (lastK 29 qi60).length = 29 from rfl] using congrArg List.length hm
  have hp := list_prodQ hm hL
  refine ⟨r, h1, hv, by simp [ringTestParams], exists_poly hv (by omega) _, fun p0 h0 p1 j k hj hk => ⟨?_, ?_⟩⟩
  · rw [andScale_of_poly hv hL h0 p1 hj hk, hm, hp]
    exact wrap_eval
  · exact scaled_top (by decide) (by rw [hp]; decide +kernel)

/-- **C111 is violated by the 51-bit odd modulus `t = 0x4ee9c6ae7ffa1`** on the moduli of the first parameter set: the rounded
product `QiBarre * (t/Qi)` reaches the next integer and its integer part is 1 too large. -/
theorem C111_floor_violated : ∃ r, (∀ fuel, 2 ^ 61 ≤ fuel → newRing fuel (2 ^ 12) (lastK 2 qi60) = .ok r) ∧ r.Valid 12 ∧
    (∃ p0, PolyIs r 1 r.qs p0 (r.intVec fun _ => r.prodQ 1 - 1)) ∧
    ∀ p0, PolyIs r 1 r.qs p0 (r.intVec fun _ => r.prodQ 1 - 1) → ∀ (p1 : Rows) (j k : ℕ), j < p1.length → k < r.n →
      (((newSimpleScaler 0x4ee9c6ae7ffa1 r).reconstructAndScale p0 p1).row j).at k = 1338907720050692 ∧
      scaled 0x4ee9c6ae7ffa1 (r.prodQ 1) (r.prodQ 1 - 1) = 0 := by
  obtain ⟨r, h1, hv, -, hm⟩ := exists_testRing (l := qi60) (k := 2) (n := 12) (List.sublist_append_left _ _) (by decide)
    (by norm_num) (by norm_num) (by norm_num)
  have hL : r.subs.length = 1 + 1 := by
    simpa [Ring.moduli, show (lastK 2 qi60).length = 2 from rfl] using congrArg List.length hm
  have hp := list_prodQ hm hL
  refine ⟨r, h1, hv, exists_poly hv (by omega) _, fun p0 h0 p1 j k hj hk => ⟨?_, ?_⟩⟩
  · rw [andScale_of_poly hv hL h0 p1 hj hk, hm, hp]
    exact floor_eval
  · exact scaled_top (by decide) (by rw [hp]; decide +kernel)

/-- **C111 is violated by `t = 6`**, even but not a power of two: Montgomery's reduction is used with a modulus that has no
inverse modulo `2^64`.  The coefficient 900 should be scaled to 0. -/
theorem C111_even_violated : ∃ r, newRing 100 16 [97, 193] = .ok r ∧ r.Valid 4 ∧
    (∃ p0, PolyIs r 1 r.qs p0 (r.intVec fun _ => 900)) ∧
    ∀ p0, PolyIs r 1 r.qs p0 (r.intVec fun _ => 900) → ∀ (p1 : Rows) (j k : ℕ), j < p1.length → k < r.n →
      (((newSimpleScaler 6 r).reconstructAndScale p0 p1).row j).at k = 3 ∧ scaled 6 (r.prodQ 1) 900 = 0 := by
  obtain ⟨r, h1, hv, -, hm, -⟩ := exists_ringOf [97, 193] newRing_example (by decide)
  have hL : r.subs.length = 1 + 1 := by simpa [Ring.moduli] using congrArg List.length hm
  have hp := list_prodQ hm hL
  refine ⟨r, h1, hv, exists_poly hv (by omega) _, fun p0 h0 p1 j k hj hk => ⟨?_, ?_⟩⟩
  · rw [andScale_of_poly hv hL h0 p1 hj hk, hm]
    exact even_eval
  · rw [hp]; decide +kernel

/-- hypotheses of `C111_reconstructAndScale_partial` and `C111_benchmark` -/
example : ∃ rQ rP, genTestRings (2 ^ 61) (12, lastK 2 qi60, lastK 2 pi60) = .ok (rQ, rP) ∧ scaleOk ringTestT rQ.moduli = true ∧
    rQ.subs.length = 2 ∧ ∃ p0, PolyIs rQ 1 rQ.qs p0 (rQ.intVec fun k => 10 ^ 30 * k) := by
  obtain ⟨rQ, rP, h1, hv, -, hm, -⟩ := C112_rings (12, lastK 2 qi60, lastK 2 pi60) (by simp [ringTestParams])
  have hL : rQ.subs.length = 2 := by
    simpa [Ring.moduli, show (lastK 2 qi60).length = 2 from rfl] using congrArg List.length hm
  exact ⟨rQ, rP, h1 _ le_rfl, by rw [hm]; exact List.all_eq_true.1 scaleOk_tests 2 (by simp), hL, exists_poly hv (by omega) _⟩

end Props

end FastKsw
