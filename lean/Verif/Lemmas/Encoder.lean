import Verif.Model.Encoder
import Verif.Lemmas.CRT
import Verif.Lemmas.Float
import Verif.Lemmas.FloatMono
import Mathlib.Tactic.Linarith
import Mathlib.Tactic.Ring

/-! Helper lemmas: fixed-point encoding of coefficients. -/

namespace FastKsw

theorem uro_eq : uro = 1 / 2 ^ 53 := by unfold uro; norm_num

theorem roundEven_neg (x : ℚ) : roundEven (-x) = -roundEven x := by
  by_cases hi : ∃ k : ℤ, x = k
  · obtain ⟨k, rfl⟩ := hi
    unfold roundEven
    simp only [Int.floor_intCast, ← Int.cast_neg]
    simp
  · have hfl : ⌊-x⌋ = -⌊x⌋ - 1 := by
      rw [Int.floor_eq_iff]
      have h1 := Int.floor_le x
      have h2 := Int.lt_floor_add_one x
      have h3 : (⌊x⌋ : ℚ) ≠ x := fun h => hi ⟨_, h.symm⟩
      have h4 : (⌊x⌋ : ℚ) < x := lt_of_le_of_ne h1 h3
      push_cast
      constructor <;> linarith
    unfold roundEven
    simp only [hfl]
    push_cast
    split_ifs <;> first | omega | (exfalso; linarith)

theorem f64_neg (x : ℚ) : f64 (-x) = -f64 x := by
  unfold f64
  by_cases h : x = 0
  · simp [h]
  · rw [if_neg (by simpa using h), if_neg h]
    simp only [abs_neg, neg_div, roundEven_neg]
    push_cast
    ring

/-- a float64 below `2^64` is at most `2^64 - 2^11` -/
theorem f64_lt_two64 {x : ℚ} (hx : 0 ≤ x) (h : f64 x < 2 ^ 64) : f64 x ≤ 2 ^ 64 - 2 ^ 11 := by
  rcases hx.eq_or_lt with rfl | hx
  · simp [f64]; norm_num
  obtain ⟨m, h1, h2, h3⟩ := f64_repr hx
  rw [h3] at h ⊢
  generalize Int.log 2 x - 52 = e at *
  rcases lt_trichotomy e 11 with he | he | he
  · have : (2 : ℚ) ^ e ≤ 2 ^ (10 : ℤ) := zpow_le_zpow_right₀ (by norm_num) (by omega)
    have hm : (m : ℚ) ≤ 2 ^ 53 := by exact_mod_cast h2
    have h0 : (0 : ℚ) < 2 ^ e := zpow_pos (by norm_num) _
    calc (m : ℚ) * 2 ^ e ≤ 2 ^ 53 * 2 ^ (10 : ℤ) := by gcongr
      _ ≤ _ := by norm_num
  · subst he
    have : (m : ℚ) * 2 ^ 11 < 2 ^ 64 := by simpa using h
    have hm : m < 2 ^ 53 := by
      have : (m : ℚ) < 2 ^ 53 := by
        have e : (2 : ℚ) ^ 64 = 2 ^ 53 * 2 ^ 11 := by norm_num
        rw [e] at this
        exact lt_of_mul_lt_mul_right this (by positivity)
      exact_mod_cast this
    have hm' : (m : ℚ) ≤ 2 ^ 53 - 1 := by
      have : (m : ℚ) + 1 ≤ 2 ^ 53 := by exact_mod_cast hm
      linarith
    have e : (2 : ℚ) ^ (11 : ℤ) = 2 ^ 11 := by norm_num
    rw [e]
    nlinarith
  · exfalso
    have : (2 : ℚ) ^ (12 : ℤ) ≤ 2 ^ e := zpow_le_zpow_right₀ (by norm_num) (by omega)
    have hm : (2 : ℚ) ^ 52 ≤ m := by exact_mod_cast h1
    have : (2 : ℚ) ^ 52 * 2 ^ (12 : ℤ) ≤ m * 2 ^ e := by gcongr
    norm_num at this h
    linarith

/-- the integer that `singleFloatToFixedPointCRT` encodes, for the magnitude `x = |value * scale|` -/
def roundHalf (x : ℚ) : ℕ := ⌊f64Add (f64 x) (1 / 2)⌋.toNat

theorem roundHalf_cast {x : ℚ} (hx : 0 ≤ x) : ((roundHalf x : ℤ)) = ⌊f64Add (f64 x) (1 / 2)⌋ := by
  refine Int.toNat_of_nonneg (Int.floor_nonneg.2 (f64_nonneg ?_))
  have := f64_nonneg hx
  linarith

theorem roundHalf_err {x : ℚ} (hx : 0 ≤ x) : |(roundHalf x : ℚ) - x| ≤ 1 / 2 + x / 2 ^ 51 + 1 / 2 ^ 53 := by
  have hy := f64_nonneg hx
  have e1 := f64_err x
  have e2 := f64_err (f64 x + 1 / 2)
  rw [abs_of_nonneg hx] at e1
  rw [abs_of_nonneg (by linarith : (0 : ℚ) ≤ f64 x + 1 / 2)] at e2
  rw [abs_le] at e1 e2
  have hc : ((roundHalf x : ℕ) : ℚ) = ((⌊f64Add (f64 x) (1 / 2)⌋ : ℤ) : ℚ) := by
    rw [← roundHalf_cast hx]; simp
  have f1 := Int.floor_le (f64Add (f64 x) (1 / 2))
  have f2 := Int.lt_floor_add_one (f64Add (f64 x) (1 / 2))
  rw [hc]
  unfold f64Add at *
  rw [uro_eq] at e1 e2
  rw [abs_le]
  constructor <;> linarith [e1.1, e1.2, e2.1, e2.2]

theorem roundHalf_lt {x : ℚ} (hx : 0 ≤ x) (h : f64 x < 2 ^ 64) : roundHalf x < 2 ^ 64 := by
  have h1 := f64_lt_two64 hx h
  have hy := f64_nonneg hx
  have e : f64 (2 ^ 64 - 2 ^ 11 + 1 / 2) = 2 ^ 64 - 2 ^ 11 := by decide +kernel
  have h2 : f64Add (f64 x) (1 / 2) ≤ 2 ^ 64 - 2 ^ 11 := by
    rw [← e]
    exact f64_mono (by linarith) (by linarith)
  have h3 : ⌊f64Add (f64 x) (1 / 2)⌋ < 2 ^ 64 := by
    rw [Int.floor_lt]
    push_cast
    linarith
  have := roundHalf_cast hx
  omega

/-- the integer encoded for `value` -/
def fixedInt (value scale : ℚ) : ℤ :=
  if value < 0 then -(roundHalf |value * scale| : ℤ) else roundHalf |value * scale|

theorem fixedInt_err (value : ℚ) {scale : ℚ} (hs : 0 < scale) :
    |(fixedInt value scale : ℚ) - value * scale| ≤ 1 / 2 + |value * scale| / 2 ^ 51 + 1 / 2 ^ 53 := by
  have h := roundHalf_err (abs_nonneg (value * scale))
  unfold fixedInt
  split
  · rename_i hv
    have : |value * scale| = -(value * scale) := abs_of_neg (mul_neg_of_neg_of_pos hv hs)
    rw [← abs_neg]
    push_cast
    rw [show -(-(roundHalf |value * scale| : ℚ) - value * scale) = roundHalf |value * scale| - |value * scale| by
      rw [this]; ring]
    exact h
  · rename_i hv
    have : |value * scale| = value * scale := abs_of_nonneg (mul_nonneg (not_lt.1 hv) hs.le)
    push_cast
    nth_rewrite 2 [← this]
    exact h

theorem fixedPoint_spec {s : SubRing} (hs : s.Arith) (value : ℚ) {scale : ℚ} (hsc : 0 < scale)
    (h64 : f64 |value * scale| ≠ 2 ^ 64) :
    (s.fixedPoint value scale).toNat < max (s.q.toNat + 1) (2 ^ 61) ∧
    ((s.fixedPoint value scale).toNat : ZMod s.q.toNat) = (fixedInt value scale : ZMod s.q.toNat) := by
  have h1 := hs.one_lt
  have hmag : value * (if (decide (value < 0)) = true then -scale else scale) = |value * scale| := by
    by_cases hv : value < 0
    · simp only [hv, decide_true, if_true]
      rw [abs_of_neg (mul_neg_of_neg_of_pos hv hsc)]; ring
    · simp only [hv, decide_false, Bool.false_eq_true, if_false]
      rw [abs_of_nonneg (mul_nonneg (not_lt.1 hv) hsc.le)]
  have hx := abs_nonneg (value * scale)
  have hrc := roundHalf_cast hx
  -- negating a residue
  have hneg : ∀ t : UInt64, t.toNat ≤ s.q.toNat →
      (s.q - t).toNat < max (s.q.toNat + 1) (2 ^ 61) ∧
      ((s.q - t).toNat : ZMod s.q.toNat) = -(t.toNat : ZMod s.q.toNat) := by
    intro t ht
    rw [toNat_sub_of_le' ht, Nat.cast_sub ht]
    exact ⟨by omega, by simp⟩
  unfold SubRing.fixedPoint fixedInt
  simp only [hmag]
  by_cases hbig : f64 |value * scale| > 2 ^ 64
  · rw [if_pos hbig, ← hrc]
    obtain ⟨b1, b2⟩ := bigModU64_spec (roundHalf |value * scale| : ℤ) (q := s.q) (by omega)
    by_cases hv : value < 0
    · simp only [hv, decide_true, if_true]
      obtain ⟨c1, c2⟩ := hneg _ b1.le
      exact ⟨c1, by rw [c2, b2]; push_cast; rfl⟩
    · simp only [hv, decide_false, Bool.false_eq_true, if_false]
      exact ⟨by omega, b2⟩
  · rw [if_neg hbig]
    have hlt := roundHalf_lt hx (lt_of_le_of_ne (not_lt.1 hbig) h64)
    have hc : (UInt64.ofNat (f64ToNat (f64Add (f64 |value * scale|) (1 / 2)))).toNat
        = roundHalf |value * scale| := by
      rw [UInt64.toNat_ofNat']
      exact Nat.mod_eq_of_lt hlt
    generalize UInt64.ofNat (f64ToNat (f64Add (f64 |value * scale|) (1 / 2))) = c at hc
    have hb := bredAdd_toNat h1 hs.lt.le c
    rw [← hs.bred] at hb
    have hblt : (bredAdd c s.q s.bred).toNat < s.q.toNat := by rw [hb]; exact Nat.mod_lt _ (by omega)
    have hbc : ((bredAdd c s.q s.bred).toNat : ZMod s.q.toNat) = c.toNat := by rw [hb, ZMod.natCast_mod]
    by_cases hv : value < 0
    · simp only [hv, decide_true, if_true, ← hc]
      by_cases hcq : c > s.q
      · rw [if_pos hcq]
        obtain ⟨c1, c2⟩ := hneg _ hblt.le
        exact ⟨c1, by rw [c2, hbc]; push_cast; rfl⟩
      · rw [if_neg hcq]
        obtain ⟨c1, c2⟩ := hneg c (not_lt.1 hcq)
        exact ⟨c1, by rw [c2]; push_cast; rfl⟩
    · simp only [hv, decide_false, Bool.false_eq_true, if_false, ← hc]
      by_cases hcq : c > 0x1fffffffffffffff
      · rw [if_pos hcq]
        exact ⟨by omega, by rw [hbc]; push_cast; rfl⟩
      · rw [if_neg hcq]
        have : c.toNat ≤ 0x1fffffffffffffff := not_lt.1 hcq
        exact ⟨by omega, by push_cast; rfl⟩

end FastKsw
