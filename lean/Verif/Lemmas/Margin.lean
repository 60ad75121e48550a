import Verif.Model.KeySwitch
import Verif.Lemmas.Float
import Mathlib.Tactic.Linarith
import Mathlib.Tactic.Positivity
import Mathlib.Tactic.FieldSimp

/-!
# Overflow margins and block counts computed in float64
-/

namespace FastKsw

theorem roundEven_le {x : ℚ} {m : ℤ} (h : x ≤ m) : roundEven x ≤ m := by
  have h1 := Int.floor_le x
  have h3 : ⌊x⌋ ≤ m := Int.floor_le_iff.2 (by have : (m : ℚ) < m + 1 := by linarith
                                              linarith)
  unfold roundEven
  simp only
  have key : ¬ (x - ⌊x⌋ < 1 / 2) → ⌊x⌋ + 1 ≤ m := by
    intro hd
    by_contra hc
    have : ⌊x⌋ = m := by omega
    rw [this] at hd
    linarith
  split_ifs with a b c
  · exact h3
  · exact key a
  · exact h3
  · exact key a

theorem le_roundEven {x : ℚ} {m : ℤ} (h : (m : ℚ) ≤ x) : m ≤ roundEven x := by
  have h3 : m ≤ ⌊x⌋ := Int.le_floor.2 h
  unfold roundEven
  simp only
  split_ifs <;> omega

theorem roundEven_int (m : ℤ) : roundEven (m : ℚ) = m :=
  le_antisymm (roundEven_le le_rfl) (le_roundEven le_rfl)

/-- rounding does not cross a number that is representable at the exponent of `x` -/
theorem f64_le_of {x : ℚ} (hx : 0 < x) {m : ℤ}
    (h : x ≤ m * (2 : ℚ) ^ (Int.log 2 x - 52)) : f64 x ≤ m * (2 : ℚ) ^ (Int.log 2 x - 52) := by
  unfold f64
  rw [if_neg hx.ne', abs_of_pos hx]
  simp only
  have hp : (0 : ℚ) < 2 ^ (Int.log 2 x - 52) := zpow_pos (by norm_num) _
  have := roundEven_le (x := x / 2 ^ (Int.log 2 x - 52)) (m := m) ((div_le_iff₀ hp).2 h)
  exact mul_le_mul_of_nonneg_right (by exact_mod_cast this) hp.le

theorem le_f64_of {x : ℚ} (hx : 0 < x) {m : ℤ}
    (h : m * (2 : ℚ) ^ (Int.log 2 x - 52) ≤ x) : m * (2 : ℚ) ^ (Int.log 2 x - 52) ≤ f64 x := by
  unfold f64
  rw [if_neg hx.ne', abs_of_pos hx]
  simp only
  have hp : (0 : ℚ) < 2 ^ (Int.log 2 x - 52) := zpow_pos (by norm_num) _
  have := le_roundEven (x := x / 2 ^ (Int.log 2 x - 52)) (m := m) ((le_div_iff₀ hp).2 h)
  exact mul_le_mul_of_nonneg_right (by exact_mod_cast this) hp.le

theorem log_le_of_le {x : ℚ} (hx : 0 < x) {k : ℤ} (h : x < (2 : ℚ) ^ (k + 1)) : Int.log 2 x ≤ k := by
  have h1 := Int.zpow_log_le_self (R := ℚ) (b := 2) (by norm_num) hx
  have h2 : ((2 : ℕ) : ℚ) ^ Int.log 2 x < (2 : ℚ) ^ (k + 1) := lt_of_le_of_lt h1 h
  have h3 := (zpow_lt_zpow_iff_right₀ (a := (2 : ℚ)) (by norm_num)).1 (by exact_mod_cast h2)
  omega

/-- numbers with at most 53 significant bits bound the rounding from above -/
theorem f64_le_nat {x : ℚ} (hx : 0 < x) {m : ℕ} (hm : m ≤ 2 ^ 52) {k : ℤ}
    (h : x ≤ m * (2 : ℚ) ^ k) : f64 x ≤ m * (2 : ℚ) ^ k := by
  have hlog : Int.log 2 x ≤ k + 52 := by
    apply log_le_of_le hx
    have hk : (0 : ℚ) < 2 ^ k := zpow_pos (by norm_num) _
    calc x ≤ m * (2 : ℚ) ^ k := h
      _ ≤ 2 ^ 52 * (2 : ℚ) ^ k := mul_le_mul_of_nonneg_right (by exact_mod_cast hm) hk.le
      _ < 2 ^ 53 * (2 : ℚ) ^ k := mul_lt_mul_of_pos_right (by norm_num) hk
      _ = 2 ^ (k + 52 + 1) := by
        rw [zpow_add₀ (by norm_num), zpow_add₀ (by norm_num)]; norm_num; ring
  obtain ⟨d, hd⟩ : ∃ d : ℕ, k = Int.log 2 x - 52 + d := ⟨(k - (Int.log 2 x - 52)).toNat, by omega⟩
  have e : (m : ℚ) * (2 : ℚ) ^ k = ((m * 2 ^ d : ℕ) : ℤ) * (2 : ℚ) ^ (Int.log 2 x - 52) := by
    rw [hd, zpow_add₀ (by norm_num), zpow_natCast]; push_cast; ring
  rw [e] at h ⊢
  exact f64_le_of hx h

/-- and from below -/
theorem le_f64_nat {x : ℚ} (hx : 0 < x) {m : ℕ} {k : ℤ} (hlog : Int.log 2 x - 52 ≤ k)
    (h : m * (2 : ℚ) ^ k ≤ x) : m * (2 : ℚ) ^ k ≤ f64 x := by
  obtain ⟨d, hd⟩ : ∃ d : ℕ, k = Int.log 2 x - 52 + d := ⟨(k - (Int.log 2 x - 52)).toNat, by omega⟩
  have e : (m : ℚ) * (2 : ℚ) ^ k = ((m * 2 ^ d : ℕ) : ℤ) * (2 : ℚ) ^ (Int.log 2 x - 52) := by
    rw [hd, zpow_add₀ (by norm_num), zpow_natCast]; push_cast; ring
  rw [e] at h ⊢
  exact le_f64_of hx h

/-- integers up to `2^52` are representable -/
theorem f64_nat {m : ℕ} (hm : m ≤ 2 ^ 52) : f64 (m : ℚ) = m := by
  rcases Nat.eq_zero_or_pos m with h0 | h0
  · subst h0; simp [f64]
  have hx : (0 : ℚ) < m := by exact_mod_cast h0
  apply le_antisymm
  · simpa using f64_le_nat hx hm (k := 0) (by simp)
  · have hl : Int.log 2 (m : ℚ) ≤ 52 := by
      apply log_le_of_le hx
      calc (m : ℚ) ≤ 2 ^ 52 := by exact_mod_cast hm
        _ < _ := by norm_num
    simpa using le_f64_nat hx (m := m) (k := 0) (by omega) (by simp)

/-- the block count is the rounded-up quotient -/
theorem ceilDivF_eq {a b : ℕ} (hb : 0 < b) (ha : a ≤ 2 ^ 20) (hb' : b ≤ 2 ^ 20) :
    ceilDivF a b = (a + b - 1) / b := by
  have e1 : f64OfNat a = a := f64_nat (by omega)
  have e2 : f64OfNat b = b := f64_nat (by omega)
  unfold ceilDivF f64Div
  rw [e1, e2]
  rcases Nat.eq_zero_or_pos a with h0 | h0
  · subst h0
    have : (0 + b - 1) / b = 0 := Nat.div_eq_of_lt (by omega)
    rw [this]; simp [f64]
  set k := (a + b - 1) / b with hk
  have hbq : (0 : ℚ) < b := by exact_mod_cast hb
  have haq : (0 : ℚ) < a := by exact_mod_cast h0
  have hx : (0 : ℚ) < (a : ℚ) / b := div_pos haq hbq
  have k1 : a ≤ b * k := by
    have := Nat.div_add_mod (a + b - 1) b
    have := Nat.mod_lt (a + b - 1) hb
    rw [← hk] at *; omega
  have k2 : b * k < a + b := by
    have := Nat.mul_div_le (a + b - 1) b
    rw [← hk] at this; omega
  have kpos : 0 < k := by
    rcases Nat.eq_zero_or_pos k with h | h
    · rw [h] at k1; omega
    · exact h
  have hka : k ≤ a := by
    by_contra hc
    have : b * (a + 1) ≤ b * k := Nat.mul_le_mul_left _ (by omega)
    have : b * (a + 1) = b * a + b := by ring
    have : 1 * a ≤ b * a := Nat.mul_le_mul_right _ hb
    omega
  have hup : f64 ((a : ℚ) / b) ≤ k := by
    have := f64_le_nat hx (m := k) (k := 0) (by omega)
      (by rw [zpow_zero, mul_one, div_le_iff₀ hbq]; exact_mod_cast (by rw [mul_comm]; exact k1))
    simpa using this
  have hlo : ((k - 1 : ℕ) : ℚ) < f64 ((a : ℚ) / b) := by
    have h1 := (f64_bounds hx.le).1
    have hu : uro = 1 / 2 ^ 53 := rfl
    have k3 : b * (k - 1) + 1 ≤ a := by
      rw [Nat.mul_sub, mul_one]; omega
    have k3q : (b : ℚ) * ((k - 1 : ℕ) : ℚ) + 1 ≤ a := by exact_mod_cast k3
    have h2 : ((k - 1 : ℕ) : ℚ) + 1 / b ≤ (a : ℚ) / b := by
      rw [le_div_iff₀ hbq, add_mul, one_div, inv_mul_cancel₀ hbq.ne']; linarith
    have haq' : (a : ℚ) ≤ 2 ^ 20 := by exact_mod_cast ha
    have hbq' : (b : ℚ) ≤ 2 ^ 20 := by exact_mod_cast hb'
    have h3 : uro * ((a : ℚ) / b) < 1 / b := by
      rw [hu, mul_div_assoc', div_lt_div_iff_of_pos_right hbq]
      linarith
    linarith
  have : ⌈f64 ((a : ℚ) / b)⌉ = (k : ℤ) := by
    rw [Int.ceil_eq_iff]
    refine ⟨?_, by exact_mod_cast hup⟩
    have : ((k - 1 : ℕ) : ℚ) = (k : ℚ) - 1 := by rw [Nat.cast_sub kpos]; simp
    rw [this] at hlo
    exact_mod_cast hlo
  rw [this]; simp

theorem le_maxSlice_aux (l : List UInt64) (m : UInt64) :
    m.toNat ≤ (l.foldl (fun m x => if m ≥ x then m else x) m).toNat ∧
    ∀ x ∈ l, x.toNat ≤ (l.foldl (fun m x => if m ≥ x then m else x) m).toNat := by
  induction l generalizing m with
  | nil => simp
  | cons a l ih =>
    simp only [List.foldl_cons, List.mem_cons, forall_eq_or_imp]
    have h := ih (if m ≥ a then m else a)
    split at h <;> rename_i hc
    · rw [if_pos hc]
      exact ⟨h.1, le_trans (UInt64.le_iff_toNat_le.1 hc) h.1, h.2⟩
    · rw [if_neg hc]
      refine ⟨le_trans ?_ h.1, h.1, h.2⟩
      exact (UInt64.lt_iff_toNat_lt.1 (UInt64.not_le.1 hc)).le

theorem maxSlice_mem_aux (l : List UInt64) (m : UInt64) :
    l.foldl (fun m x => if m ≥ x then m else x) m = m ∨
    l.foldl (fun m x => if m ≥ x then m else x) m ∈ l := by
  induction l generalizing m with
  | nil => simp
  | cons a l ih =>
    simp only [List.foldl_cons, List.mem_cons]
    rcases ih (if m ≥ a then m else a) with h | h
    · rw [h]; split
      · exact Or.inl rfl
      · exact Or.inr (Or.inl rfl)
    · exact Or.inr (Or.inr h)

theorem le_maxSlice {l : List UInt64} {x : UInt64} (h : x ∈ l) : x.toNat ≤ (maxSlice l).toNat :=
  (le_maxSlice_aux l 0).2 x h

theorem maxSlice_lt {l : List UInt64} {B : ℕ} (hB : 0 < B) (h : ∀ x ∈ l, x.toNat < B) :
    (maxSlice l).toNat < B := by
  rcases maxSlice_mem_aux l 0 with h0 | h0
  · unfold maxSlice; rw [h0]; simpa using hB
  · exact h _ h0

/-- What the key-switching loops need of half the margin of moduli bounded by `Q` -/
structure MarginOK (Q m : ℕ) : Prop where
  pos : 1 ≤ m
  lt : Q < 2 ^ 61
  le : m * Q ≤ 2 ^ 63 ∨ (m * Q ≤ 2 ^ 63 + 2 ^ 12 ∧ Q ≤ 2 ^ 61 - 2 ^ 11)

/-- The float64 quotient is exact enough: half the margin times the largest modulus stays below
`2^63` up to a rounding error that only occurs for moduli that leave room for it. -/
theorem margin_ok {Q : ℕ} (h0 : 0 < Q) (hQ : Q < 2 ^ 61) :
    MarginOK Q (f64ToNat (f64Div (2 ^ 64) (f64OfNat Q)) >>> 1) := by
  have hQq : (0 : ℚ) < Q := by exact_mod_cast h0
  have hu : uro = 1 / 2 ^ 53 := rfl
  obtain ⟨b1, b2⟩ := f64_bounds hQq.le
  rw [hu] at b1 b2
  have hfpos : 0 < f64 (Q : ℚ) := by
    have : (0 : ℚ) < (1 - 1 / 2 ^ 53) * Q := by positivity
    linarith
  have hf8 : f64 (Q : ℚ) ≤ 2 ^ 61 := by
    have := f64_le_nat hQq (m := 1) (k := 61) (by norm_num)
      (by have : (Q : ℚ) ≤ 2 ^ 61 := by exact_mod_cast hQ.le
          simpa using this)
    simpa using this
  unfold f64Div f64OfNat f64ToNat
  set F := f64 (Q : ℚ) with hF
  have hx8 : (8 : ℚ) ≤ 2 ^ 64 / F := by
    rw [le_div_iff₀ hfpos]; linarith
  have hxpos : (0 : ℚ) < 2 ^ 64 / F := by linarith
  obtain ⟨c1, c2⟩ := f64_bounds hxpos.le
  rw [hu] at c1 c2
  have hG8 : (8 : ℚ) ≤ f64 (2 ^ 64 / F) := by
    rcases le_or_gt (Int.log 2 ((2 : ℚ) ^ 64 / F)) 52 with h | h
    · simpa using le_f64_nat hxpos (m := 8) (k := 0) (by omega) (by simpa using hx8)
    · have h1 := Int.zpow_log_le_self (R := ℚ) (b := 2) (by norm_num) hxpos
      have h2 : ((2 : ℚ)) ^ (53 : ℤ) ≤ 2 ^ Int.log 2 ((2 : ℚ) ^ 64 / F) :=
        zpow_le_zpow_right₀ (by norm_num) (by omega)
      have h3 : ((2 : ℚ)) ^ (53 : ℤ) ≤ 2 ^ 64 / F := le_trans h2 (by exact_mod_cast h1)
      have : (8 : ℚ) ≤ (1 - 1 / 2 ^ 53) * 2 ^ (53 : ℤ) := by norm_num
      have : (1 - 1 / 2 ^ 53) * (2 : ℚ) ^ (53 : ℤ) ≤ (1 - 1 / 2 ^ 53) * (2 ^ 64 / F) :=
        mul_le_mul_of_nonneg_left h3 (by norm_num)
      linarith
  set G := f64 (2 ^ 64 / F) with hG
  have hGQ : G * Q ≤ 2 ^ 64 + 2 ^ 13 := by
    have e : (2 : ℚ) ^ 64 / F * F = 2 ^ 64 := by field_simp
    have h1 : G * F ≤ (1 + 1 / 2 ^ 53) * 2 ^ 64 := by
      calc G * F ≤ (1 + 1 / 2 ^ 53) * (2 ^ 64 / F) * F := mul_le_mul_of_nonneg_right c2 hfpos.le
        _ = _ := by rw [mul_assoc, e]
    have h2 : G * ((1 - 1 / 2 ^ 53) * Q) ≤ G * F := mul_le_mul_of_nonneg_left b1 (by linarith)
    have h3 : (G * Q) * (1 - 1 / 2 ^ 53) ≤ (1 + 1 / 2 ^ 53) * 2 ^ 64 := by
      calc _ = G * ((1 - 1 / 2 ^ 53) * Q) := by ring
        _ ≤ _ := by linarith
    norm_num at h3 ⊢
    linarith
  have hfl8 : (8 : ℤ) ≤ ⌊G⌋ := Int.le_floor.2 (by exact_mod_cast hG8)
  obtain ⟨g, hg⟩ : ∃ g : ℕ, ⌊G⌋ = (g : ℤ) := ⟨⌊G⌋.toNat, by omega⟩
  have hgle : (g : ℚ) ≤ G := by
    have := Int.floor_le G
    rw [hg] at this; exact_mod_cast this
  have hgQ : g * Q ≤ 2 ^ 64 + 2 ^ 13 := by
    have : (g : ℚ) * Q ≤ 2 ^ 64 + 2 ^ 13 :=
      le_trans (mul_le_mul_of_nonneg_right hgle hQq.le) hGQ
    exact_mod_cast this
  rw [hg, Int.toNat_natCast, Nat.shiftRight_eq_div_pow, pow_one]
  have hg8 : 8 ≤ g := by omega
  refine ⟨by omega, hQ, ?_⟩
  have hm : g / 2 * Q * 2 ≤ g * Q := by
    have := Nat.mul_le_mul_right Q (Nat.div_mul_le_self g 2)
    calc g / 2 * Q * 2 = g / 2 * 2 * Q := by ring
      _ ≤ _ := this
  by_cases hc : Q ≤ 2 ^ 61 - 2 ^ 11
  · exact Or.inr ⟨by omega, hc⟩
  · left
    have : g ≤ 8 := by
      by_contra hgc
      have h9 : 9 * Q ≤ g * Q := Nat.mul_le_mul_right _ (by omega)
      omega
    have : g / 2 ≤ 4 := by omega
    have : g / 2 * Q ≤ 4 * Q := Nat.mul_le_mul_right _ this
    omega

end FastKsw
