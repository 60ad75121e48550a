import Verif.Props.Slots
import Verif.Props.Rescale

/-!
# Integer polynomials: bounds, gaps, rounding
-/

namespace FastKsw

open Finset Props

/-- `z` is a polynomial in `X^(2^d)` -/
def Gapped (n d : ℕ) (z : ℕ → ℤ) : Prop := ∀ k < 2 ^ n, k % 2 ^ d ≠ 0 → z k = 0

/-- the coefficients of `z` are at most `B` -/
def AbsLe (n : ℕ) (z : ℕ → ℤ) (B : ℚ) : Prop := ∀ k < 2 ^ n, |(z k : ℚ)| ≤ B

theorem AbsLe.nonneg {n : ℕ} {z : ℕ → ℤ} {B : ℚ} (h : AbsLe n z B) : 0 ≤ B :=
  (abs_nonneg _).trans (h 0 (Nat.two_pow_pos n))

theorem AbsLe.mono {n : ℕ} {z : ℕ → ℤ} {B B' : ℚ} (h : AbsLe n z B) (hb : B ≤ B') : AbsLe n z B' :=
  fun k hk => (h k hk).trans hb

theorem AbsLe.add {n : ℕ} {a b : ℕ → ℤ} {A B : ℚ} (ha : AbsLe n a A) (hb : AbsLe n b B) :
    AbsLe n (fun k => a k + b k) (A + B) := fun k hk => by
  push_cast
  exact (abs_add_le _ _).trans (add_le_add (ha k hk) (hb k hk))

theorem AbsLe.sub {n : ℕ} {a b : ℕ → ℤ} {A B : ℚ} (ha : AbsLe n a A) (hb : AbsLe n b B) :
    AbsLe n (fun k => a k - b k) (A + B) := fun k hk => by
  push_cast
  exact (abs_sub _ _).trans (add_le_add (ha k hk) (hb k hk))

theorem AbsLe.neg {n : ℕ} {a : ℕ → ℤ} {A : ℚ} (ha : AbsLe n a A) : AbsLe n (fun k => -a k) A := fun k hk => by
  push_cast
  rw [abs_neg]
  exact ha k hk

theorem AbsLe.mul {n : ℕ} {a b : ℕ → ℤ} {A B : ℚ} (ha : AbsLe n a A) (hb : AbsLe n b B) :
    AbsLe n (negConv (2 ^ n) a b) (2 ^ n * (A * B)) := by
  have h1 : ∀ {z : ℕ → ℤ} {C : ℚ}, AbsLe n z C → ∀ k < 2 ^ n, |z k| ≤ ⌊C⌋ := fun h k hk => by
    rw [Int.le_floor]
    exact_mod_cast h k hk
  have hA := ha.nonneg
  have hB := hb.nonneg
  intro k hk
  have h2 := abs_negConv_le (h1 ha) (h1 hb) hk
  have h3 : |((negConv (2 ^ n) a b k : ℤ) : ℚ)| ≤ 2 ^ n * ((⌊A⌋ : ℚ) * (⌊B⌋ : ℚ)) := by
    have := (Int.cast_le (R := ℚ)).2 h2
    push_cast at this
    exact this
  refine h3.trans ?_
  have hfB : (0 : ℚ) ≤ ⌊B⌋ := by exact_mod_cast Int.floor_nonneg.2 hB
  gcongr
  · exact Int.floor_le A
  · exact Int.floor_le B

theorem Gapped.mul {n d : ℕ} {a b : ℕ → ℤ} (hd : d ≤ n) (ha : Gapped n d a) (hb : Gapped n d b) :
    Gapped n d (negConv (2 ^ n) a b) := by
  intro k hk h
  have hN : 2 ^ d ∣ 2 ^ n := pow_dvd_pow 2 hd
  unfold negConv
  refine sum_eq_zero fun i hi => ?_
  have hi := mem_range.1 hi
  by_cases e : i % 2 ^ d = 0
  · have e' := Nat.dvd_of_mod_eq_zero e
    split
    · rename_i hik
      rw [hb (k - i) (by omega) (fun hc => h ?_), mul_zero]
      have := Nat.dvd_add (Nat.dvd_of_mod_eq_zero hc) e'
      rw [Nat.sub_add_cancel hik] at this
      exact Nat.mod_eq_zero_of_dvd this
    · rename_i hik
      rw [hb (2 ^ n + k - i) (by omega) (fun hc => h ?_), mul_zero, neg_zero]
      have := Nat.dvd_add (Nat.dvd_of_mod_eq_zero hc) e'
      rw [Nat.sub_add_cancel (by omega)] at this
      exact Nat.mod_eq_zero_of_dvd ((Nat.dvd_add_right hN).1 this)
  · rw [ha i hi e]
    simp

theorem mul_mod_surj {m g : ℕ} (hg : g % 2 = 1) {k : ℕ} (hk : k < 2 ^ m) : ∃ i < 2 ^ m, i * g % 2 ^ m = k := by
  have hN := Nat.two_pow_pos m
  have hc : Nat.Coprime g (2 ^ m) := Nat.Coprime.pow_right _ (Nat.coprime_two_right.2 (Nat.odd_iff.2 hg))
  have hinj : Set.InjOn (fun i => i * g % 2 ^ m) (range (2 ^ m)) := by
    intro i hi j hj hij
    have h : i * g ≡ j * g [MOD 2 ^ m] := hij
    have h2 := Nat.ModEq.cancel_right_of_coprime (by rw [Nat.coprime_comm] at hc; exact hc) h
    have e1 := Nat.mod_eq_of_lt (mem_range.1 (Finset.mem_coe.1 hi))
    have e2 := Nat.mod_eq_of_lt (mem_range.1 (Finset.mem_coe.1 hj))
    unfold Nat.ModEq at h2
    rw [e1, e2] at h2
    exact h2
  have hs := Finset.surjOn_of_injOn_of_card_le (s := range (2 ^ m)) (t := range (2 ^ m)) (fun i => i * g % 2 ^ m)
    (fun i _ => Finset.mem_coe.2 (mem_range.2 (Nat.mod_lt _ hN))) hinj le_rfl
  obtain ⟨i, hi, e⟩ := hs (Finset.mem_coe.2 (mem_range.2 hk))
  exact ⟨i, mem_range.1 (Finset.mem_coe.1 hi), e⟩

theorem AbsLe.aut {n g : ℕ} (hg : g % 2 = 1) {z : ℕ → ℤ} {B : ℚ} (h : AbsLe n z B) : AbsLe n (autInt (2 ^ n) g z) B := by
  intro k hk
  obtain ⟨i, hi, rfl⟩ := mul_mod_surj hg hk
  rw [isAut_autInt hg z i hi]
  split
  · exact h i hi
  · push_cast
    rw [abs_neg]
    exact h i hi

theorem Gapped.aut {n d g : ℕ} (hd : d ≤ n) (hg : g % 2 = 1) {z : ℕ → ℤ} (h : Gapped n d z) :
    Gapped n d (autInt (2 ^ n) g z) := by
  intro k hk hne
  obtain ⟨i, hi, rfl⟩ := mul_mod_surj hg hk
  rw [isAut_autInt hg z i hi]
  rw [Nat.mod_mod_of_dvd _ (pow_dvd_pow 2 hd)] at hne
  rw [h i hi fun e => hne (by rw [Nat.mul_mod, e, zero_mul, Nat.zero_mod])]
  simp

theorem roundDiv_zero {P : ℕ} (hP : 0 < P) {z : ℕ → ℤ} {k : ℕ} (h : z k = 0) : roundDiv P z k = 0 := by
  unfold roundDiv
  rw [h, zero_add]
  exact Int.ediv_eq_zero_of_lt (by positivity) (by omega)

theorem Gapped.roundDiv {n d P : ℕ} (hP : 0 < P) {z : ℕ → ℤ} (h : Gapped n d z) : Gapped n d (roundDiv P z) :=
  fun k hk hne => roundDiv_zero hP (h k hk hne)

theorem roundDiv_near {P : ℕ} (hP : 0 < P) (z : ℕ → ℤ) (k : ℕ) :
    |(roundDiv P z k : ℚ) - z k / P| ≤ 1 / 2 := by
  have h := roundDiv_err hP z k
  have hP' : (0 : ℚ) < P := by exact_mod_cast hP
  have h' : 2 * |(P : ℚ) * roundDiv P z k - z k| ≤ P := by exact_mod_cast h
  rw [show (roundDiv P z k : ℚ) - z k / P = (P * roundDiv P z k - z k) / P by field_simp, abs_div, abs_of_pos hP',
    div_le_div_iff₀ hP' (by norm_num)]
  linarith

theorem AbsLe.roundDiv {n P : ℕ} (hP : 0 < P) {z : ℕ → ℤ} {B : ℚ} (h : AbsLe n z B) :
    AbsLe n (roundDiv P z) (B / P + 1 / 2) := by
  intro k hk
  have hP' : (0 : ℚ) < P := by exact_mod_cast hP
  have h1 := roundDiv_near hP z k
  have h2 : |(z k : ℚ) / P| ≤ B / P := by
    rw [abs_div, abs_of_pos hP']
    exact div_le_div_of_nonneg_right (h k hk) hP'.le
  have h3 := abs_add_le ((FastKsw.Props.roundDiv P z k : ℚ) - z k / P) (z k / P)
  rw [sub_add_cancel] at h3
  linarith

theorem slotVal_neg {logSlots d : ℕ} (a : ℕ → ℤ) (j : ℕ) :
    slotVal logSlots d (fun k => -a k) j = -slotVal logSlots d a j := by
  have := slotVal_sub (logSlots := logSlots) (d := d) (fun _ => 0) a j
  simp only [zero_sub] at this
  rw [this]
  simp [slotVal]

theorem gap_lt {logSlots d k : ℕ} (hk : k < 2 ^ (logSlots + 1)) : k * 2 ^ d < 2 ^ (logSlots + 1 + d) := by
  rw [pow_add 2 (logSlots + 1) d]
  exact Nat.mul_lt_mul_of_pos_right hk (Nat.two_pow_pos d)

/-- rounding a polynomial after division moves each slot by at most `2^logSlots` -/
theorem slotVal_roundDiv {logSlots d P : ℕ} (hP : 0 < P) (z : ℕ → ℤ) (j : ℕ) :
    ‖slotVal logSlots d (roundDiv P z) j - slotVal logSlots d z j / P‖ ≤ 2 ^ logSlots := by
  have e : slotVal logSlots d (roundDiv P z) j - slotVal logSlots d z j / P =
      ∑ k ∈ range (2 ^ (logSlots + 1)), (((roundDiv P z (k * 2 ^ d) : ℤ) : ℂ) - (z (k * 2 ^ d) : ℂ) / P) *
        (encZeta (2 ^ (logSlots + 2 + d)) ^ 5 ^ j) ^ (k * 2 ^ d) := by
    unfold slotVal
    rw [sum_div, ← sum_sub_distrib]
    exact sum_congr rfl fun k _ => by ring
  rw [e]
  have := norm_eval_le (m := 2 ^ (logSlots + 1))
    (f := fun k => ((roundDiv P z (k * 2 ^ d) : ℤ) : ℂ) - (z (k * 2 ^ d) : ℂ) / P) (ε := 1 / 2) (fun k _ => by
      have h := roundDiv_near hP z (k * 2 ^ d)
      have h2 : |((roundDiv P z (k * 2 ^ d) : ℤ) : ℝ) - (z (k * 2 ^ d) : ℝ) / P| ≤ 1 / 2 := by
        have := (Rat.cast_le (K := ℝ)).2 h
        push_cast at this
        exact this
      rw [show ((roundDiv P z (k * 2 ^ d) : ℤ) : ℂ) - (z (k * 2 ^ d) : ℂ) / P =
        (((roundDiv P z (k * 2 ^ d) : ℤ) : ℝ) - (z (k * 2 ^ d) : ℝ) / P : ℝ) by push_cast; rfl, Complex.norm_real]
      exact h2) logSlots d j (fun k => k * 2 ^ d)
  refine this.trans (le_of_eq ?_)
  push_cast
  ring

end FastKsw
