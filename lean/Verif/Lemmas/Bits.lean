import Verif.Model.Bits
import Mathlib.Tactic.Ring

/-! Helper lemmas: bit reversal. -/

namespace FastKsw

theorem revBits_lt (n x : ℕ) : revBits n x < 2 ^ n := by
  induction n generalizing x with
  | zero => simp [revBits]
  | succ n ih =>
    rw [revBits, pow_succ]
    have := ih (x / 2)
    rcases Nat.mod_two_eq_zero_or_one x with h | h <;> rw [h] <;> omega

theorem revBits_testBit (n x k : ℕ) :
    (revBits n x).testBit k = (decide (k < n) && x.testBit (n - 1 - k)) := by
  induction n generalizing x k with
  | zero => simp [revBits]
  | succ n ih =>
    rw [revBits, mul_comm, Nat.testBit_two_pow_mul_add _ (revBits_lt n _)]
    rcases Nat.lt_trichotomy k n with h | h | h
    · rw [if_pos h, ih]
      have h1 : k < n + 1 := by omega
      have e : n + 1 - 1 - k = (n - 1 - k) + 1 := by omega
      rw [e, Nat.testBit_succ]; simp [h, h1]
    · subst h
      simp [Nat.testBit_zero]
    · rw [if_neg (by omega)]
      have h1 : ¬ k < n + 1 := by omega
      have h2 : x % 2 < 2 ^ (k - n) := by
        have : 2 ^ 1 ≤ 2 ^ (k - n) := Nat.pow_le_pow_right (by omega) (by omega)
        omega
      simp [h1, Nat.testBit_lt_two_pow h2]

theorem revBits_involutive (n x : ℕ) (hx : x < 2 ^ n) : revBits n (revBits n x) = x := by
  apply Nat.eq_of_testBit_eq
  intro k
  rw [revBits_testBit, revBits_testBit]
  by_cases h : k < n
  · have h2 : n - 1 - k < n := by omega
    have h3 : n - 1 - (n - 1 - k) = k := by omega
    simp [h, h2, h3]
  · have : x < 2 ^ k := lt_of_lt_of_le hx (Nat.pow_le_pow_right (by omega) (by omega))
    simp [h, Nat.testBit_lt_two_pow this]

theorem revBits_inj {n x y : ℕ} (hx : x < 2 ^ n) (hy : y < 2 ^ n)
    (h : revBits n x = revBits n y) : x = y := by
  rw [← revBits_involutive n x hx, h, revBits_involutive n y hy]

theorem revBits_zero (n : ℕ) : revBits n 0 = 0 := by
  induction n with
  | zero => rfl
  | succ n ih => simp [revBits, ih]

theorem revBits_double (m x : ℕ) (hx : x < 2 ^ m) : revBits (m + 1) x = 2 * revBits m x := by
  induction m generalizing x with
  | zero =>
    have : x = 0 := by simpa using hx
    subst this; simp [revBits]
  | succ k ih =>
    rw [revBits, ih (x / 2) (by rw [pow_succ] at hx; omega), revBits]
    ring

theorem revBits_extend (n d x : ℕ) (hx : x < 2 ^ n) : revBits (n + d) x = 2 ^ d * revBits n x := by
  induction d with
  | zero => simp
  | succ d ih =>
    rw [← add_assoc, revBits_double _ _ (lt_of_lt_of_le hx (Nat.pow_le_pow_right (by omega) (by omega))),
      ih]
    ring

theorem bitReverse64_eq (n x : ℕ) (hn : n ≤ 64) (hx : x < 2 ^ n) :
    bitReverse64 x n = revBits n x := by
  unfold bitReverse64
  have : revBits 64 x = 2 ^ (64 - n) * revBits n x := by
    rw [← revBits_extend n (64 - n) x hx]; congr 1; omega
  rw [this, Nat.mul_div_cancel_left _ (Nat.two_pow_pos _)]

end FastKsw
