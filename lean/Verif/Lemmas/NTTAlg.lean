import Mathlib.Algebra.BigOperators.Intervals
import Mathlib.Algebra.Polynomial.Roots
import Mathlib.LinearAlgebra.Lagrange
import Mathlib.Algebra.Polynomial.BigOperators
import Mathlib.Tactic.Ring
import Mathlib.Tactic.LinearCombination

/-! Helper lemmas: the algebra of the negacyclic transform, over a commutative ring. -/

namespace FastKsw

open Finset

variable {K : Type*} [CommRing K]

/-- Root attached to node `c` of the twiddle tree: `±w(c/2)`, sign by parity of `c`. -/
def rho (w : ℕ → K) (c : ℕ) : K := if c % 2 = 0 then w (c / 2) else - w (c / 2)

/-- Law of a twiddle table for degree `N`. -/
structure TwLaw (N : ℕ) (w : ℕ → K) : Prop where
  zero : w 0 = 1
  sq : ∀ c, 1 ≤ c → c < N → w c ^ 2 = rho w c

theorem rho_one {N : ℕ} {w : ℕ → K} (h : TwLaw N w) : rho w 1 = -1 := by
  simp [rho, h.zero]

theorem rho_sq {N : ℕ} {w : ℕ → K} (h : TwLaw N w) {c : ℕ} (h1 : 2 ≤ c) (h2 : c < 2 * N) :
    rho w c ^ 2 = rho w (c / 2) := by
  rw [← h.sq (c / 2) (by omega) (by omega)]
  unfold rho
  split <;> ring

theorem rho_pow {N : ℕ} {w : ℕ → K} (h : TwLaw N w) (b c : ℕ) (h1 : 2 ^ b ≤ c)
    (h2 : c < 2 * N) : rho w c ^ (2 ^ b) = rho w (c / 2 ^ b) := by
  induction b generalizing c with
  | zero => simp
  | succ b ih =>
    have h2b : 1 ≤ 2 ^ b := Nat.one_le_two_pow
    rw [pow_succ] at h1
    rw [pow_succ, mul_comm, pow_mul, rho_sq h (by omega) h2, ih (c / 2) (by omega) (by omega),
      Nat.div_div_eq_div_mul]

/-- Evaluation point of output index `i`. -/
def evalPt (N : ℕ) (w : ℕ → K) (i : ℕ) : K := rho w (N + i)

/-- For a layer with `m` blocks of half-size `t`: `e_i^t = ±w(m + i/(2t))`. -/
theorem evalPt_pow {N : ℕ} {w : ℕ → K} (h : TwLaw N w) {m t b : ℕ} (ht : t = 2 ^ b)
    (hN : m * (2 * t) = N) (hm : 1 ≤ m) {i : ℕ} (hi : i < N) :
    evalPt N w i ^ t = if i % (2 * t) < t then w (m + i / (2 * t)) else - w (m + i / (2 * t)) := by
  have ht0 : 0 < t := by rw [ht]; positivity
  have hNt : N = 2 * m * t := by rw [← hN]; ring
  have htN : t ≤ N := by
    rw [hNt]; exact Nat.le_mul_of_pos_left _ (by omega)
  unfold evalPt
  rw [ht, rho_pow h b _ (by rw [← ht]; omega) (by omega), ← ht]
  have e1 : (N + i) / t = 2 * m + i / t := by
    rw [hNt, add_comm, Nat.add_mul_div_right _ _ ht0, add_comm]
  have e2 : i / (2 * t) = i / t / 2 := by rw [mul_comm, Nat.div_div_eq_div_mul]
  have e3 : (2 * m + i / t) / 2 = m + i / t / 2 := by omega
  have e4 : (2 * m + i / t) % 2 = i / t % 2 := by omega
  have e5 : i % (2 * t) < t ↔ i / t % 2 = 0 := by
    have h5 := Nat.mod_mul (a := t) (b := 2) (x := i)
    rw [mul_comm] at h5
    have h6 : i % t < t := Nat.mod_lt _ ht0
    rw [h5]
    rcases Nat.mod_two_eq_zero_or_one (i / t) with h7 | h7 <;> rw [h7]
    · simp [h6]
    · constructor
      · intro; omega
      · intro; omega
  rw [e1, rho, e4, e3, e2]
  simp only [e5]

theorem evalPt_pow_N {N b : ℕ} {w : ℕ → K} (h : TwLaw N w) (hb : N = 2 ^ b) {i : ℕ}
    (hi : i < N) : evalPt N w i ^ N = -1 := by
  have : 0 < N := by omega
  unfold evalPt
  have h2 := rho_pow h b (N + i) (by omega) (by omega)
  rw [← hb] at h2
  rw [h2]
  have : (N + i) / N = 1 := by
    rw [Nat.add_div_left _ this, Nat.div_eq_of_lt hi]
  rw [this, rho_one h]

/-- Value of the block of size `s` containing index `i`, evaluated at `e`. -/
def blockEval (e : K) (s : ℕ) (X : ℕ → K) (i : ℕ) : K :=
  ∑ j ∈ range s, X (i / s * s + j) * e ^ j

theorem blockEval_one (e : K) (X : ℕ → K) (i : ℕ) : blockEval e 1 X i = X i := by
  simp [blockEval]

theorem blockEval_full (e : K) (N : ℕ) (X : ℕ → K) {i : ℕ} (hi : i < N) :
    blockEval e N X i = ∑ j ∈ range N, X j * e ^ j := by
  simp [blockEval, Nat.div_eq_of_lt hi]

theorem blockEval_two (e : K) (t : ℕ) (X : ℕ → K) (i : ℕ) :
    blockEval e (2 * t) X i = ∑ j ∈ range t,
      (X (i / (2 * t) * (2 * t) + j) + e ^ t * X (i / (2 * t) * (2 * t) + t + j)) * e ^ j := by
  unfold blockEval
  rw [two_mul t, sum_range_add, ← sum_add_distrib]
  apply sum_congr rfl
  intro j _
  rw [pow_add, ← add_assoc]
  ring

/-- Forward layer on values. -/
def fwdVal (w : ℕ → K) (m t : ℕ) (X : ℕ → K) (k : ℕ) : K :=
  if k % (2 * t) < t then X k + X (k + t) * w (m + k / (2 * t))
  else X (k - t) - X k * w (m + k / (2 * t))

/-- Inverse layer on values, twiddles `w'`. -/
def invVal (w' : ℕ → K) (m t : ℕ) (X : ℕ → K) (k : ℕ) : K :=
  if k % (2 * t) < t then X k + X (k + t)
  else (X (k - t) - X k) * w' (m + k / (2 * t))

theorem half_block {t i : ℕ} (ht : 0 < t) :
    i / t * t = i / (2 * t) * (2 * t) + (if i % (2 * t) < t then 0 else t) := by
  have e1 := Nat.div_add_mod i (2 * t)
  have e2 := Nat.mod_lt i (show 0 < 2 * t by omega)
  have h : i / t = 2 * (i / (2 * t)) + (if i % (2 * t) < t then 0 else 1) := by
    generalize i / (2 * t) = c at *
    generalize i % (2 * t) = r at *
    have e3 : 2 * t * c = 2 * c * t := by ring
    subst e1
    rw [e3]
    split
    · rw [add_comm, Nat.add_mul_div_right _ _ ht, Nat.div_eq_of_lt (by assumption)]; omega
    · rw [add_comm, Nat.add_mul_div_right _ _ ht]
      have : r / t = 1 := Nat.div_eq_of_lt_le (by omega) (by omega)
      omega
  rw [h]; split <;> ring

theorem blk_mod {t c j : ℕ} (hj : j < 2 * t) : (c * (2 * t) + j) % (2 * t) = j := by
  rw [add_comm, Nat.add_mul_mod_self_right, Nat.mod_eq_of_lt hj]

theorem blk_div {t c j : ℕ} (hj : j < 2 * t) : (c * (2 * t) + j) / (2 * t) = c := by
  rw [add_comm, Nat.add_mul_div_right _ _ (by omega), Nat.div_eq_of_lt hj, zero_add]

theorem blockEval_fwd {e : K} {w : ℕ → K} {m t i : ℕ} (ht : 0 < t) (X : ℕ → K)
    (he : e ^ t = if i % (2 * t) < t then w (m + i / (2 * t)) else - w (m + i / (2 * t))) :
    blockEval e t (fwdVal w m t X) i = blockEval e (2 * t) X i := by
  rw [blockEval_two]
  unfold blockEval
  apply sum_congr rfl
  intro j hj
  rw [mem_range] at hj
  congr 1
  rw [half_block ht, he]
  unfold fwdVal
  split
  · rw [add_zero, blk_mod (by omega), blk_div (by omega), if_pos hj]
    rw [show i / (2 * t) * (2 * t) + j + t = i / (2 * t) * (2 * t) + t + j by ring]
    ring
  · rw [add_assoc, blk_mod (by omega), blk_div (by omega), if_neg (by omega)]
    rw [show i / (2 * t) * (2 * t) + (t + j) - t = i / (2 * t) * (2 * t) + j by omega]
    ring

theorem blockEval_inv {e : K} {w w' : ℕ → K} {m t i : ℕ} (ht : 0 < t) (X : ℕ → K)
    (hw : w (m + i / (2 * t)) * w' (m + i / (2 * t)) = 1)
    (he : e ^ t = if i % (2 * t) < t then w (m + i / (2 * t)) else - w (m + i / (2 * t))) :
    blockEval e (2 * t) (invVal w' m t X) i = 2 * blockEval e t X i := by
  rw [blockEval_two]
  unfold blockEval
  rw [mul_sum]
  apply sum_congr rfl
  intro j hj
  rw [mem_range] at hj
  rw [← mul_assoc (2 : K)]
  congr 1
  rw [half_block ht, he]
  unfold invVal
  rw [blk_mod (by omega), if_pos hj, add_assoc _ t j, blk_mod (by omega),
    if_neg (show ¬ t + j < t by omega), blk_div (by omega)]
  rw [show i / (2 * t) * (2 * t) + (t + j) - t = i / (2 * t) * (2 * t) + j by omega]
  rw [show i / (2 * t) * (2 * t) + j + t = i / (2 * t) * (2 * t) + (t + j) by ring]
  by_cases hc : i % (2 * t) < t
  · rw [if_pos hc, if_pos hc, add_zero]
    linear_combination (X (i / (2 * t) * (2 * t) + j) - X (i / (2 * t) * (2 * t) + (t + j))) * hw
  · rw [if_neg hc, if_neg hc, add_assoc (i / (2 * t) * (2 * t)) t j]
    linear_combination -(X (i / (2 * t) * (2 * t) + j) - X (i / (2 * t) * (2 * t) + (t + j))) * hw

section field
variable {F : Type*} [Field F]

theorem rho_ne_zero {N : ℕ} {w : ℕ → F} (h : TwLaw N w) (c : ℕ) (h1 : 1 ≤ c) (h2 : c < 2 * N) :
    rho w c ≠ 0 := by
  induction c using Nat.strong_induction_on with
  | _ c ih =>
    rcases Nat.lt_or_ge c 2 with h3 | h3
    · have : c = 1 := by omega
      rw [this, rho_one h]; simp
    · intro h0
      have h4 := rho_sq h h3 h2
      rw [h0] at h4
      exact ih (c / 2) (by omega) (by omega) (by omega) (by rw [← h4]; ring)

theorem rho_inj {N : ℕ} {w : ℕ → F} (h : TwLaw N w) (h2 : (2 : F) ≠ 0) (d : ℕ) :
    ∀ c c', 2 ^ d ≤ c → c < 2 ^ (d + 1) → 2 ^ d ≤ c' → c' < 2 ^ (d + 1) → 2 ^ d ≤ N →
      rho w c = rho w c' → c = c' := by
  induction d with
  | zero => intro c c' a b a' b' _ _; omega
  | succ d ih =>
    intro c c' a b a' b' hN he
    have hp : 2 ^ (d + 1) = 2 * 2 ^ d := by ring
    have hp2 : 2 ^ (d + 1 + 1) = 4 * 2 ^ d := by ring
    have hpos : 1 ≤ 2 ^ d := Nat.one_le_two_pow
    have hh := ih (c / 2) (c' / 2) (by omega) (by omega) (by omega) (by omega) (by omega) (by
      rw [← rho_sq h (by omega) (by omega), ← rho_sq h (by omega) (by omega), he])
    have hne := rho_ne_zero h c (by omega) (by omega)
    unfold rho at he hne
    rw [hh] at he hne
    by_contra hcc
    have : c % 2 ≠ c' % 2 := by omega
    rcases Nat.mod_two_eq_zero_or_one c with h3 | h3 <;>
      rcases Nat.mod_two_eq_zero_or_one c' with h4 | h4 <;> simp [h3, h4] at he hne this
    · have : (2 : F) * w (c' / 2) = 0 := by linear_combination he
      rcases mul_eq_zero.1 this with h5 | h5
      · exact h2 h5
      · exact hne h5
    · have : (2 : F) * w (c' / 2) = 0 := by linear_combination -he
      rcases mul_eq_zero.1 this with h5 | h5
      · exact h2 h5
      · exact hne h5

theorem evalPt_inj {N b : ℕ} {w : ℕ → F} (h : TwLaw N w) (h2 : (2 : F) ≠ 0) (hb : N = 2 ^ b)
    {i j : ℕ} (hi : i < N) (hj : j < N) (he : evalPt N w i = evalPt N w j) : i = j := by
  have hp : 2 ^ (b + 1) = 2 * N := by rw [hb]; ring
  have := rho_inj h h2 b (N + i) (N + j) (by omega) (by omega) (by omega) (by omega) (by omega) he
  omega

open Polynomial in
/-- `N` distinct points determine the coefficients. -/
theorem eval_injective {N : ℕ} {e : ℕ → F} (he : ∀ i < N, ∀ j < N, e i = e j → i = j)
    {X Y : ℕ → F}
    (h : ∀ i < N, ∑ j ∈ range N, X j * e i ^ j = ∑ j ∈ range N, Y j * e i ^ j) :
    ∀ j < N, X j = Y j := by
  classical
  let P : F[X] := ∑ j ∈ range N, C (X j - Y j) * Polynomial.X ^ j
  have hdeg : P.degree < N := by
    refine (Polynomial.degree_sum_le _ _).trans_lt ?_
    rw [Finset.sup_lt_iff (by exact WithBot.bot_lt_coe N)]
    intro j hj
    refine (Polynomial.degree_C_mul_X_pow_le _ _).trans_lt ?_
    exact_mod_cast (mem_range.1 hj)
  have hP : P = 0 := by
    refine eq_zero_of_degree_lt_of_eval_finset_eq_zero ((range N).image e) ?_ ?_
    · rw [Finset.card_image_of_injOn, card_range]
      · exact hdeg
      · intro i hi j hj hij
        exact he i (by simpa using hi) j (by simpa using hj) hij
    · intro x hx
      obtain ⟨i, hi, rfl⟩ := mem_image.1 hx
      have hi' := mem_range.1 hi
      simp only [P, eval_finsetSum, eval_mul, eval_C, eval_pow, eval_X, sub_mul, sum_sub_distrib]
      rw [h i hi', sub_self]
  intro j hj
  have : P.coeff j = X j - Y j := by
    simp only [P, finsetSum_coeff, coeff_C_mul_X_pow]
    rw [Finset.sum_eq_single j]
    · simp
    · intro b _ hb
      rw [if_neg (fun h => hb h.symm)]
    · intro hn; exact absurd (mem_range.2 hj) hn
  rw [hP] at this
  simp at this
  exact (sub_eq_zero.1 this.symm)

end field

end FastKsw
