import Verif.Lemmas.SpecialFFT
import Mathlib.Analysis.SpecialFunctions.Trigonometric.Basic
import Mathlib.Analysis.SpecialFunctions.Complex.Circle
import Mathlib.Data.ZMod.Basic
import Mathlib.Algebra.Field.ZMod
import Mathlib.Tactic.NormNum.Prime
import Mathlib.Tactic.FieldSimp

/-!
# C71, C72: the transforms between slots and coefficients

`N = 2^n` values, `M = 2^(n+2+d)`; the arithmetic is exact.
-/

namespace FastKsw.Props

open FastKsw Finset

/-- The table computed by `NewEncoder` (ckks/encoder.go:164-171), without rounding, is a table of powers of a
primitive root of unity. -/
theorem C71_encoder_table {M : ℕ} (hM : 0 < M) (heven : 2 ∣ M) :
    RootTable M (fun i => ((Real.cos (2 * Real.pi * i / M) : ℝ) : ℂ) + (Real.sin (2 * Real.pi * i / M) : ℝ) * Complex.I)
      (Complex.exp (2 * Real.pi / M * Complex.I)) := by
  have hM' : (M : ℂ) ≠ 0 := by exact_mod_cast hM.ne'
  refine ⟨fun i _ => ?_, ?_⟩
  · rw [← Complex.exp_nat_mul, Complex.ofReal_cos, Complex.ofReal_sin, ← Complex.exp_mul_I]
    congr 1
    push_cast
    ring
  · obtain ⟨h, rfl⟩ := heven
    rw [Nat.mul_div_cancel_left _ (by omega), ← Complex.exp_nat_mul, ← Complex.exp_pi_mul_I]
    congr 1
    push_cast at hM' ⊢
    have : (h : ℂ) ≠ 0 := by
      intro hh; exact hM' (by rw [hh, mul_zero])
    field_simp

variable {K : Type} [Field K] {n d : ℕ} {roots : ℕ → K} {ζ : K}

/-- **C71** `SpecialFFTVec` and `SpecialFFTUL8Vec` replace the `N` values by the evaluations at
`ω^(5^j)`, `j < N`, of the polynomial with these coefficients, where `ω = ζ^(M/(4N))` -/
theorem C71_specialFFT (T : RootTable (2 ^ (n + 2 + d)) roots ζ) (unrolled : Bool) (x : List K)
    (hx : 2 ^ n ≤ x.length) (hx' : unrolled = true → (2 ^ n + 15) / 16 * 16 ≤ x.length) :
    (specialFFT unrolled (2 ^ n) (2 ^ (n + 2 + d)) roots x).length = x.length ∧
    ∀ j < 2 ^ n, (specialFFT unrolled (2 ^ n) (2 ^ (n + 2 + d)) roots x).getD j 0 =
      ∑ k ∈ range (2 ^ n), x.getD k 0 * (ζ ^ 2 ^ d) ^ (5 ^ j * k) := by
  refine ⟨specialFFT_length unrolled x hx, fun j hj => specialFFT_at T unrolled x ?_ j hj⟩
  unfold fftCap
  split
  · exact hx' (by assumption)
  · exact hx

/-- Nothing after the `N` values changes, for the plain functions, and for the unrolled ones from 16 values on. -/
theorem C71_frame_partial (unrolled : Bool) (hu : unrolled = true → 4 ≤ n) (x : List K) (hx : 2 ^ n ≤ x.length) (k : ℕ)
    (hk : 2 ^ n ≤ k) :
    (specialFFT unrolled (2 ^ n) (2 ^ (n + 2 + d)) roots x).getD k 0 = x.getD k 0 := by
  have hcap : fftCap unrolled (2 ^ n) = 2 ^ n := by
    unfold fftCap
    split
    · have : 16 ∣ 2 ^ n := pow_dvd_pow 2 (hu (by assumption))
      omega
    · rfl
  exact specialFFT_above unrolled x (by omega) k (by omega)

/-- 97 is prime -/
instance fact97 : Fact (Nat.Prime 97) := ⟨by norm_num⟩

/-- **C71, violated** for `logSlots = 3`, where the encoder already takes the unrolled function
(ckks/encoder.go:534-538): values after the 8 ones to transform are overwritten.  In a ring of degree 16
`ecd.values` has 8 entries, and these values are not part of it. -/
theorem C71_frame_violated : ∃ (p : ℕ) (_ : Fact p.Prime) (roots : ℕ → ZMod p) (ζ : ZMod p) (x : List (ZMod p)),
    RootTable (2 ^ (3 + 2 + 0)) roots ζ ∧ x.length = 16 ∧
    (specialFFT true (2 ^ 3) (2 ^ (3 + 2 + 0)) roots x).getD 9 0 ≠ x.getD 9 0 := by
  refine ⟨97, fact97, fun i => (19 : ZMod 97) ^ i, 19, [0, 0, 0, 0, 0, 0, 0, 0, 1, 0, 0, 0, 0, 0, 0, 0], ⟨fun i _ => rfl, ?_⟩, rfl, ?_⟩
  · decide +kernel
  · decide +kernel

/-- **C72** `SpecialiFFT*` undoes `SpecialFFT*` and conversely, whichever variants are combined -/
theorem C72_inverse (T : RootTable (2 ^ (n + 2 + d)) roots ζ) (h2 : (2 : K) ≠ 0) (u u' : Bool) (len : ℕ) (hlen : 2 ^ n ≤ len)
    (x : List K) (hl : len ≤ x.length)
    (hx : u = true ∨ u' = true → (2 ^ n + 15) / 16 * 16 ≤ x.length ∧ (len + 7) / 8 * 8 ≤ x.length) :
    (∀ k < 2 ^ n, (specialiFFT u' (2 ^ n) (2 ^ (n + 2 + d)) roots len
        (specialFFT u (2 ^ n) (2 ^ (n + 2 + d)) roots x)).getD k 0 = x.getD k 0) ∧
    ∀ k < 2 ^ n, (specialFFT u (2 ^ n) (2 ^ (n + 2 + d)) roots
        (specialiFFT u' (2 ^ n) (2 ^ (n + 2 + d)) roots len x)).getD k 0 = x.getD k 0 := by
  have hN : ((2 ^ n : ℕ) : K) ≠ 0 := by push_cast; exact pow_ne_zero _ h2
  have hc : fftCap u (2 ^ n) ≤ x.length := by
    unfold fftCap; split
    · exact (hx (Or.inl (by assumption))).1
    · omega
  have hc' : fftCap u' (2 ^ n) ≤ x.length := by
    unfold fftCap; split
    · exact (hx (Or.inr (by assumption))).1
    · omega
  have hi : ifftCap u' (2 ^ n) len ≤ x.length := by
    unfold ifftCap
    refine max_le hc' ?_
    split
    · exact (hx (Or.inr (by assumption))).2
    · omega
  refine ⟨fun k hk => ?_, fun k hk => ?_⟩
  · have hfl := specialFFT_length (d := d) (roots := roots) u x (by omega : 2 ^ n ≤ x.length)
    obtain ⟨-, a2, -⟩ := specialiFFT_at (d := d) (roots := roots) u' len hlen
      (specialFFT u (2 ^ n) (2 ^ (n + 2 + d)) roots x) (by omega)
    obtain ⟨s1, s2⟩ := cSliceBitReverse_spec x (n := n) (by omega)
    rw [a2 k hk, ifft_fft_layers T u u' (cSliceBitReverse (2 ^ n) x) (by omega) n le_rfl 1 _ (by omega) ?_ _ (revBits_lt n k), s2,
      if_pos (revBits_lt n k), revBits_involutive n k hk]
    · push_cast at hN ⊢
      field_simp
    · intro k hk
      rw [one_mul, specialFFT, len64_two_pow_pred]
  · obtain ⟨a1, a2, -⟩ := specialiFFT_at (d := d) (roots := roots) u' len hlen x hi
    set y := specialiFFT u' (2 ^ n) (2 ^ (n + 2 + d)) roots len x with hy
    obtain ⟨s1, s2⟩ := cSliceBitReverse_spec y (n := n) (by omega)
    rw [specialFFT, len64_two_pow_pred, fft_ifft_layers T u u' n le_rfl (((2 ^ n : ℕ) : K)⁻¹) x _ hc' (by omega) ?_ k hk]
    · push_cast at hN ⊢
      field_simp
    · intro k hk
      rw [s2, if_pos hk, a2 _ (revBits_lt n k), revBits_involutive n k hk, div_eq_mul_inv, mul_comm]

/-- the memory touched by the inverse transform; `len` is `len(values)` -/
theorem C72_frame (unrolled : Bool) (len : ℕ) (hlen : 2 ^ n ≤ len) (x : List K)
    (hx : 2 ^ n ≤ x.length) (hx' : unrolled = true → (2 ^ n + 15) / 16 * 16 ≤ x.length ∧ (len + 7) / 8 * 8 ≤ x.length) (k : ℕ)
    (hk : 2 ^ n ≤ k) (hk' : unrolled = true → (2 ^ n + 15) / 16 * 16 ≤ k ∧ (len + 7) / 8 * 8 ≤ k) :
    (specialiFFT unrolled (2 ^ n) (2 ^ (n + 2 + d)) roots len x).getD k 0 = x.getD k 0 := by
  refine (specialiFFT_at unrolled len hlen x ?_).2.2 k ?_
  all_goals
    unfold ifftCap fftCap
    cases unrolled
    · simpa
    · simpa using by first | exact hx' rfl | exact hk' rfl

/-- the plain functions on 4 slots of a ring of degree 16 and the unrolled ones on 8 slots -/
example : (specialFFT false (2 ^ 2) (2 ^ (2 + 2 + 1)) (fun i => (19 : ZMod 97) ^ i) [5, 1, 2, 3]).getD 1 0 =
    5 + 1 * (19 ^ 2) ^ 5 + 2 * (19 ^ 2) ^ 10 + 3 * (19 ^ 2) ^ 15 := by
  decide +kernel

/-- encoding and decoding 8 slots with the table of `NewEncoder` for a ring of degree 256 -/
example (x : List ℂ) (hx : x.length = 128) (k : ℕ) (hk : k < 2 ^ 3) :
    let roots : ℕ → ℂ := fun i => ((Real.cos (2 * Real.pi * i / (2 ^ (3 + 2 + 4) : ℕ)) : ℝ) : ℂ) +
      (Real.sin (2 * Real.pi * i / (2 ^ (3 + 2 + 4) : ℕ)) : ℝ) * Complex.I
    (specialFFT true (2 ^ 3) (2 ^ (3 + 2 + 4)) roots
      (specialiFFT true (2 ^ 3) (2 ^ (3 + 2 + 4)) roots 128 x)).getD k 0 = x.getD k 0 :=
  (C72_inverse (C71_encoder_table (by norm_num) (by norm_num)) two_ne_zero true true 128 (by norm_num) x hx.ge
    (fun _ => by rw [hx]; norm_num)).2 k hk

end FastKsw.Props
