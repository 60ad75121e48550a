import Verif.Model.SpecialFFT
import Verif.Lemmas.Bits
import Verif.Lemmas.NTT
import Mathlib.Tactic.Ring
import Mathlib.Tactic.LinearCombination
import Mathlib.Data.List.GetD
import Mathlib.Tactic.Linarith
import Mathlib.Algebra.BigOperators.Fin
import Mathlib.Algebra.BigOperators.Ring.Finset

/-! Helper lemmas: the transforms between slots and coefficients, in exact arithmetic. -/

namespace FastKsw

open Finset

section
variable {K : Type} [Zero K]

theorem getD_set (x : List K) (i k : ℕ) (v : K) :
    (x.set i v).getD k 0 = if k = i ∧ i < x.length then v else x.getD k 0 := by
  simp only [List.getD_eq_getElem?_getD, List.getElem?_set]
  by_cases h : i = k
  · subst h
    by_cases h2 : i < x.length
    · simp [h2]
    · simp [h2]
  · have h' : k ≠ i := fun e => h e.symm
    simp [h, h']

/-! ### Bit reversal -/

theorem bitRevNext_spec (n : ℕ) : ∀ (fuel i : ℕ), n < fuel → i + 1 < 2 ^ (n + 1) →
    bitRevNext fuel (revBits (n + 1) i) (2 ^ n) = revBits (n + 1) (i + 1) := by
  induction n with
  | zero =>
    intro fuel i hf hi
    obtain ⟨f, rfl⟩ : ∃ f, fuel = f + 1 := ⟨fuel - 1, by omega⟩
    obtain rfl : i = 0 := by omega
    rfl
  | succ n ih =>
    intro fuel i hf hi
    obtain ⟨f, rfl⟩ : ∃ f, fuel = f + 1 := ⟨fuel - 1, by omega⟩
    have e : 2 ^ (n + 1 + 1) = 2 * 2 ^ (n + 1) := by ring
    have hb := revBits_lt (n + 1) (i / 2)
    rcases Nat.mod_two_eq_zero_or_one i with h | h
    · have h1 : (i + 1) % 2 = 1 := by omega
      have h2 : (i + 1) / 2 = i / 2 := by omega
      have e1 : revBits (n + 1 + 1) i = revBits (n + 1) (i / 2) := by
        conv_lhs => unfold revBits
        rw [h]; omega
      have e2 : revBits (n + 1 + 1) (i + 1) = 2 ^ (n + 1) + revBits (n + 1) (i / 2) := by
        conv_lhs => unfold revBits
        rw [h1, h2]; omega
      rw [bitRevNext, e1, e2, if_neg (by omega)]; omega
    · have h1 : (i + 1) % 2 = 0 := by omega
      have h2 : (i + 1) / 2 = i / 2 + 1 := by omega
      have e1 : revBits (n + 1 + 1) i = 2 ^ (n + 1) + revBits (n + 1) (i / 2) := by
        conv_lhs => unfold revBits
        rw [h]; omega
      have e2 : revBits (n + 1 + 1) (i + 1) = revBits (n + 1) (i / 2 + 1) := by
        conv_lhs => unfold revBits
        rw [h1, h2]; omega
      rw [bitRevNext, e1, e2, if_pos (by omega), Nat.add_sub_cancel_left]
      rw [show 2 ^ (n + 1) / 2 = 2 ^ n by rw [pow_succ]; omega]
      exact ih f (i / 2) (by omega) (by omega)

theorem cSliceBitReverseLoop_spec {n : ℕ} (x : List K) (hx : 2 ^ n ≤ x.length) (m : ℕ) (hm : m < 2 ^ n) :
    (cSliceBitReverseLoop (2 ^ n) m x).1 = revBits n m ∧
    (cSliceBitReverseLoop (2 ^ n) m x).2.length = x.length ∧
    ∀ k, (cSliceBitReverseLoop (2 ^ n) m x).2.getD k 0 =
      if k < 2 ^ n ∧ (k ≤ m ∨ revBits n k ≤ m) then x.getD (revBits n k) 0 else x.getD k 0 := by
  induction m with
  | zero =>
    refine ⟨(revBits_zero n).symm, rfl, fun k => ?_⟩
    split
    · rename_i h
      have hk : k = 0 := by
        rcases h.2 with h2 | h2
        · omega
        · have : revBits n k = 0 := by omega
          have e := revBits_involutive n k h.1
          rw [this, revBits_zero] at e
          exact e.symm
      subst hk
      rw [revBits_zero]; rfl
    · rfl
  | succ m ih =>
    obtain ⟨h1, h2, h3⟩ := ih (by omega)
    have hn : n ≠ 0 := by rintro rfl; omega
    obtain ⟨n', rfl⟩ : ∃ n', n = n' + 1 := ⟨n - 1, by omega⟩
    have hstep : cSliceBitReverseLoop (2 ^ (n' + 1)) (m + 1) x =
        (bitRevNext (2 ^ (n' + 1)) (cSliceBitReverseLoop (2 ^ (n' + 1)) m x).1 (2 ^ (n' + 1) / 2),
          if m + 1 < bitRevNext (2 ^ (n' + 1)) (cSliceBitReverseLoop (2 ^ (n' + 1)) m x).1 (2 ^ (n' + 1) / 2) then
            ((cSliceBitReverseLoop (2 ^ (n' + 1)) m x).2.set (m + 1)
              ((cSliceBitReverseLoop (2 ^ (n' + 1)) m x).2.getD
                (bitRevNext (2 ^ (n' + 1)) (cSliceBitReverseLoop (2 ^ (n' + 1)) m x).1 (2 ^ (n' + 1) / 2)) 0)).set
              (bitRevNext (2 ^ (n' + 1)) (cSliceBitReverseLoop (2 ^ (n' + 1)) m x).1 (2 ^ (n' + 1) / 2))
              ((cSliceBitReverseLoop (2 ^ (n' + 1)) m x).2.getD (m + 1) 0)
          else (cSliceBitReverseLoop (2 ^ (n' + 1)) m x).2) := by
      unfold cSliceBitReverseLoop
      rw [List.range_succ, List.foldl_append]
      rfl
    have hj : bitRevNext (2 ^ (n' + 1)) (cSliceBitReverseLoop (2 ^ (n' + 1)) m x).1 (2 ^ (n' + 1) / 2)
        = revBits (n' + 1) (m + 1) := by
      rw [h1, show 2 ^ (n' + 1) / 2 = 2 ^ n' by rw [pow_succ]; omega]
      exact bitRevNext_spec n' _ m (lt_trans (Nat.lt_succ_self _) Nat.lt_two_pow_self) hm
    rw [hj] at hstep
    rw [hstep]
    have hjlt := revBits_lt (n' + 1) (m + 1)
    have hinv := revBits_involutive (n' + 1) (m + 1) hm
    generalize hjj : revBits (n' + 1) (m + 1) = j at *
    refine ⟨rfl, ?_, fun k => ?_⟩
    · dsimp only
      split <;> simp [h2]
    · dsimp only
      by_cases hlt : m + 1 < j
      · rw [if_pos hlt, getD_set, getD_set, List.length_set, h2, h3, h3]
        by_cases c1 : k = j
        · subst c1
          rw [if_pos ⟨rfl, by omega⟩, if_neg, if_pos ⟨hjlt, Or.inr (by omega)⟩, hinv]
          rintro ⟨-, h | h⟩ <;> omega
        · rw [if_neg (by tauto)]
          by_cases c2 : k = m + 1
          · subst c2
            rw [if_pos ⟨rfl, by omega⟩, if_neg, if_pos ⟨hm, Or.inl le_rfl⟩, hjj]
            rintro ⟨-, h | h⟩ <;> omega
          · rw [if_neg (by tauto), h3]
            have : (k < 2 ^ (n' + 1) ∧ (k ≤ m + 1 ∨ revBits (n' + 1) k ≤ m + 1)) ↔
                (k < 2 ^ (n' + 1) ∧ (k ≤ m ∨ revBits (n' + 1) k ≤ m)) := by
              constructor
              · rintro ⟨a, b⟩
                refine ⟨a, ?_⟩
                rcases b with b | b
                · left; omega
                · right
                  by_contra hc
                  have e : revBits (n' + 1) k = m + 1 := by omega
                  have := revBits_involutive (n' + 1) k a
                  rw [e, hjj] at this
                  exact c1 this.symm
              · rintro ⟨a, b⟩
                exact ⟨a, by omega⟩
            simp only [this]
      · rw [if_neg hlt, h3]
        by_cases c : k = j ∨ k = m + 1
        · have hr : revBits (n' + 1) k ≤ m + 1 ∧ k ≤ m + 1 ∧ k < 2 ^ (n' + 1) := by
            rcases c with rfl | rfl
            · rw [hinv]; omega
            · rw [hjj]; omega
          rw [if_pos (c := k < 2 ^ (n' + 1) ∧ (k ≤ m + 1 ∨ revBits (n' + 1) k ≤ m + 1)) ⟨hr.2.2, Or.inl hr.2.1⟩]
          by_cases hjm : j = m + 1
          · have hk : k = m + 1 := by omega
            have : revBits (n' + 1) k = k := by rw [hk, hjj, hjm]
            rw [this, ite_self]
          · rw [if_pos]
            refine ⟨hr.2.2, ?_⟩
            rcases c with rfl | rfl
            · left; omega
            · right; rw [hjj]; omega
        · have : (k < 2 ^ (n' + 1) ∧ (k ≤ m + 1 ∨ revBits (n' + 1) k ≤ m + 1)) ↔
              (k < 2 ^ (n' + 1) ∧ (k ≤ m ∨ revBits (n' + 1) k ≤ m)) := by
            constructor
            · rintro ⟨a, b⟩
              refine ⟨a, ?_⟩
              rcases b with b | b
              · left; omega
              · right
                by_contra hc
                have e : revBits (n' + 1) k = m + 1 := by omega
                have := revBits_involutive (n' + 1) k a
                rw [e, hjj] at this
                exact c (Or.inl this.symm)
            · rintro ⟨a, b⟩
              exact ⟨a, by omega⟩
          simp only [this]

/-- the in-place loop is the bit-reversal permutation of the first `2^n` values -/
theorem cSliceBitReverse_spec {n : ℕ} (x : List K) (hx : 2 ^ n ≤ x.length) :
    (cSliceBitReverse (2 ^ n) x).length = x.length ∧
    ∀ k, (cSliceBitReverse (2 ^ n) x).getD k 0 = if k < 2 ^ n then x.getD (revBits n k) 0 else x.getD k 0 := by
  have hp := Nat.two_pow_pos n
  obtain ⟨-, h2, h3⟩ := cSliceBitReverseLoop_spec x hx (2 ^ n - 1) (by omega)
  refine ⟨h2, fun k => ?_⟩
  unfold cSliceBitReverse
  rw [h3]
  have : (k < 2 ^ n ∧ (k ≤ 2 ^ n - 1 ∨ revBits n k ≤ 2 ^ n - 1)) ↔ k < 2 ^ n := by omega
  simp only [this]

/-! ### One layer -/

/-- the value written at position `k` -/
def layerFn (bf : K → K → K → K × K) (w : ℕ → K) (t : ℕ) (f : ℕ → K) (k : ℕ) : K :=
  if k % (2 * t) < t then (bf (f k) (f (k + t)) (w (k % (2 * t)))).1
  else (bf (f (k - t)) (f k) (w (k % (2 * t) - t))).2

/-- inner loop of a layer, `n` iterations -/
def fftInner (bf : K → K → K → K × K) (w : ℕ → K) (b t n : ℕ) (x : List K) : List K :=
  (List.range n).foldl (fun x j =>
      let k := b + j
      let r := bf (x.getD k 0) (x.getD (k + t) 0) (w j)
      (x.set k r.1).set (k + t) r.2) x

omit [Zero K] in
theorem foldl_len {α : Type} (l : List α) (f : List K → α → List K)
    (h : ∀ x a, (f x a).length = x.length) (x : List K) : (l.foldl f x).length = x.length := by
  induction l generalizing x with
  | nil => rfl
  | cons a l ih => rw [List.foldl_cons, ih, h]

theorem fftInner_length (bf : K → K → K → K × K) (w : ℕ → K) (b t n : ℕ) (x : List K) :
    (fftInner bf w b t n x).length = x.length := foldl_len _ _ (fun x a => by simp) x

theorem fftInner_at (bf : K → K → K → K × K) (w : ℕ → K) (b t n : ℕ) (x : List K) (hn : n ≤ t)
    (hl : b + 2 * t ≤ x.length) (k : ℕ) :
    (fftInner bf w b t n x).getD k 0 =
      if b ≤ k ∧ k < b + n then (bf (x.getD k 0) (x.getD (k + t) 0) (w (k - b))).1
      else if b + t ≤ k ∧ k < b + t + n then (bf (x.getD (k - t) 0) (x.getD k 0) (w (k - t - b))).2
      else x.getD k 0 := by
  induction n generalizing k with
  | zero => rw [if_neg (by omega), if_neg (by omega)]; rfl
  | succ n ih =>
    have hstep : fftInner bf w b t (n + 1) x =
        ((fftInner bf w b t n x).set (b + n)
          (bf ((fftInner bf w b t n x).getD (b + n) 0) ((fftInner bf w b t n x).getD (b + n + t) 0) (w n)).1).set
          (b + n + t)
          (bf ((fftInner bf w b t n x).getD (b + n) 0) ((fftInner bf w b t n x).getD (b + n + t) 0) (w n)).2 := by
      unfold fftInner
      rw [List.range_succ, List.foldl_append]
      rfl
    have h1 : (fftInner bf w b t n x).getD (b + n) 0 = x.getD (b + n) 0 := by
      rw [ih (by omega), if_neg (by omega), if_neg (by omega)]
    have h2 : (fftInner bf w b t n x).getD (b + n + t) 0 = x.getD (b + n + t) 0 := by
      rw [ih (by omega), if_neg (by omega), if_neg (by omega)]
    rw [hstep, h1, h2, getD_set, getD_set, List.length_set, fftInner_length]
    by_cases c1 : k = b + n + t
    · rw [if_pos (by omega), if_neg (by omega), if_pos (by omega)]
      subst c1
      rw [show b + n + t - t = b + n by omega, show b + n - b = n by omega]
    · rw [if_neg (by omega)]
      by_cases c2 : k = b + n
      · rw [if_pos (by omega), if_pos (by omega)]
        subst c2
        rw [show b + n - b = n by omega]
      · rw [if_neg (by omega), ih (by omega)]
        have e1 : (b ≤ k ∧ k < b + (n + 1)) ↔ (b ≤ k ∧ k < b + n) := by omega
        have e2 : (b + t ≤ k ∧ k < b + t + (n + 1)) ↔ (b + t ≤ k ∧ k < b + t + n) := by omega
        simp only [e1, e2]

theorem fftLayer_eq (bf : K → K → K → K × K) (w : ℕ → K) (nb t : ℕ) (x : List K) :
    fftLayer bf w nb t x = (List.range nb).foldl (fun x b => fftInner bf w (b * (2 * t)) t t x) x := rfl

theorem fftLayer_length (bf : K → K → K → K × K) (w : ℕ → K) (nb t : ℕ) (x : List K) :
    (fftLayer bf w nb t x).length = x.length := by
  rw [fftLayer_eq]
  exact foldl_len _ _ (fun x a => fftInner_length ..) x

theorem fftLayer_at (bf : K → K → K → K × K) (w : ℕ → K) (nb t : ℕ) (x : List K) (ht : 0 < t)
    (hl : nb * (2 * t) ≤ x.length) (k : ℕ) :
    (fftLayer bf w nb t x).getD k 0 =
      if k < nb * (2 * t) then layerFn bf w t (fun i => x.getD i 0) k else x.getD k 0 := by
  induction nb generalizing k with
  | zero => simp [fftLayer]
  | succ n ih =>
    have hstep : fftLayer bf w (n + 1) t x = fftInner bf w (n * (2 * t)) t t (fftLayer bf w n t x) := by
      rw [fftLayer_eq, fftLayer_eq, List.range_succ, List.foldl_append]; rfl
    have e' : (n + 1) * (2 * t) = n * (2 * t) + 2 * t := by ring
    rw [hstep, fftInner_at _ _ _ _ _ _ le_rfl (by rw [fftLayer_length]; omega)]
    have ih' := ih (by omega)
    by_cases hlow : k < n * (2 * t)
    · rw [if_neg (by omega), if_neg (by omega), ih', if_pos hlow, if_pos (by omega)]
    · by_cases hhi : k < (n + 1) * (2 * t)
      · rw [if_pos hhi]
        have hdiv : k / (2 * t) = n := by
          apply Nat.div_eq_of_lt_le <;> omega
        have hmod : k % (2 * t) = k - n * (2 * t) := by
          have := Nat.div_add_mod k (2 * t)
          rw [hdiv] at this
          have e3 : 2 * t * n = n * (2 * t) := by ring
          omega
        unfold layerFn
        rw [hmod]
        by_cases hc : k - n * (2 * t) < t
        · rw [if_pos (by omega), if_pos hc, ih', ih', if_neg hlow, if_neg (by omega)]
        · rw [if_neg (by omega), if_pos (by omega), if_neg hc, ih', ih', if_neg hlow,
            if_neg (by omega)]
          rw [show k - t - n * (2 * t) = k - n * (2 * t) - t by omega]
      · rw [if_neg (by omega), if_neg (by omega), ih', if_neg hlow, if_neg hhi]

end

variable {K : Type} [Field K]

/-! ### The forward transform -/

/-- memory that the functions may touch: groups of 16 values in the unrolled functions -/
def fftCap (unrolled : Bool) (N : ℕ) : ℕ := if unrolled then (N + 15) / 16 * 16 else N

theorem fftBlocks_bounds (unrolled : Bool) {n l : ℕ} (hl : l < n) :
    2 ^ n ≤ fftBlocks unrolled (2 ^ n) (2 ^ (l + 1)) * (2 * 2 ^ l) ∧
    fftBlocks unrolled (2 ^ n) (2 ^ (l + 1)) * (2 * 2 ^ l) ≤ fftCap unrolled (2 ^ n) := by
  have e : 2 * 2 ^ l = 2 ^ (l + 1) := by ring
  rw [e]
  have hdvd : 2 ^ (l + 1) ∣ 2 ^ n := pow_dvd_pow 2 hl
  unfold fftBlocks fftCap
  by_cases h : (unrolled && decide (2 ^ (l + 1) ≤ 16)) = true
  · rw [if_pos h]
    simp only [Bool.and_eq_true, decide_eq_true_eq] at h
    rw [if_pos h.1]
    have h16 : 2 ^ (l + 1) ∣ 16 := by
      have : l + 1 ≤ 4 := by
        by_contra hc
        have : 2 ^ 5 ≤ 2 ^ (l + 1) := Nat.pow_le_pow_right (by omega) (by omega)
        omega
      exact pow_dvd_pow 2 this
    rw [Nat.div_mul_cancel (Dvd.dvd.mul_left h16 _)]
    omega
  · rw [if_neg h, Nat.div_mul_cancel hdvd]
    refine ⟨le_rfl, ?_⟩
    split <;> omega

theorem rotGroup_eq {M : ℕ} (hM : 1 < M) (j : ℕ) : rotGroup M j = 5 ^ j % M := by
  induction j with
  | zero => rw [rotGroup, pow_zero, Nat.mod_eq_of_lt hM]
  | succ j ih => rw [rotGroup, ih, pow_succ, Nat.mod_mul_mod]

/-- what the table of the encoder provides -/
structure RootTable (M : ℕ) (roots : ℕ → K) (ζ : K) : Prop where
  eq : ∀ i < M, roots i = ζ ^ i
  half : ζ ^ (M / 2) = -1

/-- the root of unity of order `4 * 2^l` -/
def zRoot (ζ : K) (M l : ℕ) : K := ζ ^ (M / (4 * 2 ^ l))

section
variable {n d : ℕ} {roots : ℕ → K} {ζ : K} (T : RootTable (2 ^ (n + 2 + d)) roots ζ)
include T

omit T in
theorem gap_eq {l : ℕ} (hl : l ≤ n) : 2 ^ (n + 2 + d) / (4 * 2 ^ l) = 2 ^ (n - l + d) := by
  have : 2 ^ (n + 2 + d) = 2 ^ (n - l + d) * (4 * 2 ^ l) := by
    rw [show (4 : ℕ) = 2 ^ 2 by norm_num, ← pow_add, ← pow_add]
    congr 1; omega
  rw [this, Nat.mul_div_cancel _ (by positivity)]

omit T in
theorem zRoot_sq {l : ℕ} (hl : l < n) :
    zRoot ζ (2 ^ (n + 2 + d)) (l + 1) ^ 2 = zRoot ζ (2 ^ (n + 2 + d)) l := by
  unfold zRoot
  rw [gap_eq (by omega), gap_eq (by omega), ← pow_mul]
  congr 1
  rw [← pow_succ]
  congr 1; omega

theorem zRoot_half {l : ℕ} (hl : l ≤ n) : zRoot ζ (2 ^ (n + 2 + d)) l ^ (2 * 2 ^ l) = -1 := by
  have h := T.half
  unfold zRoot
  rw [gap_eq hl, ← pow_mul, ← h]
  congr 1
  have : 2 ^ (n + 2 + d) = 2 * (2 ^ (n - l + d) * (2 * 2 ^ l)) := by
    rw [show 2 * (2 ^ (n - l + d) * (2 * 2 ^ l)) = 2 ^ 2 * 2 ^ (n - l + d) * 2 ^ l by ring, ← pow_add, ← pow_add]
    congr 1; omega
  rw [this, Nat.mul_div_cancel_left _ (by omega)]

theorem zRoot_order {l : ℕ} (hl : l ≤ n) : zRoot ζ (2 ^ (n + 2 + d)) l ^ (4 * 2 ^ l) = 1 := by
  rw [show 4 * 2 ^ l = 2 * 2 ^ l * 2 by ring, pow_mul, zRoot_half T hl]; norm_num

omit T in
theorem pow_mod_of {z : K} {m : ℕ} (h : z ^ m = 1) (a : ℕ) : z ^ (a % m) = z ^ a := by
  conv_rhs => rw [← Nat.div_add_mod a m, pow_add, pow_mul, h, one_pow, one_mul]

theorem fftRoot_eq {l : ℕ} (hl : l ≤ n) (j : ℕ) :
    fftRoot roots (2 ^ (n + 2 + d)) (2 ^ l) j = zRoot ζ (2 ^ (n + 2 + d)) l ^ (5 ^ j) := by
  have hM : 1 < 2 ^ (n + 2 + d) := Nat.one_lt_two_pow (by omega)
  have hd : 4 * 2 ^ l ∣ 2 ^ (n + 2 + d) := by
    rw [show 4 * 2 ^ l = 2 ^ (l + 2) by ring]
    exact pow_dvd_pow 2 (by omega)
  unfold fftRoot
  rw [rotGroup_eq hM, Nat.mod_mod_of_dvd _ hd, T.eq, mul_comm, pow_mul]
  · exact pow_mod_of (zRoot_order T hl) _
  · have h1 : 5 ^ j % (4 * 2 ^ l) < 4 * 2 ^ l := Nat.mod_lt _ (by positivity)
    calc _ < 4 * 2 ^ l * (2 ^ (n + 2 + d) / (4 * 2 ^ l)) :=
          Nat.mul_lt_mul_of_pos_right h1 (by rw [gap_eq hl]; positivity)
      _ = _ := Nat.mul_div_cancel' hd

theorem ifftRoot_eq {l : ℕ} (hl : l ≤ n) (j : ℕ) :
    ifftRoot roots (2 ^ (n + 2 + d)) (2 ^ l) j * zRoot ζ (2 ^ (n + 2 + d)) l ^ (5 ^ j) = 1 := by
  have hM : 1 < 2 ^ (n + 2 + d) := Nat.one_lt_two_pow (by omega)
  have hd : 4 * 2 ^ l ∣ 2 ^ (n + 2 + d) := by
    rw [show 4 * 2 ^ l = 2 ^ (l + 2) by ring]
    exact pow_dvd_pow 2 (by omega)
  have h1 : 5 ^ j % (4 * 2 ^ l) < 4 * 2 ^ l := Nat.mod_lt _ (by positivity)
  have h0 : 0 < 5 ^ j % (4 * 2 ^ l) := by
    rw [Nat.pos_iff_ne_zero]
    intro h
    have h2 : 2 ∣ 5 ^ j := dvd_trans ⟨2 * 2 ^ l, by ring⟩ (Nat.dvd_of_mod_eq_zero h)
    exact absurd ((Odd.pow (n := j) (by decide : Odd 5)).not_two_dvd_nat) (not_not_intro h2)
  unfold ifftRoot
  rw [rotGroup_eq hM, Nat.mod_mod_of_dvd _ hd, T.eq, mul_comm (4 * 2 ^ l - _), pow_mul,
    ← pow_mod_of (zRoot_order T hl) (5 ^ j)]
  · rw [show ζ ^ (2 ^ (n + 2 + d) / (4 * 2 ^ l)) = zRoot ζ (2 ^ (n + 2 + d)) l from rfl, ← pow_add,
      Nat.sub_add_cancel h1.le]
    exact zRoot_order T hl
  · calc _ < 4 * 2 ^ l * (2 ^ (n + 2 + d) / (4 * 2 ^ l)) :=
          Nat.mul_lt_mul_of_pos_right (by omega) (by rw [gap_eq hl]; positivity)
      _ = _ := Nat.mul_div_cancel' hd

omit T in
theorem five_pow (l : ℕ) : ∃ t, 5 ^ 2 ^ l = 1 + 2 * 2 ^ (l + 1) * (2 * t + 1) := by
  induction l with
  | zero => exact ⟨0, by norm_num⟩
  | succ l ih =>
    obtain ⟨t, ht⟩ := ih
    refine ⟨t + 2 ^ l * (2 * t + 1) ^ 2, ?_⟩
    rw [pow_succ 2 l, pow_mul, ht]
    ring

/-- the second half of the exponents: `5^(j + 2^l)` turns the twiddle of order `8 * 2^l` into its opposite -/
theorem zRoot_shift {l : ℕ} (hl : l < n) (j : ℕ) :
    zRoot ζ (2 ^ (n + 2 + d)) (l + 1) ^ 5 ^ (j + 2 ^ l) = -zRoot ζ (2 ^ (n + 2 + d)) (l + 1) ^ 5 ^ j := by
  obtain ⟨t, ht⟩ := five_pow l
  have h := zRoot_half T (show l + 1 ≤ n by omega)
  have hodd : Odd (5 ^ j * (2 * t + 1)) := Odd.mul (Odd.pow (by decide)) ⟨t, rfl⟩
  rw [pow_add 5, ht, show 5 ^ j * (1 + 2 * 2 ^ (l + 1) * (2 * t + 1)) =
    5 ^ j + 2 * 2 ^ (l + 1) * (5 ^ j * (2 * t + 1)) by ring, pow_add, pow_mul, h, hodd.neg_one_pow]
  ring

/-- one layer lower the exponents repeat -/
theorem zRoot_period {l : ℕ} (hl : l ≤ n) (j : ℕ) :
    zRoot ζ (2 ^ (n + 2 + d)) l ^ 5 ^ (j + 2 ^ l) = zRoot ζ (2 ^ (n + 2 + d)) l ^ 5 ^ j := by
  obtain ⟨t, ht⟩ := five_pow l
  rw [pow_add 5, ht, show 5 ^ j * (1 + 2 * 2 ^ (l + 1) * (2 * t + 1)) =
    5 ^ j + 4 * 2 ^ l * (5 ^ j * (2 * t + 1)) by ring, pow_add, pow_mul, zRoot_order T hl]
  simp

omit [Field K] T in
theorem sum_range_two_mul {R : Type} [AddCommMonoid R] (f : ℕ → R) (m : ℕ) :
    ∑ i ∈ range (2 * m), f i = ∑ i ∈ range m, (f (2 * i) + f (2 * i + 1)) := by
  induction m with
  | zero => simp
  | succ m ih => rw [show 2 * (m + 1) = 2 * m + 1 + 1 by ring, sum_range_succ, sum_range_succ, ih, sum_range_succ, add_assoc]

omit T in
theorem fftLayers_length (unrolled : Bool) (l : ℕ) (x : List K) :
    (fftLayers unrolled (2 ^ n) (2 ^ (n + 2 + d)) roots l x).length = x.length := by
  induction l with
  | zero => rfl
  | succ l ih => rw [fftLayers, fftLayer_length, ih]

/-- after the layers up to blocks of `2^l` values, block `k / 2^l` holds the evaluations of the polynomial whose
coefficients are the bit-reversed values of the block -/
theorem fftLayers_at (unrolled : Bool) (x : List K) (hx : fftCap unrolled (2 ^ n) ≤ x.length) (l : ℕ) (hl : l ≤ n) :
    ∀ k < 2 ^ n, (fftLayers unrolled (2 ^ n) (2 ^ (n + 2 + d)) roots l x).getD k 0 =
      ∑ i ∈ range (2 ^ l), x.getD (k / 2 ^ l * 2 ^ l + revBits l i) 0 *
        zRoot ζ (2 ^ (n + 2 + d)) l ^ (5 ^ (k % 2 ^ l) * i) := by
  induction l with
  | zero =>
    intro k hk
    simp [fftLayers, revBits]
  | succ l ih =>
    intro k hk
    have ih := ih (by omega)
    obtain ⟨b1, b2⟩ := fftBlocks_bounds unrolled (show l < n by omega)
    have hlen := fftLayers_length (n := n) (d := d) (roots := roots) unrolled l x
    have hp := Nat.two_pow_pos l
    rw [fftLayers, fftLayer_at _ _ _ _ _ hp (by omega), if_pos (by omega)]
    have e2 : 2 ^ (l + 1) = 2 * 2 ^ l := by ring
    -- split the sum into even and odd indices
    have hsplit : ∀ (base : ℕ) (w : K), (∑ i ∈ range (2 ^ (l + 1)), x.getD (base + revBits (l + 1) i) 0 * w ^ i) =
        (∑ i ∈ range (2 ^ l), x.getD (base + revBits l i) 0 * (w ^ 2) ^ i) +
        (∑ i ∈ range (2 ^ l), x.getD (base + 2 ^ l + revBits l i) 0 * (w ^ 2) ^ i) * w := by
      intro base w
      rw [e2, sum_range_two_mul, Finset.sum_mul, ← Finset.sum_add_distrib]
      refine Finset.sum_congr rfl fun i _ => ?_
      have r0 : revBits (l + 1) (2 * i) = revBits l i := by simp [revBits]
      have r1 : revBits (l + 1) (2 * i + 1) = 2 ^ l + revBits l i := by
        have : (2 * i + 1) / 2 = i := by omega
        have h1 : (2 * i + 1) % 2 = 1 := by omega
        simp [revBits, this, h1]
      rw [r0, r1, ← add_assoc, pow_succ, pow_mul]
      ring
    have hz := zRoot_sq (ζ := ζ) (d := d) (show l < n by omega)
    have hsum : ∀ (j : ℕ), (∑ i ∈ range (2 ^ (l + 1)), x.getD (k / 2 ^ (l + 1) * 2 ^ (l + 1) + revBits (l + 1) i) 0 *
        zRoot ζ (2 ^ (n + 2 + d)) (l + 1) ^ (5 ^ j * i)) =
        (∑ i ∈ range (2 ^ l), x.getD (k / 2 ^ (l + 1) * 2 ^ (l + 1) + revBits l i) 0 *
          zRoot ζ (2 ^ (n + 2 + d)) l ^ (5 ^ j * i)) +
        (∑ i ∈ range (2 ^ l), x.getD (k / 2 ^ (l + 1) * 2 ^ (l + 1) + 2 ^ l + revBits l i) 0 *
          zRoot ζ (2 ^ (n + 2 + d)) l ^ (5 ^ j * i)) * zRoot ζ (2 ^ (n + 2 + d)) (l + 1) ^ 5 ^ j := by
      intro j
      simp only [pow_mul _ (5 ^ j)]
      rw [hsplit]
      have : (zRoot ζ (2 ^ (n + 2 + d)) (l + 1) ^ 5 ^ j) ^ 2 = zRoot ζ (2 ^ (n + 2 + d)) l ^ 5 ^ j := by
        rw [← hz, ← pow_mul, ← pow_mul, mul_comm]
      rw [this]
    set B := k / 2 ^ (l + 1) with hB
    have hk' : k = B * (2 * 2 ^ l) + k % 2 ^ (l + 1) := by
      rw [← e2]; exact (Nat.div_add_mod' k _).symm
    have hkm : k % 2 ^ (l + 1) < 2 * 2 ^ l := by rw [← e2]; exact Nat.mod_lt _ (by positivity)
    have hBn : B * (2 * 2 ^ l) + 2 * 2 ^ l ≤ 2 ^ n := by
      have hd : 2 ^ n = 2 ^ (n - (l + 1)) * (2 * 2 ^ l) := by rw [← e2, ← pow_add]; congr 1; omega
      have : B < 2 ^ (n - (l + 1)) := by
        by_contra hc
        have := Nat.mul_le_mul_right (2 * 2 ^ l) (not_lt.mp hc)
        omega
      have := Nat.mul_le_mul_right (2 * 2 ^ l) (Nat.succ_le_of_lt this)
      rw [Nat.succ_mul] at this
      omega
    have key : ∀ (j h : ℕ), j < 2 ^ l → h < 2 → (B * (2 * 2 ^ l) + h * 2 ^ l + j) / 2 ^ l * 2 ^ l =
        B * (2 * 2 ^ l) + h * 2 ^ l ∧ (B * (2 * 2 ^ l) + h * 2 ^ l + j) % 2 ^ l = j := by
      intro j h hj _
      have e : B * (2 * 2 ^ l) + h * 2 ^ l + j = j + 2 ^ l * (B * 2 + h) := by ring
      rw [e, Nat.add_mul_div_left _ _ hp, Nat.add_mul_mod_self_left, Nat.div_eq_of_lt hj, Nat.mod_eq_of_lt hj]
      exact ⟨by ring, rfl⟩
    unfold layerFn
    rw [← e2]
    set j := k % 2 ^ (l + 1) with hj
    by_cases hlt : j < 2 ^ l
    · rw [if_pos hlt]
      dsimp only
      have k0 := key j 0 hlt (by omega)
      have k1 := key j 1 hlt (by omega)
      have ek : k = B * (2 * 2 ^ l) + 0 * 2 ^ l + j := by omega
      have ek1 : k + 2 ^ l = B * (2 * 2 ^ l) + 1 * 2 ^ l + j := by omega
      have v0 := ih k hk
      have v1 := ih (k + 2 ^ l) (by omega)
      rw [show k / 2 ^ l * 2 ^ l = B * (2 * 2 ^ l) by rw [ek, k0.1]; ring,
        show k % 2 ^ l = j by rw [ek, k0.2]] at v0
      rw [ek1, k1.1, k1.2, ← ek1, one_mul] at v1
      rw [v0, v1, hsum, fftRoot_eq T (by omega), e2]
    · rw [if_neg hlt]
      dsimp only
      obtain ⟨j', hj'⟩ : ∃ j', j = j' + 2 ^ l := ⟨j - 2 ^ l, by omega⟩
      have hlt' : j' < 2 ^ l := by omega
      have k0 := key j' 0 hlt' (by omega)
      have k1 := key j' 1 hlt' (by omega)
      have ek : k = B * (2 * 2 ^ l) + 1 * 2 ^ l + j' := by omega
      have ek1 : k - 2 ^ l = B * (2 * 2 ^ l) + 0 * 2 ^ l + j' := by omega
      have hs := hsum (j' + 2 ^ l)
      rw [zRoot_shift T (by omega)] at hs
      have hper : ∀ i, zRoot ζ (2 ^ (n + 2 + d)) l ^ (5 ^ (j' + 2 ^ l) * i) =
          zRoot ζ (2 ^ (n + 2 + d)) l ^ (5 ^ j' * i) := by
        intro i
        rw [pow_mul, pow_mul, zRoot_period T (by omega)]
      simp only [hper] at hs
      have v0 := ih (k - 2 ^ l) (by omega)
      have v1 := ih k hk
      rw [ek1, k0.1, k0.2, zero_mul, add_zero, ← (show k - 2 ^ l = B * (2 * 2 ^ l) + j' by omega)] at v0
      rw [show k / 2 ^ l * 2 ^ l = B * (2 * 2 ^ l) + 2 ^ l by rw [ek, k1.1]; ring,
        show k % 2 ^ l = j' by rw [ek, k1.2]] at v1
      rw [show k - 2 ^ l = B * (2 * 2 ^ l) + j' by omega] at v0 ⊢
      rw [v0, v1, hj', hs, fftRoot_eq T (by omega), e2, Nat.add_sub_cancel]
      ring

omit T in
theorem ifftLayers_length (unrolled : Bool) (l : ℕ) (x : List K) :
    (ifftLayers unrolled (2 ^ n) (2 ^ (n + 2 + d)) roots l x).length = x.length := by
  induction l generalizing x with
  | zero => rfl
  | succ l ih => rw [ifftLayers, ih, fftLayer_length]

omit T in
theorem fftLayers_above (unrolled : Bool) (x : List K) (hx : fftCap unrolled (2 ^ n) ≤ x.length) (l : ℕ) (hl : l ≤ n)
    (k : ℕ) (hk : fftCap unrolled (2 ^ n) ≤ k) :
    (fftLayers unrolled (2 ^ n) (2 ^ (n + 2 + d)) roots l x).getD k 0 = x.getD k 0 := by
  induction l with
  | zero => rfl
  | succ l ih =>
    obtain ⟨b1, b2⟩ := fftBlocks_bounds unrolled (show l < n by omega)
    have hlen := fftLayers_length (n := n) (d := d) (roots := roots) unrolled l x
    rw [fftLayers, fftLayer_at _ _ _ _ _ (Nat.two_pow_pos l) (by omega), if_neg (by omega), ih (by omega)]

omit T in
theorem ifftLayers_above (unrolled : Bool) (l : ℕ) (hl : l ≤ n)
    (k : ℕ) (hk : fftCap unrolled (2 ^ n) ≤ k) (x : List K) (hx : fftCap unrolled (2 ^ n) ≤ x.length) :
    (ifftLayers unrolled (2 ^ n) (2 ^ (n + 2 + d)) roots l x).getD k 0 = x.getD k 0 := by
  induction l generalizing x with
  | zero => rfl
  | succ l ih =>
    obtain ⟨b1, b2⟩ := fftBlocks_bounds unrolled (show l < n by omega)
    rw [ifftLayers, ih (by omega) _ (by rw [fftLayer_length]; exact hx),
      fftLayer_at _ _ _ _ _ (Nat.two_pow_pos l) (by omega), if_neg (by omega)]

omit T in
/-- two opposite butterfly layers in a row -/
theorem layer_pair (t N : ℕ) (ht : 0 < t) (hN : 2 * t ∣ N) (bf bf' : K → K → K → K × K) (w w' : ℕ → K) (c a : K) (f g : ℕ → K)
    (hbf : ∀ j < t, ∀ u v, let r := bf u v (w j); bf' (c * r.1) (c * r.2) (w' j) = (a * u, a * v))
    (hg : ∀ k < N, g k = c * layerFn bf w t f k) (k : ℕ) (hk : k < N) :
    layerFn bf' w' t g k = a * f k := by
  obtain ⟨B, rfl⟩ := hN
  have hm : k % (2 * t) < 2 * t := Nat.mod_lt _ (by omega)
  have hdm := Nat.div_add_mod k (2 * t)
  have hB : k / (2 * t) < B := Nat.div_lt_of_lt_mul hk
  have hB' : 2 * t * (k / (2 * t)) + 2 * t ≤ 2 * t * B := by
    have := Nat.mul_le_mul_left (2 * t) (Nat.succ_le_of_lt hB)
    rwa [Nat.mul_succ] at this
  have hmod : ∀ j < 2 * t, (2 * t * (k / (2 * t)) + j) % (2 * t) = j := by
    intro j hj; rw [Nat.mul_add_mod, Nat.mod_eq_of_lt hj]
  set b := 2 * t * (k / (2 * t)) with hb
  have pair : ∀ j < t, g (b + j) = c * (bf (f (b + j)) (f (b + j + t)) (w j)).1 ∧
      g (b + j + t) = c * (bf (f (b + j)) (f (b + j + t)) (w j)).2 := by
    intro j hj
    rw [hg (b + j) (by omega), hg (b + j + t) (by omega)]
    unfold layerFn
    rw [hmod j (by omega), add_assoc b j t, hmod (j + t) (by omega), if_pos hj, if_neg (by omega), ← add_assoc,
      Nat.add_sub_cancel, Nat.add_sub_cancel]
    exact ⟨rfl, rfl⟩
  unfold layerFn
  by_cases hlt : k % (2 * t) < t
  · rw [if_pos hlt]
    have ek : k = b + k % (2 * t) := hdm.symm
    have p := pair _ hlt
    rw [← ek] at p
    rw [p.1, p.2]
    have := hbf _ hlt (f k) (f (k + t))
    dsimp only at this
    rw [this]
  · rw [if_neg hlt]
    have ek : k - t = b + (k % (2 * t) - t) := by omega
    have p := pair (k % (2 * t) - t) (by omega)
    rw [← ek, Nat.sub_add_cancel (by omega)] at p
    rw [p.1, p.2]
    have := hbf (k % (2 * t) - t) (by omega) (f (k - t)) (f k)
    dsimp only at this
    rw [this]

theorem ifft_fft_layers (u u' : Bool) (y : List K) (hy : fftCap u (2 ^ n) ≤ y.length) (l : ℕ) (hl : l ≤ n) :
    ∀ (c : K) (x : List K), fftCap u' (2 ^ n) ≤ x.length →
      (∀ k < 2 ^ n, x.getD k 0 = c * (fftLayers u (2 ^ n) (2 ^ (n + 2 + d)) roots l y).getD k 0) →
      ∀ k < 2 ^ n, (ifftLayers u' (2 ^ n) (2 ^ (n + 2 + d)) roots l x).getD k 0 = c * 2 ^ l * y.getD k 0 := by
  induction l with
  | zero => intro c x _ h k hk; rw [ifftLayers, h k hk, fftLayers]; ring
  | succ l ih =>
    intro c x hx h k hk
    obtain ⟨b1, b2⟩ := fftBlocks_bounds u' (show l < n by omega)
    obtain ⟨c1, c2⟩ := fftBlocks_bounds u (show l < n by omega)
    have hlen := fftLayers_length (n := n) (d := d) (roots := roots) u l y
    have hp := Nat.two_pow_pos l
    rw [ifftLayers, ih (by omega) (2 * c) _ (by rw [fftLayer_length]; exact hx) ?_ k hk]
    · ring
    · intro k hk
      rw [fftLayer_at _ _ _ _ _ hp (by omega), if_pos (by omega)]
      refine layer_pair (2 ^ l) (2 ^ n) hp ⟨2 ^ (n - (l + 1)), ?_⟩ (fun u v w => (u + v * w, u - v * w)) _
        (fftRoot roots (2 ^ (n + 2 + d)) (2 ^ (l + 1))) _ c _
        (fun i => (fftLayers u (2 ^ n) (2 ^ (n + 2 + d)) roots l y).getD i 0) _ ?_ ?_ k hk
      · rw [show 2 * 2 ^ l = 2 ^ (l + 1) by ring, ← pow_add]; congr 1; omega
      · intro j _ a b
        have hw := ifftRoot_eq T (show l + 1 ≤ n by omega) j
        rw [← fftRoot_eq T (by omega)] at hw
        dsimp only
        refine Prod.ext ?_ ?_
        · dsimp only; ring
        · dsimp only
          linear_combination (2 * c * b) * hw
      · intro k hk
        rw [h k hk, fftLayers, fftLayer_at _ _ _ _ _ hp (by omega), if_pos (by omega)]

theorem fft_ifft_layers (u u' : Bool) (l : ℕ) (hl : l ≤ n) :
    ∀ (c : K) (x y : List K), fftCap u' (2 ^ n) ≤ x.length → fftCap u (2 ^ n) ≤ y.length →
      (∀ k < 2 ^ n, y.getD k 0 = c * (ifftLayers u' (2 ^ n) (2 ^ (n + 2 + d)) roots l x).getD k 0) →
      ∀ k < 2 ^ n, (fftLayers u (2 ^ n) (2 ^ (n + 2 + d)) roots l y).getD k 0 = c * 2 ^ l * x.getD k 0 := by
  induction l with
  | zero => intro c x y _ _ h k hk; rw [fftLayers, h k hk, ifftLayers]; ring
  | succ l ih =>
    intro c x y hx hy h k hk
    obtain ⟨b1, b2⟩ := fftBlocks_bounds u' (show l < n by omega)
    obtain ⟨c1, c2⟩ := fftBlocks_bounds u (show l < n by omega)
    have hlen := fftLayers_length (n := n) (d := d) (roots := roots) u l y
    have hp := Nat.two_pow_pos l
    have ih' := ih (by omega) c _ y (by rw [fftLayer_length]; exact hx) hy h
    rw [fftLayers, fftLayer_at _ _ _ _ _ hp (by omega), if_pos (by omega)]
    refine layer_pair (2 ^ l) (2 ^ n) hp ⟨2 ^ (n - (l + 1)), ?_⟩ (fun u v w => (u + v, (u - v) * w)) _
      (ifftRoot roots (2 ^ (n + 2 + d)) (2 ^ (l + 1))) _ (c * 2 ^ l) _ (fun i => x.getD i 0) _ ?_ ?_ k hk
    · rw [show 2 * 2 ^ l = 2 ^ (l + 1) by ring, ← pow_add]; congr 1; omega
    · intro j _ a b
      have hw := ifftRoot_eq T (show l + 1 ≤ n by omega) j
      rw [← fftRoot_eq T (by omega)] at hw
      dsimp only
      refine Prod.ext ?_ ?_
      · dsimp only
        linear_combination (c * 2 ^ l * (a - b)) * hw
      · dsimp only
        linear_combination (-(c * 2 ^ l * (a - b))) * hw
    · intro k hk
      rw [ih' k hk, fftLayer_at _ _ _ _ _ hp (by omega), if_pos (by omega)]

omit T in
theorem len64_two_pow_pred (n : ℕ) : len64 (2 ^ n) - 1 = n := by
  rw [len64_two_pow]; rfl

/-- memory that `specialiFFT` may touch -/
def ifftCap (unrolled : Bool) (N len : ℕ) : ℕ := max (fftCap unrolled N) (if unrolled then (len + 7) / 8 * 8 else N)

/-- `specialFFT` evaluates -/
theorem specialFFT_at (u : Bool) (x : List K) (hx : fftCap u (2 ^ n) ≤ x.length) (j : ℕ) (hj : j < 2 ^ n) :
    (specialFFT u (2 ^ n) (2 ^ (n + 2 + d)) roots x).getD j 0 =
      ∑ k ∈ range (2 ^ n), x.getD k 0 * (ζ ^ 2 ^ d) ^ (5 ^ j * k) := by
  have hcap : 2 ^ n ≤ fftCap u (2 ^ n) := by unfold fftCap; split <;> omega
  obtain ⟨s1, s2⟩ := cSliceBitReverse_spec x (n := n) (by omega)
  unfold specialFFT
  rw [len64_two_pow_pred, fftLayers_at T u _ (by omega) n le_rfl j hj]
  refine Finset.sum_congr rfl fun i hi => ?_
  rw [Finset.mem_range] at hi
  rw [Nat.div_eq_of_lt hj, Nat.mod_eq_of_lt hj, zero_mul, zero_add, s2, if_pos (revBits_lt n i),
    revBits_involutive n i hi]
  unfold zRoot
  rw [gap_eq le_rfl, Nat.sub_self, zero_add]

omit T in
theorem specialFFT_length (u : Bool) (x : List K) (hx : 2 ^ n ≤ x.length) :
    (specialFFT u (2 ^ n) (2 ^ (n + 2 + d)) roots x).length = x.length := by
  unfold specialFFT
  rw [len64_two_pow_pred, fftLayers_length, (cSliceBitReverse_spec x hx).1]

omit T in
theorem specialFFT_above (u : Bool) (x : List K) (hx : fftCap u (2 ^ n) ≤ x.length) (k : ℕ) (hk : fftCap u (2 ^ n) ≤ k) :
    (specialFFT u (2 ^ n) (2 ^ (n + 2 + d)) roots x).getD k 0 = x.getD k 0 := by
  have hcap : 2 ^ n ≤ fftCap u (2 ^ n) := by unfold fftCap; split <;> omega
  obtain ⟨s1, s2⟩ := cSliceBitReverse_spec x (n := n) (by omega)
  unfold specialFFT
  rw [len64_two_pow_pred, fftLayers_above u _ (by omega) n le_rfl k hk, s2, if_neg (by omega)]

omit T in
theorem take_map_drop_at (m : ℕ) (f : K → K) (x : List K) (k : ℕ) (hk : k < x.length) :
    ((x.take m).map f ++ x.drop m).getD k 0 = if k < m then f (x.getD k 0) else x.getD k 0 := by
  by_cases h : k < m
  · rw [if_pos h, List.getD_append _ _ _ _ (by simp; omega), List.getD_eq_getElem _ _ (by simp; omega),
      List.getElem_map, List.getElem_take, List.getD_eq_getElem _ _ hk]
  · rw [if_neg h, List.getD_append_right _ _ _ _ (by simp; omega)]
    simp only [List.getD_eq_getElem?_getD, List.getElem?_drop, List.length_map, List.length_take]
    congr 2
    omega

omit T in
/-- the inverse transform: layers, division, bit reversal -/
theorem specialiFFT_at (u : Bool) (len : ℕ) (hlen : 2 ^ n ≤ len) (x : List K)
    (hx : ifftCap u (2 ^ n) len ≤ x.length) :
    (specialiFFT u (2 ^ n) (2 ^ (n + 2 + d)) roots len x).length = x.length ∧
    (∀ k < 2 ^ n, (specialiFFT u (2 ^ n) (2 ^ (n + 2 + d)) roots len x).getD k 0 =
      (ifftLayers u (2 ^ n) (2 ^ (n + 2 + d)) roots n x).getD (revBits n k) 0 / ((2 ^ n : ℕ) : K)) ∧
    ∀ k, ifftCap u (2 ^ n) len ≤ k →
      (specialiFFT u (2 ^ n) (2 ^ (n + 2 + d)) roots len x).getD k 0 = x.getD k 0 := by
  have hcap : 2 ^ n ≤ fftCap u (2 ^ n) := by unfold fftCap; split <;> omega
  unfold ifftCap at hx ⊢
  have hx1 := le_trans (le_max_left _ _) hx
  have hx2 := le_trans (le_max_right _ _) hx
  set m := if u then (len + 7) / 8 * 8 else 2 ^ n with hm
  have hmN : 2 ^ n ≤ m := by rw [hm]; split <;> omega
  set L := ifftLayers u (2 ^ n) (2 ^ (n + 2 + d)) roots n x with hL
  have hLlen : L.length = x.length := ifftLayers_length u n x
  have hdiv : specialiFFT u (2 ^ n) (2 ^ (n + 2 + d)) roots len x =
      cSliceBitReverse (2 ^ n) ((L.take m).map (· / ((2 ^ n : ℕ) : K)) ++ L.drop m) := by
    unfold specialiFFT
    rw [len64_two_pow_pred, hm]
    dsimp only
    cases u
    · simp [hL]
    · simp [hL, divideSlice]
  have hdl : ((L.take m).map (· / ((2 ^ n : ℕ) : K)) ++ L.drop m).length = x.length := by
    simp; omega
  obtain ⟨s1, s2⟩ := cSliceBitReverse_spec ((L.take m).map (· / ((2 ^ n : ℕ) : K)) ++ L.drop m) (n := n) (by omega)
  rw [hdiv]
  refine ⟨by rw [s1, hdl], fun k hk => ?_, fun k hk => ?_⟩
  · have hr := revBits_lt n k
    rw [s2, if_pos hk, take_map_drop_at _ _ _ _ (by omega), if_pos (by omega)]
  · have k1 := le_trans (le_max_left _ _) hk
    have k2 := le_trans (le_max_right _ _) hk
    rw [s2, if_neg (by omega)]
    by_cases hkl : k < x.length
    · rw [take_map_drop_at _ _ _ _ (by omega), if_neg (by omega), hL, ifftLayers_above u n le_rfl k k1 x hx1]
    · rw [List.getD_eq_default _ _ (by omega), List.getD_eq_default _ _ (by omega)]

end

end FastKsw
