import Verif.Lemmas.BigFFT
import Verif.Props.BigComplex
import Verif.Props.BigCos

/-!
# C99: the arbitrary precision encoder with the rounding of `big.Float`

C91 reads the encoder in exact arithmetic.  Here every operation of `big.Float` is rounded, and the table of roots is the
computed one.
-/

namespace FastKsw.Props

open FastKsw Finset

variable {u δ : ℝ} {rnd : ℝ → ℝ} {n d : ℕ} {roots : ℕ → ℝ × ℝ}

/-- the table holds the roots of unity up to `δ` -/
def TableNear (M : ℕ) (roots : ℕ → ℝ × ℝ) (δ : ℝ) : Prop := ∀ i ≤ M, ‖toC (roots i) - encRoots M i‖ ≤ δ

theorem TableNear.nonneg {M : ℕ} (h : TableNear M roots δ) : 0 ≤ δ := le_trans (norm_nonneg _) (h 0 (Nat.zero_le _))

/-- **C99 (table).** The table of `NewEncoderBigComplex` holds the roots of unity up to `15 (prec + 27)` units of `2^-prec`,
its last entry included. -/
theorem C99_table {prec m : ℕ} (h12 : 12 ≤ prec) (hlt : prec < 2 ^ 20) (hm : 8 * m ≤ 2 ^ prec) (hm0 : 0 < m) {pi : ℝ}
    (hpi : |pi - Real.pi| ≤ Real.pi / 2 ^ prec) : TableNear m (bigTable pi prec m) (15 * (prec + 27) / 2 ^ prec) := by
  have key : ∀ i < m, ‖toC (bigRoot pi prec m i) - encRoots m i‖ ≤ 15 * (prec + 27) / 2 ^ prec := by
    intro i hi
    obtain ⟨h1, h2⟩ := C90_table h12 hlt hm hi hpi
    rw [← toC_bigRoots]
    refine (Complex.norm_le_sqrt_two_mul_max _).trans ?_
    have hs2 : Real.sqrt 2 ≤ 1.5 := by rw [Real.sqrt_le_left (by norm_num)]; norm_num
    have hmax : max |(toC (bigRoot pi prec m i) - toC (bigRoots m i)).re| |(toC (bigRoot pi prec m i) - toC (bigRoots m i)).im| ≤
        10 * (prec + 27) / 2 ^ prec := max_le h1 h2
    refine (mul_le_mul hs2 hmax (le_trans (abs_nonneg _) (le_max_left _ _)) (by norm_num)).trans (le_of_eq ?_)
    ring
  intro i hi
  unfold bigTable
  by_cases h : i = m
  · subst h
    rw [if_pos rfl]
    have := key 0 hm0
    have e : encRoots i i = encRoots i 0 := by
      have hi0 : (i : ℝ) ≠ 0 := by exact_mod_cast hm0.ne'
      unfold encRoots
      rw [mul_div_assoc, div_self hi0]
      simp
    rw [e]; exact this
  · rw [if_neg h]
    exact key i (by omega)

/-! ### the transforms -/

theorem bcFFT_eq (m : ℕ) (x : List (ℝ × ℝ)) :
    bcFFT rnd m (2 ^ n) roots x = bLayers rnd (2 ^ n) m roots n (bcBitReverse (2 ^ n) x) := by
  unfold bcFFT
  have := bcFFTLoop_eq (rnd := rnd) (n := n) (roots' := roots) m (2 ^ n) 0 (bcBitReverse (2 ^ n) x) (bcBitReverse (2 ^ n) x) (by omega)
    (by have := Nat.lt_two_pow_self (n := n); omega) rfl
  exact this

theorem bcFFT_len (x : List (ℝ × ℝ)) (hx : 2 ^ n ≤ x.length) :
    (bcFFT rnd (2 ^ (n + 2 + d)) (2 ^ n) roots x).length = x.length := by
  rw [bcFFT_eq, bLayers_length, (bcBitReverse_at x hx).1]

/-- the forward transform of perturbed values -/
theorem bcFFT_near (h : RelRound u rnd) (hr : TableNear (2 ^ (n + 2 + d)) roots δ) (xf : List (ℝ × ℝ)) (x : List (ℝ × ℝ))
    (hx : 2 ^ n ≤ xf.length) (hx' : 2 ^ n ≤ x.length) {E B : ℝ} (hE : ∀ k < 2 ^ n, ‖toC (xf.getD k 0) - toC (x.getD k 0)‖ ≤ E)
    (hB : ∀ k < 2 ^ n, ‖toC (x.getD k 0)‖ ≤ B) (j : ℕ) (hj : j < 2 ^ n) :
    ‖toC ((bcFFT rnd (2 ^ (n + 2 + d)) (2 ^ n) roots xf).getD j 0) -
      ∑ k ∈ range (2 ^ n), toC (x.getD k 0) * (encZeta (2 ^ (n + 2 + d)) ^ 2 ^ d) ^ (5 ^ j * k)‖ ≤
        2 ^ n * (gB u δ ^ n * (B + E) - B) := by
  obtain ⟨s1, s2⟩ := bcBitReverse_at xf hx
  obtain ⟨t1, t2⟩ := cSliceBitReverse_spec (x.map toC) (n := n) (by rw [List.length_map]; omega)
  have hex := specialFFT_at (encZeta_table n d) false (x.map toC) (by unfold fftCap; rw [List.length_map]; simpa using hx') j hj
  have hnear : NearB (2 ^ n) E B (bcBitReverse (2 ^ n) xf) (cSliceBitReverse (2 ^ n) (x.map toC)) := by
    intro k hk
    rw [s2, t2, if_pos hk, if_pos hk, getD_map_toC]
    exact ⟨hE _ (revBits_lt n k), hB _ (revBits_lt n k)⟩
  have key := (bLayers_near h (encRoots_norm (2 ^ (n + 2 + d))) hr (by omega) (by rw [t1, List.length_map]; exact hx') hnear n le_rfl j hj).1
  rw [bcFFT_eq, show (∑ k ∈ range (2 ^ n), toC (x.getD k 0) * (encZeta (2 ^ (n + 2 + d)) ^ 2 ^ d) ^ (5 ^ j * k)) =
    (specialFFT false (2 ^ n) (2 ^ (n + 2 + d)) (encRoots (2 ^ (n + 2 + d))) (x.map toC)).getD j 0 by
      rw [hex]; exact Finset.sum_congr rfl fun k _ => by rw [getD_map_toC]]
  unfold specialFFT
  rw [len64_two_pow_pred]
  refine key.trans (le_of_eq ?_)
  unfold errB
  rw [mul_pow]
  ring

/-- **C99 (forward).** The transform computed with rounding differs in each value from the exact evaluation at `ζ^(5^j)` by at
most `2^n B (((1+u)(1+δ)(1+3u))^n - 1)`: `B` bounds the inputs, `u` is the rounding unit, `δ` the error of the table. -/
theorem C99_fft (h : RelRound u rnd) (hr : TableNear (2 ^ (n + 2 + d)) roots δ) (x : List (ℝ × ℝ)) (hx : 2 ^ n ≤ x.length) {B : ℝ}
    (hB : ∀ k < 2 ^ n, ‖toC (x.getD k 0)‖ ≤ B) :
    (bcFFT rnd (2 ^ (n + 2 + d)) (2 ^ n) roots x).length = x.length ∧
    ∀ j < 2 ^ n, ‖toC ((bcFFT rnd (2 ^ (n + 2 + d)) (2 ^ n) roots x).getD j 0) -
      ∑ k ∈ range (2 ^ n), toC (x.getD k 0) * (encZeta (2 ^ (n + 2 + d)) ^ 2 ^ d) ^ (5 ^ j * k)‖ ≤
        2 ^ n * B * (((1 + u) * ((1 + δ) * (1 + 3 * u))) ^ n - 1) := by
  refine ⟨bcFFT_len x hx, fun j hj => (bcFFT_near h hr x x hx hx (E := 0) (fun k _ => by simp) hB j hj).trans (le_of_eq ?_)⟩
  unfold gB
  ring

/-- the inverse transform of perturbed values -/
theorem bcInvFFT_near (h : RelRound u rnd) (hN : rnd ((2 ^ n : ℕ) : ℝ) = ((2 ^ n : ℕ) : ℝ))
    (hr : TableNear (2 ^ (n + 2 + d)) roots δ) (xf : List (ℝ × ℝ)) (x : List (ℝ × ℝ))
    (hx : 2 ^ n ≤ xf.length) (hx' : 2 ^ n ≤ x.length) {E B : ℝ} (hE : ∀ k < 2 ^ n, ‖toC (xf.getD k 0) - toC (x.getD k 0)‖ ≤ E)
    (hB : ∀ k < 2 ^ n, ‖toC (x.getD k 0)‖ ≤ B) :
    (bcInvFFT rnd (2 ^ (n + 2 + d)) (2 ^ n) roots xf).length = xf.length ∧
    ∀ k < 2 ^ n, ‖toC ((bcInvFFT rnd (2 ^ (n + 2 + d)) (2 ^ n) roots xf).getD k 0) -
      toC ((bcInvFFT id (2 ^ (n + 2 + d)) (2 ^ n) (bigRoots (2 ^ (n + 2 + d))) x).getD k 0)‖ ≤
        (1 + u) * (gB u δ ^ n * (B + E)) - B := by
  have hroots : (fun i => toC (bigRoots (2 ^ (n + 2 + d)) i)) = encRoots (2 ^ (n + 2 + d)) := funext fun i => toC_bigRoots _ i
  have hex := (bcInvFFT_at (d := d) (roots := bigRoots (2 ^ (n + 2 + d))) x hx').2.1
  rw [hroots] at hex
  have hxl : (x.map toC).length = x.length := List.length_map ..
  unfold bcInvFFT
  dsimp only
  rw [hN, bcInvLoop_eq _ _ n xf (Nat.lt_two_pow_self).le]
  set y := bInvLayers rnd (2 ^ n) (2 ^ (n + 2 + d)) roots n xf with hy
  have hyl : y.length = xf.length := bInvLayers_length n xf
  set z := y.map fun c => (rnd (c.1 / ((2 ^ n : ℕ) : ℝ)), rnd (c.2 / ((2 ^ n : ℕ) : ℝ))) with hz
  have hzl : z.length = xf.length := by rw [hz, List.length_map, hyl]
  obtain ⟨b1, b2⟩ := bcBitReverse_at (n := n) z (by omega)
  refine ⟨by rw [b1, hzl], fun k hk => ?_⟩
  have hex' := hex k hk
  unfold bcInvFFT at hex'
  dsimp only at hex'
  rw [hex', b2 k, if_pos hk, (specialiFFT_at (d := d) (roots := encRoots (2 ^ (n + 2 + d))) false (2 ^ n) le_rfl (x.map toC) (by
    unfold ifftCap fftCap; simp; omega)).2.1 k hk]
  have hk' := revBits_lt n k
  obtain ⟨k1, k2⟩ := bInvLayers_near h (encRoots_norm (2 ^ (n + 2 + d))) hr n le_rfl xf (x.map toC) E B hx (by omega)
    (fun k hk => by rw [getD_map_toC]; exact ⟨hE k hk, hB k hk⟩) (revBits n k) hk'
  rw [← hy] at k1
  set X := (ifftLayers false (2 ^ n) (2 ^ (n + 2 + d)) (encRoots (2 ^ (n + 2 + d))) n (x.map toC)).getD (revBits n k) 0 with hX
  set Y := y.getD (revBits n k) 0 with hY
  have hzY : z.getD (revBits n k) 0 = (rnd (Y.1 / ((2 ^ n : ℕ) : ℝ)), rnd (Y.2 / ((2 ^ n : ℕ) : ℝ))) := by
    rw [hz, hY, List.getD_eq_getElem _ _ (by rw [List.length_map]; omega), List.getD_eq_getElem _ _ (by omega), List.getElem_map]
  have hP : (0 : ℝ) < 2 ^ n := by positivity
  have e1 : ‖toC (z.getD (revBits n k) 0) - toC Y / ((2 ^ n : ℕ) : ℂ)‖ ≤ u * (‖toC Y‖ / 2 ^ n) := by
    have e : toC Y / ((2 ^ n : ℕ) : ℂ) = ⟨Y.1 / ((2 ^ n : ℕ) : ℝ), Y.2 / ((2 ^ n : ℕ) : ℝ)⟩ := by
      have hd : ((2 ^ n : ℕ) : ℂ) = (((2 ^ n : ℕ) : ℝ) : ℂ) := by push_cast; rfl
      rw [hd]
      apply Complex.ext
      · rw [Complex.div_ofReal_re]; rfl
      · rw [Complex.div_ofReal_im]; rfl
    have en : ‖toC Y / ((2 ^ n : ℕ) : ℂ)‖ = ‖toC Y‖ / 2 ^ n := by rw [norm_div]; simp
    rw [← en, e, hzY]
    exact RelRound.parts h.pos (h.err _) (h.err _)
  have e2 : ‖toC Y / ((2 ^ n : ℕ) : ℂ) - X / ((2 ^ n : ℕ) : ℂ)‖ ≤ errB u δ n B E / 2 ^ n := by
    rw [← sub_div, norm_div, show ‖((2 ^ n : ℕ) : ℂ)‖ = 2 ^ n by simp]
    exact div_le_div_of_nonneg_right k1 hP.le
  have e3 : ‖toC Y‖ ≤ 2 ^ n * B + errB u δ n B E := by
    have := norm_add_le (toC Y - X) X
    rw [sub_add_cancel] at this
    linarith
  have e4 := norm_add_le (toC (z.getD (revBits n k) 0) - toC Y / ((2 ^ n : ℕ) : ℂ)) (toC Y / ((2 ^ n : ℕ) : ℂ) - X / ((2 ^ n : ℕ) : ℂ))
  rw [sub_add_sub_cancel] at e4
  refine e4.trans ((add_le_add (e1.trans (mul_le_mul_of_nonneg_left (div_le_div_of_nonneg_right e3 hP.le) h.pos)) e2).trans (le_of_eq ?_))
  unfold errB
  rw [mul_pow]
  field_simp
  ring

/-- **C99 (inverse).** The inverse transform computed with rounding differs in each value from the exact one by at
most `B ((1+u)((1+u)(1+δ)(1+3u))^n - 1)`. -/
theorem C99_ifft (h : RelRound u rnd) (hN : rnd ((2 ^ n : ℕ) : ℝ) = ((2 ^ n : ℕ) : ℝ)) (hr : TableNear (2 ^ (n + 2 + d)) roots δ)
    (x : List (ℝ × ℝ)) (hx : 2 ^ n ≤ x.length) {B : ℝ} (hB : ∀ k < 2 ^ n, ‖toC (x.getD k 0)‖ ≤ B) :
    (bcInvFFT rnd (2 ^ (n + 2 + d)) (2 ^ n) roots x).length = x.length ∧
    ∀ k < 2 ^ n, ‖toC ((bcInvFFT rnd (2 ^ (n + 2 + d)) (2 ^ n) roots x).getD k 0) -
      toC ((bcInvFFT id (2 ^ (n + 2 + d)) (2 ^ n) (bigRoots (2 ^ (n + 2 + d))) x).getD k 0)‖ ≤
        B * ((1 + u) * ((1 + u) * ((1 + δ) * (1 + 3 * u))) ^ n - 1) := by
  obtain ⟨h1, h2⟩ := bcInvFFT_near h hN hr x x hx hx (E := 0) (fun k _ => by simp) hB
  refine ⟨h1, fun k hk => (h2 k hk).trans (le_of_eq ?_)⟩
  unfold gB
  ring

/-! ### scaling -/

/-- the integer that `scaleUpVecExactBigFloat` writes for a value -/
noncomputable def scaleUpInt (rnd : ℝ → ℝ) (v scale : ℝ) : ℤ :=
  truncInt (if v < 0 then rnd (rnd (rnd scale * v) - rnd 0.5) else rnd (rnd (rnd scale * v) + rnd 0.5))

theorem scaleUpInt_near (h : RelRound u rnd) (hh : rnd 0.5 = 0.5) {v scale : ℝ} (hs : 0 < scale) :
    |(scaleUpInt rnd v scale : ℝ) - v * scale| ≤ (1 + u) / 2 + ((1 + u) ^ 3 - 1) * (scale * |v|) := by
  have hu := h.pos
  have hsr := h.nonneg hs.le
  set x := rnd (rnd scale * v) with hx
  have a1 : |rnd scale * v - v * scale| ≤ u * (scale * |v|) := by
    rw [show rnd scale * v - v * scale = (rnd scale - scale) * v by ring, abs_mul, ← mul_assoc]
    refine mul_le_mul_of_nonneg_right ?_ (abs_nonneg _)
    have := h.err scale
    rwa [abs_of_pos hs] at this
  have hP : 0 ≤ scale * |v| := by positivity
  have a2 : |rnd scale * v| ≤ (1 + u) * (scale * |v|) := by
    have := abs_add_le (rnd scale * v - v * scale) (v * scale)
    rw [sub_add_cancel, abs_mul v, abs_of_pos hs] at this
    linarith
  have a3 := h.err (rnd scale * v)
  rw [← hx] at a3
  have a4 : |x - v * scale| ≤ ((1 + u) ^ 2 - 1) * (scale * |v|) := by
    have t := abs_add_le (x - rnd scale * v) (rnd scale * v - v * scale)
    rw [sub_add_sub_cancel] at t
    have := mul_le_mul_of_nonneg_left a2 hu
    have e : ((1 + u) ^ 2 - 1) * (scale * |v|) = u * ((1 + u) * (scale * |v|)) + u * (scale * |v|) := by ring
    rw [e]; linarith
  have a5 : |x| ≤ (1 + u) ^ 2 * (scale * |v|) := by
    have := abs_add_le (x - v * scale) (v * scale)
    rw [sub_add_cancel, abs_mul v, abs_of_pos hs] at this
    linarith
  have fin : ∀ (s : ℝ) (y : ℝ) (z : ℤ), |s| = 1 / 2 → |y - (x + s)| ≤ u * |x + s| → |(z : ℝ) - (y - s)| ≤ 1 / 2 →
      |(z : ℝ) - v * scale| ≤ (1 + u) / 2 + ((1 + u) ^ 3 - 1) * (scale * |v|) := by
    intro s y z h1 h2 h3
    have t1 := abs_add_le ((z : ℝ) - (y - s)) ((y - (x + s)) + (x - v * scale))
    have t2 := abs_add_le (y - (x + s)) (x - v * scale)
    have t3 := abs_add_le x s
    rw [show (z : ℝ) - (y - s) + ((y - (x + s)) + (x - v * scale)) = z - v * scale by ring] at t1
    have t4 : u * |x + s| ≤ u * ((1 + u) ^ 2 * (scale * |v|) + 1 / 2) := mul_le_mul_of_nonneg_left (by linarith) hu
    have e : (1 + u) / 2 + ((1 + u) ^ 3 - 1) * (scale * |v|) =
      1 / 2 + (u * ((1 + u) ^ 2 * (scale * |v|) + 1 / 2) + ((1 + u) ^ 2 - 1) * (scale * |v|)) := by ring
    rw [e]; linarith
  unfold scaleUpInt truncInt
  rw [hh, ← hx]
  by_cases hv : v < 0
  · rw [if_pos hv]
    have hx0 : x ≤ 0 := by
      rcases eq_or_lt_of_le (mul_nonpos_of_nonneg_of_nonpos hsr hv.le) with e | e
      · rw [hx, e, h.zero]
      · exact (h.neg e).le
    have hy0 : rnd (x - 0.5) < 0 := h.neg (by norm_num; linarith)
    rw [if_pos hy0]
    refine fin (-0.5) (rnd (x - 0.5)) _ (by norm_num) (by rw [← sub_eq_add_neg]; exact h.err _) ?_
    have f1 := Int.floor_le (-rnd (x - 0.5))
    have f2 := Int.lt_floor_add_one (-rnd (x - 0.5))
    rw [abs_le]
    push_cast
    constructor <;> norm_num <;> linarith
  · rw [if_neg hv]
    have hx0 : 0 ≤ x := h.nonneg (mul_nonneg hsr (not_lt.1 hv))
    have hy0 : 0 ≤ rnd (x + 0.5) := h.nonneg (by norm_num; linarith)
    rw [if_neg (not_lt.2 hy0)]
    refine fin 0.5 (rnd (x + 0.5)) _ (by norm_num) (h.err _) ?_
    have f1 := Int.floor_le (rnd (x + 0.5))
    have f2 := Int.lt_floor_add_one (rnd (x + 0.5))
    rw [abs_le]
    constructor <;> norm_num <;> linarith

theorem scaleUpWord_int {q : UInt64} (hq0 : 0 < q.toNat) (hq : q.toNat < 2 ^ 61) {v scale : ℝ} :
    (scaleUpWord rnd v scale q).toNat < 2 * q.toNat ∧ ((scaleUpWord rnd v scale q).toNat : ZMod q.toNat) = scaleUpInt rnd v scale := by
  unfold scaleUpWord
  dsimp only
  rw [show truncInt _ = scaleUpInt rnd v scale from rfl]
  set z := scaleUpInt rnd v scale with hz
  have h0 := Int.emod_nonneg z (show (q.toNat : ℤ) ≠ 0 by omega)
  have h1 := Int.emod_lt_of_pos z (show 0 < (q.toNat : ℤ) by omega)
  set t := if v < 0 then z % (q.toNat : ℤ) + (q.toNat : ℤ) else z % (q.toNat : ℤ) with ht
  have ht0 : 0 ≤ t := by rw [ht]; split <;> omega
  have ht1 : t < 2 * q.toNat := by rw [ht]; split <;> omega
  have e : (UInt64.ofNat t.toNat).toNat = t.toNat := by
    rw [UInt64.toNat_ofNat']
    exact Nat.mod_eq_of_lt (by omega)
  rw [e]
  refine ⟨by omega, ?_⟩
  have : ((t.toNat : ℤ) : ZMod q.toNat) = ((z : ℤ) : ZMod q.toNat) := by
    rw [Int.toNat_of_nonneg ht0, ht]
    split
    · push_cast; simp
    · simp
  rw [← this, Int.cast_natCast]

/-! ### the encoder -/

variable {r : Ring} {level logSlots : ℕ}

/-- a rounding with relative error `u` that is exact on `1/2` and on powers of two -/
structure BigRound (u : ℝ) (rnd : ℝ → ℝ) : Prop where
  rel : RelRound u rnd
  half : rnd 0.5 = 0.5
  pow : ∀ n : ℕ, rnd ((2 ^ n : ℕ) : ℝ) = ((2 ^ n : ℕ) : ℝ)

/-- **C99 (Encode).** As C91, with every operation rounded: the integers stored in the plaintext differ from the scaled
coefficients of the polynomial that takes the given values in the slots by at most `(1+u)/2` plus
`scale B ((1+u)^5 ((1+u)(1+δ)(1+3u))^n - 1)`, where `B` bounds the values. -/
theorem C99_encode (hr : r.Valid (logSlots + 1 + d)) (sr : r.Small) (hl : level < r.subs.length) (hb : BigRound u rnd)
    (ht : TableNear r.nthRoot roots δ) (ecd : BigEnc)
    (he : BigEncReady r ecd) (values : List (ℝ × ℝ)) (hv : values.length = 2 ^ logSlots) {scale : ℝ} (hs : 0 < scale) {B : ℝ}
    (hB : ∀ j < 2 ^ logSlots, ‖toC (values.getD j 0)‖ ≤ B) (pt : Rows)
    (hp : level < pt.length) (hrow : ∀ i ≤ level, (pt.row i).length = r.n) :
    ∃ (out : Rows) (ecd' : BigEnc) (w : ℕ → ℝ) (z : ℕ → ℤ),
      r.bigEncode rnd roots ecd values scale level logSlots pt = .ok (out, ecd') ∧ BigEncReady r ecd' ∧
      SlotCoeffs logSlots d values w ∧ (∀ k < 2 ^ (logSlots + 1), |w k| ≤ B) ∧
      (∀ k < 2 ^ (logSlots + 1), |(z k : ℝ) - w k * scale| ≤
        (1 + u) / 2 + scale * (B * ((1 + u) ^ 5 * ((1 + u) * ((1 + δ) * (1 + 3 * u))) ^ logSlots - 1))) ∧
      PolyWritten r level r.qs pt out (fun i => evals (r.sub i).psi (logSlots + 1 + d)
        (fun k => if k % 2 ^ d = 0 then ((z (k / 2 ^ d) : ℤ) : ZMod (r.sub i).q.toNat) else 0)) := by
  have h4 := hr.four_le
  have hd := Nat.two_pow_pos d
  have hS := Nat.two_pow_pos logSlots
  have hN : r.n = 2 * 2 ^ logSlots * 2 ^ d := by rw [hr.deg]; ring
  have hN2 : r.n / 2 = 2 ^ logSlots * 2 ^ d := by rw [hN, mul_assoc, Nat.mul_div_cancel_left _ (by norm_num)]
  have hM : r.nthRoot = 2 ^ (logSlots + 2 + d) := by rw [hr.root]; congr 1; omega
  have hle : 2 ^ logSlots ≤ r.n / 2 := by rw [hN2]; exact Nat.le_mul_of_pos_right _ hd
  have hgap : r.n / 2 / 2 ^ logSlots = 2 ^ d := by rw [hN2, Nat.mul_div_cancel_left _ hS]
  have h := hb.rel
  have hu := h.pos
  rw [hM] at ht
  unfold Ring.bigEncode
  dsimp only
  rw [if_neg (by omega), if_neg (by omega), hgap, hM]
  -- the exact run
  obtain ⟨x1, x2⟩ := foldl_set_at (fun i => values.getD i 0) 0 (2 ^ logSlots) ecd.values
  set xs0 := (List.range (2 ^ logSlots)).foldl (fun (vs : List (ℝ × ℝ)) i => vs.set i (values.getD i 0)) ecd.values with hxs0
  have hlx : 2 ^ logSlots ≤ xs0.length := by rw [x1, he.values]; exact hle
  have hin := C91_transforms_partial (n := logSlots) (d := d) xs0 hlx
  have hxs1l := (bcInvFFT_at (d := d) (roots := bigRoots (2 ^ (logSlots + 2 + d))) xs0 hlx).1
  have hxB : ∀ k < 2 ^ logSlots, ‖toC (xs0.getD k 0)‖ ≤ B := by
    intro k hk
    rw [x2 k, if_pos ⟨hk, by rw [he.values]; omega⟩]
    exact hB k hk
  -- the rounded run
  obtain ⟨v1, v2⟩ := foldl_set_at (fun i => (rnd (values.getD i 0).1, rnd (values.getD i 0).2)) 0 (2 ^ logSlots) ecd.values
  set vs0 := (List.range (2 ^ logSlots)).foldl (fun (vs : List (ℝ × ℝ)) i =>
    vs.set i (rnd (values.getD i 0).1, rnd (values.getD i 0).2)) ecd.values with hvs0
  have hl0 : 2 ^ logSlots ≤ vs0.length := by rw [v1, he.values]; exact hle
  have hB0 : 0 ≤ B := le_trans (norm_nonneg _) (hB 0 hS)
  have hnear := bcInvFFT_near h (hb.pow logSlots) ht vs0 xs0 hl0 hlx (E := u * B) (fun k hk => by
    rw [x2 k, v2 k, if_pos ⟨hk, by rw [he.values]; omega⟩, if_pos ⟨hk, by rw [he.values]; omega⟩]
    exact (RelRound.parts hu (h.err _) (h.err _)).trans (mul_le_mul_of_nonneg_left (hB k hk) hu)) hxB
  set xs1 := bcInvFFT id (2 ^ (logSlots + 2 + d)) (2 ^ logSlots) (bigRoots (2 ^ (logSlots + 2 + d))) xs0 with hxs1
  obtain ⟨hvs1l, hnear⟩ := hnear
  set vs1 := bcInvFFT rnd (2 ^ (logSlots + 2 + d)) (2 ^ logSlots) roots vs0 with hvs1
  have hfill := fill_at (slots := 2 ^ logSlots) hd (fun i => (vs1.getD i 0).1) (fun i => (vs1.getD i 0).2) ecd.valuesfloat
    (by rw [he.float.1, hN]) (2 ^ logSlots) le_rfl
  rw [hN2]
  set vf := (List.range (2 ^ logSlots)).foldl (fun (vf : List ℝ) i =>
    (vf.set (i * 2 ^ d) (vs1.getD i 0).1).set (2 ^ logSlots * 2 ^ d + i * 2 ^ d) (vs1.getD i 0).2) ecd.valuesfloat with hvf
  set w : ℕ → ℝ := fun k => if k < 2 ^ logSlots then (xs1.getD k 0).1 else (xs1.getD (k - 2 ^ logSlots) 0).2 with hw
  set wf : ℕ → ℝ := fun k => if k < 2 ^ logSlots then (vs1.getD k 0).1 else (vs1.getD (k - 2 ^ logSlots) 0).2 with hwf
  have hvfl : vf.length = r.n := by rw [hfill.1, he.float.1]
  have hvfat : ∀ k < r.n, vf.getD k 0 = if k % 2 ^ d = 0 then wf (k / 2 ^ d) else 0 := by
    intro k hk
    have hkd : k / 2 ^ d < 2 * 2 ^ logSlots := Nat.div_lt_of_lt_mul (by rw [hN] at hk; rw [mul_comm]; exact hk)
    rw [hfill.2 k, he.float.2 k, hwf]
    by_cases c : k % 2 ^ d = 0
    · by_cases c2 : k / 2 ^ d < 2 ^ logSlots
      · rw [if_pos ⟨c, c2⟩, if_pos c]; dsimp only; rw [if_pos c2]
      · rw [if_neg (fun h => c2 h.2), if_pos ⟨c, by omega, by omega⟩, if_pos c]; dsimp only; rw [if_neg c2]
    · rw [if_neg (fun h => c h.1), if_neg (fun h => c h.1), if_neg c]
  have hwB : ∀ k < 2 ^ (logSlots + 1), |w k| ≤ B := by
    intro k hk
    have hbb := hin.2.2.2.2 B hxB
    rw [hw]
    dsimp only
    split
    · rename_i h
      exact le_trans (Complex.abs_re_le_norm (toC (xs1.getD k 0))) (hbb k h)
    · rename_i h
      rw [pow_succ] at hk
      exact le_trans (Complex.abs_im_le_norm (toC (xs1.getD (k - 2 ^ logSlots) 0))) (hbb _ (by omega))
  have hwf' : ∀ k < 2 ^ (logSlots + 1), |wf k - w k| ≤ (1 + u) * (gB u δ ^ logSlots * (B + u * B)) - B := by
    intro k hk
    rw [hw, hwf]
    dsimp only
    split
    · rename_i h
      exact le_trans (Complex.abs_re_le_norm (toC (vs1.getD k 0) - toC (xs1.getD k 0))) (hnear k h)
    · rename_i h
      rw [pow_succ] at hk
      exact le_trans (Complex.abs_im_le_norm (toC (vs1.getD (k - 2 ^ logSlots) 0) - toC (xs1.getD (k - 2 ^ logSlots) 0))) (hnear _ (by omega))
  have hz0 : scaleUpInt rnd 0 scale = 0 := by
    unfold scaleUpInt
    rw [if_neg (lt_irrefl _), mul_zero, h.zero, zero_add, hb.half, hb.half]
    unfold truncInt
    norm_num
  have hlt61 : ∀ i ≤ level, (r.sub i).q.toNat < 2 ^ 61 := fun i hi => sr _ (Ring.sub_mem (by omega))
  have hwj : ∀ k < 2 ^ logSlots, toC (w k, w (2 ^ logSlots + k)) = toC (xs1.getD k 0) := by
    intro k hk
    rw [hw]
    dsimp only
    rw [if_pos hk, if_neg (by omega), Nat.add_sub_cancel_left]
  set p1 := writeLvl level (fun j => setRow (fun v => scaleUpWord rnd v scale (r.sub j).q) vf (pt.row j)) pt with hp1
  have hp1l : p1.length = pt.length := length_writeLvl _ _ _
  have hrow1 : ∀ i ≤ level, RowIs r.n (r.sub i).q.toNat (2 * (r.sub i).q.toNat) (p1.row i)
      (fun k => if k % 2 ^ d = 0 then ((scaleUpInt rnd (wf (k / 2 ^ d)) scale : ℤ) : ZMod (r.sub i).q.toNat) else 0) := by
    intro i hi
    have V := hr.subAt (show i < r.subs.length by omega)
    have hq0 : 0 < (r.sub i).q.toNat := (Nat.pos_of_ne_zero (by have := V.arith.odd; omega))
    have hat : ∀ k < r.n, (p1.row i).at k = scaleUpWord rnd (vf.getD k 0) scale (r.sub i).q := by
      intro k hk
      rw [hp1, row_writeLvl hi hp, setRow_at _ _ _ 0 (by omega)]
    refine ⟨?_, fun k hk => ?_, fun k hk => ?_⟩
    · rw [hp1, row_writeLvl hi hp]
      unfold setRow
      rw [List.length_append, List.length_map, List.length_drop, hrow i hi, hvfl]; omega
    · rw [hat k hk]
      exact (scaleUpWord_int hq0 (hlt61 i hi)).1
    · rw [zval, hat k hk, (scaleUpWord_int hq0 (hlt61 i hi)).2, hvfat k hk]
      split
      · rfl
      · rw [hz0]; simp
  obtain ⟨y1, y2⟩ := foldl_set_at (fun _ => ((0, 0) : ℝ × ℝ)) 0 (2 ^ logSlots * 2 ^ d) vs1
  obtain ⟨f1, f2⟩ := foldl_set_at (fun _ => (0 : ℝ)) 0 r.n vf
  refine ⟨_, _, w, fun k => scaleUpInt rnd (wf k) scale, rfl, ⟨?_, ⟨?_, fun k => ?_⟩, he.pool⟩, fun j hj => ?_, hwB, fun k hk => ?_, ?_⟩
  · rw [y1, hvs1l, v1, he.values]
  · rw [f1, hvfl]
  · rw [f2 k]
    split
    · rfl
    · rename_i h
      exact List.getD_eq_default _ _ (by omega)
  · rw [slot_split]
    have t1 := (C91_transforms_partial (n := logSlots) (d := d) xs1 (by omega)).1 j hj
    have t2 := hin.2.2.2.1 j hj
    rw [t2, x2 j, if_pos ⟨hj, by rw [he.values]; omega⟩] at t1
    rw [t1]
    exact Finset.sum_congr rfl fun k hk => by rw [hwj k (Finset.mem_range.1 hk)]
  · have k1 := scaleUpInt_near h hb.half hs (v := wf k)
    have k2 := hwf' k hk
    have k3 : |wf k| ≤ (1 + u) * (gB u δ ^ logSlots * (B + u * B)) := by
      have := abs_add_le (wf k - w k) (w k)
      rw [sub_add_cancel] at this
      have := hwB k hk
      linarith
    have k4 := abs_add_le ((scaleUpInt rnd (wf k) scale : ℝ) - wf k * scale) (wf k * scale - w k * scale)
    rw [sub_add_sub_cancel, ← sub_mul, abs_mul (wf k - w k), abs_of_pos hs] at k4
    have k5 := mul_le_mul_of_nonneg_right k2 hs.le
    have hg : 0 ≤ (1 + u) ^ 3 - 1 := by
      have : 1 ≤ (1 + u) ^ 3 := one_le_pow₀ (by linarith)
      linarith
    have k6 := mul_le_mul_of_nonneg_left (mul_le_mul_of_nonneg_left k3 hs.le) hg
    have e : (1 + u) / 2 + scale * (B * ((1 + u) ^ 5 * ((1 + u) * ((1 + δ) * (1 + 3 * u))) ^ logSlots - 1)) =
      (1 + u) / 2 + ((1 + u) ^ 3 - 1) * (scale * ((1 + u) * (gB u δ ^ logSlots * (B + u * B)))) +
        ((1 + u) * (gB u δ ^ logSlots * (B + u * B)) - B) * scale := by
      unfold gB; ring
    rw [e]
    linarith
  · have hE : PolyWritten r level r.qs p1 (r.nttLvl level p1 p1) (fun i => evals (r.sub i).psi (logSlots + 1 + d)
        (fun k => if k % 2 ^ d = 0 then ((scaleUpInt rnd (wf (k / 2 ^ d)) scale : ℤ) : ZMod (r.sub i).q.toNat) else 0)) := by
      unfold Ring.nttLvl
      refine writeLvl_is (by omega) (fun i hi => ?_)
      have V := hr.subAt (show i < r.subs.length by omega)
      have := hlt61 i hi
      have h1 := hrow1 i hi
      rw [hr.deg] at h1 ⊢
      exact ntt_is V (by omega) (hlt61 i hi) (by omega) h1
    exact ⟨hE.is, by rw [hE.len, hp1l], fun i hi => by rw [hE.above i hi, hp1]; exact row_writeLvl_above hi⟩

/-- the quotient of two rounded numbers -/
theorem quo_near (h : RelRound u rnd) {a scale : ℝ} (hs : 0 < scale) :
    |rnd (rnd a / rnd scale) - a / scale| ≤ ((1 + u) ^ 2 / (1 - u) - 1) * |a / scale| := by
  have hu := h.pos
  have hu' := h.small
  have h1u : 0 < 1 - u := by linarith
  have hsc := abs_le.1 (h.err scale)
  rw [abs_of_pos hs] at hsc
  have hsr : (1 - u) * scale ≤ rnd scale := by linarith
  have hsr0 : 0 < rnd scale := lt_of_lt_of_le (by positivity) hsr
  have ha := h.err a
  have q1 : |rnd a / rnd scale - a / scale| ≤ (1 + u) / (1 - u) * |a / scale| - |a / scale| := by
    have e : rnd a / rnd scale - a / scale = ((rnd a - a) * scale - a * (rnd scale - scale)) / (rnd scale * scale) := by
      field_simp; ring
    have hn : |(rnd a - a) * scale - a * (rnd scale - scale)| ≤ 2 * u * |a| * scale := by
      have t := abs_sub ((rnd a - a) * scale) (a * (rnd scale - scale))
      rw [abs_mul, abs_mul, abs_of_pos hs] at t
      have m1 := mul_le_mul_of_nonneg_right ha hs.le
      have m2 := mul_le_mul_of_nonneg_left (abs_le.2 hsc) (abs_nonneg a)
      have e : 2 * u * |a| * scale = u * |a| * scale + |a| * (u * scale) := by ring
      rw [e]; linarith
    rw [e, abs_div, abs_of_pos (mul_pos hsr0 hs)]
    have hpos : 0 < (1 - u) * scale * scale := by positivity
    refine (div_le_div₀ (by positivity) hn hpos (mul_le_mul_of_nonneg_right hsr hs.le)).trans (le_of_eq ?_)
    rw [abs_div, abs_of_pos hs]
    field_simp
    ring
  have q2 : |rnd a / rnd scale| ≤ (1 + u) / (1 - u) * |a / scale| := by
    have := abs_add_le (rnd a / rnd scale - a / scale) (a / scale)
    rw [sub_add_cancel] at this
    linarith
  have q3 := h.err (rnd a / rnd scale)
  have q4 := abs_add_le (rnd (rnd a / rnd scale) - rnd a / rnd scale) (rnd a / rnd scale - a / scale)
  rw [sub_add_sub_cancel] at q4
  have q5 := mul_le_mul_of_nonneg_left q2 hu
  have e : ((1 + u) ^ 2 / (1 - u) - 1) * |a / scale| =
      u * ((1 + u) / (1 - u) * |a / scale|) + ((1 + u) / (1 - u) * |a / scale| - |a / scale|) := by
    field_simp; ring
  rw [e]; linarith

/-- **C99 (Decode).** As C91, with every operation rounded: the slots differ from the values of the polynomial divided by the
scale by at most `2^n B ((1+u)^2/(1-u) ((1+u)(1+δ)(1+3u))^n - 1)`, where `B` bounds the coefficients divided by the scale. -/
theorem C99_decode (hr : r.Valid (logSlots + 1 + d)) (sr : r.Small) (hl : level < r.subs.length) (h : RelRound u rnd)
    (ht : TableNear r.nthRoot roots δ) (ecd : BigEnc)
    (he : BigEncReady r ecd) {scale : ℝ} (hs : 0 < scale) (z : ℕ → ℤ) (hz : InRange r level z) {B : ℝ}
    (hB : ∀ k < 2 ^ logSlots, ‖toC ((z (k * 2 ^ d) : ℝ) / scale, (z ((2 ^ logSlots + k) * 2 ^ d) : ℝ) / scale)‖ ≤ B) (pt : Rows)
    (hp : Holds r (logSlots + 1 + d) level pt z) :
    ∃ (res : List (ℝ × ℝ)) (ecd' : BigEnc),
      r.bigDecode rnd roots ecd pt scale level logSlots = .ok (res, ecd') ∧ BigEncReady r ecd' ∧
      res.length = 2 ^ logSlots ∧ ∀ j < 2 ^ logSlots, ‖toC (res.getD j 0) - slotVal logSlots d z j / scale‖ ≤
        2 ^ logSlots * B * ((1 + u) ^ 2 / (1 - u) * ((1 + u) * ((1 + δ) * (1 + 3 * u))) ^ logSlots - 1) := by
  have h4 := hr.four_le
  have hd := Nat.two_pow_pos d
  have hS := Nat.two_pow_pos logSlots
  have hN : r.n = 2 * 2 ^ logSlots * 2 ^ d := by rw [hr.deg]; ring
  have hN2 : r.n / 2 = 2 ^ logSlots * 2 ^ d := by rw [hN, mul_assoc, Nat.mul_div_cancel_left _ (by norm_num)]
  have hM : r.nthRoot = 2 ^ (logSlots + 2 + d) := by rw [hr.root]; congr 1; omega
  have hle : 2 ^ logSlots ≤ r.n / 2 := by rw [hN2]; exact Nat.le_mul_of_pos_right _ hd
  have hgap : r.n / 2 / 2 ^ logSlots = 2 ^ d := by rw [hN2, Nat.mul_div_cancel_left _ hS]
  have hu := h.pos
  have hu' := h.small
  rw [hM] at ht
  have hinv := invPool_row hr sr hl z pt ecd.polypool he.pool hp
  have hplen : (r.invNttLvl level pt ecd.polypool).length = r.subs.length := by
    unfold Ring.invNttLvl; rw [length_writeLvl]; exact he.pool
  unfold Ring.bigDecode
  dsimp only
  rw [if_neg (by omega), hgap, hM]
  set pool := r.invNttLvl level pt ecd.polypool with hpool
  have hlt : ∀ i < 2 * 2 ^ logSlots, i * 2 ^ d < r.n := by
    intro i hi
    rw [hN]
    exact Nat.mul_lt_mul_of_pos_right hi hd
  have hbig := fun i (hi : i < 2 * 2 ^ logSlots) =>
    big_decode hr hl pool hplen (hz _ (hlt i hi)) hd (hlt i hi) (fun j hj => (hinv j hj).val _ (hlt i hi))
  dsimp only at hbig
  set vs0 := List.foldl _ ecd.values (List.range (2 ^ logSlots)) with hvs0
  obtain ⟨v1, v2⟩ := foldl_set_at (fun i => (rnd (rnd (((if (r.polyToBigintLvl (pool.length - 1) pool (2 ^ d)).getD i 0 %
      r.bigintChain level ≥ r.bigintChain level / 2 then
        (r.polyToBigintLvl (pool.length - 1) pool (2 ^ d)).getD i 0 % r.bigintChain level - r.bigintChain level
      else (r.polyToBigintLvl (pool.length - 1) pool (2 ^ d)).getD i 0 % r.bigintChain level : ℤ) : ℝ)) / rnd scale),
    rnd (rnd (((if (r.polyToBigintLvl (pool.length - 1) pool (2 ^ d)).getD (2 ^ logSlots + i) 0 % r.bigintChain level ≥
      r.bigintChain level / 2 then (r.polyToBigintLvl (pool.length - 1) pool (2 ^ d)).getD (2 ^ logSlots + i) 0 % r.bigintChain level -
        r.bigintChain level
      else (r.polyToBigintLvl (pool.length - 1) pool (2 ^ d)).getD (2 ^ logSlots + i) 0 % r.bigintChain level : ℤ) : ℝ)) / rnd scale))) 0
    (2 ^ logSlots) ecd.values
  rw [← hvs0] at v1 v2
  have hl0 : 2 ^ logSlots ≤ vs0.length := by rw [v1, he.values]; exact hle
  have hat : ∀ k < 2 ^ logSlots, vs0.getD k 0 =
      (rnd (rnd (z (k * 2 ^ d) : ℝ) / rnd scale), rnd (rnd (z ((2 ^ logSlots + k) * 2 ^ d) : ℝ) / rnd scale)) := by
    intro k hk
    rw [v2 k, if_pos ⟨hk, by rw [he.values]; omega⟩, hbig k (by omega), hbig (2 ^ logSlots + k) (by omega)]
  obtain ⟨y1, y2⟩ := foldl_set_at (fun _ => ((0, 0) : ℝ × ℝ)) 0 (r.n / 2)
    (bcFFT rnd (2 ^ (logSlots + 2 + d)) (2 ^ logSlots) roots vs0)
  refine ⟨_, _, rfl, ⟨?_, he.float, hplen⟩, by simp, fun j hj => ?_⟩
  · rw [y1, bcFFT_len _ hl0, v1, he.values]
  · have e : ∀ f : ℕ → ℝ × ℝ, ((List.range (2 ^ logSlots)).map f).getD j 0 = f j := by
      intro f; simp [List.getD, hj]
    set xs := (List.range (2 ^ logSlots)).map fun k =>
      ((z (k * 2 ^ d) : ℝ) / scale, (z ((2 ^ logSlots + k) * 2 ^ d) : ℝ) / scale) with hxs
    have hxat : ∀ k < 2 ^ logSlots, xs.getD k 0 = ((z (k * 2 ^ d) : ℝ) / scale, (z ((2 ^ logSlots + k) * 2 ^ d) : ℝ) / scale) := by
      intro k hk; rw [hxs]; simp [List.getD, hk]
    have hκ : 0 ≤ (1 + u) ^ 2 / (1 - u) - 1 := by
      rw [sub_nonneg, le_div_iff₀ (by linarith)]
      nlinarith
    have key := bcFFT_near h ht vs0 xs hl0 (by simp [hxs]) (E := ((1 + u) ^ 2 / (1 - u) - 1) * B) (B := B) (fun k hk => by
      rw [hat k hk, hxat k hk]
      exact (RelRound.parts hκ (quo_near h hs) (quo_near h hs)).trans (mul_le_mul_of_nonneg_left (hB k hk) hκ)) (fun k hk => by
      rw [hxat k hk]; exact hB k hk) j hj
    rw [e]
    have e2 : slotVal logSlots d z j / scale =
        ∑ k ∈ range (2 ^ logSlots), toC (xs.getD k 0) * (encZeta (2 ^ (logSlots + 2 + d)) ^ 2 ^ d) ^ (5 ^ j * k) := by
      unfold slotVal
      have := slot_split logSlots d j (fun k => (z (k * 2 ^ d) : ℝ) / scale)
      rw [Finset.sum_div]
      refine Eq.trans (Finset.sum_congr rfl fun k hk => ?_) (this.trans (Finset.sum_congr rfl fun k hk => ?_))
      · push_cast
        ring
      · rw [hxat k (Finset.mem_range.1 hk)]
    rw [e2]
    refine key.trans (le_of_eq ?_)
    unfold gB
    ring

/-- **C99 (round trip).** Encoding complex values and decoding the plaintext, everything rounded: with `ε` the error of the
coefficients (relative to the scale) and `B` a bound for the values, the error in each slot is at most
`2^n (2 ε + (B + 2 ε) t)`, where `1 + t` is the growth of the rounding errors in `Decode`. -/
theorem C99_roundtrip (hr : r.Valid (logSlots + 1 + d)) (sr : r.Small) (hl : level < r.subs.length) (hb : BigRound u rnd)
    (ht : TableNear r.nthRoot roots δ) (ecd : BigEnc)
    (he : BigEncReady r ecd) (values : List (ℝ × ℝ)) (hv : values.length = 2 ^ logSlots) {scale : ℝ} (hs : 0 < scale) {B : ℝ}
    (hB : ∀ j < 2 ^ logSlots, ‖toC (values.getD j 0)‖ ≤ B) (pt : Rows)
    (hp : level < pt.length) (hrow : ∀ i ≤ level, (pt.row i).length = r.n) {ε t : ℝ}
    (hε : (1 + u) / 2 / scale + B * ((1 + u) ^ 5 * ((1 + u) * ((1 + δ) * (1 + 3 * u))) ^ logSlots - 1) ≤ ε)
    (ht' : (1 + u) ^ 2 / (1 - u) * ((1 + u) * ((1 + δ) * (1 + 3 * u))) ^ logSlots ≤ 1 + t)
    (hQ : 2 * scale * (B + ε) + 1 < r.prodQ level) :
    ∃ (out : Rows) (ecd' ecd'' : BigEnc) (res : List (ℝ × ℝ)),
      r.bigEncode rnd roots ecd values scale level logSlots pt = .ok (out, ecd') ∧
      r.bigDecode rnd roots ecd' out scale level logSlots = .ok (res, ecd'') ∧ BigEncReady r ecd'' ∧
      res.length = 2 ^ logSlots ∧
      ∀ j < 2 ^ logSlots, ‖toC (res.getD j 0) - toC (values.getD j 0)‖ ≤ 2 ^ logSlots * (2 * ε + (B + 2 * ε) * t) := by
  obtain ⟨out, ecd', w, z, e1, he', hw, hwB, hz, hout⟩ := C99_encode hr sr hl hb ht ecd he values hv hs hB pt hp hrow
  have hd := Nat.two_pow_pos d
  have hS := Nat.two_pow_pos logSlots
  have hN : r.n = 2 * 2 ^ logSlots * 2 ^ d := by rw [hr.deg]; ring
  have hB0 : 0 ≤ B := le_trans (norm_nonneg _) (hB 0 hS)
  have hzε : ∀ k < 2 ^ (logSlots + 1), |(z k : ℝ) / scale - w k| ≤ ε := by
    intro k hk
    have e : (z k : ℝ) / scale - w k = (z k - w k * scale) / scale := by field_simp
    rw [e, abs_div, abs_of_pos hs]
    refine le_trans (div_le_div_of_nonneg_right (hz k hk) hs.le) (le_trans (le_of_eq ?_) hε)
    field_simp
  have hε0 : 0 ≤ ε := le_trans (abs_nonneg _) (hzε 0 (Nat.two_pow_pos _))
  set z' : ℕ → ℤ := fun k => if k % 2 ^ d = 0 then z (k / 2 ^ d) else 0 with hz'
  have hzz : ∀ k, z' (k * 2 ^ d) = z k := by
    intro k
    rw [hz']
    dsimp only
    rw [if_pos (Nat.mul_mod_left _ _), Nat.mul_div_cancel _ hd]
  have hin : InRange r level z' := by
    apply bounded_inRange
    intro k hk
    have hkd : k / 2 ^ d < 2 ^ (logSlots + 1) := Nat.div_lt_of_lt_mul (by rw [hN] at hk; rw [mul_comm, pow_succ, mul_comm (2 ^ logSlots)]; exact hk)
    have : (2 * |(z' k : ℝ)| + 1 : ℝ) < r.prodQ level := by
      rw [hz']
      dsimp only
      split
      · have h1 := hzε _ hkd
        have h2 := hwB _ hkd
        have h3 := abs_add_le ((z (k / 2 ^ d) : ℝ) / scale - w (k / 2 ^ d)) (w (k / 2 ^ d))
        rw [sub_add_cancel, abs_div, abs_of_pos hs] at h3
        have h5 : |(z (k / 2 ^ d) : ℝ)| ≤ (B + ε) * scale := by
          rw [← div_le_iff₀ hs]; linarith
        linarith
      · rw [Int.cast_zero, abs_zero]
        have : 0 ≤ 2 * scale * (B + ε) := by positivity
        linarith
    exact_mod_cast this
  have hold : Holds r (logSlots + 1 + d) level out z' := by
    refine hout.is.congr fun i _ k _ => ?_
    congr 1
    funext k
    rw [hz']
    dsimp only
    split <;> simp
  -- the complex coefficients
  have hdiff : ∀ k < 2 ^ logSlots, ‖toC ((z k : ℝ) / scale, (z (2 ^ logSlots + k) : ℝ) / scale) - toC (w k, w (2 ^ logSlots + k))‖ ≤ 2 * ε := by
    intro k hk
    refine (Complex.norm_le_abs_re_add_abs_im _).trans ?_
    have a1 := hzε k (by rw [pow_succ]; omega)
    have a2 := hzε (2 ^ logSlots + k) (by rw [pow_succ]; omega)
    show |(z k : ℝ) / scale - w k| + |(z (2 ^ logSlots + k) : ℝ) / scale - w (2 ^ logSlots + k)| ≤ _
    linarith
  have hwn : ∀ k < 2 ^ logSlots, ‖toC (w k, w (2 ^ logSlots + k))‖ ≤ B := by
    intro k hk
    -- the coefficients are determined by the values
    set x := (List.range (2 ^ logSlots)).map fun k => (w k, w (2 ^ logSlots + k)) with hx
    have hxl : 2 ^ logSlots ≤ x.length := by simp [hx]
    have hxat : ∀ k < 2 ^ logSlots, x.getD k 0 = (w k, w (2 ^ logSlots + k)) := by
      intro k hk; rw [hx]; simp [List.getD, hk]
    obtain ⟨f1, -, f3, -, -⟩ := C91_transforms_partial (n := logSlots) (d := d) x hxl
    set y := bcFFT id (2 ^ (logSlots + 2 + d)) (2 ^ logSlots) (bigRoots (2 ^ (logSlots + 2 + d))) x with hy
    have hyl : 2 ^ logSlots ≤ y.length := by rw [hy, bcFFT_length _ hxl]; exact hxl
    obtain ⟨-, -, -, -, f5⟩ := C91_transforms_partial (n := logSlots) (d := d) y hyl
    have := f5 B (fun j hj => by
      rw [f1 j hj]
      have e := hw j hj
      rw [slot_split] at e
      rw [Finset.sum_congr rfl fun k hk => by rw [hxat k (Finset.mem_range.1 hk)], ← e]
      exact hB j hj) k hk
    rwa [f3 k hk, hxat k hk] at this
  obtain ⟨res, ecd'', e2, he'', hlen, hres⟩ := C99_decode hr sr hl hb.rel ht ecd' he' hs z' hin (B := B + 2 * ε) (fun k hk => by
    rw [hzz, hzz]
    have a := norm_add_le (toC ((z k : ℝ) / scale, (z (2 ^ logSlots + k) : ℝ) / scale) - toC (w k, w (2 ^ logSlots + k)))
      (toC (w k, w (2 ^ logSlots + k)))
    rw [sub_add_cancel] at a
    have := hdiff k hk
    have := hwn k hk
    linarith) out hold
  refine ⟨out, ecd', ecd'', res, e1, e2, he'', hlen, fun j hj => ?_⟩
  have d1 := hres j hj
  have d2 : ‖slotVal logSlots d z' j / scale - toC (values.getD j 0)‖ ≤ 2 ^ logSlots * (2 * ε) := by
    rw [hw j hj, slot_split]
    have e2 : slotVal logSlots d z' j / scale =
        ∑ k ∈ range (2 ^ logSlots), toC ((z k : ℝ) / scale, (z (2 ^ logSlots + k) : ℝ) / scale) *
          (encZeta (2 ^ (logSlots + 2 + d)) ^ 2 ^ d) ^ (5 ^ j * k) := by
      rw [← slot_split logSlots d j (fun k => (z k : ℝ) / scale)]
      unfold slotVal
      rw [Finset.sum_div]
      refine Finset.sum_congr rfl fun k hk => ?_
      rw [hzz]
      push_cast
      ring
    rw [e2, ← Finset.sum_sub_distrib]
    refine (norm_sum_le _ _).trans ?_
    have e4 : (2 ^ logSlots * (2 * ε) : ℝ) = ∑ k ∈ range (2 ^ logSlots), 2 * ε := by
      rw [Finset.sum_const, Finset.card_range, nsmul_eq_mul]
      push_cast
      ring
    rw [e4]
    refine Finset.sum_le_sum fun k hk => ?_
    rw [← sub_mul, norm_mul, norm_pow, norm_pow, encZeta_norm, one_pow, one_pow, mul_one]
    exact hdiff k (Finset.mem_range.1 hk)
  have d3 := norm_add_le (toC (res.getD j 0) - slotVal logSlots d z' j / scale) (slotVal logSlots d z' j / scale - toC (values.getD j 0))
  rw [sub_add_sub_cancel] at d3
  have d4 : 2 ^ logSlots * (B + 2 * ε) * ((1 + u) ^ 2 / (1 - u) * ((1 + u) * ((1 + δ) * (1 + 3 * u))) ^ logSlots - 1) ≤
      2 ^ logSlots * (B + 2 * ε) * t := mul_le_mul_of_nonneg_left (by linarith) (by positivity)
  have e5 : (2 ^ logSlots * (2 * ε + (B + 2 * ε) * t) : ℝ) = 2 ^ logSlots * (2 * ε) + 2 ^ logSlots * (B + 2 * ε) * t := by ring
  rw [e5]
  linarith

/-! ### `big.Float` -/

theorem bigRound_zpow {prec : ℕ} (hp : 0 < prec) (n : ℤ) : bigRound prec (2 ^ n) = 2 ^ n := by
  have h0 : (0 : ℝ) < 2 ^ n := zpow_pos (by norm_num) _
  have hl : Int.log 2 |(2 : ℝ) ^ n| = n := by
    rw [abs_of_pos h0]
    exact_mod_cast Int.log_zpow (R := ℝ) (b := 2) (by norm_num) n
  unfold bigRound
  rw [if_neg h0.ne']
  simp only
  rw [hl]
  have e1 : (2 : ℝ) ^ n / 2 ^ (n + 1 - (prec : ℤ)) = ((2 ^ (prec - 1) : ℤ) : ℝ) := by
    rw [← zpow_sub₀ (by norm_num), show n - (n + 1 - (prec : ℤ)) = ((prec - 1 : ℕ) : ℤ) by omega, zpow_natCast]
    push_cast; rfl
  have h2 : (0 : ℝ) < 2 ^ (n + 1 - (prec : ℤ)) := zpow_pos (by norm_num) _
  rw [e1, roundEvenR_int, ← e1, div_mul_cancel₀ _ h2.ne']

/-- the rounding of `big.Float` with at least 12 bits -/
theorem bigRound_bigRound {prec : ℕ} (h12 : 12 ≤ prec) : BigRound (1 / 2 ^ prec) (bigRound prec) := by
  have he : bigEps prec = 1 / 2 ^ prec := by rw [bigEps, one_div, inv_pow, one_div]
  refine ⟨⟨by positivity, ?_, fun x => ?_⟩, ?_, fun n => ?_⟩
  · have : (2 : ℝ) ^ 12 ≤ 2 ^ prec := pow_le_pow_right₀ (by norm_num) h12
    exact one_div_le_one_div_of_le (by norm_num) (by linarith)
  · rw [← he]; exact bigRound_err prec x
  · have := bigRound_zpow (prec := prec) (by omega) (-1)
    rw [show (0.5 : ℝ) = 2 ^ (-1 : ℤ) by norm_num]; exact this
  · have := bigRound_zpow (prec := prec) (by omega) n
    rw [zpow_natCast] at this
    push_cast
    exact this

/-- **C99 (size).** The growth of the rounding errors in `Encode` and `Decode` with `prec` bits. -/
theorem C99_size {prec n : ℕ} (h12 : 12 ≤ prec) (hT : 32 * ((n : ℝ) + 1) * (prec + 27) / 2 ^ prec ≤ 1) :
    let u : ℝ := 1 / 2 ^ prec
    let δ : ℝ := 15 * (prec + 27) / 2 ^ prec
    (1 + u) ^ 5 * ((1 + u) * ((1 + δ) * (1 + 3 * u))) ^ n ≤ 1 + 32 * (n + 1) * (prec + 27) / 2 ^ prec ∧
    (1 + u) ^ 2 / (1 - u) * ((1 + u) * ((1 + δ) * (1 + 3 * u))) ^ n ≤ 1 + 32 * (n + 1) * (prec + 27) / 2 ^ prec := by
  intro u δ
  have hP : (0 : ℝ) < 2 ^ prec := by positivity
  have hP12 : (2 : ℝ) ^ 12 ≤ 2 ^ prec := pow_le_pow_right₀ (by norm_num) h12
  have hu : 0 ≤ u := by positivity
  have hu' : u ≤ 1 / 1000 := one_div_le_one_div_of_le (by norm_num) (by linarith)
  have hδ : 0 ≤ δ := by positivity
  have hpr : (12 : ℝ) ≤ prec := by exact_mod_cast h12
  have hn : (0 : ℝ) ≤ n := Nat.cast_nonneg n
  set τ : ℝ := 5 * u + n * (4 * u + δ) with hτ
  have hτT : 2 * τ ≤ 32 * (n + 1) * (prec + 27) / 2 ^ prec := by
    have e : 2 * τ = (2 * (5 + n * (4 + 15 * (prec + 27)))) / 2 ^ prec := by
      rw [hτ]; simp only [u, δ]; field_simp
    rw [e]
    refine div_le_div_of_nonneg_right ?_ hP.le
    have : 0 ≤ (n : ℝ) * (prec - 12) := mul_nonneg hn (by linarith)
    nlinarith
  have hτ0 : 0 ≤ τ := by positivity
  have hexp : Real.exp τ ≤ 1 + 2 * τ := by
    have h1 : |τ| ≤ 1 := by rw [abs_of_nonneg hτ0]; linarith
    have := Real.abs_exp_sub_one_le h1
    rw [abs_of_nonneg hτ0] at this
    have := (abs_le.1 this).2
    linarith
  have e1 : ∀ x : ℝ, 1 + x ≤ Real.exp x := fun x => by have := Real.add_one_le_exp x; linarith
  have hg : (1 + u) * ((1 + δ) * (1 + 3 * u)) ≤ Real.exp (4 * u + δ) := by
    rw [show 4 * u + δ = u + (δ + 3 * u) by ring, Real.exp_add, Real.exp_add]
    exact mul_le_mul (e1 u) (mul_le_mul (e1 δ) (e1 _) (by positivity) (Real.exp_pos _).le) (by positivity) (Real.exp_pos _).le
  have hgn : ((1 + u) * ((1 + δ) * (1 + 3 * u))) ^ n ≤ Real.exp (n * (4 * u + δ)) := by
    rw [Real.exp_nat_mul]
    exact pow_le_pow_left₀ (by positivity) hg n
  have fin : ∀ c, c ≤ Real.exp (5 * u) → c * ((1 + u) * ((1 + δ) * (1 + 3 * u))) ^ n ≤ 1 + 32 * (n + 1) * (prec + 27) / 2 ^ prec := by
    intro c hc
    refine (mul_le_mul hc hgn (by positivity) (Real.exp_pos _).le).trans ?_
    rw [← Real.exp_add, ← hτ]
    linarith
  refine ⟨fin _ ?_, fin _ ?_⟩
  · rw [show (5 : ℝ) * u = ((5 : ℕ) : ℝ) * u by norm_num, Real.exp_nat_mul]
    exact pow_le_pow_left₀ (by positivity) (e1 u) 5
  · have h1 : (1 + u) ^ 2 / (1 - u) ≤ 1 + 5 * u := by
      rw [div_le_iff₀ (by linarith)]
      nlinarith
    exact h1.trans (e1 _)

/-- **C99 (round trip with `prec` bits).** With the table and the rounding of an encoder of `prec` bits, encoding and decoding gives the
values back up to `2^n (2 / scale + 128 B (n+1) (prec+27) / 2^prec)`: two units of the scale and the precision, each times the
number of slots. -/
theorem C99_precision {prec : ℕ} (h12 : 12 ≤ prec) (hlt : prec < 2 ^ 20) {pi : ℝ} (hpi : |pi - Real.pi| ≤ Real.pi / 2 ^ prec)
    (hr : r.Valid (logSlots + 1 + d)) (sr : r.Small) (hl : level < r.subs.length) (hm : 8 * r.nthRoot ≤ 2 ^ prec)
    (hT : 32 * ((logSlots : ℝ) + 1) * (prec + 27) / 2 ^ prec ≤ 1 / 2) (ecd : BigEnc)
    (he : BigEncReady r ecd) (values : List (ℝ × ℝ)) (hv : values.length = 2 ^ logSlots) {scale : ℝ} (hs : 0 < scale) {B : ℝ}
    (hB : ∀ j < 2 ^ logSlots, ‖toC (values.getD j 0)‖ ≤ B) (pt : Rows)
    (hp : level < pt.length) (hrow : ∀ i ≤ level, (pt.row i).length = r.n) (hQ : 3 * scale * B + 3 < r.prodQ level) :
    ∃ (out : Rows) (ecd' ecd'' : BigEnc) (res : List (ℝ × ℝ)),
      r.bigEncode (bigRound prec) (bigTable pi prec r.nthRoot) ecd values scale level logSlots pt = .ok (out, ecd') ∧
      r.bigDecode (bigRound prec) (bigTable pi prec r.nthRoot) ecd' out scale level logSlots = .ok (res, ecd'') ∧ BigEncReady r ecd'' ∧
      res.length = 2 ^ logSlots ∧
      ∀ j < 2 ^ logSlots, ‖toC (res.getD j 0) - toC (values.getD j 0)‖ ≤
        2 ^ logSlots * (2 / scale + 128 * B * (logSlots + 1) * (prec + 27) / 2 ^ prec) := by
  have hb := bigRound_bigRound h12
  have htab := C99_table h12 hlt hm (by rw [hr.root]; positivity) hpi
  obtain ⟨s1, s2⟩ := C99_size (n := logSlots) h12 (by linarith)
  have hB0 : 0 ≤ B := le_trans (norm_nonneg _) (hB 0 (Nat.two_pow_pos _))
  have hu := hb.rel.small
  have hTd : 128 * B * (logSlots + 1) * (prec + 27) / 2 ^ prec = 4 * B * (32 * ((logSlots : ℝ) + 1) * (prec + 27) / 2 ^ prec) := by ring
  set T : ℝ := 32 * ((logSlots : ℝ) + 1) * (prec + 27) / 2 ^ prec with hTdef
  have hT0 : 0 ≤ T := by positivity
  have hBT : B * T ≤ B * (1 / 2) := mul_le_mul_of_nonneg_left hT hB0
  have hsi : 0 < 1 / scale := by positivity
  obtain ⟨out, ecd', ecd'', res, e1, e2, e3, e4, e5⟩ := C99_roundtrip hr sr hl hb htab ecd he values hv hs hB pt hp hrow
    (ε := (2 / 3) / scale + B * T) (t := T) (by
      refine add_le_add ?_ (mul_le_mul_of_nonneg_left (by linarith) hB0)
      exact div_le_div_of_nonneg_right (by linarith) hs.le) s2 (by
      have : 2 * scale * (B + (2 / 3 / scale + B * T)) = 2 * scale * B + 4 / 3 + 2 * scale * (B * T) := by
        field_simp; ring
      rw [this]
      have := mul_le_mul_of_nonneg_left hBT hs.le
      linarith)
  refine ⟨out, ecd', ecd'', res, e1, e2, e3, e4, fun j hj => (e5 j hj).trans (mul_le_mul_of_nonneg_left ?_ (by positivity))⟩
  rw [hTd]
  have h1 : B * T * T ≤ B * T * (1 / 2) := mul_le_mul_of_nonneg_left hT (by positivity)
  have h2 : 1 / scale * T ≤ 1 / scale * (1 / 2) := mul_le_mul_of_nonneg_left hT hsi.le
  have e : 2 * (2 / 3 / scale + B * T) + (B + 2 * (2 / 3 / scale + B * T)) * T =
    4 / 3 * (1 / scale) + 3 * (B * T) + 4 / 3 * (1 / scale * T) + 2 * (B * T * T) := by ring
  have e' : 2 / scale + 4 * B * T = 2 * (1 / scale) + 4 * (B * T) := by ring
  rw [e, e']
  linarith

/-- a concrete round trip with 64 bits: four slots in the ring of degree 16, one value negative, the plaintext full of other
data -/
example : ∃ (r : Ring) (out : Rows) (ecd' ecd'' : BigEnc) (res : List (ℝ × ℝ)), r.Valid 4 ∧
    r.bigEncode (bigRound 64) (bigTable Real.pi 64 r.nthRoot) ⟨List.replicate 8 (7, 7), List.replicate 16 0, [[], []]⟩
      [(1, 2), (0, -1), (3, 0), (-1, 1)] 100 1 2 (List.replicate 2 (List.replicate 16 5)) = .ok (out, ecd') ∧
    r.bigDecode (bigRound 64) (bigTable Real.pi 64 r.nthRoot) ecd' out 100 1 2 = .ok (res, ecd'') ∧
    ‖toC (res.getD 1 0) - toC (0, -1)‖ ≤ 0.0800001 := by
  obtain ⟨r, -, hv, sr, hl, hn, h0, h1⟩ := exists_small_ring
  have hQ : r.prodQ 1 = 97 * 193 := by
    rw [prodQ_succ, prodQ_zero, h0, h1]; rfl
  have hn1 : ∀ a b : ℝ, ‖toC (a, b)‖ ≤ |a| + |b| := fun a b => Complex.norm_le_abs_re_add_abs_im _
  obtain ⟨out, ecd', ecd'', res, e1, e2, -, -, e3⟩ := C99_precision (prec := 64) (pi := Real.pi) (logSlots := 2) (d := 1) (level := 1)
    (by norm_num) (by norm_num) (by simp; positivity) hv sr (by omega) (by rw [hv.root]; norm_num) (by norm_num)
    ⟨List.replicate 8 (7, 7), List.replicate 16 0, [[], []]⟩
    ⟨by simp [hn], ⟨by simp [hn], fun k => by rw [List.getD_eq_getElem?_getD, List.getElem?_replicate]; split <;> rfl⟩, by simp [hl]⟩
    [(1, 2), (0, -1), (3, 0), (-1, 1)] rfl (scale := 100) (by norm_num) (B := 3)
    (fun j hj => by
      have hj : j < 4 := hj
      interval_cases j <;> refine le_trans (hn1 _ _) ?_ <;> norm_num)
    (List.replicate 2 (List.replicate 16 5)) (by simp)
    (fun i hi => by
      rw [hn]
      interval_cases i <;> rfl)
    (by rw [hQ]; norm_num)
  refine ⟨r, out, ecd', ecd'', res, hv, e1, e2, ?_⟩
  have := e3 1 (by norm_num)
  refine le_trans this ?_
  norm_num

end FastKsw.Props
