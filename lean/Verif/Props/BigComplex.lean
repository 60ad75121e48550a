import Verif.Lemmas.BigComplex
import Verif.Props.Slots

/-!
# C91: the arbitrary precision encoder

Exact arithmetic; the accuracy of the table of roots is C90.
-/

namespace FastKsw.Props

open FastKsw Finset

/-- the table of `NewEncoderBigComplex` without rounding -/
noncomputable def bigRoots (M i : ℕ) : ℝ × ℝ := (Real.cos (2 * Real.pi * i / M), Real.sin (2 * Real.pi * i / M))

theorem toC_bigRoots (M i : ℕ) : toC (bigRoots M i) = encRoots M i := by
  unfold encRoots bigRoots toC
  generalize Real.cos (2 * Real.pi * i / M) = c
  generalize Real.sin (2 * Real.pi * i / M) = s
  apply Complex.ext <;> simp

theorem encRoots_norm (M i : ℕ) : ‖encRoots M i‖ = 1 := by
  rw [← toC_bigRoots, Complex.norm_def, toC, bigRoots, Complex.normSq_mk, ← pow_two, ← pow_two, Real.cos_sq_add_sin_sq, Real.sqrt_one]

/-- **C91 (arithmetic).** The operations of `ring.Complex` and `ring.ComplexMultiplier` are those of the complex numbers; the
division, too, though its comment gives a wrong formula for the imaginary part. -/
theorem C91_complex (a b : ℝ × ℝ) : toC (bcAdd id a b) = toC a + toC b ∧ toC (bcSub id a b) = toC a - toC b ∧
    toC (bcMul id a b) = toC a * toC b ∧ toC (bcDiv id a b) = toC a / toC b :=
  ⟨toC_add a b, toC_sub a b, toC_mul a b, toC_div a b⟩

variable {n d : ℕ}

/-- **C91 (transforms).** `FFT` evaluates the polynomial with the given coefficients at `ζ^(5^j)`, and leaves the values from `N` on
alone; `InvFFT` undoes it, and conversely.  The largest value of `InvFFT` is no larger than the largest of its
arguments. -/
theorem C91_transforms_partial (x : List (ℝ × ℝ)) (hx : 2 ^ n ≤ x.length) :
    (∀ j < 2 ^ n, toC ((bcFFT id (2 ^ (n + 2 + d)) (2 ^ n) (bigRoots (2 ^ (n + 2 + d))) x).getD j 0) =
      ∑ k ∈ range (2 ^ n), toC (x.getD k 0) * (encZeta (2 ^ (n + 2 + d)) ^ 2 ^ d) ^ (5 ^ j * k)) ∧
    (∀ k, 2 ^ n ≤ k → (bcFFT id (2 ^ (n + 2 + d)) (2 ^ n) (bigRoots (2 ^ (n + 2 + d))) x).getD k 0 = x.getD k 0) ∧
    (∀ k < 2 ^ n, (bcInvFFT id (2 ^ (n + 2 + d)) (2 ^ n) (bigRoots (2 ^ (n + 2 + d)))
      (bcFFT id (2 ^ (n + 2 + d)) (2 ^ n) (bigRoots (2 ^ (n + 2 + d))) x)).getD k 0 = x.getD k 0) ∧
    (∀ k < 2 ^ n, (bcFFT id (2 ^ (n + 2 + d)) (2 ^ n) (bigRoots (2 ^ (n + 2 + d)))
      (bcInvFFT id (2 ^ (n + 2 + d)) (2 ^ n) (bigRoots (2 ^ (n + 2 + d))) x)).getD k 0 = x.getD k 0) ∧
    ∀ B : ℝ, (∀ k < 2 ^ n, ‖toC (x.getD k 0)‖ ≤ B) → ∀ k < 2 ^ n,
      ‖toC ((bcInvFFT id (2 ^ (n + 2 + d)) (2 ^ n) (bigRoots (2 ^ (n + 2 + d))) x).getD k 0)‖ ≤ B := by
  have hroots : (fun i => toC (bigRoots (2 ^ (n + 2 + d)) i)) = encRoots (2 ^ (n + 2 + d)) := funext fun i => toC_bigRoots _ i
  have T := encZeta_table n d
  set M := 2 ^ (n + 2 + d) with hM
  set F := bcFFT id M (2 ^ n) (bigRoots M) with hF
  set I := bcInvFFT id M (2 ^ n) (bigRoots M) with hI
  have hFm : ∀ x, (F x).map toC = specialFFT false (2 ^ n) M (encRoots M) (x.map toC) := by
    intro x; rw [hF, bcFFT_map, hroots]
  have hFl : ∀ x, 2 ^ n ≤ x.length → (F x).length = x.length := fun x h => bcFFT_length x h
  have hIa : ∀ x, 2 ^ n ≤ x.length → (I x).length = x.length ∧ (∀ k < 2 ^ n, toC ((I x).getD k 0) =
      (specialiFFT false (2 ^ n) M (encRoots M) (2 ^ n) (x.map toC)).getD k 0) := by
    intro x h
    have := bcInvFFT_at (d := d) (roots := bigRoots M) x h
    rw [hroots] at this
    exact ⟨this.1, this.2.1⟩
  have hxl : (x.map toC).length = x.length := List.length_map ..
  have hinv := C72_inverse (K := ℂ) T two_ne_zero false false (2 ^ n) le_rfl (x.map toC) (by omega) (by simp)
  refine ⟨fun j hj => ?_, fun k hk => ?_, fun k hk => ?_, fun k hk => ?_, fun B hB k hk => ?_⟩
  · rw [← getD_map_toC, hFm, specialFFT_at T false _ (by unfold fftCap; rw [hxl]; simpa using hx) j hj]
    exact Finset.sum_congr rfl fun k _ => by rw [getD_map_toC]
  · apply toC_inj
    rw [← getD_map_toC, hFm, C71_frame_partial (K := ℂ) (d := d) false (by simp) _ (by omega) k hk, getD_map_toC]
  · apply toC_inj
    rw [(hIa _ (by rw [hFl x hx]; exact hx)).2 k hk, hFm, hinv.1 k hk, getD_map_toC]
  · apply toC_inj
    rw [← getD_map_toC, hFm, specialFFT_at T false _ (by
        unfold fftCap; rw [List.length_map, (hIa x hx).1]; simpa using hx) k hk, ← getD_map_toC x, ← hinv.2 k hk,
      specialFFT_at T false _ (by
        unfold fftCap
        rw [(specialiFFT_at (d := d) (roots := encRoots M) false (2 ^ n) le_rfl (x.map toC) (by
          unfold ifftCap fftCap; simp; omega)).1, hxl]; simpa using hx) k hk]
    refine Finset.sum_congr rfl fun i hi => ?_
    rw [getD_map_toC, (hIa x hx).2 i (Finset.mem_range.1 hi)]
  · rw [(hIa x hx).2 k hk, (specialiFFT_at (d := d) (roots := encRoots M) false (2 ^ n) le_rfl (x.map toC) (by
          unfold ifftCap fftCap; simp; omega)).2.1 k hk, norm_div]
    have hb := ifftLayers_norm (n := n) (d := d) (roots := encRoots M) (encRoots_norm M) n le_rfl (x.map toC) B (by omega)
      (fun k hk => by rw [getD_map_toC]; exact hB k hk) (revBits n k) (revBits_lt n k)
    have hpos : (0 : ℝ) < 2 ^ n := by positivity
    rw [show ‖((2 ^ n : ℕ) : ℂ)‖ = 2 ^ n by simp, div_le_iff₀ hpos, mul_comm B]
    exact hb

/-- **C91, violated** for the values after the `N` ones to transform: `InvFFT` divides them by `N` (ckks/encoder.go:781-785), so that
`FFT` and `InvFFT` are not inverse to each other on the slice. -/
theorem C91_frame_violated : ∃ x : List (ℝ × ℝ), x.length = 4 ∧
    (bcInvFFT id (2 ^ (1 + 2 + 1)) (2 ^ 1) (bigRoots (2 ^ (1 + 2 + 1)))
      (bcFFT id (2 ^ (1 + 2 + 1)) (2 ^ 1) (bigRoots (2 ^ (1 + 2 + 1))) x)).getD 3 0 ≠ x.getD 3 0 := by
  refine ⟨[0, 0, 0, (1, 0)], rfl, fun h => ?_⟩
  have h1 := (C91_transforms_partial (n := 1) (d := 1) [0, 0, 0, (1, 0)] (by simp)).2.1 3 (by norm_num)
  have h2 := (bcInvFFT_at (n := 1) (d := 1) (roots := bigRoots (2 ^ (1 + 2 + 1)))
    (bcFFT id (2 ^ (1 + 2 + 1)) (2 ^ 1) (bigRoots (2 ^ (1 + 2 + 1))) [0, 0, 0, (1, 0)]) (by
      rw [bcFFT_length _ (by simp)]; simp)).2.2 3 (by norm_num)
  rw [h, h1] at h2
  have h3 := congrArg Complex.re h2
  norm_num [toC, List.getD] at h3

/-! ### the encoder -/

theorem foldl_set_at {α : Type} (f : ℕ → α) (dflt : α) (m : ℕ) (v : List α) :
    ((List.range m).foldl (fun vs i => vs.set i (f i)) v).length = v.length ∧
    ∀ k, ((List.range m).foldl (fun vs i => vs.set i (f i)) v).getD k dflt =
      if k < m ∧ k < v.length then f k else v.getD k dflt := by
  induction m with
  | zero => exact ⟨rfl, fun k => by rw [if_neg (by omega)]; rfl⟩
  | succ m ih =>
    rw [List.range_succ, List.foldl_append]
    simp only [List.foldl_cons, List.foldl_nil]
    obtain ⟨h1, h2⟩ := ih
    refine ⟨by rw [List.length_set, h1], fun k => ?_⟩
    rw [List.getD_eq_getElem?_getD, List.getElem?_set, h1]
    by_cases hk : m = k
    · subst hk
      by_cases hl : m < v.length
      · rw [if_pos rfl, if_pos hl, if_pos ⟨by omega, hl⟩]; rfl
      · rw [if_pos rfl, if_neg hl, if_neg (by omega), List.getD_eq_default _ _ (by omega)]; rfl
    · rw [if_neg hk, ← List.getD_eq_getElem?_getD, h2]
      have : (k < m + 1 ∧ k < v.length) ↔ (k < m ∧ k < v.length) := by omega
      simp only [this]

/-- filling `valuesfloat` -/
theorem fill_at {slots gap : ℕ} (hg : 0 < gap) (f g : ℕ → ℝ) (v : List ℝ) (hv : v.length = 2 * slots * gap) (m : ℕ) (hm : m ≤ slots) :
    ((List.range m).foldl (fun (vf : List ℝ) i => (vf.set (i * gap) (f i)).set (slots * gap + i * gap) (g i)) v).length = v.length ∧
    ∀ k, ((List.range m).foldl (fun (vf : List ℝ) i => (vf.set (i * gap) (f i)).set (slots * gap + i * gap) (g i)) v).getD k 0 =
      if k % gap = 0 ∧ k / gap < m then f (k / gap)
      else if k % gap = 0 ∧ slots ≤ k / gap ∧ k / gap < slots + m then g (k / gap - slots) else v.getD k 0 := by
  induction m with
  | zero => exact ⟨rfl, fun k => by rw [if_neg (fun h => Nat.not_lt_zero _ h.2), if_neg (fun h => by omega)]; rfl⟩
  | succ m ih =>
    rw [List.range_succ, List.foldl_append]
    simp only [List.foldl_cons, List.foldl_nil]
    obtain ⟨h1, h2⟩ := ih (by omega)
    refine ⟨by rw [List.length_set, List.length_set, h1], fun k => ?_⟩
    rw [List.getD_eq_getElem?_getD, List.getElem?_set, List.getElem?_set, List.length_set, h1, hv]
    have b1 : m * gap < 2 * slots * gap := Nat.mul_lt_mul_of_pos_right (by omega) hg
    have b2 : slots * gap + m * gap < 2 * slots * gap := by
      rw [← add_mul]; exact Nat.mul_lt_mul_of_pos_right (by omega) hg
    have q : ∀ i, i * gap = k ↔ k % gap = 0 ∧ k / gap = i := by
      intro i
      constructor
      · rintro rfl
        exact ⟨Nat.mul_mod_left _ _, Nat.mul_div_cancel _ hg⟩
      · rintro ⟨h, rfl⟩
        exact Nat.div_mul_cancel (Nat.dvd_of_mod_eq_zero h)
    rw [← add_mul]
    by_cases c1 : (slots + m) * gap = k
    · have hq := (q (slots + m)).1 c1
      rw [if_pos c1, if_pos (by rw [add_mul]; exact b2), if_neg (by omega), if_pos ⟨hq.1, by omega, by omega⟩, hq.2,
        Nat.add_sub_cancel_left]
      rfl
    · rw [if_neg c1]
      by_cases c2 : m * gap = k
      · have hq := (q m).1 c2
        rw [if_pos c2, if_pos b1, if_pos ⟨hq.1, by omega⟩, hq.2]
        rfl
      · rw [if_neg c2, ← List.getD_eq_getElem?_getD, h2]
        rw [q] at c1 c2
        have e1 : (k % gap = 0 ∧ k / gap < m + 1) ↔ (k % gap = 0 ∧ k / gap < m) := by omega
        have e2 : (k % gap = 0 ∧ slots ≤ k / gap ∧ k / gap < slots + (m + 1)) ↔
            (k % gap = 0 ∧ slots ≤ k / gap ∧ k / gap < slots + m) := by omega
        simp only [e1, e2]

/-- the word written for a value is its product with the scale, rounded to an integer, modulo the modulus; it is not reduced for
a negative value -/
theorem scaleUpWord_spec {q : UInt64} (hq0 : 0 < q.toNat) (hq : q.toNat < 2 ^ 61) {v scale : ℝ} (hs : 0 < scale) :
    ∃ z : ℤ, z = truncInt (if v < 0 then scale * v - 0.5 else scale * v + 0.5) ∧ |(z : ℝ) - v * scale| ≤ 1 / 2 ∧
      (scaleUpWord id v scale q).toNat < 2 * q.toNat ∧ ((scaleUpWord id v scale q).toNat : ZMod q.toNat) = z := by
  refine ⟨_, rfl, ?_, ?_⟩
  · unfold truncInt
    rw [mul_comm v]
    by_cases hv : v < 0
    · have : scale * v < 0 := mul_neg_of_pos_of_neg hs hv
      rw [if_pos hv, if_pos (by norm_num; linarith)]
      have f1 := Int.floor_le (-(scale * v - 0.5))
      have f2 := Int.lt_floor_add_one (-(scale * v - 0.5))
      rw [abs_le]
      push_cast
      norm_num only at f1 f2 ⊢
      constructor <;> linarith
    · have : 0 ≤ scale * v := mul_nonneg hs.le (not_lt.1 hv)
      rw [if_neg hv, if_neg (by norm_num; linarith)]
      have f1 := Int.floor_le (scale * v + 0.5)
      have f2 := Int.lt_floor_add_one (scale * v + 0.5)
      rw [abs_le]
      norm_num only at f1 f2 ⊢
      constructor <;> linarith
  · unfold scaleUpWord
    dsimp only [id]
    set z := truncInt (if v < 0 then scale * v - 0.5 else scale * v + 0.5) with hz
    have h0 := Int.emod_nonneg z (show (q.toNat : ℤ) ≠ 0 by omega)
    have h1 := Int.emod_lt_of_pos z (show 0 < (q.toNat : ℤ) by omega)
    set t := if v < 0 then z % (q.toNat : ℤ) + (q.toNat : ℤ) else z % (q.toNat : ℤ) with ht
    have ht0 : 0 ≤ t := by rw [ht]; split <;> omega
    have ht1 : t < 2 * q.toNat := by rw [ht]; split <;> omega
    have e : (UInt64.ofNat t.toNat).toNat = t.toNat := by
      rw [UInt64.toNat_ofNat']
      exact Nat.mod_eq_of_lt (by omega)
    rw [e]
    refine ⟨by omega, ?_⟩
    have : ((t.toNat : ℤ) : ZMod q.toNat) = ((z : ℤ) : ZMod q.toNat) := by
      rw [Int.toNat_of_nonneg ht0, ht]
      split
      · push_cast; simp
      · simp
    rw [← this, Int.cast_natCast]

/-- an encoder between two calls -/
structure BigEncReady (r : Ring) (ecd : BigEnc) : Prop where
  values : ecd.values.length = r.n / 2
  float : ecd.valuesfloat.length = r.n ∧ ∀ k, ecd.valuesfloat.getD k 0 = 0
  pool : ecd.polypool.length = r.subs.length

variable {r : Ring} {level logSlots : ℕ}

/-- the coefficients `w` of the polynomial that takes the given values in the slots -/
def SlotCoeffs (logSlots d : ℕ) (values : List (ℝ × ℝ)) (w : ℕ → ℝ) : Prop :=
  ∀ j < 2 ^ logSlots, toC (values.getD j 0) =
    ∑ k ∈ range (2 ^ (logSlots + 1)), (w k : ℂ) * (encZeta (2 ^ (logSlots + 2 + d)) ^ 5 ^ j) ^ (k * 2 ^ d)

theorem slot_split (logSlots d j : ℕ) (w : ℕ → ℝ) :
    ∑ k ∈ range (2 ^ (logSlots + 1)), (w k : ℂ) * (encZeta (2 ^ (logSlots + 2 + d)) ^ 5 ^ j) ^ (k * 2 ^ d) =
    ∑ k ∈ range (2 ^ logSlots), toC (w k, w (2 ^ logSlots + k)) * (encZeta (2 ^ (logSlots + 2 + d)) ^ 2 ^ d) ^ (5 ^ j * k) := by
  have T := encZeta_table logSlots d
  have hI := encZeta_I logSlots d
  set ζ := encZeta (2 ^ (logSlots + 2 + d)) with hζ
  rw [pow_succ, mul_two, Finset.sum_range_add, ← Finset.sum_add_distrib]
  refine Finset.sum_congr rfl fun k hk => ?_
  have hI' : (ζ ^ 5 ^ j) ^ (2 ^ logSlots * 2 ^ d) = Complex.I := by
    have h1 : ζ ^ (4 * 2 ^ (logSlots + d)) = 1 := by
      rw [mul_comm, pow_mul, hI, Complex.I_pow_four]
    have h5 : 5 ^ j % 4 = 1 := by rw [Nat.pow_mod]; norm_num
    rw [← pow_mul, ← pow_add, ← pow_mod_of h1 (5 ^ j * 2 ^ (logSlots + d)), Nat.mul_mod_mul_right, h5, one_mul, hI]
  have hE : (ζ ^ 2 ^ d) ^ (5 ^ j * k) = (ζ ^ 5 ^ j) ^ (k * 2 ^ d) := by
    rw [← pow_mul, ← pow_mul]; congr 1; ring
  have hC : toC (w k, w (2 ^ logSlots + k)) = w k + w (2 ^ logSlots + k) * Complex.I := by
    apply Complex.ext <;> simp [toC]
  rw [hE, add_mul, pow_add, hI', hC]
  ring

/-- **C91 (Encode).** With as many values as slots, and whatever the plaintext held: the result holds, in the NTT domain at
the level of the plaintext, the rounded coefficients (error at most 1/2) of the scaled polynomial that takes the given
values in the slots, at the multiples of the gap, and zeros elsewhere; the coefficients before scaling are bounded by the
largest value; rows above the level are untouched and the encoder is ready for the next call. -/
theorem C91_encode_partial (hr : r.Valid (logSlots + 1 + d)) (sr : r.Small) (hl : level < r.subs.length) (ecd : BigEnc)
    (he : BigEncReady r ecd) (values : List (ℝ × ℝ)) (hv : values.length = 2 ^ logSlots) {scale : ℝ} (hs : 0 < scale) (pt : Rows)
    (hp : level < pt.length) (hrow : ∀ i ≤ level, (pt.row i).length = r.n) :
    ∃ (out : Rows) (ecd' : BigEnc) (w : ℕ → ℝ) (z : ℕ → ℤ),
      r.bigEncode id (bigRoots r.nthRoot) ecd values scale level logSlots pt = .ok (out, ecd') ∧ BigEncReady r ecd' ∧
      SlotCoeffs logSlots d values w ∧ (∀ k < 2 ^ (logSlots + 1), |(z k : ℝ) - w k * scale| ≤ 1 / 2) ∧
      (∀ B : ℝ, (∀ j < 2 ^ logSlots, ‖toC (values.getD j 0)‖ ≤ B) → ∀ k < 2 ^ (logSlots + 1), |w k| ≤ B) ∧
      PolyWritten r level r.qs pt out (fun i => evals (r.sub i).psi (logSlots + 1 + d)
        (fun k => if k % 2 ^ d = 0 then ((z (k / 2 ^ d) : ℤ) : ZMod (r.sub i).q.toNat) else 0)) := by
  have h4 := hr.four_le
  have hd := Nat.two_pow_pos d
  have hS := Nat.two_pow_pos logSlots
  have hN : r.n = 2 * 2 ^ logSlots * 2 ^ d := by rw [hr.deg]; ring
  have hN2 : r.n / 2 = 2 ^ logSlots * 2 ^ d := by rw [hN, mul_assoc, Nat.mul_div_cancel_left _ (by norm_num)]
  have hM : r.nthRoot = 2 ^ (logSlots + 2 + d) := by rw [hr.root]; congr 1; omega
  have hle : 2 ^ logSlots ≤ r.n / 2 := by rw [hN2]; exact Nat.le_mul_of_pos_right _ hd
  have hgap : r.n / 2 / 2 ^ logSlots = 2 ^ d := by rw [hN2, Nat.mul_div_cancel_left _ hS]
  unfold Ring.bigEncode
  dsimp only [id, Prod.mk.eta]
  rw [if_neg (by omega), if_neg (by omega), hgap, hM]
  obtain ⟨v1, v2⟩ := foldl_set_at (fun i => values.getD i 0) 0 (2 ^ logSlots) ecd.values
  set vs0 := (List.range (2 ^ logSlots)).foldl (fun (vs : List (ℝ × ℝ)) i => vs.set i (values.getD i 0)) ecd.values with hvs0
  have hl0 : 2 ^ logSlots ≤ vs0.length := by rw [v1, he.values]; exact hle
  have hin := C91_transforms_partial (n := logSlots) (d := d) vs0 hl0
  have hvs1l := (bcInvFFT_at (d := d) (roots := bigRoots (2 ^ (logSlots + 2 + d))) vs0 hl0).1
  set vs1 := bcInvFFT id (2 ^ (logSlots + 2 + d)) (2 ^ logSlots) (bigRoots (2 ^ (logSlots + 2 + d))) vs0 with hvs1
  have hfill := fill_at (slots := 2 ^ logSlots) hd (fun i => (vs1.getD i 0).1) (fun i => (vs1.getD i 0).2) ecd.valuesfloat
    (by rw [he.float.1, hN]) (2 ^ logSlots) le_rfl
  rw [hN2]
  set vf := (List.range (2 ^ logSlots)).foldl (fun (vf : List ℝ) i =>
    (vf.set (i * 2 ^ d) (vs1.getD i 0).1).set (2 ^ logSlots * 2 ^ d + i * 2 ^ d) (vs1.getD i 0).2) ecd.valuesfloat with hvf
  set w : ℕ → ℝ := fun k => if k < 2 ^ logSlots then (vs1.getD k 0).1 else (vs1.getD (k - 2 ^ logSlots) 0).2 with hw
  have hvfl : vf.length = r.n := by rw [hfill.1, he.float.1]
  have hvfat : ∀ k < r.n, vf.getD k 0 = if k % 2 ^ d = 0 then w (k / 2 ^ d) else 0 := by
    intro k hk
    have hkd : k / 2 ^ d < 2 * 2 ^ logSlots := Nat.div_lt_of_lt_mul (by rw [hN] at hk; rw [mul_comm]; exact hk)
    rw [hfill.2 k, he.float.2 k, hw]
    by_cases c : k % 2 ^ d = 0
    · by_cases c2 : k / 2 ^ d < 2 ^ logSlots
      · rw [if_pos ⟨c, c2⟩, if_pos c]; dsimp only; rw [if_pos c2]
      · rw [if_neg (fun h => c2 h.2), if_pos ⟨c, by omega, by omega⟩, if_pos c]; dsimp only; rw [if_neg c2]
    · rw [if_neg (fun h => c h.1), if_neg (fun h => c h.1), if_neg c]
  set zf : ℝ → ℤ := fun v => truncInt (if v < 0 then scale * v - 0.5 else scale * v + 0.5) with hzf
  have hz0 : zf 0 = 0 := by
    rw [hzf]; dsimp only; rw [if_neg (lt_irrefl _)]; unfold truncInt
    norm_num
  have hlt61 : ∀ i ≤ level, (r.sub i).q.toNat < 2 ^ 61 := fun i hi => sr _ (Ring.sub_mem (by omega))
  have hwj : ∀ k < 2 ^ logSlots, toC (w k, w (2 ^ logSlots + k)) = toC (vs1.getD k 0) := by
    intro k hk
    rw [hw]
    dsimp only
    rw [if_pos hk, if_neg (by omega), Nat.add_sub_cancel_left]
  set p1 := writeLvl level (fun j => setRow (fun v => scaleUpWord id v scale (r.sub j).q) vf (pt.row j)) pt with hp1
  have hp1l : p1.length = pt.length := length_writeLvl _ _ _
  have hrow1 : ∀ i ≤ level, RowIs r.n (r.sub i).q.toNat (2 * (r.sub i).q.toNat) (p1.row i)
      (fun k => if k % 2 ^ d = 0 then ((zf (w (k / 2 ^ d)) : ℤ) : ZMod (r.sub i).q.toNat) else 0) := by
    intro i hi
    have V := hr.subAt (show i < r.subs.length by omega)
    have hq0 : 0 < (r.sub i).q.toNat := (Nat.pos_of_ne_zero (by have := V.arith.odd; omega))
    have hat : ∀ k < r.n, (p1.row i).at k = scaleUpWord id (vf.getD k 0) scale (r.sub i).q := by
      intro k hk
      rw [hp1, row_writeLvl hi hp, setRow_at _ _ _ 0 (by omega)]
    refine ⟨?_, fun k hk => ?_, fun k hk => ?_⟩
    · rw [hp1, row_writeLvl hi hp]
      unfold setRow
      rw [List.length_append, List.length_map, List.length_drop, hrow i hi, hvfl]; omega
    · rw [hat k hk]
      obtain ⟨_, -, -, h, -⟩ := scaleUpWord_spec hq0 (hlt61 i hi) hs (v := vf.getD k 0)
      exact h
    · obtain ⟨z', e, -, -, h⟩ := scaleUpWord_spec hq0 (hlt61 i hi) hs (v := vf.getD k 0)
      rw [zval, hat k hk, h, e]
      rw [hvfat k hk]
      split
      · rfl
      · rw [show truncInt _ = zf 0 from rfl, hz0]; simp
  obtain ⟨y1, y2⟩ := foldl_set_at (fun _ => ((0, 0) : ℝ × ℝ)) 0 (2 ^ logSlots * 2 ^ d) vs1
  obtain ⟨f1, f2⟩ := foldl_set_at (fun _ => (0 : ℝ)) 0 r.n vf
  refine ⟨_, _, w, fun k => zf (w k), rfl, ⟨?_, ⟨?_, fun k => ?_⟩, he.pool⟩, fun j hj => ?_, fun k hk => ?_, fun B hB k hk => ?_, ?_⟩
  · rw [y1, hvs1l, v1, he.values]
  · rw [f1, hvfl]
  · rw [f2 k]
    split
    · rfl
    · rename_i h
      exact List.getD_eq_default _ _ (by omega)
  · rw [slot_split]
    have t1 := (C91_transforms_partial (n := logSlots) (d := d) vs1 (by omega)).1 j hj
    have t2 := hin.2.2.2.1 j hj
    rw [t2, v2 j, if_pos ⟨hj, by rw [he.values]; omega⟩] at t1
    rw [t1]
    exact Finset.sum_congr rfl fun k hk => by rw [hwj k (Finset.mem_range.1 hk)]
  · have V := hr.subAt (show 0 < r.subs.length by omega)
    obtain ⟨z', e, h, -⟩ := scaleUpWord_spec (q := (r.sub 0).q) (Nat.pos_of_ne_zero (by have := V.arith.odd; omega)) (hlt61 0 (by omega)) hs (v := w k)
    rw [e] at h
    exact h
  · have hb : ∀ k < 2 ^ logSlots, ‖toC (vs1.getD k 0)‖ ≤ B := by
      refine hin.2.2.2.2 B (fun k hk => ?_)
      rw [v2 k, if_pos ⟨hk, by rw [he.values]; omega⟩]
      exact hB k hk
    rw [hw]
    dsimp only
    split
    · rename_i h
      exact le_trans (Complex.abs_re_le_norm (toC (vs1.getD k 0))) (hb k h)
    · rename_i h
      rw [pow_succ] at hk
      exact le_trans (Complex.abs_im_le_norm (toC (vs1.getD (k - 2 ^ logSlots) 0))) (hb _ (by omega))
  · have hE : PolyWritten r level r.qs p1 (r.nttLvl level p1 p1) (fun i => evals (r.sub i).psi (logSlots + 1 + d)
        (fun k => if k % 2 ^ d = 0 then ((zf (w (k / 2 ^ d)) : ℤ) : ZMod (r.sub i).q.toNat) else 0)) := by
      unfold Ring.nttLvl
      refine writeLvl_is (by omega) (fun i hi => ?_)
      have V := hr.subAt (show i < r.subs.length by omega)
      have := hlt61 i hi
      have h1 := hrow1 i hi
      rw [hr.deg] at h1 ⊢
      exact ntt_is V (by omega) (hlt61 i hi) (by omega) h1
    exact ⟨hE.is, by rw [hE.len, hp1l], fun i hi => by rw [hE.above i hi, hp1]; exact row_writeLvl_above hi⟩

/-- **C91 (Decode).** On a plaintext that holds an integer polynomial whose coefficients are in the symmetric range of the
modulus, at any level and with any content of the buffers, slot `j` of the result is the value of that polynomial at
`ζ^(5^j)` (its coefficients at the multiples of the gap) divided by the scale. -/
theorem C91_decode_partial (hr : r.Valid (logSlots + 1 + d)) (sr : r.Small) (hl : level < r.subs.length) (ecd : BigEnc)
    (he : BigEncReady r ecd) (scale : ℝ) (z : ℕ → ℤ) (hz : InRange r level z) (pt : Rows)
    (hp : Holds r (logSlots + 1 + d) level pt z) :
    ∃ (res : List (ℝ × ℝ)) (ecd' : BigEnc),
      r.bigDecode id (bigRoots r.nthRoot) ecd pt scale level logSlots = .ok (res, ecd') ∧ BigEncReady r ecd' ∧
      res.length = 2 ^ logSlots ∧ ∀ j < 2 ^ logSlots, toC (res.getD j 0) = slotVal logSlots d z j / scale := by
  have h4 := hr.four_le
  have hd := Nat.two_pow_pos d
  have hS := Nat.two_pow_pos logSlots
  have hN : r.n = 2 * 2 ^ logSlots * 2 ^ d := by rw [hr.deg]; ring
  have hN2 : r.n / 2 = 2 ^ logSlots * 2 ^ d := by rw [hN, mul_assoc, Nat.mul_div_cancel_left _ (by norm_num)]
  have hM : r.nthRoot = 2 ^ (logSlots + 2 + d) := by rw [hr.root]; congr 1; omega
  have hle : 2 ^ logSlots ≤ r.n / 2 := by rw [hN2]; exact Nat.le_mul_of_pos_right _ hd
  have hgap : r.n / 2 / 2 ^ logSlots = 2 ^ d := by rw [hN2, Nat.mul_div_cancel_left _ hS]
  have hinv := invPool_row hr sr hl z pt ecd.polypool he.pool hp
  have hplen : (r.invNttLvl level pt ecd.polypool).length = r.subs.length := by
    unfold Ring.invNttLvl; rw [length_writeLvl]; exact he.pool
  unfold Ring.bigDecode
  dsimp only [id]
  rw [if_neg (by omega), hgap, hM]
  set pool := r.invNttLvl level pt ecd.polypool with hpool
  have hlt : ∀ i < 2 * 2 ^ logSlots, i * 2 ^ d < r.n := by
    intro i hi
    rw [hN]
    exact Nat.mul_lt_mul_of_pos_right hi hd
  have hbig := fun i (hi : i < 2 * 2 ^ logSlots) =>
    big_decode hr hl pool hplen (hz _ (hlt i hi)) hd (hlt i hi) (fun j hj => (hinv j hj).val _ (hlt i hi))
  dsimp only at hbig
  obtain ⟨v1, v2⟩ := foldl_set_at (fun i => (((if (r.polyToBigintLvl (pool.length - 1) pool (2 ^ d)).getD i 0 % r.bigintChain level ≥
      r.bigintChain level / 2 then (r.polyToBigintLvl (pool.length - 1) pool (2 ^ d)).getD i 0 % r.bigintChain level - r.bigintChain level
      else (r.polyToBigintLvl (pool.length - 1) pool (2 ^ d)).getD i 0 % r.bigintChain level : ℤ) : ℝ) / scale,
    ((if (r.polyToBigintLvl (pool.length - 1) pool (2 ^ d)).getD (2 ^ logSlots + i) 0 % r.bigintChain level ≥
      r.bigintChain level / 2 then (r.polyToBigintLvl (pool.length - 1) pool (2 ^ d)).getD (2 ^ logSlots + i) 0 % r.bigintChain level -
        r.bigintChain level
      else (r.polyToBigintLvl (pool.length - 1) pool (2 ^ d)).getD (2 ^ logSlots + i) 0 % r.bigintChain level : ℤ) : ℝ) / scale)) 0
    (2 ^ logSlots) ecd.values
  set vs0 := List.foldl _ ecd.values (List.range (2 ^ logSlots)) with hvs0
  have hl0 : 2 ^ logSlots ≤ vs0.length := by rw [v1, he.values]; exact hle
  have hat : ∀ k < 2 ^ logSlots, vs0.getD k 0 = ((z (k * 2 ^ d) : ℝ) / scale, (z ((2 ^ logSlots + k) * 2 ^ d) : ℝ) / scale) := by
    intro k hk
    rw [v2 k, if_pos ⟨hk, by rw [he.values]; omega⟩, hbig k (by omega), hbig (2 ^ logSlots + k) (by omega)]
  obtain ⟨y1, y2⟩ := foldl_set_at (fun _ => ((0, 0) : ℝ × ℝ)) 0 (r.n / 2)
    (bcFFT id (2 ^ (logSlots + 2 + d)) (2 ^ logSlots) (bigRoots (2 ^ (logSlots + 2 + d))) vs0)
  refine ⟨_, _, rfl, ⟨?_, he.float, hplen⟩, by simp, fun j hj => ?_⟩
  · rw [y1, bcFFT_length _ hl0, v1, he.values]
  · have e : ∀ f : ℕ → ℝ × ℝ, ((List.range (2 ^ logSlots)).map f).getD j 0 = f j := by
      intro f; simp [List.getD, hj]
    rw [e, (C91_transforms_partial (n := logSlots) (d := d) vs0 hl0).1 j hj]
    unfold slotVal
    have := slot_split logSlots d j (fun k => (z (k * 2 ^ d) : ℝ) / scale)
    rw [Finset.sum_div]
    refine Eq.trans (Eq.trans (Finset.sum_congr rfl fun k hk => ?_) this.symm) (Finset.sum_congr rfl fun k hk => ?_)
    · rw [hat k (Finset.mem_range.1 hk)]
    · push_cast
      ring

theorem bounded_inRange {level : ℕ} {z : ℕ → ℤ} (h : ∀ k < r.n, 2 * |z k| + 1 < r.prodQ level) : InRange r level z := by
  intro k hk
  have := h k hk
  have h1 := neg_abs_le (z k)
  have h2 := le_abs_self (z k)
  omega

/-- **C91 (round trip).** Encoding complex values and decoding the plaintext gives them back with an error of at most
`slots / scale`: half a unit for each of the `2 * slots` coefficients. -/
theorem C91_roundtrip_partial (hr : r.Valid (logSlots + 1 + d)) (sr : r.Small) (hl : level < r.subs.length) (ecd : BigEnc)
    (he : BigEncReady r ecd) (values : List (ℝ × ℝ)) (hv : values.length = 2 ^ logSlots) {scale : ℝ} (hs : 0 < scale) (pt : Rows)
    (hp : level < pt.length) (hrow : ∀ i ≤ level, (pt.row i).length = r.n) (B : ℝ)
    (hB : ∀ j < 2 ^ logSlots, ‖toC (values.getD j 0)‖ * scale ≤ B) (hQ : 2 * B + 2 < r.prodQ level) :
    ∃ (out : Rows) (ecd' ecd'' : BigEnc) (res : List (ℝ × ℝ)),
      r.bigEncode id (bigRoots r.nthRoot) ecd values scale level logSlots pt = .ok (out, ecd') ∧
      r.bigDecode id (bigRoots r.nthRoot) ecd' out scale level logSlots = .ok (res, ecd'') ∧ BigEncReady r ecd'' ∧
      res.length = 2 ^ logSlots ∧
      ∀ j < 2 ^ logSlots, ‖toC (res.getD j 0) - toC (values.getD j 0)‖ ≤ 2 ^ logSlots / scale := by
  obtain ⟨out, ecd', w, z, e1, he', hw, hz, hwB, hout⟩ := C91_encode_partial hr sr hl ecd he values hv hs pt hp hrow
  have hd := Nat.two_pow_pos d
  have hN : r.n = 2 * 2 ^ logSlots * 2 ^ d := by rw [hr.deg]; ring
  have hB' : ∀ k < 2 ^ (logSlots + 1), |w k| * scale ≤ B := by
    intro k hk
    rw [← le_div_iff₀ hs]
    exact hwB (B / scale) (fun j hj => by rw [le_div_iff₀ hs]; exact hB j hj) k hk
  set z' : ℕ → ℤ := fun k => if k % 2 ^ d = 0 then z (k / 2 ^ d) else 0 with hz'
  have hin : InRange r level z' := by
    have hB0 : 0 ≤ B := le_trans (by positivity) (hB' 0 (Nat.two_pow_pos _))
    apply bounded_inRange
    intro k hk
    have hkd : k / 2 ^ d < 2 ^ (logSlots + 1) := Nat.div_lt_of_lt_mul (by rw [hN] at hk; rw [mul_comm, pow_succ, mul_comm (2 ^ logSlots)]; exact hk)
    have : (2 * |(z' k : ℝ)| + 1 : ℝ) < r.prodQ level := by
      rw [hz']
      dsimp only
      split
      · have h1 := hz _ hkd
        have h2 := hB' _ hkd
        have h3 := abs_sub_abs_le_abs_sub (z (k / 2 ^ d) : ℝ) (w (k / 2 ^ d) * scale)
        rw [abs_mul, abs_of_pos hs] at h3
        linarith
      · rw [Int.cast_zero, abs_zero]; linarith
    exact_mod_cast this
  have hold : Holds r (logSlots + 1 + d) level out z' := by
    refine hout.is.congr fun i _ k _ => ?_
    congr 1
    funext k
    rw [hz']
    dsimp only
    split <;> simp
  obtain ⟨res, ecd'', e2, he'', hlen, hres⟩ := C91_decode_partial hr sr hl ecd' he' scale z' hin out hold
  refine ⟨out, ecd', ecd'', res, e1, e2, he'', hlen, fun j hj => ?_⟩
  rw [hres j hj, hw j hj]
  have hs' : (scale : ℂ) ≠ 0 := by exact_mod_cast hs.ne'
  have e3 : slotVal logSlots d z' j / scale - ∑ k ∈ range (2 ^ (logSlots + 1)),
      (w k : ℂ) * (encZeta (2 ^ (logSlots + 2 + d)) ^ 5 ^ j) ^ (k * 2 ^ d) =
      ∑ k ∈ range (2 ^ (logSlots + 1)), (((z k : ℝ) - w k * scale) / scale : ℝ) *
        (encZeta (2 ^ (logSlots + 2 + d)) ^ 5 ^ j) ^ (k * 2 ^ d) := by
    unfold slotVal
    rw [Finset.sum_div, ← Finset.sum_sub_distrib]
    refine Finset.sum_congr rfl fun k hk => ?_
    have : z' (k * 2 ^ d) = z k := by
      rw [hz']
      dsimp only
      rw [if_pos (Nat.mul_mod_left _ _), Nat.mul_div_cancel _ hd]
    rw [this]
    push_cast
    field_simp
  rw [e3]
  refine le_trans (norm_sum_le _ _) ?_
  have e4 : (2 ^ logSlots / scale : ℝ) = ∑ k ∈ range (2 ^ (logSlots + 1)), (1 / 2 / scale : ℝ) := by
    rw [Finset.sum_const, Finset.card_range, nsmul_eq_mul]
    push_cast
    rw [pow_succ]
    ring
  rw [e4]
  refine Finset.sum_le_sum fun k hk => ?_
  rw [norm_mul, norm_pow, norm_pow, encZeta_norm, one_pow, one_pow, mul_one, Complex.norm_real, Real.norm_eq_abs, abs_div,
    abs_of_pos hs]
  exact div_le_div_of_nonneg_right (hz k (Finset.mem_range.1 hk)) hs.le

/-- **C91 (violated: fewer values).** The documentation of `Encode` allows `1 ≤ len(values) ≤ 2^logSlots`; every vector with
fewer values than slots makes it panic. -/
theorem C91_fewer_violated (rnd : ℝ → ℝ) (roots : ℕ → ℝ × ℝ) (ecd : BigEnc) (scale : ℝ) (pt : Rows) (level logSlots : ℕ)
    (values : List (ℝ × ℝ)) (h1 : 1 ≤ values.length) (h2 : values.length < 2 ^ logSlots) (h3 : 2 ^ logSlots ≤ r.n / 2) :
    r.bigEncode rnd roots ecd values scale level logSlots pt = .panic := by
  unfold Ring.bigEncode
  dsimp only
  rw [if_neg (by omega), if_pos (by omega)]

/-- a concrete round trip: four slots in the ring of degree 16, one value negative, the plaintext full of other data -/
example : ∃ (r : Ring) (out : Rows) (ecd' ecd'' : BigEnc) (res : List (ℝ × ℝ)), r.Valid 4 ∧
    r.bigEncode id (bigRoots r.nthRoot) ⟨List.replicate 8 (7, 7), List.replicate 16 0, [[], []]⟩ [(1, 2), (0, -1), (3, 0), (-1, 1)]
      100 1 2 (List.replicate 2 (List.replicate 16 5)) = .ok (out, ecd') ∧
    r.bigDecode id (bigRoots r.nthRoot) ecd' out 100 1 2 = .ok (res, ecd'') ∧
    ‖toC (res.getD 1 0) - toC (0, -1)‖ ≤ 4 / 100 := by
  obtain ⟨r, -, hv, sr, hl, hn, h0, h1⟩ := exists_small_ring
  have hQ : r.prodQ 1 = 97 * 193 := by
    rw [prodQ_succ, prodQ_zero, h0, h1]; rfl
  have hn1 : ∀ a b : ℝ, ‖toC (a, b)‖ ≤ |a| + |b| := fun a b => Complex.norm_le_abs_re_add_abs_im _
  obtain ⟨out, ecd', ecd'', res, e1, e2, -, -, e3⟩ := C91_roundtrip_partial (logSlots := 2) (d := 1) (level := 1) hv sr (by omega)
    ⟨List.replicate 8 (7, 7), List.replicate 16 0, [[], []]⟩
    ⟨by simp [hn], ⟨by simp [hn], fun k => by rw [List.getD_eq_getElem?_getD, List.getElem?_replicate]; split <;> rfl⟩, by simp [hl]⟩
    [(1, 2), (0, -1), (3, 0), (-1, 1)] rfl (scale := 100) (by norm_num) (List.replicate 2 (List.replicate 16 5)) (by simp)
    (fun i hi => by
      rw [hn]
      interval_cases i <;> rfl) 300
    (fun j hj => by
      have : ‖toC (([(1, 2), (0, -1), (3, 0), (-1, 1)] : List (ℝ × ℝ)).getD j 0)‖ ≤ 3 := by
        have hj : j < 4 := hj
        interval_cases j <;> refine le_trans (hn1 _ _) ?_ <;> norm_num
      linarith)
    (by rw [hQ]; norm_num)
  refine ⟨r, out, ecd', ecd'', res, hv, e1, e2, ?_⟩
  have := e3 1 (by norm_num)
  norm_num at this ⊢
  exact this

end FastKsw.Props
