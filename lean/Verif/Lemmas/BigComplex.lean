import Verif.Model.BigComplex
import Verif.Lemmas.SpecialFFT
import Mathlib.Analysis.Complex.Norm

/-!
# The transforms on pairs of real numbers are those of `Model/SpecialFFT` on complex numbers
-/

namespace FastKsw

open Finset

/-- a `*ring.Complex` as a complex number -/
def toC (c : ℝ × ℝ) : ℂ := ⟨c.1, c.2⟩

theorem toC_inj {a b : ℝ × ℝ} (h : toC a = toC b) : a = b := by
  have h1 := congrArg Complex.re h
  have h2 := congrArg Complex.im h
  exact Prod.ext h1 h2

@[simp] theorem toC_zero : toC 0 = 0 := rfl

theorem toC_add (a b : ℝ × ℝ) : toC (bcAdd id a b) = toC a + toC b := by
  apply Complex.ext <;> simp [toC, bcAdd]

theorem toC_sub (a b : ℝ × ℝ) : toC (bcSub id a b) = toC a - toC b := by
  apply Complex.ext <;> simp [toC, bcSub]

theorem toC_mul (a b : ℝ × ℝ) : toC (bcMul id a b) = toC a * toC b := by
  apply Complex.ext <;> simp [toC, bcMul]

theorem toC_div (a b : ℝ × ℝ) : toC (bcDiv id a b) = toC a / toC b := by
  apply Complex.ext
  · simp [toC, bcDiv, Complex.div_re, Complex.normSq]; ring
  · simp [toC, bcDiv, Complex.div_im, Complex.normSq]; ring

theorem getD_map_toC (x : List (ℝ × ℝ)) (k : ℕ) : (x.map toC).getD k 0 = toC (x.getD k 0) := by
  rw [List.getD_eq_getElem?_getD, List.getD_eq_getElem?_getD, List.getElem?_map]
  cases x[k]? <;> rfl

theorem bcBitReverse_map (N : ℕ) (x : List (ℝ × ℝ)) : (bcBitReverse N x).map toC = cSliceBitReverse N (x.map toC) := by
  have h := List.foldl_hom (f := fun s : ℕ × List (ℝ × ℝ) => (s.1, s.2.map toC))
    (g₁ := fun s i' =>
      let i := i' + 1
      let j := bitRevNext N s.1 (N / 2)
      (j, if i < j then (s.2.set i (s.2.getD j 0)).set j (s.2.getD i 0) else s.2))
    (g₂ := fun s i' =>
      let i := i' + 1
      let j := bitRevNext N s.1 (N / 2)
      (j, if i < j then (s.2.set i (s.2.getD j 0)).set j (s.2.getD i 0) else s.2))
    (l := List.range (N - 1)) (init := (0, x)) (fun s i' => by
      dsimp only
      split
      · rw [List.map_set, List.map_set, getD_map_toC, getD_map_toC]
      · rfl)
  exact (congrArg Prod.snd h).symm

theorem bcFFTLayer_map (m N lenh : ℕ) (roots : ℕ → ℝ × ℝ) (x : List (ℝ × ℝ)) :
    (bcFFTLayer id m N (2 * lenh) roots x).map toC =
      fftLayer (fun u v w => (u + v * w, u - v * w)) (fftRoot (fun i => toC (roots i)) m (2 * lenh)) (N / (2 * lenh)) lenh
        (x.map toC) := by
  unfold bcFFTLayer fftLayer
  symm
  refine List.foldl_hom (List.map toC) fun x b => ?_
  dsimp only
  rw [Nat.mul_div_cancel_left _ (by norm_num : 0 < 2)]
  refine List.foldl_hom (List.map toC) fun x j => ?_
  rw [List.map_set, List.map_set, toC_add, toC_sub, toC_mul, getD_map_toC, getD_map_toC]
  unfold fftRoot
  rw [mul_comm 4 (2 * lenh)]

theorem bcInvLayer_map (m N lenh : ℕ) (roots : ℕ → ℝ × ℝ) (x : List (ℝ × ℝ)) :
    (bcInvLayer id m N (2 * lenh) roots x).map toC =
      fftLayer (fun u v w => (u + v, (u - v) * w)) (ifftRoot (fun i => toC (roots i)) m (2 * lenh)) (N / (2 * lenh)) lenh
        (x.map toC) := by
  unfold bcInvLayer fftLayer
  symm
  refine List.foldl_hom (List.map toC) fun x b => ?_
  dsimp only
  rw [Nat.mul_div_cancel_left _ (by norm_num : 0 < 2)]
  refine List.foldl_hom (List.map toC) fun x j => ?_
  rw [List.map_set, List.map_set, toC_mul, toC_add, toC_sub, getD_map_toC, getD_map_toC]
  unfold ifftRoot
  rw [mul_comm 4 (2 * lenh)]

theorem bcInvLayer_one (m N : ℕ) (roots : ℕ → ℝ × ℝ) (x : List (ℝ × ℝ)) : bcInvLayer id m N 1 roots x = x := by
  unfold bcInvLayer
  dsimp only
  have : ∀ l : List ℕ, l.foldl (fun (x : List (ℝ × ℝ)) (_ : ℕ) => x) x = x := by
    intro l; induction l with
    | nil => rfl
    | cons a l ih => exact ih
  exact this _

section
variable {n d : ℕ} {roots : ℕ → ℝ × ℝ}

theorem bcFFTLoop_map (m fuel : ℕ) : ∀ (l : ℕ) (x : List (ℝ × ℝ)) (y : List ℂ), l ≤ n → n - l ≤ fuel →
    x.map toC = fftLayers false (2 ^ n) m (fun i => toC (roots i)) l y →
    (bcFFTLoop id m (2 ^ n) roots fuel (2 ^ (l + 1)) x).map toC = fftLayers false (2 ^ n) m (fun i => toC (roots i)) n y := by
  induction fuel with
  | zero =>
    intro l x y hl hf h
    obtain rfl : l = n := by omega
    exact h
  | succ fuel ih =>
    intro l x y hl hf h
    rw [bcFFTLoop]
    split
    · rename_i hle
      have hlt : l + 1 ≤ n := (Nat.pow_le_pow_iff_right (by norm_num)).1 hle
      rw [← pow_succ]
      refine ih (l + 1) _ y hlt (by omega) ?_
      rw [show 2 ^ (l + 1) = 2 * 2 ^ l by ring, bcFFTLayer_map, h, fftLayers, show 2 ^ (l + 1) = 2 * 2 ^ l by ring]
      simp [fftBlocks]
    · rename_i hle
      obtain rfl : l = n := by
        by_contra hne
        exact hle (Nat.pow_le_pow_right (by norm_num) (by omega))
      exact h

theorem bcInvLoop_map (m fuel : ℕ) : ∀ (l : ℕ) (x : List (ℝ × ℝ)), l ≤ fuel →
    (bcInvLoop id m (2 ^ n) roots fuel (2 ^ l) x).map toC = ifftLayers false (2 ^ n) m (fun i => toC (roots i)) l (x.map toC) := by
  induction fuel with
  | zero =>
    intro l x hl
    obtain rfl : l = 0 := by omega
    rfl
  | succ fuel ih =>
    intro l x hl
    rw [bcInvLoop, if_pos Nat.one_le_two_pow]
    cases l with
    | zero =>
      rw [pow_zero, bcInvLayer_one, ifftLayers]
      cases fuel with
      | zero => rfl
      | succ f => rw [bcInvLoop, if_neg (by norm_num)]
    | succ l =>
      rw [pow_succ, Nat.mul_div_cancel _ (by norm_num : 0 < 2), ih l _ (by omega), mul_comm (2 ^ l) 2, bcInvLayer_map, ifftLayers,
        show 2 ^ (l + 1) = 2 * 2 ^ l by ring]
      simp [fftBlocks]

theorem bcFFT_map (m : ℕ) (x : List (ℝ × ℝ)) :
    (bcFFT id m (2 ^ n) roots x).map toC = specialFFT false (2 ^ n) m (fun i => toC (roots i)) (x.map toC) := by
  unfold bcFFT specialFFT
  rw [len64_two_pow_pred]
  have := bcFFTLoop_map (n := n) (roots := roots) m (2 ^ n) 0 (bcBitReverse (2 ^ n) x) (cSliceBitReverse (2 ^ n) (x.map toC)) (by omega)
    (by have := Nat.lt_two_pow_self (n := n); omega) (by rw [bcBitReverse_map, fftLayers])
  exact this

theorem bcFFT_length (x : List (ℝ × ℝ)) (hx : 2 ^ n ≤ x.length) :
    (bcFFT id (2 ^ (n + 2 + d)) (2 ^ n) roots x).length = x.length := by
  rw [← List.length_map (f := toC), bcFFT_map, specialFFT_length _ _ (by rw [List.length_map]; exact hx), List.length_map]

theorem bcBitReverse_at (x : List (ℝ × ℝ)) (hx : 2 ^ n ≤ x.length) :
    (bcBitReverse (2 ^ n) x).length = x.length ∧
    ∀ k, toC ((bcBitReverse (2 ^ n) x).getD k 0) = if k < 2 ^ n then toC (x.getD (revBits n k) 0) else toC (x.getD k 0) := by
  obtain ⟨h1, h2⟩ := cSliceBitReverse_spec (x.map toC) (n := n) (by rw [List.length_map]; exact hx)
  rw [← bcBitReverse_map, List.length_map, List.length_map] at h1
  refine ⟨h1, fun k => ?_⟩
  have := h2 k
  rw [← bcBitReverse_map, getD_map_toC, getD_map_toC, getD_map_toC] at this
  exact this

/-- `InvFFT` in terms of the exact layers -/
theorem bcInvFFT_at (x : List (ℝ × ℝ)) (hx : 2 ^ n ≤ x.length) :
    (bcInvFFT id (2 ^ (n + 2 + d)) (2 ^ n) roots x).length = x.length ∧
    (∀ k < 2 ^ n, toC ((bcInvFFT id (2 ^ (n + 2 + d)) (2 ^ n) roots x).getD k 0) =
      (specialiFFT false (2 ^ n) (2 ^ (n + 2 + d)) (fun i => toC (roots i)) (2 ^ n) (x.map toC)).getD k 0) ∧
    ∀ k, 2 ^ n ≤ k → toC ((bcInvFFT id (2 ^ (n + 2 + d)) (2 ^ n) roots x).getD k 0) = toC (x.getD k 0) / ((2 ^ n : ℕ) : ℂ) := by
  unfold bcInvFFT
  dsimp only
  simp only [id]
  set y := bcInvLoop id (2 ^ (n + 2 + d)) (2 ^ n) roots (2 ^ n) (2 ^ n) x with hy
  have hym : y.map toC = ifftLayers false (2 ^ n) (2 ^ (n + 2 + d)) (fun i => toC (roots i)) n (x.map toC) :=
    bcInvLoop_map _ _ n x (Nat.lt_two_pow_self).le
  have hyl : y.length = x.length := by
    rw [← List.length_map (f := toC), hym, ifftLayers_length, List.length_map]
  set z := y.map fun c => (c.1 / ((2 ^ n : ℕ) : ℝ), c.2 / ((2 ^ n : ℕ) : ℝ)) with hz
  have hzl : z.length = x.length := by rw [hz, List.length_map, hyl]
  have hzat : ∀ k, toC (z.getD k 0) = (y.map toC).getD k 0 / ((2 ^ n : ℕ) : ℂ) := by
    intro k
    rw [getD_map_toC, hz, List.getD_eq_getElem?_getD, List.getD_eq_getElem?_getD, List.getElem?_map]
    cases y[k]? with
    | none => simp
    | some c =>
      have hd : ((2 ^ n : ℕ) : ℂ) = (((2 ^ n : ℕ) : ℝ) : ℂ) := by push_cast; rfl
      rw [hd]
      apply Complex.ext
      · rw [Complex.div_ofReal_re]; rfl
      · rw [Complex.div_ofReal_im]; rfl
  obtain ⟨b1, b2⟩ := bcBitReverse_at (n := n) z (by omega)
  have hxl : (x.map toC).length = x.length := List.length_map ..
  refine ⟨by rw [b1, hzl], fun k hk => ?_, fun k hk => ?_⟩
  · rw [b2 k, if_pos hk, hzat, hym,
      (specialiFFT_at (d := d) false (2 ^ n) le_rfl (x.map toC) (by unfold ifftCap fftCap; simp; omega)).2.1 k hk]
  · rw [b2 k, if_neg (by omega), hzat, hym, ifftLayers_above false n le_rfl k (by unfold fftCap; simpa using hk) _
      (by unfold fftCap; rw [hxl]; simpa using hx), getD_map_toC]

end

/-- the layers of the inverse transform at most double the largest value -/
theorem ifftLayers_norm {n d : ℕ} {roots : ℕ → ℂ} (hroots : ∀ i, ‖roots i‖ = 1) (l : ℕ) (hl : l ≤ n) :
    ∀ (x : List ℂ) (B : ℝ), 2 ^ n ≤ x.length → (∀ k < 2 ^ n, ‖x.getD k 0‖ ≤ B) →
      ∀ k < 2 ^ n, ‖(ifftLayers false (2 ^ n) (2 ^ (n + 2 + d)) roots l x).getD k 0‖ ≤ 2 ^ l * B := by
  induction l with
  | zero => intro x B _ h k hk; simpa [ifftLayers] using h k hk
  | succ l ih =>
    intro x B hx h k hk
    rw [ifftLayers]
    have hb : fftBlocks false (2 ^ n) (2 ^ (l + 1)) * (2 * 2 ^ l) = 2 ^ n := by
      obtain ⟨b1, b2⟩ := fftBlocks_bounds false (show l < n by omega)
      have : fftCap false (2 ^ n) = 2 ^ n := rfl
      omega
    rw [show (2 : ℝ) ^ (l + 1) * B = 2 ^ l * (2 * B) by ring]
    refine ih (by omega) _ (2 * B) (by rw [fftLayer_length]; exact hx) (fun j hj => ?_) k hk
    rw [fftLayer_at _ _ _ _ _ (Nat.two_pow_pos l) (by omega), hb, if_pos hj]
    unfold layerFn
    have hp := Nat.two_pow_pos l
    have hdv : 2 * 2 ^ l ∣ 2 ^ n := ⟨_, by rw [mul_comm]; exact hb.symm⟩
    split
    · rename_i hlt
      have hj2 : j + 2 ^ l < 2 ^ n := by
        obtain ⟨c, hc⟩ := hdv
        have hdm := Nat.div_add_mod j (2 * 2 ^ l)
        have hq : j / (2 * 2 ^ l) < c := Nat.div_lt_of_lt_mul (by omega)
        have : 2 * 2 ^ l * (j / (2 * 2 ^ l)) + 2 * 2 ^ l ≤ 2 * 2 ^ l * c := by
          calc _ = 2 * 2 ^ l * (j / (2 * 2 ^ l) + 1) := by ring
            _ ≤ _ := Nat.mul_le_mul_left _ hq
        omega
      have := norm_add_le (x.getD j 0) (x.getD (j + 2 ^ l) 0)
      have h1 := h j hj
      have h2 := h _ hj2
      dsimp only
      linarith
    · have := norm_sub_le (x.getD (j - 2 ^ l) 0) (x.getD j 0)
      have h1 := h j hj
      have h2 := h (j - 2 ^ l) (by omega)
      dsimp only
      rw [norm_mul, ifftRoot, hroots, mul_one]
      linarith

end FastKsw
