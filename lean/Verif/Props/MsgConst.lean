import Verif.Spec.MsgConst
import Verif.Props.Homomorphic
import Verif.Props.NewVariants

/-!
# C97: constants and messages

What `MultByConst`, `MultByGaussianInteger`, `MultByi`, `DivByi`, `AddConst`, `MulByPow2`, `ScaleUp` and `DropLevel` do to the complex
values that a ciphertext holds, and what the operations that allocate their receiver do.
-/

namespace FastKsw.Props

open FastKsw Finset

theorem intR_gaussPoly {n q : ℕ} (hn : 1 ≤ n) (a b : ℤ) : intR (2 ^ n) q (gaussPoly n a b) = gauss n q a b := by
  have h1 : (2 : ℕ) ^ (n - 1) < 2 ^ n := Nat.pow_lt_pow_right (by norm_num) (by omega)
  have h0 : 0 < (2 : ℕ) ^ (n - 1) := Nat.two_pow_pos _
  unfold intR toR gauss
  rw [← sum_subset (s₁ := {0, 2 ^ (n - 1)}) (fun x hx => by
    simp only [mem_insert, mem_singleton] at hx
    rcases hx with rfl | rfl <;> rw [mem_range] <;> omega) (fun x _ hx => by
    simp only [mem_insert, mem_singleton, not_or] at hx
    simp [gaussPoly, hx.1, hx.2]), sum_pair (by omega)]
  simp [gaussPoly, h0.ne']

theorem gaussPoly_gapped (logSlots d : ℕ) (a b : ℤ) : Gapped (logSlots + 1 + d) d (gaussPoly (logSlots + 1 + d) a b) := by
  intro k _ hne
  unfold gaussPoly
  rw [if_neg (by rintro rfl; simp at hne), if_neg]
  rintro rfl
  apply hne
  rw [show logSlots + 1 + d - 1 = logSlots + d by omega, pow_add]
  simp

/-- the slots of `a + b X^(N/2)` all hold `a + b i` -/
theorem slotVal_gaussPoly (logSlots d : ℕ) (a b : ℤ) (j : ℕ) :
    slotVal logSlots d (gaussPoly (logSlots + 1 + d) a b) j = (a : ℂ) + (b : ℂ) * Complex.I := by
  have h1 : (2 : ℕ) ^ logSlots < 2 ^ (logSlots + 1) := Nat.pow_lt_pow_right (by norm_num) (by omega)
  have h0 : 0 < (2 : ℕ) ^ logSlots := Nat.two_pow_pos _
  have hd : 0 < (2 : ℕ) ^ d := Nat.two_pow_pos _
  have e : ∀ k, gaussPoly (logSlots + 1 + d) a b (k * 2 ^ d) = if k = 0 then a else if k = 2 ^ logSlots then b else 0 := fun k => by
    unfold gaussPoly
    rw [show logSlots + 1 + d - 1 = logSlots + d by omega, pow_add]
    simp [hd.ne']
  unfold slotVal
  rw [← sum_subset (s₁ := {0, 2 ^ logSlots}) (fun x hx => by
    simp only [mem_insert, mem_singleton] at hx
    rcases hx with rfl | rfl <;> rw [mem_range] <;> omega) (fun x _ hx => by
    simp only [mem_insert, mem_singleton, not_or] at hx
    simp [e, hx.1, hx.2]), sum_pair (by omega), e, e, if_pos rfl, if_neg h0.ne', if_pos rfl, zero_mul, pow_zero, mul_one, ← pow_add,
    ← pow_mul, mul_comm (5 ^ j), pow_mul, encZeta_I]
  congr 2
  have h5 : 5 ^ j % 4 = 1 := by
    rw [Nat.pow_mod]; simp
  rw [← Nat.div_add_mod (5 ^ j) 4, h5, pow_add, pow_mul, Complex.I_pow_four]
  simp

/-- the coefficients of the product with `a + b X^(N/2)` -/
theorem negConv_gaussPoly {n : ℕ} (hn : 1 ≤ n) (a b : ℤ) (z : ℕ → ℤ) (k : ℕ) :
    negConv (2 ^ n) (gaussPoly n a b) z k =
      a * z k + (if 2 ^ (n - 1) ≤ k then b * z (k - 2 ^ (n - 1)) else -(b * z (2 ^ n + k - 2 ^ (n - 1)))) := by
  have h1 : (2 : ℕ) ^ (n - 1) < 2 ^ n := Nat.pow_lt_pow_right (by norm_num) (by omega)
  have h0 : 0 < (2 : ℕ) ^ (n - 1) := Nat.two_pow_pos _
  unfold negConv
  rw [← sum_subset (s₁ := {0, 2 ^ (n - 1)}) (fun x hx => by
    simp only [mem_insert, mem_singleton] at hx
    rcases hx with rfl | rfl <;> rw [mem_range] <;> omega) (fun x _ hx => by
    simp only [mem_insert, mem_singleton, not_or] at hx
    simp [gaussPoly, hx.1, hx.2]), sum_pair (by omega)]
  simp [gaussPoly, h0.ne']

theorem _root_.FastKsw.AbsLe.gaussPoly_mul {n : ℕ} (hn : 1 ≤ n) (a b : ℤ) {z : ℕ → ℤ} {B : ℚ} (h : AbsLe n z B) :
    AbsLe n (negConv (2 ^ n) (gaussPoly n a b) z) ((|a| + |b| : ℤ) * B) := by
  have h1 : (2 : ℕ) ^ (n - 1) + 2 ^ (n - 1) = 2 ^ n := by
    rw [← two_mul, ← pow_succ', show n - 1 + 1 = n by omega]
  intro k hk
  have h2 : |((if 2 ^ (n - 1) ≤ k then b * z (k - 2 ^ (n - 1)) else -(b * z (2 ^ n + k - 2 ^ (n - 1))) : ℤ) : ℚ)| ≤ |(b : ℚ)| * B := by
    split
    · push_cast
      rw [abs_mul]
      exact mul_le_mul_of_nonneg_left (h _ (by omega)) (abs_nonneg _)
    · push_cast
      rw [abs_neg, abs_mul]
      exact mul_le_mul_of_nonneg_left (h _ (by omega)) (abs_nonneg _)
  rw [negConv_gaussPoly hn, Int.cast_add]
  refine (abs_add_le _ _).trans ?_
  push_cast
  rw [add_mul]
  refine add_le_add ?_ (by simpa using h2)
  rw [abs_mul]
  exact mul_le_mul_of_nonneg_left (h k hk) (abs_nonneg _)

theorem norm_gaussInt (a b : ℤ) : ‖(a : ℂ) + (b : ℂ) * Complex.I‖ ≤ ((|a| + |b| : ℤ) : ℝ) := by
  refine (norm_add_le _ _).trans ?_
  rw [norm_mul, Complex.norm_I, mul_one, Complex.norm_intCast, Complex.norm_intCast]
  push_cast
  exact le_rfl

theorem norm_cnum (p : ℚ × ℚ) : ‖cnum p‖ ≤ ((|p.1| + |p.2| : ℚ) : ℝ) := by
  unfold cnum
  refine (norm_add_le _ _).trans ?_
  rw [norm_mul, Complex.norm_I, mul_one, norm_ratCast, norm_ratCast]
  push_cast
  exact le_rfl

/-- the integers `a`, `b` against the number they stand for -/
theorem norm_gauss_sub (a b : ℤ) (s : ℚ) (c : ℚ × ℚ) : ‖(a : ℂ) + (b : ℂ) * Complex.I - ((s : ℚ) : ℂ) * cnum c‖ ≤
    ((|(a : ℚ) - s * c.1| + |(b : ℚ) - s * c.2| : ℚ) : ℝ) := by
  have := norm_cnum ((a : ℚ) - s * c.1, (b : ℚ) - s * c.2)
  dsimp only at this
  refine le_trans (le_of_eq ?_) this
  unfold cnum
  congr 1
  push_cast
  ring

section
variable {logSlots d : ℕ} {r : Ring} {S : ℕ → ℤ}

/-- the product of a message with a Gaussian integer -/
theorem CtMsg_mulGauss {I : Info} (hv : ∀ j < 2 ^ logSlots, ‖I.v j‖ ≤ I.V) {lo : ℕ} (hl : lo < r.subs.length) {z D : ℕ → ℤ}
    (g1 : Gapped (logSlots + 1 + d) d z) (g2 : AbsLe (logSlots + 1 + d) z I.M) (g3 : AbsLe (logSlots + 1 + d) D I.β)
    (g4 : ∀ j < 2 ^ logSlots, ‖slotVal logSlots d z j - ((I.scale : ℚ) : ℂ) * I.v j‖ ≤ I.ε) {ct' : Ct} {s' : ℚ} (hs : ct'.scale = s')
    (hpos : 0 < s') (hflt : f64 s' = s') {a b : ℤ} {w : ℂ} {W E : ℝ} (hW : ‖w‖ ≤ W)
    (hE : ‖((a : ℂ) + (b : ℂ) * Complex.I) * ((I.scale : ℚ) : ℂ) - ((s' : ℚ) : ℂ) * w‖ ≤ E)
    (henc : CtEnc (logSlots + 1 + d) r lo r.qs 1 ct' (fun u => intR _ _ S)
      (fun u => gauss (logSlots + 1 + d) (r.qs u) a b * intR _ _ fun k => z k + D k)) :
    CtMsg logSlots d r S ct' ⟨lo, s', fun j => w * I.v j, W * I.V, (|a| + |b| : ℤ) * I.M, (|a| + |b| : ℤ) * I.β,
      (|a| + |b| : ℤ) * I.ε + E * I.V⟩ := by
  have hn : 1 ≤ logSlots + 1 + d := by omega
  refine ⟨hl, hs, hpos, hflt, fun j hj => ?_, negConv (2 ^ (logSlots + 1 + d)) (gaussPoly (logSlots + 1 + d) a b) z,
    negConv (2 ^ (logSlots + 1 + d)) (gaussPoly (logSlots + 1 + d) a b) D, (gaussPoly_gapped _ _ _ _).mul (by omega) g1,
    g2.gaussPoly_mul hn a b, g3.gaussPoly_mul hn a b, fun j hj => ?_, ?_⟩
  · dsimp only
    rw [norm_mul]
    exact mul_le_mul hW (hv j hj) (norm_nonneg _) ((norm_nonneg _).trans hW)
  · dsimp only
    rw [slotVal_mul (gaussPoly_gapped _ _ _ _), slotVal_gaussPoly]
    set G := (a : ℂ) + (b : ℂ) * Complex.I
    rw [show G * slotVal logSlots d z j - ((s' : ℚ) : ℂ) * (w * I.v j) = G * (slotVal logSlots d z j - ((I.scale : ℚ) : ℂ) * I.v j) +
      (G * ((I.scale : ℚ) : ℂ) - ((s' : ℚ) : ℂ) * w) * I.v j by ring]
    refine (norm_add_le _ _).trans ?_
    rw [norm_mul, norm_mul]
    exact add_le_add (mul_le_mul (norm_gaussInt a b) (g4 j hj) (norm_nonneg _) ((norm_nonneg _).trans (norm_gaussInt a b)))
      (mul_le_mul hE (hv j hj) (norm_nonneg _) ((norm_nonneg _).trans hE))
  · obtain ⟨x, hx, ex⟩ := henc
    refine ⟨x, hx.mono fun u _ => by omega, fun u hu => ?_⟩
    rw [ex u hu]
    dsimp only
    rw [← intR_gaussPoly hn, ← intR_add, mul_add, intR_mul, intR_mul, intR_add]

theorem _root_.FastKsw.CtMsg.mono_err {ct : Ct} {I J : Info} (h : CtMsg logSlots d r S ct I) (hl : J.level = I.level) (hs : J.scale = I.scale)
    (hv : J.v = I.v) (hV : I.V ≤ J.V) (hM : I.M ≤ J.M) (hβ : I.β ≤ J.β) (hε : I.ε ≤ J.ε) : CtMsg logSlots d r S ct J := by
  obtain ⟨z, D, g1, g2, g3, g4, g5⟩ := h.enc
  refine ⟨by rw [hl]; exact h.lvl, by rw [hs]; exact h.scale, by rw [hs]; exact h.pos, by rw [hs]; exact h.flt,
    fun j hj => by rw [hv]; exact (h.val j hj).trans hV, z, D, g1, g2.mono hM, g3.mono hβ, fun j hj => ?_, by rw [hl]; exact g5⟩
  rw [hs, hv]
  exact (g4 j hj).trans hε

end

section
variable {logSlots d : ℕ} {ev : Evaluator} {r : Ring} {S : ℕ → ℤ} (he : ev.ringQ = r) (hr : r.Valid (logSlots + 1 + d)) {H : Heap}
  {a out : Ref} {I : Info} (h0 : CtMsg logSlots d r S (H a) I)
include he hr h0

/-- **C97 (`MultByGaussianInteger`).** Every value is multiplied by `re + im i`, exactly. -/
theorem C97_multByGaussianInteger {lo : ℕ} (ho : CtShape 1 lo (H out)) (hlo : lo ≤ I.level) (re im : GInt) :
    ∃ H', ev.multByGaussianInteger H a re im out = some H' ∧ (∀ c ≠ out, H' c = H c) ∧
      CtMsg logSlots d r S (H' out) (I.mulGauss re.val im.val lo) := by
  subst he
  obtain ⟨z, D, g1, g2, g3, g4, x, hx, ex⟩ := h0.enc
  have hl := h0.lvl
  obtain ⟨H', a1, a2, a3, a4⟩ := C53_multByGaussianInteger hr hx ho hlo (by omega) re im
  have key := CtMsg_mulGauss h0.val (show lo < ev.ringQ.subs.length by omega) g1 g2 g3 g4 (a3.trans h0.scale) h0.pos h0.flt
    (norm_gaussInt re.val im.val) (E := 0) (by rw [mul_comm, sub_self, norm_zero]) (CtIs.enc_mul a4 hlo ex)
  exact ⟨H', a1, a2, key.mono_err rfl rfl rfl le_rfl le_rfl le_rfl (by simp [Info.mulGauss])⟩

/-- **C97 (`MultByi`).** -/
theorem C97_multByi {lo : ℕ} (ho : CtShape 1 lo (H out)) (hlo : lo ≤ I.level) :
    ∃ H', ev.multByi H a out = some H' ∧ (∀ c ≠ out, H' c = H c) ∧ CtMsg logSlots d r S (H' out) (I.mulGauss 0 1 lo) := by
  subst he
  obtain ⟨z, D, g1, g2, g3, g4, x, hx, ex⟩ := h0.enc
  have hl := h0.lvl
  obtain ⟨H', a1, a2, a3, a4⟩ := C53_multByi hr hx ho hlo (by omega)
  have key := CtMsg_mulGauss h0.val (show lo < ev.ringQ.subs.length by omega) g1 g2 g3 g4 (a3.trans h0.scale) h0.pos h0.flt
    (norm_gaussInt 0 1) (E := 0) (by rw [mul_comm, sub_self, norm_zero]) (CtIs.enc_mul a4 hlo ex)
  exact ⟨H', a1, a2, key.mono_err rfl rfl rfl le_rfl le_rfl le_rfl (by simp [Info.mulGauss])⟩

/-- **C97 (`DivByi`).** -/
theorem C97_divByi {lo : ℕ} (ho : CtShape 1 lo (H out)) (hlo : lo ≤ I.level) :
    ∃ H', ev.divByi H a out = some H' ∧ (∀ c ≠ out, H' c = H c) ∧ CtMsg logSlots d r S (H' out) (I.mulGauss 0 (-1) lo) := by
  subst he
  obtain ⟨z, D, g1, g2, g3, g4, x, hx, ex⟩ := h0.enc
  have hl := h0.lvl
  obtain ⟨H', a1, a2, a3, a4⟩ := C53_divByi hr hx ho hlo (by omega)
  have key := CtMsg_mulGauss h0.val (show lo < ev.ringQ.subs.length by omega) g1 g2 g3 g4 (a3.trans h0.scale) h0.pos h0.flt
    (norm_gaussInt 0 (-1)) (E := 0) (by rw [mul_comm, sub_self, norm_zero]) (CtIs.enc_mul a4 hlo ex)
  exact ⟨H', a1, a2, key.mono_err rfl rfl rfl le_rfl le_rfl le_rfl (by simp [Info.mulGauss])⟩

/-- **C97 (`MulByPow2`, partial: in place).** Missing: another receiver (`C79_mulByPow2New_violated`). -/
theorem C97_mulByPow2_partial {k : ℕ} (hk : k < 64) :
    ∃ H', ev.mulByPow2 H a k a = some H' ∧ (∀ c ≠ a, H' c = H c) ∧ CtMsg logSlots d r S (H' a) (I.mulGauss (2 ^ k) 0 I.level) := by
  subst he
  obtain ⟨z, D, g1, g2, g3, g4, henc⟩ := h0.enc
  obtain ⟨H', a1, a2, a3, x, hx, ex⟩ := C79_mulByPow2_partial hr henc h0.lvl hk
  have key := CtMsg_mulGauss h0.val h0.lvl g1 g2 g3 g4 (a3.trans h0.scale) h0.pos h0.flt
    (norm_gaussInt (2 ^ k) 0) (E := 0) (by rw [mul_comm, sub_self, norm_zero]) (ct' := H' a) ⟨x, hx, fun u hu => by
      rw [ex u hu]; dsimp only; rw [gauss_int]; push_cast; rfl⟩
  exact ⟨H', a1, a2, key.mono_err rfl rfl rfl le_rfl le_rfl le_rfl (by simp [Info.mulGauss])⟩

/-- **C97 (`MultByConst`).** Every value is multiplied by the constant; the error counts the rounding of the constant to integers at
its scale `sc`, and of the new scale to a float64. -/
theorem C97_multByConst {lo : ℕ} (ho : CtShape 1 lo (H out)) (hlo : lo ≤ I.level) {c : Constant} {sc : ℚ} (hc : ConstScale (r.qs lo) c sc) :
    ∃ H', ev.multByConst H a c out = some H' ∧ (∀ b ≠ out, H' b = H b) ∧
      CtMsg logSlots d r S (H' out) (I.mulConst c.parts sc lo) := by
  subst he
  obtain ⟨z, D, g1, g2, g3, g4, x, hx, ex⟩ := h0.enc
  have hl := h0.lvl
  obtain ⟨H', sc', a1, a2, a3, -, a5, a4⟩ := C53_multByConst hr hx ho hlo (by omega) c
  obtain ⟨c1, c2, c3⟩ := hc
  have e : sc' = sc := by
    rcases c3 with ⟨c3, rfl⟩ | ⟨c3, c4, rfl⟩
    · exact (a5 c1 c2).1 c3
    · exact (a5 c1 c2).2 c3 c4
  subst e
  have hsc : 0 < sc' := by
    rcases c3 with ⟨-, rfl⟩ | ⟨-, -, rfl⟩
    · norm_num
    · exact f64_pos (by exact_mod_cast (hr.subAt (show lo < ev.ringQ.subs.length by omega)).prime.pos)
  have hp := mul_pos h0.pos hsc
  rw [h0.scale] at a3
  have hsp : (0 : ℝ) < I.scale := by exact_mod_cast h0.pos
  have key := CtMsg_mulGauss h0.val (show lo < ev.ringQ.subs.length by omega) g1 g2 g3 g4 a3 (f64_pos hp) (f64_idem _ hp)
    (norm_cnum c.parts) (E := ((I.scale * (|fixedPoint c.parts.1 sc' - sc' * c.parts.1| + |fixedPoint c.parts.2 sc' - sc' * c.parts.2|) : ℚ) : ℝ) +
      ((|f64 (I.scale * sc') - I.scale * sc'| * (|c.parts.1| + |c.parts.2|) : ℚ) : ℝ)) (by
        set A := fixedPoint c.parts.1 sc'
        set B := fixedPoint c.parts.2 sc'
        rw [show ((A : ℂ) + (B : ℂ) * Complex.I) * ((I.scale : ℚ) : ℂ) - ((f64 (I.scale * sc') : ℚ) : ℂ) * cnum c.parts =
          ((I.scale : ℚ) : ℂ) * ((A : ℂ) + (B : ℂ) * Complex.I - ((sc' : ℚ) : ℂ) * cnum c.parts) -
          ((f64 (I.scale * sc') - I.scale * sc' : ℚ) : ℂ) * cnum c.parts by push_cast; ring]
        refine (norm_sub_le _ _).trans (add_le_add ?_ ?_)
        · rw [norm_mul, norm_ratCast, abs_of_pos hsp, Rat.cast_mul]
          exact mul_le_mul_of_nonneg_left (norm_gauss_sub A B sc' c.parts) hsp.le
        · rw [norm_mul, norm_ratCast, Rat.cast_mul, Rat.cast_abs]
          exact mul_le_mul_of_nonneg_left (norm_cnum c.parts) (abs_nonneg _)) (CtIs.enc_mul a4 hlo ex)
  refine ⟨H', a1, a2, key.mono_err rfl rfl rfl le_rfl le_rfl le_rfl (le_of_eq ?_)⟩
  dsimp only [Info.mulConst]
  ring

/-- **C97 (`ScaleUp`, partial: by an integer below `2^51`).** The values stay.  Missing: as in `C78_scaleUp_partial`. -/
theorem C97_scaleUp_partial {lo : ℕ} (ho : CtShape 1 lo (H out)) (hlo : lo ≤ I.level) {k : ℕ} (hk : k < 2 ^ 51) (hk0 : 0 < k) :
    ∃ H', ev.scaleUp H a k out = some H' ∧ (∀ b ≠ out, H' b = H b) ∧ CtMsg logSlots d r S (H' out) (I.scaleUp k lo) := by
  subst he
  obtain ⟨z, D, g1, g2, g3, g4, henc⟩ := h0.enc
  have hl := h0.lvl
  obtain ⟨H', a1, a2, a3, x, hx, ex⟩ := C78_scaleUp_partial hr henc ho hlo (by omega) (by rw [h0.scale]; exact h0.flt) hk
  rw [h0.scale] at a3
  have hp : 0 < I.scale * k := mul_pos h0.pos (by exact_mod_cast hk0)
  have key := CtMsg_mulGauss h0.val (show lo < ev.ringQ.subs.length by omega) g1 g2 g3 g4 a3 (f64_pos hp) (f64_idem _ hp)
    (a := k) (b := 0) (w := 1) (W := 1) (by simp) (E := ((|f64 (I.scale * k) - I.scale * k| : ℚ) : ℝ)) (by
      rw [show (((k : ℤ) : ℂ) + ((0 : ℤ) : ℂ) * Complex.I) * ((I.scale : ℚ) : ℂ) - ((f64 (I.scale * k) : ℚ) : ℂ) * 1 =
        ((I.scale * k - f64 (I.scale * k) : ℚ) : ℂ) by push_cast; ring, norm_ratCast, abs_sub_comm]
      push_cast
      rw [abs_sub_comm]) (ct' := H' out) ⟨x, hx, fun u hu => by rw [ex u hu]; dsimp only; rw [gauss_int]; push_cast; rfl⟩
  refine ⟨H', a1, a2, key.mono_err rfl rfl (by funext j; simp [Info.scaleUp]) (by simp [Info.scaleUp]) (by simp [Info.scaleUp])
    (by simp [Info.scaleUp]) (by simp [Info.scaleUp])⟩

end

section
variable {logSlots d : ℕ} {ev : Evaluator} {r : Ring} {S : ℕ → ℤ} (he : ev.ringQ = r) (hr : r.Valid (logSlots + 1 + d)) {H : Heap}
  {a : Ref} {I : Info} (h0 : CtMsg logSlots d r S (H a) I)

/-- the sum of a message and a constant -/
theorem CtMsg_addGauss {z D : ℕ → ℤ} (hv : CtMsg logSlots d r S (H a) I)
    (g1 : Gapped (logSlots + 1 + d) d z) (g2 : AbsLe (logSlots + 1 + d) z I.M) (g3 : AbsLe (logSlots + 1 + d) D I.β)
    (g4 : ∀ j < 2 ^ logSlots, ‖slotVal logSlots d z j - ((I.scale : ℚ) : ℂ) * I.v j‖ ≤ I.ε) {ct' : Ct} (hs : ct'.scale = I.scale)
    {c : ℚ × ℚ} (henc : CtEnc (logSlots + 1 + d) r I.level (fun u => r.qs u + 1) 1 ct' (fun u => intR _ _ S)
      (fun u => (intR _ _ fun k => z k + D k) +
        gauss (logSlots + 1 + d) (r.qs u) (fixedPoint c.1 I.scale) (fixedPoint c.2 I.scale))) :
    CtMsg logSlots d r S ct' (I.addConst c) := by
  have hn : 1 ≤ logSlots + 1 + d := by omega
  set A := fixedPoint c.1 I.scale with hA
  set B := fixedPoint c.2 I.scale with hB
  refine ⟨hv.lvl, hs, hv.pos, hv.flt, fun j hj => ?_, fun k => z k + gaussPoly (logSlots + 1 + d) A B k, D, fun k hk hne => by
    dsimp only; rw [g1 k hk hne, gaussPoly_gapped _ _ _ _ k hk hne, add_zero], g2.add (B := ((max |A| |B| : ℤ) : ℚ)) fun k hk => ?_, g3, fun j hj => ?_, ?_⟩
  · dsimp only [Info.addConst]
    exact (norm_add_le _ _).trans (add_le_add (hv.val j hj) (norm_cnum c))
  · rw [← Int.cast_abs]
    refine Int.cast_le.2 ?_
    unfold gaussPoly
    split
    · exact le_max_left _ _
    · split
      · exact le_max_right _ _
      · simp
  · dsimp only [Info.addConst]
    rw [slotVal_add, slotVal_gaussPoly, show slotVal logSlots d z j + ((A : ℂ) + (B : ℂ) * Complex.I) - ((I.scale : ℚ) : ℂ) * (I.v j + cnum c) =
      (slotVal logSlots d z j - ((I.scale : ℚ) : ℂ) * I.v j) + ((A : ℂ) + (B : ℂ) * Complex.I - ((I.scale : ℚ) : ℂ) * cnum c) by ring]
    exact (norm_add_le _ _).trans (add_le_add (g4 j hj) (norm_gauss_sub A B I.scale c))
  · obtain ⟨x, hx, ex⟩ := henc
    refine ⟨x, hx, fun u hu => ?_⟩
    rw [ex u hu]
    dsimp only
    rw [← intR_gaussPoly hn, intR_add]
    exact intR_congr fun k _ => by push_cast; ring

include he hr h0

/-- **C97 (`AddConst`, partial: in place).** The constant is added to every value.  Missing: another receiver
(`C54_violated`). -/
theorem C97_addConst_partial (c : Constant) : (∀ b ≠ a, ev.addConst H a c a b = H b) ∧
    CtMsg logSlots d r S (ev.addConst H a c a a) (I.addConst c.parts) := by
  subst he
  obtain ⟨z, D, g1, g2, g3, g4, henc⟩ := h0.enc
  obtain ⟨a1, a2, a3⟩ := C54_addConst_partial hr (Or.inr rfl) henc h0.lvl (by rw [h0.scale]; exact h0.pos.le) c
  rw [h0.scale] at a3
  exact ⟨a1, CtMsg_addGauss h0 g1 g2 g3 g4 (a2.trans h0.scale) a3⟩

/-- **C97 (`AddConstNew`).** -/
theorem C97_addConstNew {new : Ref} (hne : a ≠ new) (c : Constant) : (∀ b ≠ new, ev.addConstNew H a c new b = H b) ∧
    CtMsg logSlots d r S (ev.addConstNew H a c new new) (I.addConst c.parts) := by
  subst he
  obtain ⟨z, D, g1, g2, g3, g4, henc⟩ := h0.enc
  obtain ⟨a1, a3⟩ := C54_addConstNew_partial hr (Or.inr rfl) henc hne h0.lvl (by rw [h0.scale]; exact h0.pos.le) c
  rw [h0.scale] at a3
  refine ⟨a1, CtMsg_addGauss h0 g1 g2 g3 g4 ?_ a3⟩
  unfold Evaluator.addConstNew Evaluator.addConst
  dsimp only
  rw [Heap.scale_setRows, Heap.setScale_self, Heap.set_ne _ _ _ _ hne, h0.scale]

omit hr in
/-- **C97 (`DropLevel`, `DropLevelNew`).** -/
theorem C97_dropLevel {k : ℕ} (hk : k ≤ I.level) (new : Ref) : (∀ b ≠ new, Evaluator.dropLevelNew H a k new b = H b) ∧
    CtMsg logSlots d r S (Evaluator.dropLevelNew H a k new new) (I.drop k) := by
  subst he
  obtain ⟨z, D, g1, g2, g3, g4, henc⟩ := h0.enc
  obtain ⟨a1, a2, a3⟩ := C79_dropLevelNew (new := new) henc hk
  exact ⟨a1, lt_of_le_of_lt (Nat.sub_le _ _) h0.lvl, a2.trans h0.scale, h0.pos, h0.flt, h0.val, z, D, g1, g2, g3, g4, a3⟩

end

section
variable {fuel logSlots d : ℕ} {p : FParams} {ev : FEvaluator} {kg : FKeyGenerator} {sk : PolyQP} {S : ℕ → ℤ}
  {tape : Option ℤ → ℕ → KeyTape} {e : Option ℤ → ℕ → ℕ → ℤ} {digit Be : ℕ}
  (Q : HomEnv fuel logSlots d p ev kg sk S tape e digit Be) {H : Heap} {a b new : Ref} {I J : Info}
  (h0 : CtMsg logSlots d p.ringQ S (H a) I) (ha : a ≠ new)
include Q h0 ha

/-- **C97 (`NegNew`).** -/
theorem C97_negNew : ∃ H', ev.ckks.negNew H a new = some H' ∧ (∀ c ≠ new, H' c = H c) ∧
    CtMsg logSlots d p.ringQ S (H' new) (I.neg I.level) := by
  obtain ⟨f1, f2, f3⟩ := alloc_spec (ev := ev.ckks) h0.shape ha
  obtain ⟨H', a1, a2, a3⟩ := C85_neg Q (H := ev.ckks.alloc H a new) (a := a) (out := new) (by rw [f1]; exact h0) f3 le_rfl
  exact ⟨H', a1, fun c hc => (a2 c hc).trans (f2 c hc), a3⟩

/-- **C97 (`MultByConstNew`).** -/
theorem C97_multByConstNew {c : Constant} {sc : ℚ} (hc : ConstScale (p.ringQ.qs I.level) c sc) :
    ∃ H', ev.ckks.multByConstNew H a c new = some H' ∧ (∀ b ≠ new, H' b = H b) ∧
      CtMsg logSlots d p.ringQ S (H' new) (I.mulConst c.parts sc I.level) := by
  obtain ⟨f1, f2, f3⟩ := alloc_spec (ev := ev.ckks) h0.shape ha
  obtain ⟨H', a1, a2, a3⟩ := C97_multByConst Q.ring Q.ok.hQ (H := ev.ckks.alloc H a new) (a := a) (out := new) (by rw [f1]; exact h0) f3
    le_rfl hc
  exact ⟨H', a1, fun c hc => (a2 c hc).trans (f2 c hc), a3⟩

/-- **C97 (`ScaleUpNew`, partial: by an integer below `2^51`).** Missing: as in `C78_scaleUp_partial`. -/
theorem C97_scaleUpNew_partial {k : ℕ} (hk : k < 2 ^ 51) (hk0 : 0 < k) :
    ∃ H', ev.ckks.scaleUpNew H a k new = some H' ∧ (∀ b ≠ new, H' b = H b) ∧
      CtMsg logSlots d p.ringQ S (H' new) (I.scaleUp k I.level) := by
  obtain ⟨f1, f2, f3⟩ := alloc_spec (ev := ev.ckks) h0.shape ha
  obtain ⟨H', a1, a2, a3⟩ := C97_scaleUp_partial Q.ring Q.ok.hQ (H := ev.ckks.alloc H a new) (a := a) (out := new)
    (by rw [f1]; exact h0) f3 le_rfl hk hk0
  exact ⟨H', a1, fun c hc => (a2 c hc).trans (f2 c hc), a3⟩

/-- **C97 (`RescaleNew`, partial: as `C85_rescale_partial`).** Missing: as in `C37_rescale_partial`. -/
theorem C97_rescaleNew_partial (hlev : 0 < I.level) {minScale : ℚ} (hm : 0 < minScale)
    (hlast : scaleAfter p.ringQ I.level I.scale (I.level + 1) < f64Div minScale 2) :
    ∃ nb ≤ I.level, (∀ j, 0 < j → (f64Div minScale 2 ≤ scaleAfter p.ringQ I.level I.scale j ↔ j ≤ nb)) ∧
    ∃ H', ev.ckks.rescaleNew H a minScale new = some (.ok H') ∧ (∀ c ≠ new, H' c = H c) ∧ CtMsg logSlots d p.ringQ S (H' new)
      (I.rescale logSlots d (scaleAfter p.ringQ I.level I.scale nb) (topQ p.ringQ I.level nb) nb) := by
  obtain ⟨f1, f2, f3⟩ := alloc_spec (ev := ev.ckks) h0.shape ha
  obtain ⟨nb, b1, b2, H', a1, a2, a3⟩ := C85_rescale_partial Q (H := ev.ckks.alloc H a new) (a := a) (out := new)
    (by rw [f1]; exact h0) f3 hlev hm hlast
  exact ⟨nb, b1, b2, H', a1, fun c hc => (a2 c hc).trans (f2 c hc), a3⟩

omit Q h0 in
theorem heapNew (G : Ct) : H.set new G a = H a ∧ (∀ c ≠ new, H.set new G c = H c) ∧ H.set new G new = G :=
  ⟨Heap.set_ne _ _ _ _ ha, fun _ hc => Heap.set_ne _ _ _ _ hc, Heap.set_self _ _ _⟩

/-- **C97 (`MultByiNew`, `DivByiNew`).** -/
theorem C97_byiNew :
    (∃ H', ev.ckks.multByiNew H a new = some H' ∧ (∀ c ≠ new, H' c = H c) ∧ CtMsg logSlots d p.ringQ S (H' new) (I.mulGauss 0 1 I.level)) ∧
    ∃ H', ev.ckks.divByiNew H a new = some H' ∧ (∀ c ≠ new, H' c = H c) ∧
      CtMsg logSlots d p.ringQ S (H' new) (I.mulGauss 0 (-1) I.level) := by
  obtain ⟨f1, f2, f3⟩ := heapNew ha (newCiphertext ev.ckks.ringQ.n 1 (H a).level (H a).scale)
  have sh : CtShape 1 I.level (H.set new (newCiphertext ev.ckks.ringQ.n 1 (H a).level (H a).scale) new) := by
    rw [f3, h0.shape.level]; exact newCiphertext_shape _ _ _ _
  have ht : ¬ ev.ckks.ringQ.type = .conjugateInvariant := by rw [Q.ring, Q.ok.hQ.type]; decide
  unfold Evaluator.multByiNew Evaluator.divByiNew
  rw [if_neg ht, if_neg ht]
  constructor
  · obtain ⟨H', a1, a2, a3⟩ := C97_multByi Q.ring Q.ok.hQ (a := a) (by rw [f1]; exact h0) sh le_rfl
    exact ⟨H', a1, fun c hc => (a2 c hc).trans (f2 c hc), a3⟩
  · obtain ⟨H', a1, a2, a3⟩ := C97_divByi Q.ring Q.ok.hQ (a := a) (by rw [f1]; exact h0) sh le_rfl
    exact ⟨H', a1, fun c hc => (a2 c hc).trans (f2 c hc), a3⟩

/-- **C97 (`RotateNew`).** -/
theorem C97_rotateNew (k : ℤ) : ∃ H', ev.rotateNew H a (kg.genRotKey k sk (tape (some k))) new = some H' ∧ (∀ c ≠ new, H' c = H c) ∧
    CtMsg logSlots d p.ringQ S (H' new) (I.rotate logSlots k (ksErr p (logSlots + 1 + d) digit Be I.level) I.level) := by
  obtain ⟨f1, f2, f3⟩ := heapNew ha (newCiphertext ev.ckks.ringQ.n 1 (H a).level (H a).scale)
  have sh : CtShape 1 I.level (H.set new (newCiphertext ev.ckks.ringQ.n 1 (H a).level (H a).scale) new) := by
    rw [f3, h0.shape.level]; exact newCiphertext_shape _ _ _ _
  obtain ⟨H', a1, a2, a3⟩ := C85_rotate Q k (a := a) (by rw [f1]; exact h0) sh le_rfl (by rw [f3]; exact h0.scale)
  exact ⟨H', a1, fun c hc => (a2 c hc).trans (f2 c hc), a3⟩

variable (h1 : CtMsg logSlots d p.ringQ S (H b) J) (hb : b ≠ new)
include h1 hb

/-- **C97 (`AddNew`).** -/
theorem C97_addNew (hsc : SameScale I.scale J.scale) : ∃ H', ev.ckks.addNew H a b new = some H' ∧ (∀ c ≠ new, H' c = H c) ∧
    CtMsg logSlots d p.ringQ S (H' new) (I.add J (min I.level J.level)) := by
  have f1 : ev.ckks.newBinary H a b new a = H a := Heap.set_ne _ _ _ _ ha
  have f2 : ev.ckks.newBinary H a b new b = H b := Heap.set_ne _ _ _ _ hb
  have f3 : CtShape 1 (min I.level J.level) (ev.ckks.newBinary H a b new new) := by
    unfold Evaluator.newBinary
    rw [Heap.set_self, h0.shape.degree, h1.shape.degree, h0.shape.level, h1.shape.level]
    exact newCiphertext_shape _ _ _ _
  obtain ⟨H', a1, a2, a3⟩ := C85_add Q (a := a) (b := b) (by rw [f1]; exact h0) (by rw [f2]; exact h1) f3 le_rfl hsc
  exact ⟨H', a1, fun c hc => (a2 c hc).trans (Heap.set_ne _ _ _ _ hc), a3⟩

/-- **C97 (`SubNew`).** -/
theorem C97_subNew (hsc : SameScale I.scale J.scale) : ∃ H', ev.ckks.subNew H a b new = some H' ∧ (∀ c ≠ new, H' c = H c) ∧
    CtMsg logSlots d p.ringQ S (H' new) (I.sub J (min I.level J.level)) := by
  have f1 : ev.ckks.newBinary H a b new a = H a := Heap.set_ne _ _ _ _ ha
  have f2 : ev.ckks.newBinary H a b new b = H b := Heap.set_ne _ _ _ _ hb
  have f3 : CtShape 1 (min I.level J.level) (ev.ckks.newBinary H a b new new) := by
    unfold Evaluator.newBinary
    rw [Heap.set_self, h0.shape.degree, h1.shape.degree, h0.shape.level, h1.shape.level]
    exact newCiphertext_shape _ _ _ _
  obtain ⟨H', a1, a2, a3⟩ := C85_sub Q (a := a) (b := b) (by rw [f1]; exact h0) (by rw [f2]; exact h1) f3 le_rfl hsc
  exact ⟨H', a1, fun c hc => (a2 c hc).trans (Heap.set_ne _ _ _ _ hc), a3⟩

/-- **C97 (`MulRelinNew`).** The new receiver has degree 2 and scale 0 before the product. -/
theorem C97_mulRelinNew : ∃ H', ev.mulRelinNew H a b (kg.genRelinKey sk (tape none)) new = some H' ∧ (∀ c ≠ new, H' c = H c) ∧
    CtMsg logSlots d p.ringQ S (H' new) (I.mul logSlots d (ksErr p (logSlots + 1 + d) digit Be) J (min I.level J.level)) := by
  obtain ⟨f1, f2, f3⟩ := heapNew ha (newCiphertext ev.ckks.ringQ.n 2 (min (H a).level (H b).level) 0)
  have sh : CtShape 2 (min I.level J.level) (H.set new (newCiphertext ev.ckks.ringQ.n 2 (min (H a).level (H b).level) 0) new) := by
    rw [f3, h0.shape.level, h1.shape.level]; exact newCiphertext_shape _ _ _ _
  obtain ⟨H', a1, a2, a3⟩ := C85_mulRelin Q (a := a) (b := b) (by rw [f1]; exact h0) (by rw [f2 b hb]; exact h1) sh (by norm_num)
  exact ⟨H', a1, fun c hc => (a2 c hc).trans (f2 c hc), a3⟩

end

end FastKsw.Props
