import Verif.Lemmas.Gauss
import Verif.Lemmas.Components
import Verif.Props.Evaluator

/-!
# C53, C54: products by constants and addition of constants

The constant `a + ib` is the ring element `gauss a b = a + b X^(N/2)`; a real number `v` at scale `s` is the integer
`fixedPoint v s`.
-/

namespace FastKsw.Props

open FastKsw Finset

/-- real and imaginary part -/
def _root_.FastKsw.Constant.parts : Constant → ℚ × ℚ
  | .complex re im => (re, im)
  | .float x => (x, 0)
  | .int x => (f64 x, 0)

/-- a multiple of a ciphertext decrypts to the multiple -/
theorem CtIs.enc_mul {n : ℕ} {r : Ring} {level l0 deg : ℕ} {B : ℕ → ℕ} {c' : Ct} {x : ℕ → ∀ u, Rq (2 ^ n) (r.qs u)}
    {g s m : ∀ u, Rq (2 ^ n) (r.qs u)} (h : CtIs n r level B deg c' (fun i u => g u * x i u)) (hl : level ≤ l0)
    (hm : ∀ u ≤ l0, ∑ i ∈ range (deg + 1), x i u * s u ^ i = m u) :
    CtEnc n r level B deg c' s (fun u => g u * m u) :=
  ⟨_, h, fun u hu => by
    dsimp only
    rw [← hm u (by omega), mul_sum]
    exact sum_congr rfl fun i _ => by ring⟩

section
variable {n : ℕ} {ev : Evaluator} (hr : ev.ringQ.Valid n) {A : ℕ → ℕ} {H : Heap} {ct0 out : Ref}
  {d0 l0 lo : ℕ} {x : ℕ → ∀ u, Rq (2 ^ n) (ev.ringQ.qs u)}
include hr

theorem getConstAndScale_spec (level : ℕ) (c : Constant) :
    ∃ sc, getConstAndScale ev.ringQ level c = (c.parts.1, c.parts.2, sc) ∧
      (sc = 1 ∨ sc = f64OfNat (ev.ringQ.qs level)) ∧
      (|c.parts.1| ≤ 2 ^ 52 → |c.parts.2| ≤ 2 ^ 52 →
        ((∃ a b : ℤ, c.parts = (↑a, ↑b)) → sc = 1) ∧
        ((∀ a b : ℤ, c.parts ≠ (↑a, ↑b)) → (∀ z, c ≠ .int z) → sc = f64OfNat (ev.ringQ.qs level))) := by
  have ht : ¬ ev.ringQ.type = .conjugateInvariant := by rw [hr.type]; decide
  unfold getConstAndScale
  cases c with
  | complex re im =>
    simp only [Constant.parts, if_neg ht]
    refine ⟨_, rfl, ?_, fun h1 h2 => ⟨?_, ?_⟩⟩
    · split
      · exact Or.inr rfl
      · exact Or.inl rfl
    · rintro ⟨a, b, h⟩
      obtain ⟨rfl, rfl⟩ := Prod.mk.inj h
      have a1 : hasFraction (a : ℚ) = false := by
        rw [← Bool.not_eq_true, hasFraction_iff h1]; push Not; exact ⟨a, rfl⟩
      have a2 : hasFraction (b : ℚ) = false := by
        rw [← Bool.not_eq_true, hasFraction_iff h2]; push Not; exact ⟨b, rfl⟩
      simp [a1, a2]
    · intro h _
      have : (re ≠ 0 ∧ hasFraction re = true) ∨ (im ≠ 0 ∧ hasFraction im = true) := by
        by_contra hc
        push Not at hc
        have key : ∀ y : ℚ, |y| ≤ 2 ^ 52 → (y ≠ 0 → hasFraction y ≠ true) → ∃ z : ℤ, y = z := by
          intro y hy hc
          by_cases h0 : y = 0
          · exact ⟨0, by simp [h0]⟩
          · have := hc h0
            rw [Ne, hasFraction_iff hy] at this
            push Not at this
            exact this
        obtain ⟨a, ha⟩ := key re h1 hc.1
        obtain ⟨b, hb⟩ := key im h2 hc.2
        exact h a b (by rw [ha, hb])
      rw [if_pos (by simpa using this)]
  | float y =>
    simp only [Constant.parts, if_neg ht]
    have e0 : (if ev.ringQ.type = .conjugateInvariant then (0 : ℚ) else 0) = 0 := by split <;> rfl
    refine ⟨_, rfl, ?_, fun h1 h2 => ⟨?_, ?_⟩⟩
    · split
      · exact Or.inr rfl
      · exact Or.inl rfl
    · rintro ⟨a, b, h⟩
      obtain ⟨rfl, -⟩ := Prod.mk.inj h
      have a1 : hasFraction (a : ℚ) = false := by
        rw [← Bool.not_eq_true, hasFraction_iff h1]; push Not; exact ⟨a, rfl⟩
      simp [a1]
    · intro h _
      have a1 : hasFraction y = true := (hasFraction_iff h1).2 fun z hz => h z 0 (by rw [hz]; simp)
      have a2 : y ≠ 0 := fun hz => h 0 0 (by rw [hz]; simp)
      rw [if_pos (by simp [a1, a2])]
  | int y =>
    simp only [Constant.parts, if_neg ht]
    exact ⟨1, rfl, Or.inl rfl, fun _ _ => ⟨fun _ => rfl, fun _ h => absurd rfl (h y)⟩⟩

/-- loop of a product by a pair of constants -/
theorem mulPair_loop (h0 : CtIs n ev.ringQ l0 A d0 (H ct0) x) (ho : CtShape d0 lo (H out)) (hlo : lo ≤ l0)
    (hl : lo < ev.ringQ.subs.length) {c : ℕ → UInt64 × UInt64} {a b : ℤ} (hc : ∀ u ≤ lo, GaussPair (ev.ringQ.sub u) n (c u) a b) :
    let H' := overComponents (fun u h => h.setRows out u (ev.ringQ.mulPairLvl lo c (h.rows ct0 u) (h.rows out u))) (d0 + 1) H
    (∀ b ≠ out, H' b = H b) ∧ (H' out).scale = (H out).scale ∧
      CtIs n ev.ringQ lo ev.ringQ.qs d0 (H' out) (fun i u => gauss n (ev.ringQ.qs u) a b * x i u) := by
  have L := overComponents_is0 (out := out) (F := fun i h => ev.ringQ.mulPairLvl lo c (h.rows ct0 i) (h.rows out i))
      (fun u h h' hh => by rw [hh, hh]) (d0 + 1) H
  exact ⟨L.frame, L.scale, L.ctIs ho fun i hi => mulPairLvl_elt hr hl hc ((h0.elt i hi).below hlo)
    (by have := ho.size i hi; show lo < ((H out).rows i).length; omega)⟩

/-- what `MultByConst` does -/
theorem multByConst_is (h0 : CtIs n ev.ringQ l0 A d0 (H ct0) x) (ho : CtShape d0 lo (H out)) (hlo : lo ≤ l0)
    (hl : lo < ev.ringQ.subs.length) (c : Constant) :
    ∃ H' sc, ev.multByConst H ct0 c out = some H' ∧ (∀ b ≠ out, H' b = H b) ∧
      (H' out).scale = f64 ((H ct0).scale * sc) ∧ (sc = 1 ∨ sc = f64OfNat (ev.ringQ.qs lo)) ∧
      (|c.parts.1| ≤ 2 ^ 52 → |c.parts.2| ≤ 2 ^ 52 →
        ((∃ a b : ℤ, c.parts = (↑a, ↑b)) → sc = 1) ∧
        ((∀ a b : ℤ, c.parts ≠ (↑a, ↑b)) → (∀ z, c ≠ .int z) → sc = f64OfNat (ev.ringQ.qs lo))) ∧
      CtIs n ev.ringQ lo ev.ringQ.qs d0 (H' out)
        (fun i u => gauss n (ev.ringQ.qs u) (fixedPoint c.parts.1 sc) (fixedPoint c.parts.2 sc) * x i u) ∧
      sc = (getConstAndScale ev.ringQ lo c).2.2 := by
  obtain ⟨sc, e, hsc, hint⟩ := getConstAndScale_spec hr lo c
  have s0 : 0 ≤ sc := by
    rcases hsc with rfl | rfl
    · norm_num
    · exact f64_nonneg (by positivity)
  obtain ⟨a1, a2, a3⟩ := mulPair_loop hr h0 ho hlo hl
    (c := constPairMont ev.ringQ c.parts.1 c.parts.2 sc) fun u hu => constPairMont_spec hr (by omega) s0
  have em : min (H ct0).level (H out).level = lo := by rw [h0.shape.level, ho.level]; omega
  unfold Evaluator.multByConst Evaluator.multByConstRows
  dsimp only
  rw [em, e, h0.shape.len, ho.len, if_neg (by omega), Option.map_some]
  refine ⟨_, sc, rfl, fun b hb => (Heap.setScale_ne _ _ _ _ hb).trans (a1 b hb), ?_, hsc, hint, ?_, rfl⟩
  · rw [Heap.setScale_self]
  · rw [Heap.setScale_self]
    exact a3.scale _

/-- **C53 (`MultByConst`).** The receiver has the degree of the operand, a level not above its, and may be the operand.
The operand may be unreduced.  Every component is multiplied by the fixed-point constant `a + b X^(N/2)`, the same
integers `a`, `b` modulo every prime; the scale of the constant is 1 or the top modulus, and multiplies the scale.  Up
to `2^52` the scale is 1 exactly if both parts are integers. -/
theorem C53_multByConst (h0 : CtIs n ev.ringQ l0 A d0 (H ct0) x) (ho : CtShape d0 lo (H out)) (hlo : lo ≤ l0)
    (hl : lo < ev.ringQ.subs.length) (c : Constant) :
    ∃ H' sc, ev.multByConst H ct0 c out = some H' ∧ (∀ b ≠ out, H' b = H b) ∧
      (H' out).scale = f64 ((H ct0).scale * sc) ∧ (sc = 1 ∨ sc = f64OfNat (ev.ringQ.qs lo)) ∧
      (|c.parts.1| ≤ 2 ^ 52 → |c.parts.2| ≤ 2 ^ 52 →
        ((∃ a b : ℤ, c.parts = (↑a, ↑b)) → sc = 1) ∧
        ((∀ a b : ℤ, c.parts ≠ (↑a, ↑b)) → (∀ z, c ≠ .int z) → sc = f64OfNat (ev.ringQ.qs lo))) ∧
      CtIs n ev.ringQ lo ev.ringQ.qs d0 (H' out)
        (fun i u => gauss n (ev.ringQ.qs u) (fixedPoint c.parts.1 sc) (fixedPoint c.parts.2 sc) * x i u) := by
  obtain ⟨H', sc, h1, h2, h3, h4, h5, h6, -⟩ := multByConst_is hr h0 ho hlo hl c
  exact ⟨H', sc, h1, h2, h3, h4, h5, h6⟩

/-- **C53 (`MultByConst` by a Gaussian integer below `2^51`).** The product is exact and the scale is rounded only. -/
theorem C53_multByConst_exact (h0 : CtIs n ev.ringQ l0 A d0 (H ct0) x) (ho : CtShape d0 lo (H out)) (hlo : lo ≤ l0)
    (hl : lo < ev.ringQ.subs.length) {a b : ℤ} (ha : |a| < 2 ^ 51) (hb : |b| < 2 ^ 51) {c : Constant}
    (hc : c.parts = (↑a, ↑b)) :
    ∃ H', ev.multByConst H ct0 c out = some H' ∧ (H' out).scale = f64 (H ct0).scale ∧
      CtIs n ev.ringQ lo ev.ringQ.qs d0 (H' out) (fun i u => gauss n (ev.ringQ.qs u) a b * x i u) := by
  obtain ⟨H', sc, h1, -, h2, -, h3, h4⟩ := C53_multByConst hr h0 ho hlo hl c
  rw [hc] at h3 h4
  have ba : |(a : ℚ)| ≤ 2 ^ 52 := by
    have : ((|a| : ℤ) : ℚ) ≤ ((2 ^ 52 : ℤ) : ℚ) := by exact_mod_cast (by omega : |a| ≤ 2 ^ 52)
    push_cast at this
    exact this
  have bb : |(b : ℚ)| ≤ 2 ^ 52 := by
    have : ((|b| : ℤ) : ℚ) ≤ ((2 ^ 52 : ℤ) : ℚ) := by exact_mod_cast (by omega : |b| ≤ 2 ^ 52)
    push_cast at this
    exact this
  have := (h3 ba bb).1 ⟨a, b, rfl⟩
  subst this
  dsimp only at h4
  rw [fixedPoint_int ha, fixedPoint_int hb] at h4
  rw [mul_one] at h2
  exact ⟨H', h1, h2, h4⟩

/-- **C53 (the fixed-point constant).** It is the nearest integer, up to float64 errors. -/
theorem C53_fixedPoint (v s : ℚ) (hs : 0 ≤ s) :
    |(fixedPoint v s : ℚ) - s * v| ≤ 1 / 2 + 3 / 2 ^ 53 * (s * |v| + 1) := by
  have := fixedPoint_err (v := v) hs
  unfold uro at this
  linarith

/-- **C53 (`MultByGaussianInteger`).** Exact for all constants. -/
theorem C53_multByGaussianInteger (h0 : CtIs n ev.ringQ l0 A d0 (H ct0) x) (ho : CtShape d0 lo (H out)) (hlo : lo ≤ l0)
    (hl : lo < ev.ringQ.subs.length) (re im : GInt) :
    ∃ H', ev.multByGaussianInteger H ct0 re im out = some H' ∧ (∀ b ≠ out, H' b = H b) ∧
      (H' out).scale = (H ct0).scale ∧
      CtIs n ev.ringQ lo ev.ringQ.qs d0 (H' out) (fun i u => gauss n (ev.ringQ.qs u) re.val im.val * x i u) := by
  have em : min (H ct0).level (H out).level = lo := by rw [h0.shape.level, ho.level]; omega
  obtain ⟨a1, a2, a3⟩ := mulPair_loop hr (h0.setScale out (H ct0).scale) (ho.setScale out (H ct0).scale) hlo hl
    (c := gaussPair ev.ringQ re im) fun u hu => gaussPair_spec hr (by omega) re im
  unfold Evaluator.multByGaussianInteger
  dsimp only
  rw [em, h0.shape.len, ho.len, if_neg (by omega)]
  exact ⟨_, rfl, fun b hb => (a1 b hb).trans (Heap.setScale_ne _ _ _ _ hb), by rw [a2, Heap.setScale_self], a3⟩

theorem mulPairOut_is (h0 : CtIs n ev.ringQ l0 A d0 (H ct0) x) (ho : CtShape d0 lo (H out)) (hlo : lo ≤ l0)
    (hl : lo < ev.ringQ.subs.length) {c : ℕ → UInt64 × UInt64} {a b : ℤ} (hc : ∀ u ≤ lo, GaussPair (ev.ringQ.sub u) n (c u) a b) :
    ∃ H', ev.mulPairOut H ct0 c out = some H' ∧ (∀ b ≠ out, H' b = H b) ∧ (H' out).scale = (H ct0).scale ∧
      CtIs n ev.ringQ lo ev.ringQ.qs d0 (H' out) (fun i u => gauss n (ev.ringQ.qs u) a b * x i u) := by
  have em : min (H ct0).level (H out).level = lo := by rw [h0.shape.level, ho.level]; omega
  obtain ⟨a1, a2, a3⟩ := mulPair_loop hr (h0.setScale out (H ct0).scale) (ho.setScale out (H ct0).scale) hlo hl hc
  unfold Evaluator.mulPairOut
  dsimp only
  rw [if_neg (by rw [hr.type]; decide), em, h0.shape.len, ho.len, if_neg (by omega)]
  exact ⟨_, rfl, fun b hb => (a1 b hb).trans (Heap.setScale_ne _ _ _ _ hb), by rw [a2, Heap.setScale_self], a3⟩

/-- **C53 (`MultByi`).** -/
theorem C53_multByi (h0 : CtIs n ev.ringQ l0 A d0 (H ct0) x) (ho : CtShape d0 lo (H out)) (hlo : lo ≤ l0)
    (hl : lo < ev.ringQ.subs.length) :
    ∃ H', ev.multByi H ct0 out = some H' ∧ (∀ b ≠ out, H' b = H b) ∧ (H' out).scale = (H ct0).scale ∧
      CtIs n ev.ringQ lo ev.ringQ.qs d0 (H' out) (fun i u => gauss n (ev.ringQ.qs u) 0 1 * x i u) :=
  mulPairOut_is hr h0 ho hlo hl fun u hu => (gaussPair_i (hr.subAt (by omega)) (by have := hr.four_le; omega)).1

/-- **C53 (`DivByi`).** -/
theorem C53_divByi (h0 : CtIs n ev.ringQ l0 A d0 (H ct0) x) (ho : CtShape d0 lo (H out)) (hlo : lo ≤ l0)
    (hl : lo < ev.ringQ.subs.length) :
    ∃ H', ev.divByi H ct0 out = some H' ∧ (∀ b ≠ out, H' b = H b) ∧ (H' out).scale = (H ct0).scale ∧
      CtIs n ev.ringQ lo ev.ringQ.qs d0 (H' out) (fun i u => gauss n (ev.ringQ.qs u) 0 (-1) * x i u) :=
  mulPairOut_is hr h0 ho hlo hl fun u hu => (gaussPair_i (hr.subAt (by omega)) (by have := hr.four_le; omega)).2

/-- **C53 (`MultByi` then `DivByi`).** The rows of a reduced ciphertext come back unchanged. -/
theorem C53_multByi_divByi {out' : Ref} (h0 : CtIs n ev.ringQ l0 ev.ringQ.qs d0 (H ct0) x) (ho : CtShape d0 l0 (H out))
    (ho' : CtShape d0 l0 (H out')) (hl : l0 < ev.ringQ.subs.length) :
    ∃ H' H'', ev.multByi H ct0 out = some H' ∧ ev.divByi H' out out' = some H'' ∧
      (H'' out').scale = (H ct0).scale ∧ ∀ i ≤ d0, (H'' out').rows i = (H ct0).rows i := by
  have h4 := hr.four_le
  obtain ⟨H', a1, a2, a3, a4⟩ := C53_multByi hr h0 ho le_rfl hl
  have so : CtShape d0 l0 (H' out') := by
    by_cases e : out' = out
    · rw [e]; exact a4.shape
    · rw [a2 _ e]; exact ho'
  obtain ⟨H'', b1, b2, b3, b4⟩ := C53_divByi hr a4 so le_rfl hl
  refine ⟨H', H'', a1, b1, b3.trans a3, fun i hi => ?_⟩
  refine ((b4.elt i hi).congr (y := x i) fun u _ => ?_).ext hr hl (h0.elt i hi) (b4.shape.size i hi) (h0.shape.size i hi)
  rw [← mul_assoc, gauss_mul _ _ (by omega)]
  simp [gauss_one]

/-- **C53 (decryption).** If `ct0` decrypts to `m` then `MultByConst` by `c` decrypts to the fixed-point constant times
`m`. -/
theorem C53_multByConst_enc {s m : ∀ u, Rq (2 ^ n) (ev.ringQ.qs u)} (h0 : CtEnc n ev.ringQ l0 A d0 (H ct0) s m)
    (ho : CtShape d0 lo (H out)) (hlo : lo ≤ l0) (hl : lo < ev.ringQ.subs.length) (c : Constant) :
    ∃ H' sc, ev.multByConst H ct0 c out = some H' ∧ (H' out).scale = f64 ((H ct0).scale * sc) ∧
      (sc = 1 ∨ sc = f64OfNat (ev.ringQ.qs lo)) ∧
      CtEnc n ev.ringQ lo ev.ringQ.qs d0 (H' out) s
        (fun u => gauss n (ev.ringQ.qs u) (fixedPoint c.parts.1 sc) (fixedPoint c.parts.2 sc) * m u) := by
  obtain ⟨x, hx, hm⟩ := h0
  obtain ⟨H', sc, h1, -, h2, h3, -, h4⟩ := C53_multByConst hr hx ho hlo hl c
  exact ⟨H', sc, h1, h2, h3, CtIs.enc_mul h4 hlo hm⟩

/-! ## C54 -/

/-- what `AddConst` does: component 0 of the receiver, nothing else -/
theorem addConst_is (hA : A = ev.ringQ.qs ∨ A = fun u => ev.ringQ.qs u + 1) (h0 : CtIs n ev.ringQ l0 A d0 (H ct0) x)
    {dd : ℕ} {y : ℕ → ∀ u, Rq (2 ^ n) (ev.ringQ.qs u)} (ho : CtIs n ev.ringQ lo A dd (H out) y) (hlo : lo ≤ l0)
    (hl : lo < ev.ringQ.subs.length) (hs : 0 ≤ (H ct0).scale) (c : Constant) :
    (∀ b ≠ out, ev.addConst H ct0 c out b = H b) ∧ (ev.addConst H ct0 c out out).scale = (H ct0).scale ∧
      CtIs n ev.ringQ lo A dd (ev.addConst H ct0 c out out) (fun i u => if i = 0
        then x 0 u + gauss n (ev.ringQ.qs u) (fixedPoint c.parts.1 (H ct0).scale) (fixedPoint c.parts.2 (H ct0).scale)
        else y i u) := by
  obtain ⟨sc, e, -, -⟩ := getConstAndScale_spec hr lo c
  have em : min (H ct0).level (H out).level = lo := by rw [h0.shape.level, ho.shape.level]; omega
  have W := addPair_elt hr hl hA (re := c.parts.1) (im := c.parts.2) hs (p1 := H.rows out 0) ((h0.elt 0 (by omega)).below hlo)
    (by have := ho.shape.size 0 (by omega); show lo < ((H out).rows 0).length; omega)
  have hlen := ho.shape.len
  unfold Evaluator.addConst
  dsimp only
  rw [em, e]
  dsimp only
  simp only [Heap.rows_setScale, Heap.setScale_self]
  refine ⟨fun b hb => (Heap.setRows_ne _ _ _ _ _ hb).trans (Heap.setScale_ne _ _ _ _ hb), ?_, ?_, fun i hi => ?_⟩
  · rw [Heap.scale_setRows, Heap.setScale_self]
  · rw [Heap.setRows_self]
    refine (ho.shape.setScale out _).setRows ?_
    exact W.len.trans (ho.shape.size 0 (by omega))
  · rw [Heap.setRows_self]
    by_cases hi0 : i = 0
    · subst hi0
      rw [Ct.rows_setRows_self _ _ _ (by rw [Heap.value_setScale, hlen]; omega)]
      refine W.is.congr fun u _ => ?_
      rw [if_pos rfl]
    · rw [Ct.rows_setRows_ne _ _ _ _ hi0]
      refine ((ho.setScale out _).elt i hi).congr fun u _ => ?_
      rw [if_neg hi0]

/-- **C54 (partial: in place).** `AddConst(ct, c, ct)` adds the fixed-point constant at the scale of the ciphertext. -/
theorem C54_addConst_partial {s m : ∀ u, Rq (2 ^ n) (ev.ringQ.qs u)} (hA : A = ev.ringQ.qs ∨ A = fun u => ev.ringQ.qs u + 1)
    (h0 : CtEnc n ev.ringQ l0 A d0 (H ct0) s m) (hl : l0 < ev.ringQ.subs.length) (hs : 0 ≤ (H ct0).scale) (c : Constant) :
    (∀ b ≠ ct0, ev.addConst H ct0 c ct0 b = H b) ∧ (ev.addConst H ct0 c ct0 ct0).scale = (H ct0).scale ∧
    CtEnc n ev.ringQ l0 A d0 (ev.addConst H ct0 c ct0 ct0) s (fun u => m u +
      gauss n (ev.ringQ.qs u) (fixedPoint c.parts.1 (H ct0).scale) (fixedPoint c.parts.2 (H ct0).scale)) := by
  obtain ⟨x, hx, hm⟩ := h0
  obtain ⟨a1, a2, a3⟩ := addConst_is hr hA hx hx le_rfl hl hs c
  refine ⟨a1, a2, _, a3, fun u hu => ?_⟩
  dsimp only
  rw [← hm u hu, sum_range_succ', sum_range_succ']
  simp only [if_pos, pow_zero, mul_one, Nat.add_eq_zero_iff, one_ne_zero, and_false, if_false]
  ring

/-- **C54 (partial: `AddConstNew`).** -/
theorem C54_addConstNew_partial {s m : ∀ u, Rq (2 ^ n) (ev.ringQ.qs u)} {new : Ref}
    (hA : A = ev.ringQ.qs ∨ A = fun u => ev.ringQ.qs u + 1)
    (h0 : CtEnc n ev.ringQ l0 A d0 (H ct0) s m) (hn : ct0 ≠ new) (hl : l0 < ev.ringQ.subs.length) (hs : 0 ≤ (H ct0).scale)
    (c : Constant) :
    (∀ b ≠ new, ev.addConstNew H ct0 c new b = H b) ∧
    CtEnc n ev.ringQ l0 A d0 (ev.addConstNew H ct0 c new new) s (fun u => m u +
      gauss n (ev.ringQ.qs u) (fixedPoint c.parts.1 (H ct0).scale) (fixedPoint c.parts.2 (H ct0).scale)) := by
  obtain ⟨x, hx, hm⟩ := h0
  have e : H.set new (H ct0) ct0 = H ct0 := Heap.set_ne _ _ _ _ hn
  obtain ⟨a1, a2, a3⟩ := addConst_is (H := H.set new (H ct0)) (ct0 := ct0) (out := new) (A := A) (x := x) (y := x) hr hA
    (by rw [e]; exact hx) (by rw [Heap.set_self]; exact hx) le_rfl hl (by rw [e]; exact hs) c
  rw [e] at a3
  refine ⟨fun b hb => (a1 b hb).trans (Heap.set_ne _ _ _ _ hb), _, a3, fun u hu => ?_⟩
  dsimp only
  rw [← hm u hu, sum_range_succ', sum_range_succ']
  simp only [if_pos, pow_zero, mul_one, Nat.add_eq_zero_iff, one_ne_zero, and_false, if_false]
  ring

/-- **C54 (violated).** Into another receiver, the components from 1 on keep what the receiver held. -/
theorem C54_other_components (hA : A = ev.ringQ.qs ∨ A = fun u => ev.ringQ.qs u + 1) (h0 : CtIs n ev.ringQ l0 A d0 (H ct0) x)
    {dd : ℕ} {y : ℕ → ∀ u, Rq (2 ^ n) (ev.ringQ.qs u)} (ho : CtIs n ev.ringQ lo A dd (H out) y) (hlo : lo ≤ l0)
    (hl : lo < ev.ringQ.subs.length) (hs : 0 ≤ (H ct0).scale) (c : Constant) (s : ∀ u, Rq (2 ^ n) (ev.ringQ.qs u)) :
    CtEnc n ev.ringQ lo A dd (ev.addConst H ct0 c out out) s (fun u => x 0 u +
      gauss n (ev.ringQ.qs u) (fixedPoint c.parts.1 (H ct0).scale) (fixedPoint c.parts.2 (H ct0).scale) +
      ∑ i ∈ range dd, y (i + 1) u * s u ^ (i + 1)) := by
  obtain ⟨a1, a2, a3⟩ := addConst_is hr hA h0 ho hlo hl hs c
  refine ⟨_, a3, fun u hu => ?_⟩
  rw [sum_range_succ']
  simp only [if_pos, pow_zero, mul_one, Nat.add_eq_zero_iff, one_ne_zero, and_false, if_false]
  ring

end

theorem CtEnc.unique {n : ℕ} {r : Ring} {level deg : ℕ} {A B : ℕ → ℕ} {c : Ct} {s m m' : ∀ u, Rq (2 ^ n) (r.qs u)}
    (h : CtEnc n r level A deg c s m) (h' : CtEnc n r level B deg c s m') {u : ℕ} (hu : u ≤ level) : m u = m' u := by
  obtain ⟨x, hx, ex⟩ := h
  obtain ⟨y, hy, ey⟩ := h'
  rw [← ex u hu, ← ey u hu]
  refine sum_congr rfl fun i hi => ?_
  have hi := mem_range.1 hi
  rw [← (hx.elt i (by omega)).val u hu, ← (hy.elt i (by omega)).val u hu]

/-- **C54 (violated, witness).** With moduli 97, 193, 641 and degree 16: adding 1 to `exampleCt` into a zero ciphertext of
the same shape.  Under the secret 1 the result does not decrypt to the decryption of `exampleCt` plus the constant. -/
theorem C54_violated : ∃ (ev : Evaluator) (H : Heap) (s m : ∀ u, Rq (2 ^ 4) (ev.ringQ.qs u)),
    ev.ringQ.Valid 4 ∧ CtEnc 4 ev.ringQ 2 ev.ringQ.qs 1 (H 0) s m ∧ CtShape 1 2 (H 1) ∧
    ¬ ∃ A, CtEnc 4 ev.ringQ 2 A 1 (ev.addConst H 0 (.int 1) 1 1) s (fun u => m u +
      gauss 4 (ev.ringQ.qs u) (fixedPoint (Constant.int 1).parts.1 (H 0).scale)
        (fixedPoint (Constant.int 1).parts.2 (H 0).scale)) := by
  obtain ⟨fp, ksw, kg, s, tape, h1, h, hF, ha, lQ, hk, hg, hQ, hP, hsam, hsk, ht⟩ := exampleKeys
  have q0 := sub_of_moduli hQ 0 97 rfl
  have q1 := sub_of_moduli hQ 1 193 rfl
  have q2 := sub_of_moduli hQ 2 641 rfl
  have hq : ∀ u ≤ 2, 7 < fp.ringQ.qs u := by
    intro u hu
    unfold Ring.qs
    interval_cases u
    · rw [q0]; decide
    · rw [q1]; decide
    · rw [q2]; decide
  let H : Heap := fun a => if a = 0 then exampleCt else newCiphertext 16 1 2 (2 ^ 20)
  let ev := newEvaluator fp.ringQ fp.ringP none (fun _ => none) 7
  have c0 : CtIs 4 ev.ringQ 2 ev.ringQ.qs 1 (H 0) _ := exampleCt_is hq
  have c1 : CtIs 4 ev.ringQ 2 ev.ringQ.qs 1 (H 1) (fun i u => ev.ringQ.elt 4 true ((H 1).rows i) u) := by
    refine ⟨newCiphertext_shape _ _ _ _, fun i hi => elt_self ?_ ?_ fun u hu k hk => ?_⟩
    · revert i; decide
    · intro u hu
      revert u i; decide
    · have : ∀ i ≤ 1, ∀ u ≤ 2, ∀ k < 16, ((((newCiphertext 16 1 2 (2 ^ 20)).rows i).row u).at k).toNat ≤ 0 := by decide
      exact lt_of_le_of_lt (this i hi u hu k hk) (by have := hq u hu; show 0 < fp.ringQ.qs u; omega)
  refine ⟨ev, H, fun _ => 1, _, h.hQ, ⟨_, c0, fun _ _ => rfl⟩, c1.shape, ?_⟩
  rintro ⟨A, hA⟩
  have key := C54_other_components (ev := ev) h.hQ (Or.inl rfl) c0 c1 le_rfl (show 2 < fp.ringQ.subs.length by omega)
    (show (0 : ℚ) ≤ 2 ^ 20 by norm_num) (.int 1) (fun _ => 1)
  have e := CtEnc.unique hA key (u := 0) (by omega)
  simp only [sum_range_succ, sum_range_zero, one_pow, mul_one, zero_add] at e
  have e2 : ev.ringQ.elt 4 true (exampleCt.rows 1) 0 = ev.ringQ.elt 4 true ((H 1).rows 1) 0 := by
    linear_combination e
  have V := h.hQ.subAt (show 0 < fp.ringQ.subs.length by omega)
  have := V.fact
  have e3 := congrArg (evalAt (V.psiOK (by omega)) (show 0 < 2 ^ 4 by norm_num)) e2
  simp only [Ring.elt, if_true, nttR] at e3
  have e4 : zval (fp.ringQ.sub 0).q.toNat ((exampleCt.rows 1).row 0) 0 =
      zval (fp.ringQ.sub 0).q.toNat (((H 1).rows 1).row 0) 0 := by
    refine Eq.trans ?_ (e3.trans ?_)
    · exact (evalAt_ofNtt _ _ _).symm
    · exact evalAt_ofNtt _ _ _
  have e5 : ((7 : ℕ) : ZMod (fp.ringQ.sub 0).q.toNat) = ((0 : ℕ) : ZMod (fp.ringQ.sub 0).q.toNat) := e4
  have e6 := (ZMod.natCast_eq_natCast_iff' _ _ _).1 e5
  rw [q0] at e6
  revert e6
  decide

/-- the operand of the examples: `exampleCt` times `3 - 2i`, in place -/
example : ∃ (ev : Evaluator) (H' : Heap) (x : ℕ → ∀ u, Rq (2 ^ 4) (ev.ringQ.qs u)), ev.ringQ.Valid 4 ∧
    ev.multByConst (fun _ => exampleCt) 0 (.complex 3 (-2)) 0 = some H' ∧
    CtIs 4 ev.ringQ 2 ev.ringQ.qs 1 (H' 0) (fun i u => gauss 4 (ev.ringQ.qs u) 3 (-2) * x i u) := by
  obtain ⟨fp, ksw, kg, s, tape, h1, h, hF, ha, lQ, hk, hg, hQ, hP, hsam, hsk, ht⟩ := exampleKeys
  have q0 := sub_of_moduli hQ 0 97 rfl
  have q1 := sub_of_moduli hQ 1 193 rfl
  have q2 := sub_of_moduli hQ 2 641 rfl
  have hq : ∀ u ≤ 2, 7 < fp.ringQ.qs u := by
    intro u hu
    unfold Ring.qs
    interval_cases u
    · rw [q0]; decide
    · rw [q1]; decide
    · rw [q2]; decide
  obtain ⟨H', a1, -, a2⟩ := C53_multByConst_exact (ev := newEvaluator fp.ringQ fp.ringP none (fun _ => none) 7)
    (H := fun _ => exampleCt) (ct0 := 0) (out := 0) h.hQ (exampleCt_is hq) (exampleCt_is hq).shape le_rfl
    (show 2 < fp.ringQ.subs.length by omega) (a := 3) (b := -2) (by norm_num) (by norm_num)
    (c := .complex 3 (-2)) (by simp [Constant.parts])
  exact ⟨_, H', _, h.hQ, a1, a2⟩

/-- **C53 (integer constants are not always exact).** `MultByConst` by the integer `2^52 + 1`, which float64
represents, multiplies by `2^52 + 2`: adding `0.5` in `scaleUpExact` rounds up. -/
theorem C53_integer_inexact : fixedPoint ((2 ^ 52 + 1 : ℤ) : ℚ) 1 = 2 ^ 52 + 2 := by decide +kernel

end FastKsw.Props
