import Verif.Props.ScaleMgmt
import Verif.Props.RingMisc

/-!
# C79: operations that allocate their receiver

`NegNew`, `MultByConstNew`, `ScaleUpNew`, `ReduceNew`, `DropLevelNew`, `RescaleNew`, `MultByiNew`, `DivByiNew`,
`MulByPow2New`: the result is a new ciphertext with the decryption the operation promises; the operand keeps its value.
-/

namespace FastKsw.Props

open FastKsw Finset

section
variable {n : ℕ} {ev : Evaluator} (hr : ev.ringQ.Valid n) {A : ℕ → ℕ} {H : Heap} {ct0 new : Ref}
  {deg level : ℕ} {x : ℕ → ∀ u, Rq (2 ^ n) (ev.ringQ.qs u)} {s m : ∀ u, Rq (2 ^ n) (ev.ringQ.qs u)}

theorem alloc_spec (h0 : CtShape deg level (H ct0)) (hn : ct0 ≠ new) :
    ev.alloc H ct0 new ct0 = H ct0 ∧ (∀ b ≠ new, ev.alloc H ct0 new b = H b) ∧
      CtShape deg level (ev.alloc H ct0 new new) := by
  unfold Evaluator.alloc
  refine ⟨Heap.set_ne _ _ _ _ hn, fun b hb => Heap.set_ne _ _ _ _ hb, ?_⟩
  rw [Heap.set_self, h0.degree, h0.level]
  exact newCiphertext_shape _ _ _ _

include hr

/-- **C79 (`NegNew`).** -/
theorem C79_negNew (h0 : CtEnc n ev.ringQ level (fun u => ev.ringQ.qs u + 1) deg (H ct0) s m) (hn : ct0 ≠ new)
    (hl : level < ev.ringQ.subs.length) :
    ∃ H', ev.negNew H ct0 new = some H' ∧ (∀ b ≠ new, H' b = H b) ∧ (H' new).scale = (H ct0).scale ∧
      CtEnc n ev.ringQ level (fun u => ev.ringQ.qs u + 1) deg (H' new) s (fun u => -m u) := by
  obtain ⟨x, hx, ex⟩ := h0
  obtain ⟨f1, f2, f3⟩ := alloc_spec (ev := ev) hx.shape hn
  obtain ⟨H', a1, a2, a3, a4⟩ := C34_neg (H := ev.alloc H ct0 new) (op0 := ct0) (out := new) (x := x) hr (by rw [f1]; exact hx) f3
    le_rfl hl
  rw [f1] at a3
  refine ⟨H', a1, fun b hb => (a2 b hb).trans (f2 b hb), a3, _, a4, fun u hu => ?_⟩
  dsimp only
  rw [← ex u hu, ← sum_neg_distrib]
  exact sum_congr rfl fun i _ => by ring

/-- **C79 (`MultByConstNew`).** -/
theorem C79_multByConstNew (h0 : CtEnc n ev.ringQ level A deg (H ct0) s m) (hn : ct0 ≠ new)
    (hl : level < ev.ringQ.subs.length) (c : Constant) :
    ∃ H' sc, ev.multByConstNew H ct0 c new = some H' ∧ (∀ b ≠ new, H' b = H b) ∧
      sc = (getConstAndScale ev.ringQ level c).2.2 ∧ (H' new).scale = f64 ((H ct0).scale * sc) ∧
      CtEnc n ev.ringQ level ev.ringQ.qs deg (H' new) s
        (fun u => gauss n (ev.ringQ.qs u) (fixedPoint c.parts.1 sc) (fixedPoint c.parts.2 sc) * m u) := by
  obtain ⟨x, hx, ex⟩ := h0
  obtain ⟨f1, f2, f3⟩ := alloc_spec (ev := ev) hx.shape hn
  obtain ⟨H', sc, a1, a2, a3, -, -, a4, a5⟩ := multByConst_is (H := ev.alloc H ct0 new) (ct0 := ct0) (out := new) (x := x) hr
    (by rw [f1]; exact hx) f3 le_rfl hl c
  rw [f1] at a3
  exact ⟨H', sc, a1, fun b hb => (a2 b hb).trans (f2 b hb), a5, a3, CtIs.enc_mul a4 le_rfl ex⟩

/-- **C79 (`ScaleUpNew`, integer factors; for others see C78).** -/
theorem C79_scaleUpNew_partial (h0 : CtEnc n ev.ringQ level A deg (H ct0) s m) (hn : ct0 ≠ new)
    (hl : level < ev.ringQ.subs.length) (hf : f64 (H ct0).scale = (H ct0).scale) {k : ℕ} (hk : k < 2 ^ 51) :
    ∃ H', ev.scaleUpNew H ct0 k new = some H' ∧ (∀ b ≠ new, H' b = H b) ∧ (H' new).scale = f64 ((H ct0).scale * k) ∧
      CtEnc n ev.ringQ level ev.ringQ.qs deg (H' new) s (fun u => (k : Rq (2 ^ n) _) * m u) := by
  obtain ⟨f1, f2, f3⟩ := alloc_spec (ev := ev) h0.choose_spec.1.shape hn
  obtain ⟨H', a1, a2, a3, a4⟩ := C78_scaleUp_partial (H := ev.alloc H ct0 new) (ct0 := ct0) (out := new) hr
    (by rw [f1]; exact h0) f3 le_rfl hl (by rw [f1]; exact hf) hk
  rw [f1] at a3
  exact ⟨H', a1, fun b hb => (a2 b hb).trans (f2 b hb), a3, a4⟩

/-- **C79 (`Reduce`).** Words of any size become canonical; the decryption stays.  The receiver may be the operand. -/
theorem C79_reduce {lo : ℕ} {out : Ref} (h0 : CtEnc n ev.ringQ level A deg (H ct0) s m) (ho : CtShape deg lo (H out))
    (hlo : lo ≤ level) (hl : lo < ev.ringQ.subs.length) :
    ∃ H', ev.reduce H ct0 out = .ok H' ∧ (∀ b ≠ out, H' b = H b) ∧ (H' out).scale = (H ct0).scale ∧
      CtEnc n ev.ringQ lo ev.ringQ.qs deg (H' out) s m := by
  obtain ⟨x, hx, ex⟩ := h0
  unfold Evaluator.reduce
  rw [hx.shape.degree, ho.degree, if_neg (by simp)]
  dsimp only
  rw [hx.shape.level, ho.level, min_eq_right hlo, hx.shape.len]
  have L := overComponents_is0 (out := out) (F := fun i h => ev.ringQ.reduceLvl lo (h.rows ct0 i) (h.rows out i))
      (fun u h h' hh => by rw [hh, hh]) (deg + 1) H
  have W : ∀ i ≤ deg, EltWritten n ev.ringQ lo ev.ringQ.qs true ((H out).rows i)
      (ev.ringQ.reduceLvl lo (H.rows ct0 i) (H.rows out i)) (x i) := fun i hi =>
    reduceLvl_elt hr hl ((hx.elt i hi).below hlo) (by have := ho.size i hi; show lo < ((H out).rows i).length; omega)
  refine ⟨_, rfl, fun b hb => (Heap.setScale_ne _ _ _ _ hb).trans (L.frame b hb), ?_, x, ?_, fun u hu => ex u (by omega)⟩
  · rw [Heap.setScale_self]
  · rw [Heap.setScale_self]
    exact (L.ctIs ho W).scale _

/-- **C79 (`ReduceNew`).** -/
theorem C79_reduceNew (h0 : CtEnc n ev.ringQ level A deg (H ct0) s m) (hn : ct0 ≠ new)
    (hl : level < ev.ringQ.subs.length) :
    (∀ b ≠ new, ev.reduceNew H ct0 new b = H b) ∧ (ev.reduceNew H ct0 new new).scale = (H ct0).scale ∧
      CtEnc n ev.ringQ level ev.ringQ.qs deg (ev.reduceNew H ct0 new new) s m := by
  obtain ⟨f1, f2, f3⟩ := alloc_spec (ev := ev) h0.choose_spec.1.shape hn
  obtain ⟨H', a1, a2, a3, a4⟩ := C79_reduce (H := ev.alloc H ct0 new) (ct0 := ct0) (out := new) hr
    (by rw [f1]; exact h0) f3 le_rfl hl
  rw [f1] at a3
  unfold Evaluator.reduceNew
  rw [a1]
  exact ⟨fun b hb => (a2 b hb).trans (f2 b hb), a3, a4⟩

omit hr in
/-- **C79 (`DropLevelNew`).** -/
theorem C79_dropLevelNew (h0 : CtEnc n ev.ringQ level A deg (H ct0) s m) {k : ℕ} (hk : k ≤ level) :
    (∀ b ≠ new, Evaluator.dropLevelNew H ct0 k new b = H b) ∧
      (Evaluator.dropLevelNew H ct0 k new new).scale = (H ct0).scale ∧
      CtEnc n ev.ringQ (level - k) A deg (Evaluator.dropLevelNew H ct0 k new new) s m := by
  obtain ⟨x, hx, ex⟩ := h0
  unfold Evaluator.dropLevelNew
  refine ⟨fun b hb => Heap.set_ne _ _ _ _ hb, ?_, x, ?_, fun u hu => ex u (by omega)⟩
  · rw [Heap.set_self]; rfl
  · rw [Heap.set_self]
    refine ⟨hx.shape.dropLevel hk, fun i hi => ?_⟩
    rw [Ct.rows_dropLevel, hx.shape.level]
    exact ((hx.elt i hi).below (by omega)).take (by omega)

/-- **C79 (`RescaleNew`).** What `Rescale` promises (C37), in a new ciphertext. -/
theorem C79_rescaleNew_partial (sr : ev.ringQ.Small) (hl : level < ev.ringQ.subs.length) {minScale : ℚ}
    (h0 : CtEnc n ev.ringQ level (fun u => 2 * ev.ringQ.qs u) deg (H ct0) s m) (hn : ct0 ≠ new)
    (hm : 0 < minScale) (hs : 0 < (H ct0).scale) (hf : f64 (H ct0).scale = (H ct0).scale)
    (hlev : 0 < level) (hlast : scaleAfter ev.ringQ level (H ct0).scale (level + 1) < f64Div minScale 2) :
    ∃ nb ≤ level, (∀ j, 0 < j → (f64Div minScale 2 ≤ scaleAfter ev.ringQ level (H ct0).scale j ↔ j ≤ nb)) ∧
      ∃ (H' : Heap) (m' : ∀ u, Rq (2 ^ n) (ev.ringQ.qs u)) (δ : ℕ → ℕ → ℤ),
        ev.rescaleNew H ct0 minScale new = some (.ok H') ∧ (∀ b ≠ new, H' b = H b) ∧
        (H' new).scale = scaleAfter ev.ringQ level (H ct0).scale nb ∧
        CtEnc n ev.ringQ (level - nb) (fun u => 2 * ev.ringQ.qs u) deg (H' new) s m' ∧
        (∀ u ≤ level - nb, (topQ ev.ringQ level nb : Rq (2 ^ n) (ev.ringQ.qs u)) * m' u
          = m u + ∑ i ∈ range (deg + 1), intR (2 ^ n) (ev.ringQ.qs u) (δ i) * s u ^ i) ∧
        ∀ i k, 2 * |δ i k| ≤ topQ ev.ringQ level nb := by
  obtain ⟨f1, f2, f3⟩ := alloc_spec (ev := ev) h0.choose_spec.1.shape hn
  obtain ⟨nb, b1, b2, H', m', δ, a1, a2, a3⟩ := C37_rescale_partial (H := ev.alloc H ct0 new) (ctIn := ct0) (out := new)
    (minScale := minScale) hr sr hl (by rw [f1]; exact h0) f3 hm (by rw [f1]; exact hs) (by rw [f1]; exact hf) hlev
    (by rw [f1]; exact hlast)
  rw [f1] at a3 b2
  exact ⟨nb, b1, b2, H', m', δ, a1, fun b hb => (a2 b hb).trans (f2 b hb), a3⟩

/-! ### `MultByiNew`, `DivByiNew` -/

/-- the loops of `MultByi`, `DivByi` on a receiver of lower degree: only the components of the receiver -/
theorem mulPairOut_low {out : Ref} {d0 dd lo : ℕ} (h0 : CtIs n ev.ringQ level A d0 (H ct0) x) (ho : CtShape dd lo (H out))
    (hd : dd ≤ d0) (hlo : lo ≤ level) (hl : lo < ev.ringQ.subs.length) {c : ℕ → UInt64 × UInt64} {a b : ℤ}
    (hc : ∀ u ≤ lo, GaussPair (ev.ringQ.sub u) n (c u) a b) :
    ∃ H', ev.mulPairOut H ct0 c out = some H' ∧ (∀ b ≠ out, H' b = H b) ∧ (H' out).scale = (H ct0).scale ∧
      CtIs n ev.ringQ lo ev.ringQ.qs dd (H' out) (fun i u => gauss n (ev.ringQ.qs u) a b * x i u) := by
  have em : min (H ct0).level (H out).level = lo := by rw [h0.shape.level, ho.level]; omega
  have h0' := h0.setScale out (H ct0).scale
  have ho' := ho.setScale out (H ct0).scale
  have L := overComponents_is0 (out := out) (F := fun i h => ev.ringQ.mulPairLvl lo c (h.rows ct0 i) (h.rows out i))
      (fun u h h' hh => by rw [hh, hh]) (dd + 1) (H.setScale out (H ct0).scale)
  unfold Evaluator.mulPairOut
  dsimp only
  rw [if_neg (by rw [hr.type]; decide), em, h0.shape.len, ho.len, if_neg (by omega)]
  refine ⟨_, rfl, fun b hb => (L.frame b hb).trans (Heap.setScale_ne _ _ _ _ hb), by rw [L.scale, Heap.setScale_self], ?_⟩
  exact L.ctIs ho' fun i hi => mulPairLvl_elt hr hl hc ((h0'.elt i (by omega)).below hlo)
    (by have := ho'.size i hi; show lo < ((H.setScale out (H ct0).scale out).rows i).length; omega)

/-- **C79 (`MultByiNew`, what it does).** For a ciphertext of degree at least 1 the new ciphertext has degree 1 and
decrypts to `X^(N/2) (c0 + c1 s)`: components from 2 on are lost. -/
theorem C79_multByiNew_value (h0 : CtIs n ev.ringQ level A deg (H ct0) x) (hd : 1 ≤ deg) (hn : ct0 ≠ new)
    (hl : level < ev.ringQ.subs.length) :
    ∃ H', ev.multByiNew H ct0 new = some H' ∧ (∀ b ≠ new, H' b = H b) ∧ (H' new).scale = (H ct0).scale ∧
      ∀ s, CtEnc n ev.ringQ level ev.ringQ.qs 1 (H' new) s
        (fun u => gauss n (ev.ringQ.qs u) 0 1 * (x 0 u + x 1 u * s u)) := by
  have h4 := hr.four_le
  set G := H.set new (newCiphertext ev.ringQ.n 1 (H ct0).level (H ct0).scale) with hG
  have f1 : G ct0 = H ct0 := Heap.set_ne _ _ _ _ hn
  have f3 : CtShape 1 level (G new) := by
    rw [hG, Heap.set_self, h0.shape.level]; exact newCiphertext_shape _ _ _ _
  obtain ⟨H', a1, a2, a3, a4⟩ := mulPairOut_low (H := G) (ct0 := ct0) (out := new) hr (by rw [f1]; exact h0) f3 hd le_rfl hl
    (a := 0) (b := 1) fun u hu => (gaussPair_i (hr.subAt (show u < ev.ringQ.subs.length by omega)) (by omega)).1
  rw [f1] at a3
  unfold Evaluator.multByiNew
  rw [if_neg (by rw [hr.type]; decide)]
  refine ⟨H', a1, fun b hb => (a2 b hb).trans (Heap.set_ne _ _ _ _ hb), a3, fun s => ⟨_, a4, fun u _ => ?_⟩⟩
  simp only [sum_range_succ, sum_range_zero, pow_zero, pow_one]
  ring

theorem C79_divByiNew_value (h0 : CtIs n ev.ringQ level A deg (H ct0) x) (hd : 1 ≤ deg) (hn : ct0 ≠ new)
    (hl : level < ev.ringQ.subs.length) :
    ∃ H', ev.divByiNew H ct0 new = some H' ∧ (∀ b ≠ new, H' b = H b) ∧ (H' new).scale = (H ct0).scale ∧
      ∀ s, CtEnc n ev.ringQ level ev.ringQ.qs 1 (H' new) s
        (fun u => gauss n (ev.ringQ.qs u) 0 (-1) * (x 0 u + x 1 u * s u)) := by
  have h4 := hr.four_le
  set G := H.set new (newCiphertext ev.ringQ.n 1 (H ct0).level (H ct0).scale) with hG
  have f1 : G ct0 = H ct0 := Heap.set_ne _ _ _ _ hn
  have f3 : CtShape 1 level (G new) := by
    rw [hG, Heap.set_self, h0.shape.level]; exact newCiphertext_shape _ _ _ _
  obtain ⟨H', a1, a2, a3, a4⟩ := mulPairOut_low (H := G) (ct0 := ct0) (out := new) hr (by rw [f1]; exact h0) f3 hd le_rfl hl
    (a := 0) (b := -1) fun u hu => (gaussPair_i (hr.subAt (show u < ev.ringQ.subs.length by omega)) (by omega)).2
  rw [f1] at a3
  unfold Evaluator.divByiNew
  rw [if_neg (by rw [hr.type]; decide)]
  refine ⟨H', a1, fun b hb => (a2 b hb).trans (Heap.set_ne _ _ _ _ hb), a3, fun s => ⟨_, a4, fun u _ => ?_⟩⟩
  simp only [sum_range_succ, sum_range_zero, pow_zero, pow_one]
  ring

/-- **C79 (partial: `MultByiNew`, `DivByiNew` of a ciphertext of degree 1).** -/
theorem C79_byiNew_partial (h0 : CtEnc n ev.ringQ level A 1 (H ct0) s m) (hn : ct0 ≠ new)
    (hl : level < ev.ringQ.subs.length) :
    (∃ H', ev.multByiNew H ct0 new = some H' ∧ (∀ b ≠ new, H' b = H b) ∧ (H' new).scale = (H ct0).scale ∧
      CtEnc n ev.ringQ level ev.ringQ.qs 1 (H' new) s (fun u => gauss n (ev.ringQ.qs u) 0 1 * m u)) ∧
    ∃ H', ev.divByiNew H ct0 new = some H' ∧ (∀ b ≠ new, H' b = H b) ∧ (H' new).scale = (H ct0).scale ∧
      CtEnc n ev.ringQ level ev.ringQ.qs 1 (H' new) s (fun u => gauss n (ev.ringQ.qs u) 0 (-1) * m u) := by
  obtain ⟨x, hx, ex⟩ := h0
  have em : ∀ u ≤ level, x 0 u + x 1 u * s u = m u := fun u hu => by
    rw [← ex u hu]
    simp only [sum_range_succ, sum_range_zero, pow_zero, pow_one]
    ring
  obtain ⟨H1, a1, a2, a3, a4⟩ := C79_multByiNew_value hr hx le_rfl hn hl
  obtain ⟨H2, b1, b2, b3, b4⟩ := C79_divByiNew_value hr hx le_rfl hn hl
  refine ⟨⟨H1, a1, a2, a3, ?_⟩, ⟨H2, b1, b2, b3, ?_⟩⟩
  · obtain ⟨y, hy, ey⟩ := a4 s
    exact ⟨y, hy, fun u hu => by rw [ey u hu]; dsimp only; rw [em u hu]⟩
  · obtain ⟨y, hy, ey⟩ := b4 s
    exact ⟨y, hy, fun u hu => by rw [ey u hu]; dsimp only; rw [em u hu]⟩

/-- **C79 (violated).** `MultByiNew` and `DivByiNew` of a ciphertext of degree 0 panic. -/
theorem C79_byiNew_degree0 (h0 : CtShape 0 level (H ct0)) (hn : ct0 ≠ new) :
    ev.multByiNew H ct0 new = none ∧ ev.divByiNew H ct0 new = none := by
  have ht : ¬ ev.ringQ.type = .conjugateInvariant := by rw [hr.type]; decide
  have key : ∀ c, ev.mulPairOut (H.set new (newCiphertext ev.ringQ.n 1 (H ct0).level (H ct0).scale)) ct0 c new = none := by
    intro c
    unfold Evaluator.mulPairOut
    dsimp only
    rw [if_neg ht, Heap.set_ne _ _ _ _ hn, h0.len, Heap.set_self, (newCiphertext_shape _ _ _ _).len, if_pos (by omega)]
  unfold Evaluator.multByiNew Evaluator.divByiNew
  rw [if_neg ht, if_neg ht]
  exact ⟨key _, key _⟩

/-! ### `MulByPow2` -/

/-- **C79 (`MulByPow2` in place).** -/
theorem C79_mulByPow2_partial (h0 : CtEnc n ev.ringQ level A deg (H ct0) s m) (hl : level < ev.ringQ.subs.length) {k : ℕ}
    (hk : k < 64) :
    ∃ H', ev.mulByPow2 H ct0 k ct0 = some H' ∧ (∀ b ≠ ct0, H' b = H b) ∧ (H' ct0).scale = (H ct0).scale ∧
      CtEnc n ev.ringQ level ev.ringQ.qs deg (H' ct0) s (fun u => 2 ^ k * m u) := by
  obtain ⟨x, hx, ex⟩ := h0
  have hx' := hx.setScale ct0 (H ct0).scale
  have L := overComponents_is0 (out := ct0) (F := fun i h => if ct0 = ct0 then ev.ringQ.mulByPow2LvlInPlace level k (h.rows ct0 i)
      else ev.ringQ.mulByPow2LvlDistinct level k (h.rows ct0 i) (h.rows ct0 i))
      (fun u h h' hh => by rw [hh]) (deg + 1) (H.setScale ct0 (H ct0).scale)
  unfold Evaluator.mulByPow2
  dsimp only
  rw [if_neg (lt_irrefl _), hx.shape.level, min_self, hx.shape.len]
  refine ⟨_, rfl, fun b hb => (L.frame b hb).trans (Heap.setScale_ne _ _ _ _ hb), by rw [L.scale, Heap.setScale_self],
    _, L.ctIs (x := fun i u => 2 ^ k * x i u) hx'.shape fun i hi => ?_, fun u hu => ?_⟩
  · rw [if_pos rfl]
    refine (C12_mulByPow2_inPlace_partial (hr.arithLvl hl) ((hx'.elt i hi).polyIs hr) k hk).eltWritten hr fun u hu => ?_
    rw [← (hx'.elt i hi).eltOf hr hu, Ring.eltOf_congr (w := fun j => 2 ^ k * zval _ (((H.setScale ct0 (H ct0).scale) ct0).rows i |>.row u) j)
      (fun j _ => mul_comm _ _), eltOf_smul hr hl hu, map_pow, map_ofNat]
  · dsimp only
    rw [← ex u hu, mul_sum]
    exact sum_congr rfl fun i _ => by ring

/-- **C79 (violated: `MulByPow2New`, what it does).** The factor `2^(k-64)` instead of `2^k`: `2^64` times the result is
`2^k` times the operand. -/
theorem C79_mulByPow2New_value (h0 : CtEnc n ev.ringQ level ev.ringQ.qs deg (H ct0) s m) (hn : ct0 ≠ new)
    (hl : level < ev.ringQ.subs.length) {k : ℕ} (hk : k < 64) :
    ∃ (H' : Heap) (m' : ∀ u, Rq (2 ^ n) (ev.ringQ.qs u)), ev.mulByPow2New H ct0 k new = some H' ∧
      (∀ b ≠ new, H' b = H b) ∧ (H' new).scale = (H ct0).scale ∧
      CtEnc n ev.ringQ level ev.ringQ.qs deg (H' new) s m' ∧ ∀ u ≤ level, 2 ^ 64 * m' u = 2 ^ k * m u := by
  obtain ⟨x, hx, ex⟩ := h0
  obtain ⟨f1, f2, f3⟩ := alloc_spec (ev := ev) hx.shape hn
  set G := ev.alloc H ct0 new with hG
  have hx' : CtIs n ev.ringQ level ev.ringQ.qs deg ((G.setScale new (H ct0).scale) ct0) x := by
    rw [Heap.setScale_ne _ _ _ _ hn, f1]; exact hx
  have ho' : CtShape deg level ((G.setScale new (H ct0).scale) new) := f3.setScale new _
  have L := overComponents_is0 (out := new) (F := fun i h => if ct0 = new then ev.ringQ.mulByPow2LvlInPlace level k (h.rows new i)
      else ev.ringQ.mulByPow2LvlDistinct level k (h.rows ct0 i) (h.rows new i))
      (fun u h h' hh => by rw [hh, hh]) (deg + 1) (G.setScale new (H ct0).scale)
  unfold Evaluator.mulByPow2New Evaluator.mulByPow2
  dsimp only
  rw [← hG, f1, hx.shape.len, f3.len, if_neg (lt_irrefl _), hx.shape.level, f3.level, min_self]
  refine ⟨_, _, rfl, fun b hb => (L.frame b hb).trans ((Heap.setScale_ne _ _ _ _ hb).trans (f2 b hb)),
    by rw [L.scale, Heap.setScale_self],
    ⟨_, L.ctIs (x := fun i u => AdjoinRoot.of _ (rinv _) * (2 ^ k * x i u)) ho' fun i hi => ?_, fun u hu => rfl⟩,
    fun u hu => ?_⟩
  · rw [if_neg hn]
    refine (C12_mulByPow2_distinct_value (hr.arithLvl hl) ((hx'.elt i hi).polyIs hr) k hk
      (by have := ho'.size i hi; show level < (((G.setScale new (H ct0).scale) new).rows i).length; omega)).eltWritten hr
      fun u hu => ?_
    rw [← (hx'.elt i hi).eltOf hr hu, Ring.eltOf_congr (w := fun j => rinv _ * (2 ^ k *
        zval _ (((G.setScale new (H ct0).scale) ct0).rows i |>.row u) j))
      (fun j _ => by show _ = _; rw [mul_comm (rinv _), mul_comm (2 ^ k)]), eltOf_smul hr hl hu, eltOf_smul hr hl hu, map_pow, map_ofNat]
  · rw [← ex u hu, mul_sum, mul_sum]
    refine sum_congr rfl fun i _ => ?_
    have h1 := two64_unit hr hl hu
    linear_combination (2 ^ k * x i u * s u ^ i) * h1

end

/-- **C79 (violated: `MultByiNew`).** `s² = 1` with `s = 1` as the ciphertext `(0, 0, 1)` of degree 2: the result decrypts
to 0 and not to `X^8`. -/
theorem C79_multByiNew_violated : ∃ (ev : Evaluator) (H H' : Heap), ev.ringQ.Valid 4 ∧
    CtEnc 4 ev.ringQ 2 ev.ringQ.qs 2 (H 0) (fun _ => 1) (fun _ => 1) ∧ ev.multByiNew H 0 1 = some H' ∧
    CtEnc 4 ev.ringQ 2 ev.ringQ.qs 1 (H' 1) (fun _ => 1) (fun _ => 0) ∧
    ∀ A d, d ≤ 2 → ¬ CtEnc 4 ev.ringQ 2 A d (H' 1) (fun _ => 1) (fun u => gauss 4 (ev.ringQ.qs u) 0 1 * 1) := by
  obtain ⟨ev, hQ, -, l3, q0, q1, q2⟩ := exampleEv
  have c0 := constCt_is hQ (by omega) 1 (cs := [0, 0, 1]) (by simp) (fun c hc u hu => by
    have hc' : c.toNat < 97 := by revert c; decide
    interval_cases u <;> omega)
  obtain ⟨H', a1, -, -, a4⟩ := C79_multByiNew_value (H := fun _ => constCt 1 [0, 0, 1]) (ct0 := 0) (new := 1) hQ c0 (by decide)
    (by decide) (by omega)
  have res : CtEnc 4 ev.ringQ 2 ev.ringQ.qs 1 (H' 1) (fun _ => 1) (fun _ => 0) := by
    obtain ⟨y, hy, ey⟩ := a4 fun _ => 1
    exact ⟨y, hy, fun u hu => by rw [ey u hu]; simp⟩
  refine ⟨ev, fun _ => constCt 1 [0, 0, 1], H', hQ, ⟨_, c0, fun u _ => by simp [sum_range_succ]⟩, a1, res, fun A d hd hA => ?_⟩
  have e : gauss 4 (ev.ringQ.qs 0) 0 1 * 1 = 0 := by
    obtain rfl : d = 1 := by
      have h1 := hA.choose_spec.1.shape.len
      have h2 := res.choose_spec.1.shape.len
      omega
    exact CtEnc.unique hA res (u := 0) (by omega)
  have e2 : gauss 4 (ev.ringQ.qs 0) 0 (-1) * (gauss 4 (ev.ringQ.qs 0) 0 1 * 1) = 1 := by
    rw [mul_one, gauss_mul _ _ (by omega)]
    simp [gauss_one]
  rw [e, mul_zero] at e2
  have := natCast_rq_inj hQ (show 0 < ev.ringQ.subs.length by omega) (a := 0) (b := 1) (by push_cast; exact e2)
  rw [q0] at this
  revert this
  decide

/-- **C79 (violated: `MulByPow2New`).** The constant 1 times `2^0` is not 1. -/
theorem C79_mulByPow2New_violated : ∃ (ev : Evaluator) (H H' : Heap), ev.ringQ.Valid 4 ∧
    (∀ s, CtEnc 4 ev.ringQ 2 ev.ringQ.qs 1 (H 0) s (fun _ => (1 : ℕ))) ∧ ev.mulByPow2New H 0 0 1 = some H' ∧
    ∀ s A, ¬ CtEnc 4 ev.ringQ 2 A 1 (H' 1) s (fun _ => (1 : ℕ)) := by
  obtain ⟨ev, hQ, -, l3, q0, q1, q2⟩ := exampleEv
  have c0 := fun s => exampleConst hQ l3 q0 q1 q2 2 1 (by decide) s
  have key := fun s => C79_mulByPow2New_value (H := fun _ => constCt 2 [1, 0]) (ct0 := 0) (new := 1) hQ (c0 s) (by decide)
    (by omega) (k := 0) (by decide)
  obtain ⟨H', -, a1, -⟩ := key 0
  refine ⟨ev, fun _ => constCt 2 [1, 0], H', hQ, c0, a1, fun s A hA => ?_⟩
  obtain ⟨H'', m', b1, -, -, b4, b5⟩ := key s
  obtain rfl : H' = H'' := Option.some.inj (a1.symm.trans b1)
  have e := CtEnc.unique hA b4 (u := 0) (by omega)
  have e2 := b5 0 (by omega)
  rw [← e] at e2
  have := natCast_rq_inj hQ (show 0 < ev.ringQ.subs.length by omega) (a := 2 ^ 64) (b := 1) (by
    rw [show UInt64.toNat 1 = 1 from rfl] at e2
    push_cast at e2 ⊢
    linear_combination e2)
  rw [q0] at this
  revert this
  decide +kernel

/-- The hypotheses are satisfiable: two constants of degree 1 at level 2. -/
example : ∃ (ev : Evaluator) (H : Heap), ev.ringQ.Valid 4 ∧
    (∃ H', ev.negNew H 0 1 = some H' ∧ CtEnc 4 ev.ringQ 2 (fun u => ev.ringQ.qs u + 1) 1 (H' 1) 0 (fun _ => -((4 : ℕ)))) ∧
    (∃ H', ev.scaleUpNew H 0 (3 : ℕ) 1 = some H' ∧ (H' 1).scale = 6 ∧
      CtEnc 4 ev.ringQ 2 ev.ringQ.qs 1 (H' 1) 0 (fun u => ((3 : ℕ) : Rq (2 ^ 4) (ev.ringQ.qs u)) * ((4 : ℕ) : Rq (2 ^ 4) (ev.ringQ.qs u)))) ∧
    CtEnc 4 ev.ringQ 1 ev.ringQ.qs 1 (Evaluator.dropLevelNew H 0 1 1 1) 0 (fun _ => (4 : ℕ)) := by
  obtain ⟨ev, hQ, -, l3, q0, q1, q2⟩ := exampleEv
  have c0 := exampleConst hQ l3 q0 q1 q2 2 4 (by decide) 0
  obtain ⟨H1, a1, -, -, a4⟩ := C79_negNew (H := fun _ => constCt 2 [4, 0]) (ct0 := 0) (new := 1) hQ (c0.mono fun u _ => Nat.le_succ _)
    (by decide) (by omega)
  obtain ⟨H2, b1, -, b3, b4⟩ := C79_scaleUpNew_partial (H := fun _ => constCt 2 [4, 0]) (ct0 := 0) (new := 1) hQ c0
    (by decide) (by omega) (by show f64 2 = 2; decide +kernel) (k := 3) (by norm_num)
  exact ⟨ev, _, hQ, ⟨H1, a1, a4⟩, ⟨H2, b1, b3.trans (by show f64 (2 * (3 : ℕ)) = 6; decide +kernel), b4⟩,
    (C79_dropLevelNew (H := fun _ => constCt 2 [4, 0]) (ct0 := 0) (new := 1) c0 (k := 1) (by decide)).2.2⟩

end FastKsw.Props
