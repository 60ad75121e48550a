import Verif.Lemmas.FusedMul
import Verif.Lemmas.ConstCt

/-!
# C77: fused products by constants

`MultByConstAndAdd` and `MultByGaussianIntegerAndAdd` add to the receiver the operand times a constant.
-/

namespace FastKsw.Props

open FastKsw Finset

section
variable {n : ℕ} {ev : Evaluator} (hr : ev.ringQ.Valid n) {A : ℕ → ℕ} {H : Heap} {ct0 out : Ref}
  {d0 d1 l0 lo : ℕ} {x y : ℕ → ∀ u, Rq (2 ^ n) (ev.ringQ.qs u)}

theorem CtIs.enc_mulAdd {n : ℕ} {r : Ring} {level l0 l1 d0 d1 : ℕ} {B : ℕ → ℕ} {c' : Ct}
    {x y : ℕ → ∀ u, Rq (2 ^ n) (r.qs u)} {g k s m0 m1 : ∀ u, Rq (2 ^ n) (r.qs u)}
    (h : CtIs n r level B d1 c' (fun i u => k u * y i u + if i ≤ d0 then g u * x i u else 0)) (hd : d0 ≤ d1) (hl0 : level ≤ l0)
    (hl1 : level ≤ l1) (hm0 : ∀ u ≤ l0, ∑ i ∈ range (d0 + 1), x i u * s u ^ i = m0 u)
    (hm1 : ∀ u ≤ l1, ∑ i ∈ range (d1 + 1), y i u * s u ^ i = m1 u) :
    CtEnc n r level B d1 c' s (fun u => k u * m1 u + g u * m0 u) :=
  ⟨_, h, fun u hu => by
    dsimp only
    rw [← hm0 u (by omega), ← hm1 u (by omega), mul_sum, mul_sum]
    have e : ∑ i ∈ range (d0 + 1), g u * (x i u * s u ^ i) =
        ∑ i ∈ range (d1 + 1), (if i ≤ d0 then g u * x i u else 0) * s u ^ i := by
      rw [← sum_subset (range_mono (show d0 + 1 ≤ d1 + 1 by omega))]
      · refine sum_congr rfl fun i hi => ?_
        rw [if_pos (by have := mem_range.1 hi; omega)]
        ring
      · intro i _ hi
        rw [mem_range] at hi
        rw [if_neg (by omega), zero_mul]
    rw [e, ← sum_add_distrib]
    exact sum_congr rfl fun i _ => by ring⟩

include hr

/-- **C77 (`MultByGaussianIntegerAndAdd`).** The receiver has at least the degree of the operand, a level not above its,
and may be the operand.  The operand may be unreduced, the receiver's words are at most the modulus.  If the operand
decrypts to `m0` and the receiver to `m1`, it decrypts to `m1 + (a + b X^(N/2)) m0` afterwards; the scale of the receiver
is untouched. -/
theorem C77_gaussianAndAdd {s m0 m1 : ∀ u, Rq (2 ^ n) (ev.ringQ.qs u)} (h0 : CtEnc n ev.ringQ l0 A d0 (H ct0) s m0)
    (ho : CtEnc n ev.ringQ lo (fun u => ev.ringQ.qs u + 1) d1 (H out) s m1)
    (hd : d0 ≤ d1) (hlo : lo ≤ l0) (hl : lo < ev.ringQ.subs.length) (re im : GInt) :
    ∃ H', ev.multByGaussianIntegerAndAdd H ct0 re im out = some H' ∧ (∀ b ≠ out, H' b = H b) ∧
      (H' out).scale = (H out).scale ∧
      CtEnc n ev.ringQ lo (fun u => ev.ringQ.qs u + 1) d1 (H' out) s
        (fun u => m1 u + gauss n (ev.ringQ.qs u) re.val im.val * m0 u) := by
  obtain ⟨x, hx, hm0⟩ := h0
  obtain ⟨y, hy, hm1⟩ := ho
  have em : min (H ct0).level (H out).level = lo := by rw [hx.shape.level, hy.shape.level]; omega
  unfold Evaluator.multByGaussianIntegerAndAdd
  rw [em]
  obtain ⟨H', a1, a2, a3, a4⟩ := mulAddPair_is hr hx hy hd hlo rfl hl
    (c := gaussPair ev.ringQ re im) fun u hu => gaussPair_spec hr (by omega) re im
  refine ⟨H', a1, a2, a3, ?_⟩
  have := CtIs.enc_mulAdd (k := fun _ => 1) (g := fun u => gauss n (ev.ringQ.qs u) re.val im.val)
    (y := y) (x := x) (by simpa only [one_mul] using a4) hd hlo le_rfl hm0 hm1
  simpa only [one_mul] using this

/-- the receiver is multiplied by the integer part of the ratio, at least 1 -/
theorem raise_spec (ho : CtIs n ev.ringQ lo (fun u => ev.ringQ.qs u + 1) d1 (H out) y) (hl : lo < ev.ringQ.subs.length)
    {t : ℚ} (hb : f64Div t (H out).scale < 2 ^ 51) :
    ∃ H', ev.raise H out t = some H' ∧ (∀ b ≠ out, H' b = H b) ∧
      CtIs n ev.ringQ lo (fun u => ev.ringQ.qs u + 1) d1 (H' out)
        (fun i u => ((max 1 ⌊f64Div t (H out).scale⌋ : ℤ) : Rq (2 ^ n) _) * y i u) := by
  have hk : ⌊f64Div t (H out).scale⌋ < 2 ^ 51 := by
    rw [Int.floor_lt]
    exact_mod_cast hb
  unfold Evaluator.raise
  dsimp only
  generalize ⌊f64Div t (H out).scale⌋ = k at hk ⊢
  split
  · next h1 =>
    obtain ⟨H', sc, a1, a2, -⟩ := C53_multByConst hr ho ho.shape le_rfl hl (.float k)
    obtain ⟨H'', b1, -, b3⟩ := C53_multByConst_exact (out := out) hr ho ho.shape le_rfl hl (a := k) (b := 0)
      (by rw [abs_lt]; omega) (by norm_num) (c := .float k) (by simp [Constant.parts])
    obtain rfl : H' = H'' := Option.some.inj (a1.symm.trans b1)
    refine ⟨H', a1, a2, ?_⟩
    have e : max 1 k = k := max_eq_right (by omega)
    rw [e]
    exact ⟨b3.shape, fun i hi => ((b3.elt i hi).mono fun u _ => Nat.le_succ _).congr fun u _ => by rw [gauss_int]⟩
  · next h1 =>
    refine ⟨H, rfl, fun _ _ => rfl, ho.shape, fun i hi => (ho.elt i hi).congr fun u _ => ?_⟩
    have e : max 1 k = 1 := max_eq_left (by omega)
    rw [e]
    simp

/-- **C77 (partial: `MultByConstAndAdd`, receiver different from the operand).** `sc0` is the scale of the constant, `T`
the scale of the product.  The result decrypts to `K·m1 + (fixed-point constant at scale sc)·m0`.

* Scales equal: `K = 1`, `sc = sc0`.
* The receiver has the larger scale: `K = 1` and the constant is encoded at the ratio of the scales.
* The receiver has the smaller scale: `K` is the *integer part* of the ratio, although the new scale is `T`. -/
theorem C77_constAndAdd_partial {s m0 m1 : ∀ u, Rq (2 ^ n) (ev.ringQ.qs u)} (hne : ct0 ≠ out)
    (h0 : CtEnc n ev.ringQ l0 A d0 (H ct0) s m0)
    (ho : CtEnc n ev.ringQ lo (fun u => ev.ringQ.qs u + 1) d1 (H out) s m1)
    (hd : d0 ≤ d1) (hl : min l0 lo < ev.ringQ.subs.length) (c : Constant) (hs0 : 0 < (H ct0).scale) (hs1 : 0 < (H out).scale)
    (hf : f64 (H ct0).scale = (H ct0).scale)
    (hb : f64Div (f64 ((H ct0).scale * (getConstAndScale ev.ringQ (min l0 lo) c).2.2)) (H out).scale < 2 ^ 51) :
    ∃ (H' : Heap) (sc0 sc S : ℚ) (K : ℤ), ev.multByConstAndAdd H ct0 c out = some H' ∧ (∀ b ≠ out, H' b = H b) ∧
      (H' out).scale = S ∧
      CtEnc n ev.ringQ (min l0 lo) (fun u => ev.ringQ.qs u + 1) d1 (H' out) s
        (fun u => (K : Rq (2 ^ n) _) * m1 u +
          gauss n (ev.ringQ.qs u) (fixedPoint c.parts.1 sc) (fixedPoint c.parts.2 sc) * m0 u) ∧
      sc0 = (getConstAndScale ev.ringQ (min l0 lo) c).2.2 ∧ (sc0 = 1 ∨ sc0 = f64OfNat (ev.ringQ.qs (min l0 lo))) ∧
      ((H out).scale = f64 ((H ct0).scale * sc0) → K = 1 ∧ sc = sc0 ∧ S = (H out).scale) ∧
      ((H out).scale > f64 ((H ct0).scale * sc0) →
        K = 1 ∧ sc = f64Div (H out).scale (H ct0).scale ∧ S = (H out).scale) ∧
      ((H out).scale < f64 ((H ct0).scale * sc0) →
        K = max 1 ⌊f64Div (f64 ((H ct0).scale * sc0)) (H out).scale⌋ ∧ sc = sc0 ∧
          S = f64 ((H ct0).scale * sc0)) := by
  obtain ⟨x, hx, hm0⟩ := h0
  obtain ⟨y, hy, hm1⟩ := ho
  set level := min l0 lo with hlevel
  obtain ⟨sc0, e, hsc, -⟩ := getConstAndScale_spec hr level c
  rw [e] at hb
  dsimp only at hb
  have s0 : 0 ≤ sc0 := by
    rcases hsc with rfl | rfl
    · norm_num
    · exact f64_nonneg (by positivity)
  have em : min (H ct0).level (H out).level = level := by rw [hx.shape.level, hy.shape.level]
  -- the receiver after the drop
  set H1 : Heap := H.set out ((H out).dropTo level) with hH1
  have x1 : H1 ct0 = H ct0 := Heap.set_ne _ _ _ _ hne
  have fr1 : ∀ b ≠ out, H1 b = H b := fun b hb => Heap.set_ne _ _ _ _ hb
  have y1 : CtIs n ev.ringQ level (fun u => ev.ringQ.qs u + 1) d1 (H1 out) y := by
    rw [hH1, Heap.set_self]; exact hy.dropTo (min_le_right _ _)
  have sc1 : (H1 out).scale = (H out).scale := by
    rw [hH1, Heap.set_self]; unfold Ct.dropTo Ct.dropLevel; split <;> rfl
  -- the loops
  have run : ∀ (G : Heap) (K : ℤ) (scale : ℚ), 0 ≤ scale → (∀ b ≠ out, G b = H b) →
      CtIs n ev.ringQ level (fun u => ev.ringQ.qs u + 1) d1 (G out) (fun i u => (K : Rq (2 ^ n) _) * y i u) →
      ∃ H', ev.mulAddPair G ct0 level (constPairMont ev.ringQ c.parts.1 c.parts.2 scale) out = some H' ∧
        (∀ b ≠ out, H' b = H b) ∧ (H' out).scale = (G out).scale ∧
        CtEnc n ev.ringQ level (fun u => ev.ringQ.qs u + 1) d1 (H' out) s
          (fun u => (K : Rq (2 ^ n) _) * m1 u +
            gauss n (ev.ringQ.qs u) (fixedPoint c.parts.1 scale) (fixedPoint c.parts.2 scale) * m0 u) := by
    intro G K scale hsc hG hc
    obtain ⟨H', a1, a2, a3, a4⟩ := mulAddPair_is (H := G) (ct0 := ct0) (x := x) hr (by rw [hG _ hne]; exact hx) hc hd
      (min_le_left _ _) rfl hl (c := constPairMont ev.ringQ c.parts.1 c.parts.2 scale)
      fun u hu => constPairMont_spec hr (by omega) hsc
    exact ⟨H', a1, fun b hb => (a2 b hb).trans (hG b hb), a3,
      CtIs.enc_mulAdd (k := fun u => (K : Rq (2 ^ n) _)) (y := y) (x := x) a4 hd (min_le_left _ _) (min_le_right _ _) hm0 hm1⟩
  have yone : CtIs n ev.ringQ level (fun u => ev.ringQ.qs u + 1) d1 (H1 out)
      (fun i u => ((1 : ℤ) : Rq (2 ^ n) _) * y i u) := by
    simpa using y1
  unfold Evaluator.multByConstAndAdd
  dsimp only
  rw [em, ← hH1, e]
  dsimp only
  rw [x1, sc1]
  -- the three cases
  set T := f64 ((H ct0).scale * sc0) with hT
  have hcases : ∀ (f : Option Heap), f = (if (H out).scale < T then (ev.raise H1 out T).bind fun h =>
        ev.mulAddPair (h.setScale out T) ct0 level (constPairMont ev.ringQ c.parts.1 c.parts.2 sc0) out
      else if (H out).scale > T then
        ev.mulAddPair H1 ct0 level (constPairMont ev.ringQ c.parts.1 c.parts.2 (f64Div (H out).scale (H ct0).scale)) out
      else ev.mulAddPair H1 ct0 level (constPairMont ev.ringQ c.parts.1 c.parts.2 sc0) out) →
      ∃ (H' : Heap) (sc0' sc S : ℚ) (K : ℤ), f = some H' ∧ (∀ b ≠ out, H' b = H b) ∧
      (H' out).scale = S ∧
      CtEnc n ev.ringQ level (fun u => ev.ringQ.qs u + 1) d1 (H' out) s
        (fun u => (K : Rq (2 ^ n) _) * m1 u +
          gauss n (ev.ringQ.qs u) (fixedPoint c.parts.1 sc) (fixedPoint c.parts.2 sc) * m0 u) ∧
      sc0' = sc0 ∧ (sc0' = 1 ∨ sc0' = f64OfNat (ev.ringQ.qs level)) ∧
      ((H out).scale = f64 ((H ct0).scale * sc0') → K = 1 ∧ sc = sc0' ∧ S = (H out).scale) ∧
      ((H out).scale > f64 ((H ct0).scale * sc0') →
        K = 1 ∧ sc = f64Div (H out).scale (H ct0).scale ∧ S = (H out).scale) ∧
      ((H out).scale < f64 ((H ct0).scale * sc0') →
        K = max 1 ⌊f64Div (f64 ((H ct0).scale * sc0')) (H out).scale⌋ ∧ sc = sc0' ∧
          S = f64 ((H ct0).scale * sc0')) := by
    rintro f rfl
    rcases lt_trichotomy (H out).scale T with hlt | heq | hgt
    · rw [if_pos hlt]
      obtain ⟨G, a1, a2, a3⟩ := raise_spec (H := H1) (out := out) hr y1 hl (t := T) (by rw [sc1]; exact hb)
      rw [sc1] at a3
      obtain ⟨H', b1, b2, b3, b4⟩ := run (G.setScale out T) _ sc0 s0
        (fun b hb => (Heap.setScale_ne _ _ _ _ hb).trans ((a2 b hb).trans (fr1 b hb))) (a3.setScale out T)
      rw [a1, Option.bind_some]
      refine ⟨H', sc0, sc0, T, _, b1, b2, ?_, b4, rfl, hsc, ?_, ?_, fun _ => ⟨rfl, rfl, rfl⟩⟩
      · rw [b3, Heap.setScale_self]
      · intro h; exact absurd h hlt.ne
      · intro h; exact absurd h (not_lt.2 hlt.le)
    · rw [if_neg heq.not_lt, if_neg heq.not_gt]
      obtain ⟨H', b1, b2, b3, b4⟩ := run H1 1 sc0 s0 fr1 yone
      refine ⟨H', sc0, sc0, (H out).scale, 1, b1, b2, b3.trans sc1, b4, rfl, hsc, fun _ => ⟨rfl, rfl, rfl⟩, ?_, ?_⟩
      · intro h; exact absurd heq h.ne'
      · intro h; exact absurd heq h.ne
    · rw [if_neg (not_lt.2 hgt.le), if_pos hgt]
      obtain ⟨H', b1, b2, b3, b4⟩ := run H1 1 (f64Div (H out).scale (H ct0).scale)
        (f64_nonneg (div_nonneg hs1.le hs0.le)) fr1 yone
      refine ⟨H', sc0, _, (H out).scale, 1, b1, b2, b3.trans sc1, b4, rfl, hsc, ?_, fun _ => ⟨rfl, rfl, rfl⟩, ?_⟩
      · intro h; exact absurd h hgt.ne'
      · intro h; exact absurd h (not_lt.2 hgt.le)
  apply hcases
  have same : ∀ G : Heap, (∀ b ≠ out, G b = H b) → G ct0 = H ct0 := fun G hG => hG _ hne
  have hraise : ∀ t, ∀ g g' : Heap → Option Heap, (∀ G : Heap, G ct0 = H ct0 → g G = g' G) →
      f64Div t (H1 out).scale < 2 ^ 51 → (ev.raise H1 out t).bind g = (ev.raise H1 out t).bind g' := by
    intro t g g' hg ht
    obtain ⟨G, a1, a2, -⟩ := raise_spec (H := H1) (out := out) hr y1 hl (t := t) ht
    rw [a1, Option.bind_some, Option.bind_some]
    exact hg G ((a2 _ hne).trans x1)
  by_cases h1 : sc0 = 1
  · have hT1 : T = (H ct0).scale := by rw [hT, h1, mul_one, hf]
    rw [if_neg (not_not.2 h1), hT1]
    by_cases hlt : (H out).scale < (H ct0).scale
    · rw [if_neg (not_lt.2 hlt.le), if_pos hlt, if_pos hlt]
      refine hraise _ _ _ (fun G hG => by rw [hG]) ?_
      rw [sc1, ← hT1]; exact hb
    · by_cases hgt : (H out).scale > (H ct0).scale
      · rw [if_pos hgt, if_neg hlt, if_pos hgt]
      · rw [if_neg hgt, if_neg hlt, if_neg hlt, if_neg hgt]
  · rw [if_pos h1]
    by_cases hlt : (H out).scale < T
    · rw [if_pos hlt, if_pos hlt]
      refine hraise _ _ _ (fun G hG => by rw [hG, mul_comm sc0]) ?_
      rw [sc1]; exact hb
    · rw [if_neg hlt, if_neg hlt]

/-- **C77 (partial: the scale of the product is an integer multiple of the receiver's).** The receiver and its scale are
multiplied by the same integer `k`, and the constant is encoded at its own scale: nothing is lost. -/
theorem C77_constAndAdd_exact_partial {s m0 m1 : ∀ u, Rq (2 ^ n) (ev.ringQ.qs u)} (hne : ct0 ≠ out)
    (h0 : CtEnc n ev.ringQ l0 A d0 (H ct0) s m0)
    (ho : CtEnc n ev.ringQ lo (fun u => ev.ringQ.qs u + 1) d1 (H out) s m1)
    (hd : d0 ≤ d1) (hl : min l0 lo < ev.ringQ.subs.length) (c : Constant) (hs0 : 0 < (H ct0).scale) (hs1 : 0 < (H out).scale)
    (hf : f64 (H ct0).scale = (H ct0).scale) {k : ℕ} (hk0 : 0 < k) (hk : k < 2 ^ 51)
    (hT : f64 ((H ct0).scale * (getConstAndScale ev.ringQ (min l0 lo) c).2.2) = k * (H out).scale) :
    ∃ H', ev.multByConstAndAdd H ct0 c out = some H' ∧ (∀ b ≠ out, H' b = H b) ∧
      (H' out).scale = k * (H out).scale ∧
      CtEnc n ev.ringQ (min l0 lo) (fun u => ev.ringQ.qs u + 1) d1 (H' out) s
        (fun u => (k : Rq (2 ^ n) _) * m1 u + gauss n (ev.ringQ.qs u)
          (fixedPoint c.parts.1 (getConstAndScale ev.ringQ (min l0 lo) c).2.2)
          (fixedPoint c.parts.2 (getConstAndScale ev.ringQ (min l0 lo) c).2.2) * m0 u) := by
  have hdiv : f64Div (f64 ((H ct0).scale * (getConstAndScale ev.ringQ (min l0 lo) c).2.2)) (H out).scale = k := by
    rw [hT, f64Div, mul_div_cancel_right₀ _ hs1.ne']
    have := f64_nat_mul (m := k) (by omega) 0
    simpa using this
  obtain ⟨H', sc0, sc, S, K, a1, a2, a3, a4, a5, -, a6, -, a7⟩ := C77_constAndAdd_partial hr hne h0 ho hd hl c hs0 hs1 hf
    (by rw [hdiv]; exact_mod_cast hk)
  rw [a5, hT] at a6
  rw [a5, hdiv, hT] at a7
  rcases Nat.lt_or_ge 1 k with h1 | h1
  · obtain ⟨rfl, rfl, rfl⟩ := a7 (lt_mul_of_one_lt_left hs1 (by exact_mod_cast h1))
    have e : max 1 ⌊(k : ℚ)⌋ = k := by rw [Int.floor_natCast]; omega
    rw [e] at a4
    exact ⟨H', a1, a2, a3, by exact_mod_cast a4⟩
  · obtain rfl : k = 1 := by omega
    obtain ⟨rfl, rfl, rfl⟩ := a6 (by simp)
    exact ⟨H', a1, a2, by rw [a3]; simp, by exact_mod_cast a4⟩

end

theorem constCt_enc {r : Ring} (hr : r.Valid 4) (h3 : 2 < r.subs.length) (scale : ℚ) {a b : UInt64}
    (hq : ∀ c ∈ [a, b], ∀ u ≤ 2, c.toNat < r.qs u) (s : ∀ u, Rq (2 ^ 4) (r.qs u)) :
    CtEnc 4 r 2 r.qs 1 (constCt scale [a, b]) s (fun u => (a.toNat : Rq (2 ^ 4) (r.qs u)) + (b.toNat : Rq (2 ^ 4) (r.qs u)) * s u) :=
  ⟨_, constCt_is hr h3 scale (by simp) hq, fun u _ => by simp [sum_range_succ]⟩

theorem _root_.FastKsw.CtEnc.mono {n : ℕ} {r : Ring} {level deg : ℕ} {A B : ℕ → ℕ} {c : Ct} {s m : ∀ u, Rq (2 ^ n) (r.qs u)}
    (h : CtEnc n r level A deg c s m) (hAB : ∀ u ≤ level, A u ≤ B u) : CtEnc n r level B deg c s m :=
  let ⟨x, hx, hm⟩ := h; ⟨x, hx.mono hAB, hm⟩

/-- **C77 (violated).** A zero ciphertext of scale 3 times 1 is added to a ciphertext that decrypts to 4 at scale 2.  The
result decrypts to 4 at scale 3: the value falls from 2 to 4/3.  At scale 3 it should decrypt to 6. -/
theorem C77_violated : ∃ (ev : Evaluator) (H H' : Heap), ev.ringQ.Valid 4 ∧
    (H 1).scale = 2 ∧ (∀ s, CtEnc 4 ev.ringQ 2 ev.ringQ.qs 1 (H 1) s (fun _ => 4)) ∧
    (H 0).scale = 3 ∧ (∀ s, CtEnc 4 ev.ringQ 2 ev.ringQ.qs 1 (H 0) s (fun _ => 0)) ∧
    ev.multByConstAndAdd H 0 (.int 1) 1 = some H' ∧
    (H' 1).scale = 3 ∧ (∀ s, CtEnc 4 ev.ringQ 2 (fun u => ev.ringQ.qs u + 1) 1 (H' 1) s (fun _ => 4)) ∧
    ∀ s A, ¬ CtEnc 4 ev.ringQ 2 A 1 (H' 1) s (fun _ => 6) := by
  obtain ⟨rQ, rP, sk, tape, K, -, -, l3, -, hq, q0, -, -⟩ := exampleRings
  have hlt : ∀ c : UInt64, c.toNat ≤ 96 → ∀ u ≤ 2, c.toNat < rQ.qs u := fun c hc u hu => lt_of_le_of_lt hc (hq u hu)
  let ev := newEvaluator rQ rP none (fun _ => none) 7
  let H : Heap := fun a => if a = 0 then constCt 3 [0, 0] else constCt 2 [4, 0]
  have hQ : ev.ringQ.Valid 4 := K.rings.hQ
  have c0 : ∀ s, CtEnc 4 ev.ringQ 2 ev.ringQ.qs 1 (H 0) s (fun _ => 0) := fun s => by
    have := constCt_enc hQ (show 2 < rQ.subs.length by omega) 3 (a := 0) (b := 0) (fun c hc => hlt c (by revert c; decide)) s
    simp only [UInt64.toNat_zero, Nat.cast_zero, zero_mul, add_zero] at this
    exact this
  have c1 : ∀ s, CtEnc 4 ev.ringQ 2 ev.ringQ.qs 1 (H 1) s (fun _ => 4) := fun s => by
    have := constCt_enc hQ (show 2 < rQ.subs.length by omega) 2 (a := 4) (b := 0) (fun c hc => hlt c (by revert c; decide)) s
    have e : UInt64.toNat 4 = 4 := rfl
    rw [e] at this
    simp only [UInt64.toNat_zero, Nat.cast_zero, zero_mul, add_zero, Nat.cast_ofNat] at this
    exact this
  have eg : (getConstAndScale ev.ringQ (min 2 2) (.int 1)).2.2 = 1 := rfl
  have eT : f64 ((H 0).scale * 1) = 3 := by show f64 (3 * 1) = 3; decide +kernel
  have eR : ⌊f64Div 3 (H 1).scale⌋ = 1 := by show ⌊f64Div 3 2⌋ = 1; decide +kernel
  have key := fun s => C77_constAndAdd_partial (H := H) (ct0 := 0) (out := 1) hQ (by decide) (c0 s)
    ((c1 s).mono fun u _ => Nat.le_succ _) le_rfl (show min 2 2 < rQ.subs.length by omega) (.int 1)
    (by show (0 : ℚ) < 3; norm_num) (by show (0 : ℚ) < 2; norm_num) (by show f64 3 = 3; decide +kernel)
    (by rw [eg, eT]; show f64Div 3 2 < 2 ^ 51; decide +kernel)
  obtain ⟨H', sc0, sc, S, L, a1, -, a3, -, a5, -, -, -, a7⟩ := key 0
  rw [eg] at a5
  subst a5
  obtain ⟨-, -, hS⟩ := a7 (by rw [eT]; show (2 : ℚ) < 3; norm_num)
  have res : ∀ s, CtEnc 4 ev.ringQ 2 (fun u => ev.ringQ.qs u + 1) 1 (H' 1) s (fun _ => 4) := fun s => by
    obtain ⟨H'', sc0, sc, S, L, b1, -, -, b4, b5, -, -, -, b7⟩ := key s
    obtain rfl : H' = H'' := Option.some.inj (a1.symm.trans b1)
    rw [eg] at b5
    subst b5
    obtain ⟨hL, -, -⟩ := b7 (by rw [eT]; show (2 : ℚ) < 3; norm_num)
    rw [eT, eR] at hL
    rw [hL] at b4
    simpa using b4
  refine ⟨ev, H, H', hQ, rfl, c1, rfl, c0, a1, by rw [a3, hS, eT], res, fun s A hA => ?_⟩
  have e := CtEnc.unique hA (res s) (u := 0) (by omega)
  have := natCast_rq_inj hQ (show 0 < rQ.subs.length by omega) (a := 6) (b := 4) (by exact_mod_cast e)
  rw [show ev.ringQ.qs 0 = 97 from q0] at this
  revert this
  decide

/-- **C77 (violated: the operand is the receiver).** `ct += 0.5·ct` for a ciphertext that decrypts to 4 at scale 1, top
modulus 641.  The receiver is scaled up before the operand is read, so the product carries the factor 641 twice: the
result decrypts to `641·4 + 321·641·4` at scale 641 instead of `641·4 + 321·4`. -/
theorem C77_alias_violated : ∃ (ev : Evaluator) (H H' : Heap), ev.ringQ.Valid 4 ∧
    (H 0).scale = 1 ∧ (∀ s, CtEnc 4 ev.ringQ 2 ev.ringQ.qs 1 (H 0) s (fun _ => 4)) ∧
    ev.multByConstAndAdd H 0 (.float (1 / 2)) 0 = some H' ∧ (H' 0).scale = 641 ∧
    (∀ s, CtEnc 4 ev.ringQ 2 (fun u => ev.ringQ.qs u + 1) 1 (H' 0) s (fun _ => 641 * 4 + 321 * (641 * 4))) ∧
    ∀ s A, ¬ CtEnc 4 ev.ringQ 2 A 1 (H' 0) s (fun _ => 641 * 4 + 321 * 4) := by
  obtain ⟨rQ, rP, sk, tape, K, m1, -, l3, -, hq, q0, -, -⟩ := exampleRings
  have hlt : ∀ c : UInt64, c.toNat ≤ 96 → ∀ u ≤ 2, c.toNat < rQ.qs u := fun c hc u hu => lt_of_le_of_lt hc (hq u hu)
  let ev := newEvaluator rQ rP none (fun _ => none) 7
  let H : Heap := fun _ => constCt 1 [4, 0]
  have hQ : ev.ringQ.Valid 4 := K.rings.hQ
  have c0 : CtIs 4 ev.ringQ 2 ev.ringQ.qs 1 (H 0) _ := constCt_is hQ (show 2 < rQ.subs.length by omega) 1 (cs := [4, 0])
    (by simp) (fun c hc => hlt c (by revert c; decide))
  have c1 := c0.mono (B := fun u => ev.ringQ.qs u + 1) fun u _ => Nat.le_succ _
  have q2 : (ev.ringQ.sub 2).q = 641 := sub_of_moduli m1 2 641 rfl
  have eg : getConstAndScale ev.ringQ 2 (.float (1 / 2)) = (1 / 2, 0, 641) := by
    unfold getConstAndScale
    dsimp only
    rw [q2, if_neg (by rw [hQ.type]; decide)]
    decide +kernel
  have eset : H.set 0 ((H 0).dropTo 2) = H := by
    funext a
    unfold Heap.set
    by_cases h : a = 0
    · subst h; rw [Function.update_self]; rfl
    · rw [Function.update_of_ne h]
  have hl : 2 < ev.ringQ.subs.length := show 2 < rQ.subs.length by omega
  obtain ⟨G, a1, a2, a3⟩ := raise_spec (H := H) (out := 0) hQ c1 hl (t := 641)
    (by show f64Div 641 1 < 2 ^ 51; decide +kernel)
  have eR : max 1 ⌊f64Div 641 (H 0).scale⌋ = 641 := by show max 1 ⌊f64Div 641 1⌋ = 641; decide +kernel
  rw [eR] at a3
  have sG : (G 0).scale = 1 := by
    have e : ev.raise H 0 641 = ev.multByConst H 0 (.float 641) 0 := by
      unfold Evaluator.raise
      have eR : ⌊f64Div 641 (H 0).scale⌋ = 641 := by show ⌊f64Div 641 1⌋ = 641; decide +kernel
      dsimp only
      rw [eR, if_pos (by norm_num)]
      rfl
    obtain ⟨H'', b1, b2, -⟩ := C53_multByConst_exact (H := H) (ct0 := 0) (out := 0) hQ c1 c1.shape le_rfl hl (a := 641) (b := 0)
      (by norm_num) (by norm_num) (c := .float 641) (by simp [Constant.parts])
    obtain rfl : G = H'' := Option.some.inj (a1.symm.trans (e.trans b1))
    rw [b2]
    show f64 1 = 1
    decide +kernel
  have a4 := a3.setScale 0 641
  have d0 : 0 ≤ (641 : ℚ) := by norm_num
  obtain ⟨H', b1, -, b3, b4⟩ := mulAddPair_is (H := G.setScale 0 641) (ct0 := 0) (out := 0) hQ a4 a4 le_rfl le_rfl rfl hl
    (c := constPairMont ev.ringQ (1 / 2) 0 641) fun u hu => constPairMont_spec hQ (by omega) d0
  have run : ev.multByConstAndAdd H 0 (.float (1 / 2)) 0 = some H' := by
    unfold Evaluator.multByConstAndAdd
    dsimp only
    rw [show min (H 0).level (H 0).level = 2 from rfl, eset, eg]
    dsimp only
    rw [if_pos (by norm_num), show f64 ((H 0).scale * 641) = 641 by show f64 (1 * 641) = 641; decide +kernel,
      if_pos (by show (1 : ℚ) < 641; norm_num), a1, Option.bind_some, sG,
      show f64 (641 * 1) = 641 by decide +kernel]
    exact b1
  have ef : fixedPoint (1 / 2) 641 = 321 := by decide +kernel
  have ef0 : fixedPoint 0 641 = 0 := by decide +kernel
  rw [ef, ef0] at b4
  have res : ∀ s, CtEnc 4 ev.ringQ 2 (fun u => ev.ringQ.qs u + 1) 1 (H' 0) s
      (fun _ => 641 * 4 + 321 * (641 * 4)) := fun s => by
    refine ⟨_, b4, fun u _ => ?_⟩
    have e : UInt64.toNat 4 = 4 := rfl
    simp [sum_range_succ, gauss_int, e]
  refine ⟨ev, H, H', hQ, rfl, fun s => ⟨_, c0, fun u _ => ?_⟩, run, by rw [b3, Heap.setScale_self], res, fun s A hA => ?_⟩
  · have e : UInt64.toNat 4 = 4 := rfl
    simp [sum_range_succ, e]
  have e := CtEnc.unique hA (res s) (u := 0) (by omega)
  have := natCast_rq_inj hQ (show 0 < rQ.subs.length by omega) (a := 641 * 4 + 321 * 4) (b := 641 * 4 + 321 * (641 * 4))
    (by push_cast; ring_nf at e ⊢; exact e)
  rw [show ev.ringQ.qs 0 = 97 from q0] at this
  revert this
  decide

/-- an instance of `C77_constAndAdd_exact_partial`: `5` at scale 6 times `1`, added to `4` at scale 2 (`k = 3`) -/
example : ∃ (ev : Evaluator) (H H' : Heap), ev.ringQ.Valid 4 ∧ (H 0).scale = 6 ∧ (H 1).scale = 2 ∧
    ev.multByConstAndAdd H 0 (.int 1) 1 = some H' ∧ (H' 1).scale = 6 ∧
    CtEnc 4 ev.ringQ 2 (fun u => ev.ringQ.qs u + 1) 1 (H' 1) 0 (fun _ => 3 * 4 + 5) := by
  obtain ⟨rQ, rP, sk, tape, K, -, -, l3, -, hq, q0, -, -⟩ := exampleRings
  have hlt : ∀ c : UInt64, c.toNat ≤ 96 → ∀ u ≤ 2, c.toNat < rQ.qs u := fun c hc u hu => lt_of_le_of_lt hc (hq u hu)
  let ev := newEvaluator rQ rP none (fun _ => none) 7
  let H : Heap := fun a => if a = 0 then constCt 6 [5, 0] else constCt 2 [4, 0]
  have hQ : ev.ringQ.Valid 4 := K.rings.hQ
  have c0 : CtEnc 4 ev.ringQ 2 ev.ringQ.qs 1 (H 0) 0 _ :=
    constCt_enc hQ (show 2 < rQ.subs.length by omega) 6 (a := 5) (b := 0) (fun c hc => hlt c (by revert c; decide)) 0
  have c1 : CtEnc 4 ev.ringQ 2 ev.ringQ.qs 1 (H 1) 0 _ :=
    constCt_enc hQ (show 2 < rQ.subs.length by omega) 2 (a := 4) (b := 0) (fun c hc => hlt c (by revert c; decide)) 0
  have eg : (getConstAndScale ev.ringQ (min 2 2) (.int 1)).2.2 = 1 := rfl
  obtain ⟨H', a1, -, a3, a4⟩ := C77_constAndAdd_exact_partial (H := H) (ct0 := 0) (out := 1) hQ (by decide) c0
    (c1.mono fun u _ => Nat.le_succ _) le_rfl (show min 2 2 < rQ.subs.length by omega) (.int 1)
    (by show (0 : ℚ) < 6; norm_num) (by show (0 : ℚ) < 2; norm_num) (by show f64 6 = 6; decide +kernel)
    (k := 3) (by norm_num) (by norm_num) (by rw [eg]; show f64 (6 * 1) = (3 : ℕ) * 2; decide +kernel)
  refine ⟨ev, H, H', hQ, rfl, rfl, a1, by rw [a3]; show ((3 : ℕ) : ℚ) * 2 = 6; norm_num, ?_⟩
  have e1 : fixedPoint (Constant.int 1).parts.1 1 = 1 := by decide +kernel
  have e2 : fixedPoint (Constant.int 1).parts.2 1 = 0 := by decide +kernel
  have e4 : UInt64.toNat 4 = 4 := rfl
  have e5 : UInt64.toNat 5 = 5 := rfl
  rw [eg, e1, e2] at a4
  simpa [gauss_one, e4, e5] using a4

end FastKsw.Props
