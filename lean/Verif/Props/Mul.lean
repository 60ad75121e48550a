import Verif.Lemmas.CkksMul
import Verif.Props.Constants
import Verif.Lemmas.ConstCt

/-!
# C64: `Mul`, `MulRelin` and `Relinearize` of `ckks` decrypt to the product

Every operand of degree at most 1, every level of the operands and of the receiver, any two of the three the same object.
The receiver is the obstacle: with relinearization, or when one operand is a plaintext, the code writes components 0 and 1
and leaves the others, so a receiver of degree 2 keeps its old component 2.
-/

namespace FastKsw.Props

open FastKsw Finset

section
variable {n : ℕ} {ev : Evaluator} {rP : Ring} (K : KeyParams n ev.ringQ rP) (h32 : rP.subs.length ≤ 32)
  (hks : ev.ks = newKeySwitcher ev.ringQ rP) {sk : PolyQP} {S : ℕ → ℤ}
  (hs : sk.IsMont n ev.ringQ rP (ev.ringQ.subs.length - 1) (rP.subs.length - 1) S) {maxDegree : ℕ} (hmax : 0 < maxDegree)
  {tape : ℕ → ℕ → KeyTape} {e : ℕ → ℕ → ℤ}
  (ht : TapeOK n ev.ringQ rP (ev.ringQ.subs.length - 1) (rP.subs.length - 1) (tape 0) e)
  (hrlk : ev.rlk = some ((genRelinearizationKey ev.ringQ rP sk maxDegree tape).getD 0 []))
  {H : Heap} {op0 op1 out : Ref} {deg l0 l1 lo level : ℕ} {A B : ℕ → ℕ} {x y : ℕ → ∀ u, Rq (2 ^ n) (ev.ringQ.qs u)}
  (hl : level < ev.ringQ.subs.length) (hov : DigitRoom ev.ringQ rP level (rP.subs.length - 1))
include K h32 hks hs hmax ht hrlk hl hov

/-- **C64 (with relinearization, any receiver).** `MulRelin` decrypts to the product, plus the key-switching error, plus
what components 2 and above of the receiver contributed before. -/
theorem C64_mulRelin_stale (h0 : CtIs n ev.ringQ l0 A 1 (H op0) x) (h1 : CtIs n ev.ringQ l1 B 1 (H op1) y)
    {z : ℕ → ∀ u, Rq (2 ^ n) (ev.ringQ.qs u)} (ho : CtShape deg lo (H out)) (hdeg : 1 ≤ deg)
    (hz : ∀ i, 2 ≤ i → i ≤ deg → EltIs n ev.ringQ lo (fun u => 6 * ev.ringQ.qs u) true ((H out).rows i) (z i))
    (hlev : level = min (min l0 l1) lo) :
    ∃ H', ev.mulRelin H op0 op1 true out = some H' ∧ (∀ b ≠ out, H' b = H b) ∧
      (H' out).scale = f64 ((H op0).scale * (H op1).scale) ∧ ∃ d0 d1 E,
      KeySwitched n ev.ringQ rP level (rP.subs.length - 1) (fun u => x 1 u * y 1 u) d0 d1 (negPow (2 ^ n) S 2) S e E ∧
      CtEnc n ev.ringQ level (fun u => 6 * ev.ringQ.qs u) deg (H' out) (fun u => intR _ _ S) (fun u =>
        (x 0 u + x 1 u * intR _ _ S) * (y 0 u + y 1 u * intR _ _ S) + intR _ _ E +
          ∑ i ∈ range (deg - 1), z (i + 2) u * intR (2 ^ n) (ev.ringQ.qs u) S ^ (i + 2)) := by
  obtain ⟨H', a1, a2, a3, a4, a5, d0, d1, E, hE, w0, w1⟩ := mulRelin_is K.rings.hQ K.rings.sQ hks hrlk
    (switches_relin K h32 hl hov hs hmax ht) h0 h1 ho hdeg hlev hl
  refine ⟨H', a1, a4, a3, d0, d1, E, hE, fun i u => if i = 0 then x 0 u * y 0 u + d0 u else
    if i = 1 then x 0 u * y 1 u + x 1 u * y 0 u + d1 u else z i u, ⟨a2, fun i hi => ?_⟩, fun u hu => ?_⟩
  · show EltIs _ _ _ _ _ (H'.rows out i) _
    by_cases i0 : i = 0
    · subst i0; simpa using w0
    · by_cases i1 : i = 1
      · subst i1; simpa using w1
      · simp only [if_neg i0, if_neg i1]
        have := (hz i (by omega) hi).below (show level ≤ lo by omega)
        rw [a5 i (by omega) hi]
        exact this.take (by omega)
  · have hrel := hE.rel u hu
    rw [intR_negPow_two (by positivity)] at hrel
    rw [show deg + 1 = deg - 1 + 1 + 1 by omega, sum_range_succ', sum_range_succ']
    simp only [Nat.add_eq_zero_iff, one_ne_zero, and_false, if_false, if_true, zero_add, pow_zero, pow_one, mul_one,
      show ∀ i, i + 1 + 1 = i + 2 from fun _ => rfl, show ∀ i, ¬ i + 2 = 1 from fun _ => by omega,
      show ∀ i, ¬ i + 2 = 0 from fun _ => by omega]
    linear_combination hrel

/-- **C64 (partial: the receiver has degree 1).** -/
theorem C64_mulRelin_partial (h0 : CtIs n ev.ringQ l0 A 1 (H op0) x) (h1 : CtIs n ev.ringQ l1 B 1 (H op1) y)
    (ho : CtShape 1 lo (H out)) (hlev : level = min (min l0 l1) lo) :
    ∃ H', ev.mulRelin H op0 op1 true out = some H' ∧ (∀ b ≠ out, H' b = H b) ∧
      (H' out).scale = f64 ((H op0).scale * (H op1).scale) ∧ ∃ d0 d1 E,
      KeySwitched n ev.ringQ rP level (rP.subs.length - 1) (fun u => x 1 u * y 1 u) d0 d1 (negPow (2 ^ n) S 2) S e E ∧
      CtEnc n ev.ringQ level (fun u => 6 * ev.ringQ.qs u) 1 (H' out) (fun u => intR _ _ S) (fun u =>
        (x 0 u + x 1 u * intR _ _ S) * (y 0 u + y 1 u * intR _ _ S) + intR _ _ E) := by
  obtain ⟨H', a1, a2, a3, d0, d1, E, hE, hc⟩ := C64_mulRelin_stale K h32 hks hs hmax ht hrlk hl hov h0 h1 (z := fun _ _ => 0) ho
    le_rfl (fun i h2 h1 => by omega) hlev
  refine ⟨H', a1, a2, a3, d0, d1, E, hE, ?_⟩
  simpa using hc

/-- **C64 (`MulRelinNew`).** -/
theorem C64_mulRelinNew {new : Ref} (hn0 : op0 ≠ new) (hn1 : op1 ≠ new) (h0 : CtIs n ev.ringQ l0 A 1 (H op0) x)
    (h1 : CtIs n ev.ringQ l1 B 1 (H op1) y) (hlev : level = min l0 l1) :
    ∃ H', ev.mulRelinNew H op0 op1 new = some H' ∧ (∀ b ≠ new, H' b = H b) ∧
      (H' new).scale = f64 ((H op0).scale * (H op1).scale) ∧ ∃ d0 d1 E,
      KeySwitched n ev.ringQ rP level (rP.subs.length - 1) (fun u => x 1 u * y 1 u) d0 d1 (negPow (2 ^ n) S 2) S e E ∧
      CtEnc n ev.ringQ level (fun u => 6 * ev.ringQ.qs u) 1 (H' new) (fun u => intR _ _ S) (fun u =>
        (x 0 u + x 1 u * intR _ _ S) * (y 0 u + y 1 u * intR _ _ S) + intR _ _ E) := by
  unfold Evaluator.mulRelinNew
  rw [h0.shape.level, h1.shape.level, ← hlev]
  obtain ⟨H', a1, a2, a3, a4⟩ := C64_mulRelin_partial K h32 hks hs hmax ht hrlk hl hov
    (H := H.set new (newCiphertext ev.ringQ.n 1 level 0)) (op0 := op0) (op1 := op1) (out := new)
    (by rw [Heap.set_ne _ _ _ _ hn0]; exact h0) (by rw [Heap.set_ne _ _ _ _ hn1]; exact h1)
    (by rw [Heap.set_self]; exact newCiphertext_shape _ _ _ _) (by omega)
  rw [Heap.set_ne _ _ _ _ hn0, Heap.set_ne _ _ _ _ hn1] at a3
  exact ⟨H', a1, fun b hb => by rw [a2 b hb, Heap.set_ne _ _ _ _ hb], a3, a4⟩

/-- **C64 (`Relinearize`).** A ciphertext of degree 2 (components reduced, up to a zero written as `q` in components 0
and 1) is turned into one of degree 1 with the same decryption plus the key-switching error; receiver of any degree ≥ 1,
possibly the ciphertext itself. -/
theorem C64_relinearize {ct0 : Ref} {m : ∀ u, Rq (2 ^ n) (ev.ringQ.qs u)}
    (h0 : CtIs n ev.ringQ l0 (fun u => ev.ringQ.qs u + 1) 2 (H ct0) x)
    (h2 : EltIs n ev.ringQ l0 ev.ringQ.qs true ((H ct0).rows 2) (x 2))
    (hm : ∀ u ≤ l0, x 0 u + x 1 u * intR _ _ S + x 2 u * intR _ _ S ^ 2 = m u) (ho : CtShape deg lo (H out)) (hdeg : 1 ≤ deg)
    (hlev : level = min l0 lo) :
    ∃ H', ev.relinearize H ct0 out = some H' ∧ (∀ b ≠ out, H' b = H b) ∧ (H' out).scale = (H ct0).scale ∧ ∃ d0 d1 E,
      KeySwitched n ev.ringQ rP level (rP.subs.length - 1) (x 2) d0 d1 (negPow (2 ^ n) S 2) S e E ∧
      CtEnc n ev.ringQ level ev.ringQ.qs 1 (H' out) (fun u => intR _ _ S) (fun u => m u + intR _ _ E) := by
  obtain ⟨H', a1, a2, a3, d0, d1, E, hE, w⟩ := relinearize_is K.rings.hQ hks hrlk
    (switches_relin K h32 hl hov hs hmax ht) h0 h2 ho hdeg hlev hl
  refine ⟨H', a1, a2, a3, d0, d1, E, hE, _, w, fun u hu => ?_⟩
  have hrel := hE.rel u hu
  rw [intR_negPow_two (by positivity)] at hrel
  rw [sum_range_succ, sum_range_one, if_pos rfl, if_neg (by omega)]
  linear_combination hrel + hm u (by omega)

/-- **C64 (`RelinearizeNew`).** -/
theorem C64_relinearizeNew {ct0 new : Ref} (hn : ct0 ≠ new) {m : ∀ u, Rq (2 ^ n) (ev.ringQ.qs u)}
    (h0 : CtIs n ev.ringQ level (fun u => ev.ringQ.qs u + 1) 2 (H ct0) x)
    (h2 : EltIs n ev.ringQ level ev.ringQ.qs true ((H ct0).rows 2) (x 2))
    (hm : ∀ u ≤ level, x 0 u + x 1 u * intR _ _ S + x 2 u * intR _ _ S ^ 2 = m u) :
    ∃ H', ev.relinearizeNew H ct0 new = some H' ∧ (∀ b ≠ new, H' b = H b) ∧ (H' new).scale = (H ct0).scale ∧ ∃ d0 d1 E,
      KeySwitched n ev.ringQ rP level (rP.subs.length - 1) (x 2) d0 d1 (negPow (2 ^ n) S 2) S e E ∧
      CtEnc n ev.ringQ level ev.ringQ.qs 1 (H' new) (fun u => intR _ _ S) (fun u => m u + intR _ _ E) := by
  unfold Evaluator.relinearizeNew
  rw [h0.shape.level]
  obtain ⟨H', a1, a2, a3, a4⟩ := C64_relinearize K h32 hks hs hmax ht hrlk hl hov (x := x) (l0 := level)
    (H := H.set new (newCiphertext ev.ringQ.n 1 level (H ct0).scale)) (ct0 := ct0) (out := new)
    (by rw [Heap.set_ne _ _ _ _ hn]; exact h0) (by rw [Heap.set_ne _ _ _ _ hn]; exact h2) hm
    (by rw [Heap.set_self]; exact newCiphertext_shape _ _ _ _) le_rfl (by omega)
  rw [Heap.set_ne _ _ _ _ hn] at a3
  exact ⟨H', a1, fun b hb => by rw [a2 b hb, Heap.set_ne _ _ _ _ hb], a3, a4⟩

end

section
variable {n : ℕ} {ev : Evaluator} (hr : ev.ringQ.Valid n) {H : Heap} {op0 op1 out : Ref} {deg l0 l1 lo level : ℕ}
  {A B : ℕ → ℕ} {x y : ℕ → ∀ u, Rq (2 ^ n) (ev.ringQ.qs u)} (hl : level < ev.ringQ.subs.length)
include hr hl

/-- **C64 (without relinearization).** `Mul` into a receiver of degree 1 or 2: exactly the product, of degree 2. -/
theorem C64_mul (h0 : CtIs n ev.ringQ l0 A 1 (H op0) x) (h1 : CtIs n ev.ringQ l1 B 1 (H op1) y)
    (ho : CtShape deg lo (H out)) (hdeg : 1 ≤ deg) (hdeg2 : deg ≤ 2) (hlev : level = min (min l0 l1) lo)
    (s : ∀ u, Rq (2 ^ n) (ev.ringQ.qs u)) :
    ∃ H', ev.mulRelin H op0 op1 false out = some H' ∧ (∀ b ≠ out, H' b = H b) ∧
      (H' out).scale = f64 ((H op0).scale * (H op1).scale) ∧
      CtEnc n ev.ringQ level ev.ringQ.qs 2 (H' out) s (fun u => (x 0 u + x 1 u * s u) * (y 0 u + y 1 u * s u)) := by
  obtain ⟨H', a1, a2, a3, a4, w0, w1, w2⟩ := mul_is hr h0 h1 ho hdeg hlev hl
  rw [max_eq_right hdeg2] at a2
  refine ⟨H', a1, a4, a3, fun i u => if i = 0 then x 0 u * y 0 u else
    if i = 1 then x 0 u * y 1 u + x 1 u * y 0 u else x 1 u * y 1 u, ⟨a2, fun i hi => ?_⟩, fun u hu => ?_⟩
  · show EltIs _ _ _ _ _ (H'.rows out i) _
    interval_cases i
    · simpa using w0
    · simpa using w1
    · simpa using w2
  · simp [sum_range_succ]
    ring

/-- **C64 (`MulNew`).** -/
theorem C64_mulNew {new : Ref} (hn0 : op0 ≠ new) (hn1 : op1 ≠ new) (h0 : CtIs n ev.ringQ l0 A 1 (H op0) x)
    (h1 : CtIs n ev.ringQ l1 B 1 (H op1) y) (hlev : level = min l0 l1) (s : ∀ u, Rq (2 ^ n) (ev.ringQ.qs u)) :
    ∃ H', ev.mulNew H op0 op1 new = some H' ∧ (∀ b ≠ new, H' b = H b) ∧
      (H' new).scale = f64 ((H op0).scale * (H op1).scale) ∧
      CtEnc n ev.ringQ level ev.ringQ.qs 2 (H' new) s (fun u => (x 0 u + x 1 u * s u) * (y 0 u + y 1 u * s u)) := by
  unfold Evaluator.mulNew
  rw [h0.shape.level, h1.shape.level, ← hlev, h0.shape.degree, h1.shape.degree]
  obtain ⟨H', a1, a2, a3, a4⟩ := C64_mul hr hl (H := H.set new (newCiphertext ev.ringQ.n 2 level 0)) (op0 := op0) (op1 := op1)
    (out := new) (by rw [Heap.set_ne _ _ _ _ hn0]; exact h0) (by rw [Heap.set_ne _ _ _ _ hn1]; exact h1)
    (by rw [Heap.set_self]; exact newCiphertext_shape _ _ _ _) (by omega) le_rfl (by omega) s
  rw [Heap.set_ne _ _ _ _ hn0, Heap.set_ne _ _ _ _ hn1] at a3
  exact ⟨H', a1, fun b hb => by rw [a2 b hb, Heap.set_ne _ _ _ _ hb], a3, a4⟩

/-- **C64 (plaintext times ciphertext, any receiver).** In either order, with or without the relinearization flag: the
product, plus what components 2 and above of the receiver contributed before. -/
theorem C64_mulPt_stale (h0 : CtIs n ev.ringQ l0 A 0 (H op0) x) (h1 : CtIs n ev.ringQ l1 B 1 (H op1) y)
    {z : ℕ → ∀ u, Rq (2 ^ n) (ev.ringQ.qs u)} (ho : CtShape deg lo (H out)) (hdeg : 1 ≤ deg)
    (hz : ∀ i, 2 ≤ i → i ≤ deg → EltIs n ev.ringQ lo ev.ringQ.qs true ((H out).rows i) (z i))
    (hlev : level = min (min l0 l1) lo) (relin swap : Bool) (s : ∀ u, Rq (2 ^ n) (ev.ringQ.qs u)) :
    ∃ H', ev.mulRelin H (if swap then op1 else op0) (if swap then op0 else op1) relin out = some H' ∧
      (∀ b ≠ out, H' b = H b) ∧ (H' out).scale = f64 ((H op0).scale * (H op1).scale) ∧
      CtEnc n ev.ringQ level ev.ringQ.qs deg (H' out) s (fun u => x 0 u * (y 0 u + y 1 u * s u) +
        ∑ i ∈ range (deg - 1), z (i + 2) u * s u ^ (i + 2)) := by
  obtain ⟨H', a1, a2, a3, a4, a5, w⟩ := mulPt_is hr h0 h1 ho hdeg hlev hl relin swap
  refine ⟨H', a1, a4, a3, fun i u => if i ≤ 1 then x 0 u * y i u else z i u, ⟨a2, fun i hi => ?_⟩, fun u hu => ?_⟩
  · by_cases i1 : i ≤ 1
    · simp only [if_pos i1]
      exact w i i1
    · simp only [if_neg i1]
      have := (hz i (by omega) hi).below (show level ≤ lo by omega)
      show EltIs _ _ _ _ _ (H'.rows out i) _
      rw [a5 i (by omega) hi]
      exact this.take (by omega)
  · rw [show deg + 1 = deg - 1 + 1 + 1 by omega, sum_range_succ', sum_range_succ']
    simp only [zero_add, pow_zero, pow_one, mul_one, show ∀ i, i + 1 + 1 = i + 2 from fun _ => rfl,
      show ∀ i, ¬ i + 2 ≤ 1 from fun _ => by omega, le_refl, zero_le, if_true, if_false]
    ring

/-- **C64 (plaintext times ciphertext, partial: the receiver has degree 1).** -/
theorem C64_mulPt_partial (h0 : CtIs n ev.ringQ l0 A 0 (H op0) x) (h1 : CtIs n ev.ringQ l1 B 1 (H op1) y)
    (ho : CtShape 1 lo (H out)) (hlev : level = min (min l0 l1) lo) (relin swap : Bool)
    (s : ∀ u, Rq (2 ^ n) (ev.ringQ.qs u)) :
    ∃ H', ev.mulRelin H (if swap then op1 else op0) (if swap then op0 else op1) relin out = some H' ∧
      (∀ b ≠ out, H' b = H b) ∧ (H' out).scale = f64 ((H op0).scale * (H op1).scale) ∧
      CtEnc n ev.ringQ level ev.ringQ.qs 1 (H' out) s (fun u => x 0 u * (y 0 u + y 1 u * s u)) := by
  obtain ⟨H', a1, a2, a3, a4⟩ := C64_mulPt_stale hr hl h0 h1 (z := fun _ _ => 0) ho le_rfl (fun i _ _ => by omega) hlev relin
    swap s
  exact ⟨H', a1, a2, a3, by simpa using a4⟩

end

/-- **C64 (violated, witness).** Degree 16, moduli 97, 193, 641: the plaintext 5 times the ciphertext `(2, 3)` into a
receiver of degree 2 whose components were `(0, 0, 1)`; with or without the relinearization flag the receiver decrypts under
the secret 1 to 26, not to 25. -/
theorem C64_violated (relin : Bool) : ∃ (ev : Evaluator) (H H' : Heap) (x y : ℕ → ∀ u, Rq (2 ^ 4) (ev.ringQ.qs u))
    (s : ∀ u, Rq (2 ^ 4) (ev.ringQ.qs u)), ev.ringQ.Valid 4 ∧ CtIs 4 ev.ringQ 2 ev.ringQ.qs 0 (H 0) x ∧
    CtIs 4 ev.ringQ 2 ev.ringQ.qs 1 (H 1) y ∧ CtShape 2 2 (H 2) ∧ ev.mulRelin H 0 1 relin 2 = some H' ∧
    ¬ ∃ A deg, CtEnc 4 ev.ringQ 2 A deg (H' 2) s (fun u => x 0 u * (y 0 u + y 1 u * s u)) := by
  obtain ⟨rQ, rP, sk, tape, K, -, -, l3, -, hq, q0, -, -⟩ := exampleRings
  obtain ⟨ev, rfl⟩ : ∃ ev : Evaluator, ev.ringQ = rQ := ⟨newEvaluator rQ rP none (fun _ => none) 7, rfl⟩
  have hQ := K.rings.hQ
  let H : Heap := fun a => if a = 0 then constCt 1 [5] else if a = 1 then constCt 1 [2, 3] else constCt 1 [0, 0, 1]
  have hlt : ∀ c : UInt64, c ≤ 7 → ∀ u ≤ 2, c.toNat < ev.ringQ.qs u := fun c hc u hu => by
    have := hq u hu
    have : c.toNat ≤ 7 := hc
    omega
  have c0 := constCt_is hQ (by omega) 1 (cs := [5]) (by simp) (fun c hc => hlt c (by revert c; decide))
  have c1 := constCt_is hQ (by omega) 1 (cs := [2, 3]) (by simp) (fun c hc => hlt c (by revert c; decide))
  have c2 := constCt_is hQ (by omega) 1 (cs := [0, 0, 1]) (by simp) (fun c hc => hlt c (by revert c; decide))
  obtain ⟨H', a1, -, -, a4⟩ := C64_mulPt_stale (ev := ev) (H := H) (op0 := 0) (op1 := 1) (out := 2) (level := 2) hQ
    (by omega) c0 c1 c2.shape (by simp) (fun i _ hi => c2.elt i hi) rfl relin false (fun _ => 1)
  refine ⟨ev, H, H', _, _, fun _ => 1, hQ, c0, c1, c2.shape, a1, ?_⟩
  rintro ⟨A, deg, hA⟩
  have hd : deg = 2 := by
    obtain ⟨_, hx, _⟩ := hA
    obtain ⟨_, hy, _⟩ := a4
    have := hx.shape.degree
    rw [hy.shape.degree] at this
    exact this.symm
  subst hd
  have e := CtEnc.unique hA a4 (u := 0) (by omega)
  simp [sum_range_succ] at e
  have e2 : ((1 : ℕ) : Rq (2 ^ 4) (ev.ringQ.qs 0)) = ((0 : ℕ) : Rq (2 ^ 4) (ev.ringQ.qs 0)) := by
    push_cast
    linear_combination e
  have := natCast_rq_inj hQ (by omega) e2
  rw [q0] at this
  omega

/-- with a generated relinearization key, `(5, 7)` is squared in place and then multiplied by `(2, 3)` into a new ciphertext -/
example : ∃ (rQ rP : Ring) (sk : PolyQP) (tape : ℕ → ℕ → KeyTape) (H' H'' : Heap) (m m' : ∀ u, Rq (2 ^ 4) (rQ.qs u)),
    rQ.moduli = [97, 193, 641] ∧ rP.moduli = [257, 353] ∧
    let ev := newEvaluator rQ rP (some ((genRelinearizationKey rQ rP sk 1 tape).getD 0 [])) (fun _ => none) 9
    let H : Heap := fun a => if a = 0 then constCt 1 [5, 7] else constCt 1 [2, 3]
    ev.mulRelin H 0 0 true 0 = some H' ∧
      CtEnc 4 rQ 2 (fun u => 6 * rQ.qs u) 1 (H' 0) (fun u => intR _ _ exampleS) m ∧
    ev.mulRelinNew H' 0 1 2 = some H'' ∧
      CtEnc 4 rQ 2 (fun u => 6 * rQ.qs u) 1 (H'' 2) (fun u => intR _ _ exampleS) m' := by
  obtain ⟨rQ, rP, sk, tape, K, m1, m2, l3, l2, hq, q0, hsk, ht⟩ := exampleRings
  have hQ := K.rings.hQ
  have hlt : ∀ c : UInt64, c ≤ 7 → ∀ u ≤ 2, c.toNat < rQ.qs u := fun c hc u hu => by
    have := hq u hu
    have : c.toNat ≤ 7 := hc
    omega
  have c0 := constCt_is hQ (by omega) 1 (cs := [5, 7]) (by simp) (fun c hc => hlt c (by revert c; decide))
  have c1 := constCt_is hQ (by omega) 1 (cs := [2, 3]) (by simp) (fun c hc => hlt c (by revert c; decide))
  let ev := newEvaluator rQ rP (some ((genRelinearizationKey rQ rP (genSecretKey rQ rP sk) 1 fun _ => tape).getD 0 []))
    (fun _ => none) 9
  let H : Heap := fun a => if a = 0 then constCt 1 [5, 7] else constCt 1 [2, 3]
  obtain ⟨H', a1, a2, -, d0, d1, E, -, w, hw, -⟩ := C64_mulRelin_partial (ev := ev) (H := H) (op0 := 0) (op1 := 0) (out := 0)
    (level := 2) (tape := fun _ => tape) K (by omega) rfl hsk zero_lt_one ht rfl (by show 2 < rQ.subs.length; omega) (Or.inl (by omega)) c0 c0 c0.shape rfl
  have hc1 := c1
  rw [show constCt 1 [2, 3] = H' 1 by rw [a2 1 (by decide)]; rfl] at hc1
  obtain ⟨H'', b1, -, -, e0, e1, E', -, hw'⟩ := C64_mulRelinNew (ev := ev) (H := H') (op0 := 0) (op1 := 1) (new := 2)
    (level := 2) (tape := fun _ => tape) K (by omega) rfl hsk zero_lt_one ht rfl (by show 2 < rQ.subs.length; omega) (Or.inl (by omega)) (by decide)
    (by decide) hw hc1 rfl
  exact ⟨rQ, rP, _, fun _ => tape, H', H'', _, _, m1, m2, a1, ⟨w, hw, fun _ _ => rfl⟩, b1, hw'⟩

end FastKsw.Props
