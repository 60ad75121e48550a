import Verif.Props.MulAdd
import Verif.Props.ScaleMgmt

/-!
# C35, continued: a receiver whose scale is below the product of the scales

The documentation of `MulAndAdd` (ckks/evaluator.go:1226-1227): "If ctOut.Scale < op0.Scale * op1.Scale, then scales up ctOut
before adding the result".
-/

namespace FastKsw.Props

open FastKsw Finset

/-- `math.Round` of a float64 quotient at most `2^50` -/
theorem f64Round_spec {a b : ℚ} (hb : 0 < b) (h1 : b < a) (h2 : a ≤ 2 ^ 50 * b) :
    0 ≤ f64Round (f64Div a b) ∧ f64Round (f64Div a b) < 2 ^ 51 ∧
      |(f64Round (f64Div a b) : ℚ) - a / b| ≤ 1 / 2 + a / b / 2 ^ 53 := by
  have hq : 0 < a / b := div_pos (hb.trans h1) hb
  have hq2 : a / b ≤ 2 ^ 50 := by rwa [div_le_iff₀ hb]
  have e := f64_err (a / b)
  have p := f64_nonneg hq.le
  rw [abs_of_pos hq, uro] at e
  rw [abs_le] at e
  unfold f64Round f64Div
  have f1 := Int.floor_le (f64 (a / b) + 1 / 2)
  have f2 := Int.lt_floor_add_one (f64 (a / b) + 1 / 2)
  refine ⟨Int.floor_nonneg.2 (by linarith), ?_, ?_⟩
  · rw [Int.floor_lt]
    push_cast
    linarith [e.2]
  · rw [abs_le]
    constructor <;> linarith [e.1, e.2]

section
variable {n : ℕ} {ev : Evaluator} (hr : ev.ringQ.Valid n)
  {H : Heap} {op0 op1 out : Ref} {d0 d1 deg l0 l1 lo level : ℕ} {A B : ℕ → ℕ}
  {x y z : ℕ → ∀ u, Rq (2 ^ n) (ev.ringQ.qs u)}
include hr

/-- the receiver after the scaling up -/
theorem mulRelinAndAdd_scaled
    (h0 : CtShape d0 l0 (H op0)) (h1 : CtShape d1 l1 (H op1)) (ho : CtIs n ev.ringQ lo A deg (H out) z) (hd : d0 + d1 ≠ 0)
    (hd0 : d0 ≤ 1) (hd1 : d1 ≤ 1) (hdeg : max d0 d1 ≤ deg) (hlev : level = min (min l0 l1) lo)
    (hl : level < ev.ringQ.subs.length) (hs : 0 < (H out).scale) {R : ℚ} (hR : R = f64 ((H op0).scale * (H op1).scale))
    (hsc : (H out).scale < R) (hmax : R ≤ 2 ^ 50 * (H out).scale) :
    ∃ h : Heap, (∀ b ≠ out, h b = H b) ∧ (h out).scale = R ∧
      CtIs n ev.ringQ level ev.ringQ.qs deg (h out)
        (fun i u => (f64Round (f64Div R (H out).scale) : Rq (2 ^ n) _) * z i u) ∧
      ∀ relin, ev.mulRelinAndAdd H op0 op1 relin out =
        if d0 + d1 = 2 then
          let (tmp0, tmp1) := if op1 = out then (op1, op0) else (op0, op1)
          if relin then ev.rlk.map fun rlk => ev.mulCtAndAdd h level tmp0 tmp1 out (some rlk)
          else some (ev.mulCtAndAdd h level tmp0 tmp1 out none)
        else if d0 = 1 then some (ev.mulPtAndAdd h level op1 op0 out)
        else some (ev.mulPtAndAdd h level op0 op1 out) := by
  obtain ⟨k0, k1, -⟩ := f64Round_spec hs hsc hmax
  have hD : CtIs n ev.ringQ level A deg ((H.set out ((H out).dropTo level)) out) z := by
    rw [Heap.set_self]; exact ho.dropTo (by omega)
  have sc : ∀ b, ((H.set out ((H out).dropTo level)) b).scale = (H b).scale := fun b => by
    by_cases e : b = out
    · subst e; rw [Heap.set_self, Ct.scale_dropTo]
    · rw [Heap.set_ne _ _ _ _ e]
  have hfr : ∀ b ≠ out, (H.set out ((H out).dropTo level)) b = H b := fun b hb => Heap.set_ne _ _ _ _ hb
  obtain ⟨G, c, a1, a2, -⟩ := C53_multByConst hr hD hD.shape le_rfl hl (.float (f64Round (f64Div R (H out).scale)))
  obtain ⟨G', b1, -, b3⟩ := C53_multByConst_exact hr hD hD.shape le_rfl hl (a := f64Round (f64Div R (H out).scale)) (b := 0)
    (by rw [abs_lt]; omega) (by norm_num) (c := .float (f64Round (f64Div R (H out).scale))) (by simp [Constant.parts])
  obtain rfl : G = G' := Option.some.inj (a1.symm.trans b1)
  have hG : CtIs n ev.ringQ level ev.ringQ.qs deg ((G.setScale out R) out)
      (fun i u => (f64Round (f64Div R (H out).scale) : Rq (2 ^ n) _) * z i u) := by
    rw [Heap.setScale_self]
    have := b3.scale R
    simpa only [gauss_int] using this
  have fr : ∀ b ≠ out, (G.setScale out R) b = H b := fun b hb => by
    rw [Heap.setScale_ne _ _ _ _ hb, a2 b hb, hfr b hb]
  have dg : ∀ b d l, CtShape d l (H b) → ((G.setScale out R) b).degree = d := fun b d l hb => by
    by_cases e : b = out
    · subst e
      rw [hG.shape.degree]
      exact ho.shape.degree.symm.trans hb.degree
    · rw [fr b e, hb.degree]
  refine ⟨G.setScale out R, fr, by rw [Heap.setScale_self], hG, fun relin => ?_⟩
  unfold Evaluator.mulRelinAndAdd
  rw [mulPrepare_eq h0 h1 ho.shape hd hd0 hd1 hdeg, ← hlev, Option.bind_some]
  dsimp only
  rw [sc, sc, sc, ← hR, if_pos hsc, a1, Option.map_some, Option.bind_some, dg op0 d0 l0 h0, dg op1 d1 l1 h1]

/-- **C35 (receiver of smaller scale).** If neither operand is the receiver and the product of the scales is at most `2^50`
times its scale, the receiver is first multiplied by an integer `K`, the rounded quotient of the scales, and labelled with the
product of the scales; the rest is what `mulRelinAndAdd` does to such a receiver, so that the other theorems of C35 apply. -/
theorem C35_scaleUp
    (h0 : CtShape d0 l0 (H op0)) (h1 : CtShape d1 l1 (H op1)) (ho : CtIs n ev.ringQ lo A deg (H out) z) (hd : d0 + d1 ≠ 0)
    (hd0 : d0 ≤ 1) (hd1 : d1 ≤ 1) (hdeg : max d0 d1 ≤ deg) (hlev : level = min (min l0 l1) lo)
    (hl : level < ev.ringQ.subs.length) (hs : 0 < (H out).scale) {R : ℚ} (hR : R = f64 ((H op0).scale * (H op1).scale))
    (hsc : (H out).scale < R) (hmax : R ≤ 2 ^ 50 * (H out).scale) (n0 : op0 ≠ out) (n1 : op1 ≠ out) :
    ∃ (K : ℤ) (H1 : Heap), |(K : ℚ) - R / (H out).scale| ≤ 1 / 2 + R / (H out).scale / 2 ^ 53 ∧
      (∀ k : ℕ, R = k * (H out).scale → K = k) ∧ (∀ b ≠ out, H1 b = H b) ∧ (H1 out).scale = R ∧
      CtIs n ev.ringQ level ev.ringQ.qs deg (H1 out) (fun i u => (K : Rq (2 ^ n) _) * z i u) ∧
      ∀ relin, ev.mulRelinAndAdd H op0 op1 relin out = ev.mulRelinAndAdd H1 op0 op1 relin out := by
  obtain ⟨h, a1, a2, a3, a4⟩ := mulRelinAndAdd_scaled hr h0 h1 ho hd hd0 hd1 hdeg hlev hl hs hR hsc hmax
  refine ⟨_, h, (f64Round_spec hs hsc hmax).2.2, fun k hk => ?_, a1, a2, a3, fun relin => ?_⟩
  · have hk2 : k ≤ 2 ^ 52 := by
      rw [hk] at hmax
      have := le_of_mul_le_mul_right hmax hs
      have : k ≤ 2 ^ 50 := by exact_mod_cast this
      omega
    have : f64Div R (H out).scale = k := by
      rw [hk, f64Div, mul_div_cancel_right₀ _ hs.ne', f64_nat hk2]
    rw [this]
    unfold f64Round
    rw [Int.floor_eq_iff]
    constructor <;> push_cast <;> linarith
  · have e : h.set out ((h out).dropTo level) = h := by
      funext b
      by_cases e : b = out
      · subst e
        rw [Heap.set_self, Ct.dropTo, if_neg]
        rw [a3.shape.level]
        omega
      · rw [Heap.set_ne _ _ _ _ e]
    rw [a4 relin, mulRelinAndAdd_prepare (H := h) (level := level) (by rw [a1 _ n0]; exact h0) (by rw [a1 _ n1]; exact h1) a3.shape
      hd hd0 hd1 hdeg (by omega) (by rw [a1 _ n0, a1 _ n1, a2, hR]), e]

/-- **C35 (plaintext times ciphertext, receiver of smaller scale).** In either order: the result is labelled with the product
of the scales and decrypts to `K m` plus the product, `K` the rounded quotient of the scales. -/
theorem C35_mulPtAndAdd_scaleUp (h0 : CtIs n ev.ringQ l0 A 0 (H op0) x) (h1 : CtIs n ev.ringQ l1 B 1 (H op1) y)
    {s m : ∀ u, Rq (2 ^ n) (ev.ringQ.qs u)} {C : ℕ → ℕ}
    (ho : CtEnc n ev.ringQ lo C deg (H out) s m) (hdeg : 1 ≤ deg) (hlev : level = min (min l0 l1) lo)
    (hl : level < ev.ringQ.subs.length) (hs : 0 < (H out).scale) {R : ℚ} (hR : R = f64 ((H op0).scale * (H op1).scale))
    (hsc : (H out).scale < R) (hmax : R ≤ 2 ^ 50 * (H out).scale) (n0 : op0 ≠ out) (n1 : op1 ≠ out) (relin swap : Bool) :
    ∃ (K : ℤ) (H' : Heap), |(K : ℚ) - R / (H out).scale| ≤ 1 / 2 + R / (H out).scale / 2 ^ 53 ∧
      (∀ k : ℕ, R = k * (H out).scale → K = k) ∧
      ev.mulRelinAndAdd H (if swap then op1 else op0) (if swap then op0 else op1) relin out = some H' ∧
      (∀ b ≠ out, H' b = H b) ∧ (H' out).scale = R ∧
      CtEnc n ev.ringQ level ev.ringQ.qs deg (H' out) s (fun u => (K : Rq (2 ^ n) _) * m u + x 0 u * (y 0 u + y 1 u * s u)) := by
  obtain ⟨z, hz, hm⟩ := ho
  have key : ∃ (K : ℤ) (H1 : Heap), |(K : ℚ) - R / (H out).scale| ≤ 1 / 2 + R / (H out).scale / 2 ^ 53 ∧
      (∀ k : ℕ, R = k * (H out).scale → K = k) ∧ (∀ b ≠ out, H1 b = H b) ∧ (H1 out).scale = R ∧
      CtIs n ev.ringQ level ev.ringQ.qs deg (H1 out) (fun i u => (K : Rq (2 ^ n) _) * z i u) ∧
      ev.mulRelinAndAdd H (if swap then op1 else op0) (if swap then op0 else op1) relin out
        = ev.mulRelinAndAdd H1 (if swap then op1 else op0) (if swap then op0 else op1) relin out := by
    cases swap
    · obtain ⟨K, H1, b1, b2, b3, b4, b5, b6⟩ := C35_scaleUp hr h0.shape h1.shape hz (by omega) (by omega) le_rfl (by omega) hlev
        hl hs hR hsc hmax n0 n1
      exact ⟨K, H1, b1, b2, b3, b4, b5, b6 relin⟩
    · obtain ⟨K, H1, b1, b2, b3, b4, b5, b6⟩ := C35_scaleUp (level := level) hr h1.shape h0.shape hz (by omega) le_rfl (by omega)
        (by omega) (by omega) hl hs (by rw [mul_comm]; exact hR) hsc hmax n1 n0
      exact ⟨K, H1, b1, b2, b3, b4, b5, b6 relin⟩
  obtain ⟨K, H1, b1, b2, b3, b4, b5, b6⟩ := key
  obtain ⟨H', c1, c2, c3, c4⟩ := C35_mulPtAndAdd (H := H1) hr (by rw [b3 _ n0]; exact h0) (by rw [b3 _ n1]; exact h1)
    (CtIs.enc_mul b5 (show level ≤ lo by omega) hm) hdeg (show level = min (min l0 l1) level by omega) hl
    (by rw [b3 _ n0, b3 _ n1, b4, hR]) relin swap
  exact ⟨K, H', b1, b2, b6.trans c1, fun b hb => (c2 b hb).trans (b3 b hb), c3.trans b4, c4⟩

/-- **C35 (partial: two ciphertexts with equal cross terms, receiver of smaller scale).** -/
theorem C35_mulRelinAndAdd_scaleUp_partial {rP : Ring} (hks : ev.ks = newKeySwitcher ev.ringQ rP) {rlk : SwitchingKey}
    (hrlk : ev.rlk = some rlk) {S : ℕ → ℤ} {e : ℕ → ℕ → ℤ} (hsw : Switches n ev.ringQ rP level rlk (negPow (2 ^ n) S 2) S e)
    (h0 : CtIs n ev.ringQ l0 A 1 (H op0) x) (h1 : CtIs n ev.ringQ l1 B 1 (H op1) y)
    (hxy : ∀ u ≤ level, x 0 u * y 1 u = x 1 u * y 0 u) {C : ℕ → ℕ}
    {m : ∀ u, Rq (2 ^ n) (ev.ringQ.qs u)} (ho : CtEnc n ev.ringQ lo C deg (H out) (fun u => intR _ _ S) m)
    (hdeg : 1 ≤ deg) (hlev : level = min (min l0 l1) lo) (hl : level < ev.ringQ.subs.length)
    (hs : 0 < (H out).scale) {R : ℚ} (hR : R = f64 ((H op0).scale * (H op1).scale))
    (hsc : (H out).scale < R) (hmax : R ≤ 2 ^ 50 * (H out).scale) (n0 : op0 ≠ out) (n1 : op1 ≠ out) :
    ∃ (K : ℤ) (H' : Heap), |(K : ℚ) - R / (H out).scale| ≤ 1 / 2 + R / (H out).scale / 2 ^ 53 ∧
      (∀ k : ℕ, R = k * (H out).scale → K = k) ∧ ev.mulRelinAndAdd H op0 op1 true out = some H' ∧ (∀ b ≠ out, H' b = H b) ∧
      (H' out).scale = R ∧ ∃ d0 d1 E,
      KeySwitched n ev.ringQ rP level (rP.subs.length - 1) (fun u => x 1 u * y 1 u) d0 d1 (negPow (2 ^ n) S 2) S e E ∧
      CtEnc n ev.ringQ level ev.ringQ.qs deg (H' out) (fun u => intR _ _ S) (fun u => (K : Rq (2 ^ n) _) * m u +
        (x 0 u + x 1 u * intR _ _ S) * (y 0 u + y 1 u * intR _ _ S) + intR _ _ E) := by
  obtain ⟨z, hz, hm⟩ := ho
  obtain ⟨K, H1, b1, b2, b3, b4, b5, b6⟩ := C35_scaleUp hr h0.shape h1.shape hz (by omega) le_rfl le_rfl (by omega) hlev
    hl hs hR hsc hmax n0 n1
  obtain ⟨H', c1, c2, c3, c4⟩ := C35_mulRelinAndAdd_partial (H := H1) hr hks hrlk hsw (by rw [b3 _ n0]; exact h0)
    (by rw [b3 _ n1]; exact h1) hxy (CtIs.enc_mul b5 (show level ≤ lo by omega) hm) hdeg (fun h => n0 h.1)
    (show level = min (min l0 l1) level by omega) hl (by rw [b3 _ n0, b3 _ n1, b4, hR])
  exact ⟨K, H', b1, b2, (b6 true).trans c1, fun b hb => (c2 b hb).trans (b3 b hb), c3.trans b4, c4⟩

/-- **C35 (partial: no relinearization, receiver of smaller scale).** -/
theorem C35_mulAndAdd_scaleUp_partial (h0 : CtIs n ev.ringQ l0 A 1 (H op0) x) (h1 : CtIs n ev.ringQ l1 B 1 (H op1) y)
    (hxy : ∀ u ≤ level, x 0 u * y 1 u = x 1 u * y 0 u) {s m : ∀ u, Rq (2 ^ n) (ev.ringQ.qs u)} {C : ℕ → ℕ}
    (ho : CtEnc n ev.ringQ lo C deg (H out) s m) (hdeg : 1 ≤ deg) (hlev : level = min (min l0 l1) lo)
    (hl : level < ev.ringQ.subs.length) (hs : 0 < (H out).scale) {R : ℚ} (hR : R = f64 ((H op0).scale * (H op1).scale))
    (hsc : (H out).scale < R) (hmax : R ≤ 2 ^ 50 * (H out).scale) (n0 : op0 ≠ out) (n1 : op1 ≠ out) :
    ∃ (K : ℤ) (H' : Heap), |(K : ℚ) - R / (H out).scale| ≤ 1 / 2 + R / (H out).scale / 2 ^ 53 ∧
      (∀ k : ℕ, R = k * (H out).scale → K = k) ∧ ev.mulRelinAndAdd H op0 op1 false out = some H' ∧
      (∀ b ≠ out, H' b = H b) ∧ (H' out).scale = R ∧
      CtEnc n ev.ringQ level ev.ringQ.qs (max deg 2) (H' out) s (fun u => (K : Rq (2 ^ n) _) * m u +
        (x 0 u + x 1 u * s u) * (y 0 u + y 1 u * s u)) := by
  obtain ⟨z, hz, hm⟩ := ho
  obtain ⟨K, H1, b1, b2, b3, b4, b5, b6⟩ := C35_scaleUp hr h0.shape h1.shape hz (by omega) le_rfl le_rfl (by omega) hlev
    hl hs hR hsc hmax n0 n1
  obtain ⟨H', c1, c2, c3, c4⟩ := C35_mulAndAdd_partial (H := H1) hr (by rw [b3 _ n0]; exact h0)
    (by rw [b3 _ n1]; exact h1) hxy (CtIs.enc_mul b5 (show level ≤ lo by omega) hm) hdeg (fun h => n0 h.1)
    (show level = min (min l0 l1) level by omega) hl (by rw [b3 _ n0, b3 _ n1, b4, hR])
  exact ⟨K, H', b1, b2, (b6 false).trans c1, fun b hb => (c2 b hb).trans (b3 b hb), c3.trans b4, c4⟩

/-- **C35 (the receiver is the ciphertext operand, of smaller scale: what the code computes).** The operand is scaled up as
well: the result is `K (m + x0 m)`, labelled with the product of the scales. -/
theorem C35_alias_computes (h0 : CtIs n ev.ringQ l0 A 0 (H op0) x)
    {s m : ∀ u, Rq (2 ^ n) (ev.ringQ.qs u)} {C : ℕ → ℕ}
    (ho : CtEnc n ev.ringQ lo C 1 (H out) s m) (hlev : level = min l0 lo)
    (hl : level < ev.ringQ.subs.length) (hs : 0 < (H out).scale) {R : ℚ} (hR : R = f64 ((H op0).scale * (H out).scale))
    (hsc : (H out).scale < R) (hmax : R ≤ 2 ^ 50 * (H out).scale) (n0 : op0 ≠ out) (relin : Bool) :
    ∃ H', ev.mulRelinAndAdd H op0 out relin out = some H' ∧ (H' out).scale = R ∧
      CtEnc n ev.ringQ level ev.ringQ.qs 1 (H' out) s
        (fun u => (f64Round (f64Div R (H out).scale) : Rq (2 ^ n) _) * (m u + x 0 u * m u)) := by
  obtain ⟨z, hz, hm⟩ := ho
  obtain ⟨h, a1, a2, a3, a4⟩ := mulRelinAndAdd_scaled (level := level) hr h0.shape hz.shape hz (by omega) (by omega) le_rfl
    (by omega) (by omega) hl hs hR hsc hmax
  obtain ⟨g1, -, g3⟩ := mulPtAndAdd_is (pt := op0) (ct := out) (out := out) hr hl
    (show EltIs n ev.ringQ level A true (h.rows op0 0) (x 0) by
      show EltIs n ev.ringQ level A true ((h op0).rows 0) (x 0)
      rw [a1 _ n0]
      exact (h0.elt 0 le_rfl).below (by omega))
    (fun i hi => a3.elt i hi) a3 le_rfl
  refine ⟨_, (a4 relin).trans ?_, g1.trans a2, _, g3, fun u hu => ?_⟩
  · simp
  · dsimp only
    rw [← hm u (by omega)]
    simp [sum_range_succ]
    ring

end

/-- **C35 (violated: the receiver is an operand).** Degree 16, moduli 97, 193, 641.  Adding to the ciphertext 4 at scale 2 its
product by the plaintext 4 at scale 2: the result is labelled with scale 4 and decrypts to 40 instead of `2·4 + 4·4 = 24`. -/
theorem C35_alias_violated : ∃ (ev : Evaluator) (H H' : Heap), ev.ringQ.Valid 4 ∧ (H 0).scale = 2 ∧ (H 1).scale = 2 ∧
    CtIs 4 ev.ringQ 2 ev.ringQ.qs 0 (H 0) (fun _ _ => (4 : ℕ)) ∧
    (∀ s, CtEnc 4 ev.ringQ 2 ev.ringQ.qs 1 (H 1) s (fun _ => (4 : ℕ))) ∧ ev.mulRelinAndAdd H 0 1 false 1 = some H' ∧
    (H' 1).scale = 4 ∧ (∀ s, CtEnc 4 ev.ringQ 2 ev.ringQ.qs 1 (H' 1) s (fun _ => (40 : ℕ))) ∧
    ∀ s A, ¬ CtEnc 4 ev.ringQ 2 A 1 (H' 1) s (fun _ => (2 * 4 + 4 * 4 : ℕ)) := by
  obtain ⟨ev, hQ, -, l3, q0, q1, q2⟩ := exampleEv
  have c1 := fun s => exampleConst hQ l3 q0 q1 q2 2 4 (by decide) s
  have c0 := constCt_is hQ (show 2 < ev.ringQ.subs.length by omega) 2 (cs := [4]) (by simp) (fun c hc u hu => by
    rw [List.mem_singleton.1 hc]
    have : UInt64.toNat 4 = 4 := rfl
    interval_cases u <;> omega)
  have c0' : CtIs 4 ev.ringQ 2 ev.ringQ.qs 0 (constCt 2 [4]) (fun _ _ => (4 : ℕ)) :=
    ⟨c0.shape, fun i hi => (c0.elt i hi).congr fun u _ => by
      obtain rfl : i = 0 := by omega
      rfl⟩
  let H : Heap := fun a => if a = 0 then constCt 2 [4] else constCt 2 [4, 0]
  have eR : f64 ((H 0).scale * (H 1).scale) = 4 := by
    show f64 ((2 : ℚ) * 2) = 4
    decide +kernel
  have eK : f64Round (f64Div 4 (H 1).scale) = 2 := by
    show f64Round (f64Div 4 2) = 2
    decide +kernel
  have e1 : (H 1).scale = 2 := rfl
  have key := fun s => C35_alias_computes (H := H) (op0 := 0) (out := 1) (level := 2) (R := 4) hQ c0' (c1 s) rfl (by omega)
    (by rw [e1]; norm_num) eR.symm (by rw [e1]; norm_num) (by rw [e1]; norm_num) (by decide) false
  obtain ⟨H', a1, a2, -⟩ := key 0
  have res : ∀ s, CtEnc 4 ev.ringQ 2 ev.ringQ.qs 1 (H' 1) s (fun _ => (40 : ℕ)) := fun s => by
    obtain ⟨H'', b1, -, b3⟩ := key s
    obtain rfl : H' = H'' := Option.some.inj (a1.symm.trans b1)
    rw [eK] at b3
    have e : ∀ u, ((2 : ℤ) : Rq (2 ^ 4) (ev.ringQ.qs u)) * (((UInt64.toNat 4 : ℕ) : Rq (2 ^ 4) (ev.ringQ.qs u)) +
        ((4 : ℕ) : Rq (2 ^ 4) (ev.ringQ.qs u)) * ((UInt64.toNat 4 : ℕ) : Rq (2 ^ 4) (ev.ringQ.qs u))) = (40 : ℕ) := by
      intro u
      rw [show UInt64.toNat 4 = 4 from rfl]
      push_cast
      norm_num
    simp only [e] at b3
    exact b3
  refine ⟨ev, H, H', hQ, rfl, rfl, c0', c1, a1, a2, res, fun s A hA => ?_⟩
  have e := CtEnc.unique hA (res s) (u := 0) (by omega)
  have := natCast_rq_inj hQ (show 0 < ev.ringQ.subs.length by omega) e
  rw [q0] at this
  revert this
  decide

/-- instance: the ciphertext 4 at scale 2 added, times the plaintext 4 at scale 2, to the ciphertext 5 at scale 1: 4·5 + 16 -/
example : ∃ (ev : Evaluator) (H H' : Heap), ev.ringQ.Valid 4 ∧ (H 2).scale = 1 ∧ ev.mulRelinAndAdd H 0 1 false 2 = some H' ∧
    (H' 2).scale = 4 ∧ ∃ s, CtEnc 4 ev.ringQ 2 ev.ringQ.qs 1 (H' 2) s (fun _ => (36 : ℕ)) := by
  obtain ⟨ev, hQ, -, l3, q0, q1, q2⟩ := exampleEv
  have hlt : ∀ c : UInt64, c ≤ 7 → ∀ u ≤ 2, c.toNat < ev.ringQ.qs u := fun c hc u hu => by
    have : c.toNat ≤ 7 := hc
    interval_cases u <;> omega
  have c0 := constCt_is hQ (show 2 < ev.ringQ.subs.length by omega) 2 (cs := [4]) (by simp)
    (fun c hc => hlt c (by revert c; decide))
  have c1 := constCt_is hQ (show 2 < ev.ringQ.subs.length by omega) 2 (cs := [4, 0]) (by simp)
    (fun c hc => hlt c (by revert c; decide))
  have c2 := exampleConst hQ l3 q0 q1 q2 1 5 (by decide) 0
  let H : Heap := fun a => if a = 0 then constCt 2 [4] else if a = 1 then constCt 2 [4, 0] else constCt 1 [5, 0]
  have eR : f64 ((H 0).scale * (H 1).scale) = 4 := by
    show f64 ((2 : ℚ) * 2) = 4
    decide +kernel
  have e2 : (H 2).scale = 1 := rfl
  obtain ⟨K, H', b1, b2, b3, b4, b5, b6⟩ := C35_mulPtAndAdd_scaleUp (H := H) (op0 := 0) (op1 := 1) (out := 2) (level := 2)
    (R := 4) hQ c0 c1 c2 le_rfl rfl (by omega) (by rw [e2]; norm_num) eR.symm (by rw [e2]; norm_num) (by rw [e2]; norm_num)
    (by decide) (by decide) false false
  obtain rfl := b2 4 (by rw [e2]; norm_num)
  refine ⟨ev, H, H', hQ, rfl, b3, b5, 0, ?_⟩
  obtain ⟨w, hw, ew⟩ := b6
  refine ⟨w, hw, fun u hu => (ew u hu).trans ?_⟩
  simp
  norm_num

end FastKsw.Props
