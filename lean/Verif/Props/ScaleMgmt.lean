import Verif.Props.FusedMul
import Verif.Props.Rescale

/-!
# C78: `ScaleUp` and `SetScale` change the scale and keep the value
-/

namespace FastKsw.Props

open FastKsw Finset

section
variable {n : ℕ} {ev : Evaluator} (hr : ev.ringQ.Valid n) {A : ℕ → ℕ} {H : Heap} {ct0 out : Ref}
  {deg level lo : ℕ} {s m : ∀ u, Rq (2 ^ n) (ev.ringQ.qs u)}
include hr

/-- **C78 (`ScaleUp`, what it does).** The ciphertext is multiplied by the integer part of the factor, its scale by the
factor.  The receiver may be the operand. -/
theorem C78_scaleUp_value (h0 : CtEnc n ev.ringQ level A deg (H ct0) s m) (ho : CtShape deg lo (H out)) (hlo : lo ≤ level)
    (hl : lo < ev.ringQ.subs.length) (hf : f64 (H ct0).scale = (H ct0).scale) {f : ℚ} (h1 : 0 ≤ f) (h2 : f < 2 ^ 51) :
    ∃ H', ev.scaleUp H ct0 f out = some H' ∧ (∀ b ≠ out, H' b = H b) ∧ (H' out).scale = f64 ((H ct0).scale * f) ∧
      CtEnc n ev.ringQ lo ev.ringQ.qs deg (H' out) s (fun u => (⌊f⌋ : Rq (2 ^ n) _) * m u) := by
  obtain ⟨x, hx, hm⟩ := h0
  have hk : ⌊f⌋ < 2 ^ 51 := by rw [Int.floor_lt]; exact_mod_cast h2
  have hk0 : 0 ≤ ⌊f⌋ := Int.floor_nonneg.2 h1
  have ef : f64 (⌊f⌋ : ℚ) = ⌊f⌋ := by
    obtain ⟨k, hk'⟩ := Int.eq_ofNat_of_zero_le hk0
    rw [hk']
    have := f64_nat_mul (m := k) (by omega) 0
    simpa using this
  obtain ⟨G, sc, a1, a2, -⟩ := C53_multByConst hr hx ho hlo hl (.int ⌊f⌋)
  obtain ⟨G', b1, b2, b3⟩ := C53_multByConst_exact hr hx ho hlo hl (a := ⌊f⌋) (b := 0)
    (by rw [abs_lt]; omega) (by norm_num) (c := .int ⌊f⌋) (by simp [Constant.parts, ef])
  obtain rfl : G = G' := Option.some.inj (a1.symm.trans b1)
  have es : (G ct0).scale = (H ct0).scale := by
    by_cases e : ct0 = out
    · subst e; rw [b2, hf]
    · rw [a2 _ e]
  unfold Evaluator.scaleUp f64ToUInt64
  rw [a1, Option.map_some]
  refine ⟨_, rfl, fun b hb => (Heap.setScale_ne _ _ _ _ hb).trans (a2 b hb), ?_, ?_⟩
  · rw [Heap.setScale_self, es]
  · rw [Heap.setScale_self]
    have := CtIs.enc_mul (g := fun u => gauss n (ev.ringQ.qs u) ⌊f⌋ 0) (b3.scale (f64 ((G ct0).scale * f))) hlo hm
    simpa only [gauss_int] using this

/-- **C78 (partial: `ScaleUp` by an integer below `2^51`).** Value and scale are multiplied by the same number. -/
theorem C78_scaleUp_partial (h0 : CtEnc n ev.ringQ level A deg (H ct0) s m) (ho : CtShape deg lo (H out)) (hlo : lo ≤ level)
    (hl : lo < ev.ringQ.subs.length) (hf : f64 (H ct0).scale = (H ct0).scale) {k : ℕ} (hk : k < 2 ^ 51) :
    ∃ H', ev.scaleUp H ct0 k out = some H' ∧ (∀ b ≠ out, H' b = H b) ∧ (H' out).scale = f64 ((H ct0).scale * k) ∧
      CtEnc n ev.ringQ lo ev.ringQ.qs deg (H' out) s (fun u => (k : Rq (2 ^ n) _) * m u) := by
  obtain ⟨H', a1, a2, a3, a4⟩ := C78_scaleUp_value hr h0 ho hlo hl hf (f := k) (by positivity) (by exact_mod_cast hk)
  exact ⟨H', a1, a2, a3, by simpa using a4⟩

/-- **C78 (`SetScale`, what it does).** `σ` is the scale of the ciphertext and `c = scale/σ` the constant, `sc` the scale of
the constant, `nb` the number of moduli the inner `Rescale` divides by, `P` their product.  The decryption is multiplied by
the fixed-point constant and divided by `P` with rounding; the scale becomes `scale` in any case. -/
theorem C78_setScale_value (sr : ev.ringQ.Small) (hl : level < ev.ringQ.subs.length) (hlev : 0 < level) {ct : Ref}
    (h0 : CtEnc n ev.ringQ level A deg (H ct) s m) (hs : 0 < (H ct).scale)
    {scale : ℚ} (hm : 0 < scale) :
    ∃ sc, sc = (getConstAndScale ev.ringQ level (.float (f64Div scale (H ct).scale))).2.2 ∧
      (sc = 1 ∨ sc = f64OfNat (ev.ringQ.qs level)) ∧
      (scaleAfter ev.ringQ level (f64 ((H ct).scale * sc)) (level + 1) < f64Div scale 2 →
      ∃ nb ≤ level, (∀ j, 0 < j → (f64Div scale 2 ≤ scaleAfter ev.ringQ level (f64 ((H ct).scale * sc)) j ↔ j ≤ nb)) ∧
      ∃ (H' : Heap) (m' : ∀ u, Rq (2 ^ n) (ev.ringQ.qs u)) (δ : ℕ → ℕ → ℤ), ev.setScale H ct scale = some H' ∧
        (∀ b ≠ ct, H' b = H b) ∧ (H' ct).scale = scale ∧
        CtEnc n ev.ringQ (level - nb) (fun u => 2 * ev.ringQ.qs u) deg (H' ct) s m' ∧
        (∀ u ≤ level - nb, (topQ ev.ringQ level nb : Rq (2 ^ n) (ev.ringQ.qs u)) * m' u
          = (fixedPoint (f64Div scale (H ct).scale) sc : Rq (2 ^ n) _) * m u +
            ∑ i ∈ range (deg + 1), intR (2 ^ n) (ev.ringQ.qs u) (δ i) * s u ^ i) ∧
        ∀ i k, 2 * |δ i k| ≤ topQ ev.ringQ level nb) := by
  obtain ⟨x, hx, ex⟩ := h0
  obtain ⟨sc, e, hsc, -⟩ := getConstAndScale_spec hr level (.float (f64Div scale (H ct).scale))
  refine ⟨sc, by rw [e], hsc, fun hlast => ?_⟩
  have sc0 : 0 < sc := by
    rcases hsc with rfl | rfl
    · norm_num
    · exact f64_pos (by exact_mod_cast (hr.subAt hl).prime.pos)
  obtain ⟨G, sc', a1, a2, a3, -, -, a4, esc⟩ := multByConst_is hr hx hx.shape le_rfl hl (.float (f64Div scale (H ct).scale))
  rw [e] at esc
  subst esc
  have hc := CtIs.enc_mul a4 le_rfl ex
  have hc' := hc.mono (B := fun u => 2 * ev.ringQ.qs u) fun u _ => by omega
  obtain ⟨nb, b1, b2, G', m', δ, b3, b4, b5, b6, b7, b8⟩ := C37_rescale_partial hr sr hl hc' a4.shape hm
    (by rw [a3]; exact f64_pos (mul_pos hs sc0)) (by rw [a3, f64_idem _ (mul_pos hs sc0)]) hlev (by rw [a3]; exact hlast)
  refine ⟨nb, b1, fun j hj => by rw [← a3]; exact b2 j hj, G'.setScale ct scale, m', δ, ?_, fun b hb => ?_, ?_, ?_, ?_, b8⟩
  · unfold Evaluator.setScale
    rw [a1, Option.bind_some, b3]
  · rw [Heap.setScale_ne _ _ _ _ hb, b4 b hb, a2 b hb]
  · rw [Heap.setScale_self]
  · obtain ⟨z, hz, ez⟩ := b6
    exact ⟨z, by rw [Heap.setScale_self]; exact hz.scale _, ez⟩
  · intro u hu
    rw [b7 u hu]
    congr 2
    have e0 : fixedPoint 0 sc' = 0 := fixedPoint_zero _
    simp only [Constant.parts, e0, gauss_int]

/-- **C78 (partial: `SetScale` to an integer multiple below `2^51` of the scale).** The ciphertext is multiplied exactly; no
level is consumed. -/
theorem C78_setScale_int_partial (sr : ev.ringQ.Small) (hl : level < ev.ringQ.subs.length) (hlev : 0 < level) {ct : Ref}
    (h0 : CtEnc n ev.ringQ level A deg (H ct) s m) (hs : 0 < (H ct).scale) (hf : f64 (H ct).scale = (H ct).scale)
    {k : ℕ} (hk0 : 0 < k) (hk : k < 2 ^ 51) :
    ∃ H', ev.setScale H ct (k * (H ct).scale) = some H' ∧ (∀ b ≠ ct, H' b = H b) ∧ (H' ct).scale = k * (H ct).scale ∧
      CtEnc n ev.ringQ level (fun u => 2 * ev.ringQ.qs u) deg (H' ct) s (fun u => (k : Rq (2 ^ n) _) * m u) := by
  have hkq : (1 : ℚ) ≤ k := by exact_mod_cast hk0
  have hc : f64Div (k * (H ct).scale) (H ct).scale = k := by
    rw [f64Div, mul_div_cancel_right₀ _ hs.ne']
    have := f64_nat_mul (m := k) (by omega) 0
    simpa using this
  obtain ⟨sc, e, hsc, hv⟩ := C78_setScale_value hr sr hl hlev h0 hs (scale := k * (H ct).scale) (by positivity)
  rw [hc] at e hv
  have e1 : sc = 1 := by
    obtain ⟨sc', e', -, hi⟩ := getConstAndScale_spec hr level (.float k)
    rw [e'] at e
    dsimp only at e
    rw [e]
    refine (hi ?_ ?_).1 ⟨k, 0, by simp [Constant.parts]⟩
    · show |(k : ℚ)| ≤ 2 ^ 52
      rw [abs_of_nonneg (by positivity)]
      exact_mod_cast (by omega : k ≤ 2 ^ 52)
    · show |(0 : ℚ)| ≤ 2 ^ 52
      norm_num
  subst e1
  rw [mul_one, hf] at hv
  have hq : ∀ u ≤ level, 3 ≤ ev.ringQ.qs u := fun u hu => by
    have V := hr.subAt (show u < ev.ringQ.subs.length by omega)
    have := V.arith.one_lt
    have := V.arith.odd
    show 3 ≤ (ev.ringQ.sub u).q.toNat
    omega
  have first : scaleAfter ev.ringQ level (H ct).scale 1 < f64Div (k * (H ct).scale) 2 := by
    show f64 ((H ct).scale / f64 (ev.ringQ.qs (level - 0) : ℚ)) < f64 (k * (H ct).scale / 2)
    have q3 : (3 : ℚ) ≤ ev.ringQ.qs (level - 0) := by exact_mod_cast hq (level - 0) (by omega)
    have b1 := (f64_bounds (show (0 : ℚ) ≤ ev.ringQ.qs (level - 0) by linarith)).1
    have hu : uro = 1 / 2 ^ 53 := by norm_num [uro]
    have b2 : (14 / 5 : ℚ) ≤ f64 (ev.ringQ.qs (level - 0) : ℚ) := by
      refine le_trans ?_ b1
      calc (14 / 5 : ℚ) ≤ (1 - uro) * 3 := by rw [hu]; norm_num
        _ ≤ _ := mul_le_mul_of_nonneg_left q3 (by rw [hu]; norm_num)
    have b3 : (H ct).scale / f64 (ev.ringQ.qs (level - 0) : ℚ) ≤ (H ct).scale * (5 / 14) := by
      rw [div_le_iff₀ (by linarith)]
      have := mul_le_mul_of_nonneg_left b2 (show 0 ≤ (H ct).scale * (5 / 14) by positivity)
      linarith
    have b4 := (f64_bounds (show 0 ≤ (H ct).scale / f64 (ev.ringQ.qs (level - 0) : ℚ) from div_nonneg hs.le (by linarith))).2
    have b5 := (f64_bounds (show 0 ≤ k * (H ct).scale / 2 by positivity)).1
    have b6 : (H ct).scale ≤ k * (H ct).scale := le_mul_of_one_le_left hs.le hkq
    rw [hu] at b4 b5
    have b7 := b4.trans (mul_le_mul_of_nonneg_left b3 (show (0 : ℚ) ≤ 1 + 1 / 2 ^ 53 by norm_num))
    refine lt_of_le_of_lt b7 (lt_of_lt_of_le ?_ b5)
    linarith
  have hpos : ∀ u ≤ level, 0 < ev.ringQ.qs u := fun u hu => by have := hq u hu; omega
  obtain ⟨nb, c1, c2, H', m', δ, c3, c4, c5, c6, c7, c8⟩ :=
    hv (lt_of_le_of_lt (scaleAfter_anti hs hf hpos (show 1 ≤ level + 1 by omega)) first)
  obtain rfl : nb = 0 := by
    have := (c2 1 (by omega)).not.1 (not_le.2 first)
    omega
  refine ⟨H', c3, c4, c5, ?_⟩
  obtain ⟨x, hx, ex⟩ := c6
  refine ⟨x, hx, fun u hu => ?_⟩
  rw [ex u hu]
  have c7 := c7 u hu
  have hd : ∀ i k, δ i k = 0 := fun i k => by
    have := c8 i k
    have e0 : topQ ev.ringQ level 0 = 1 := by simp [topQ]
    rw [e0] at this
    have := abs_nonneg (δ i k)
    have h0 : |δ i k| = 0 := by omega
    exact abs_eq_zero.1 h0
  have hd' : ∀ i, δ i = fun _ => 0 := fun i => funext fun k => hd i k
  have hz : ∀ q, intR (2 ^ n) q (fun _ => 0) = 0 := fun q => by simp [intR, toR]
  have hfp : fixedPoint (k : ℚ) 1 = k := by
    have := fixedPoint_int (v := (k : ℤ)) (by rw [abs_lt]; omega)
    exact_mod_cast this
  simp only [topQ, range_zero, prod_empty, Nat.cast_one, one_mul, hd', hz, zero_mul, sum_const_zero, add_zero, hfp] at c7
  rw [c7]
  simp

/-- **C78 (partial: `SetScale` by a non-integer factor when the scale stays in the window in which the inner `Rescale`
divides exactly once).** `scale` is at most twice the present scale, which divided by the next modulus falls below
`scale/2`, both up to float64 errors.  Then `q·m' = v·m + ∑ δ_i s^i` with `q` the top modulus, `v` the integer nearest to
`scale/σ · q` up to float64 errors, and every coefficient of `δ_i` at most `q/2` in size. -/
theorem C78_setScale_frac_partial (sr : ev.ringQ.Small) (hl : level < ev.ringQ.subs.length) (hlev : 0 < level) {ct : Ref}
    (h0 : CtEnc n ev.ringQ level A deg (H ct) s m) (hs : 0 < (H ct).scale) {scale : ℚ} (hm : 0 < scale)
    (hc : f64Div scale (H ct).scale ≤ 2 ^ 52) (hni : ∀ z : ℤ, f64Div scale (H ct).scale ≠ z)
    (hlo : f64Div scale 2 ≤ scaleAfter ev.ringQ level (f64 ((H ct).scale * f64OfNat (ev.ringQ.qs level))) 1)
    (hhi : scaleAfter ev.ringQ level (f64 ((H ct).scale * f64OfNat (ev.ringQ.qs level))) 2 < f64Div scale 2) :
    ∃ (H' : Heap) (m' : ∀ u, Rq (2 ^ n) (ev.ringQ.qs u)) (δ : ℕ → ℕ → ℤ) (v : ℤ), ev.setScale H ct scale = some H' ∧
      (∀ b ≠ ct, H' b = H b) ∧ (H' ct).scale = scale ∧
      CtEnc n ev.ringQ (level - 1) (fun u => 2 * ev.ringQ.qs u) deg (H' ct) s m' ∧
      (∀ u ≤ level - 1, (ev.ringQ.qs level : Rq (2 ^ n) (ev.ringQ.qs u)) * m' u
          = (v : Rq (2 ^ n) _) * m u + ∑ i ∈ range (deg + 1), intR (2 ^ n) (ev.ringQ.qs u) (δ i) * s u ^ i) ∧
      (∀ i k, 2 * |δ i k| ≤ ev.ringQ.qs level) ∧
      |(v : ℚ) - f64OfNat (ev.ringQ.qs level) * f64Div scale (H ct).scale| ≤
        1 / 2 + 3 / 2 ^ 53 * (f64OfNat (ev.ringQ.qs level) * f64Div scale (H ct).scale + 1) := by
  have hc0 : 0 < f64Div scale (H ct).scale := f64_pos (div_pos hm hs)
  have hq : ∀ u ≤ level, 0 < ev.ringQ.qs u := fun u hu => (hr.subAt (show u < ev.ringQ.subs.length by omega)).prime.pos
  have hqL : 0 < f64OfNat (ev.ringQ.qs level) := f64_pos (by exact_mod_cast hq level le_rfl)
  obtain ⟨sc, e, -, hv⟩ := C78_setScale_value hr sr hl hlev h0 hs hm
  have e1 : sc = f64OfNat (ev.ringQ.qs level) := by
    obtain ⟨sc', e', -, hi⟩ := getConstAndScale_spec hr level (.float (f64Div scale (H ct).scale))
    rw [e'] at e
    dsimp only at e
    rw [e]
    refine (hi ?_ ?_).2 (fun a b h => hni a ?_) (fun z h => by simp at h)
    · show |f64Div scale (H ct).scale| ≤ 2 ^ 52
      rw [abs_of_pos hc0]; exact hc
    · show |(0 : ℚ)| ≤ 2 ^ 52
      norm_num
    · exact (Prod.mk.inj h).1
  subst e1
  have hS : 0 < f64 ((H ct).scale * f64OfNat (ev.ringQ.qs level)) := f64_pos (mul_pos hs hqL)
  obtain ⟨nb, c1, c2, H', m', δ, c3, c4, c5, c6, c7, c8⟩ := hv (lt_of_le_of_lt
    (scaleAfter_anti hS (f64_idem _ (mul_pos hs hqL)) hq (show 2 ≤ level + 1 by omega)) hhi)
  obtain rfl : nb = 1 := by
    have a := (c2 1 (by omega)).1 hlo
    have b := (c2 2 (by omega)).not.1 (not_le.2 hhi)
    omega
  have et : topQ ev.ringQ level 1 = ev.ringQ.qs level := by simp [topQ]
  rw [et] at c7 c8
  refine ⟨H', m', δ, _, c3, c4, c5, c6, c7, c8, ?_⟩
  have := C53_fixedPoint hr (f64Div scale (H ct).scale) (f64OfNat (ev.ringQ.qs level)) hqL.le
  rwa [abs_of_pos hc0] at this

end

/-- evaluator over the moduli 97, 193, 641 -/
theorem exampleEv : ∃ ev : Evaluator, ev.ringQ.Valid 4 ∧ ev.ringQ.Small ∧ ev.ringQ.subs.length = 3 ∧
    ev.ringQ.qs 0 = 97 ∧ ev.ringQ.qs 1 = 193 ∧ ev.ringQ.qs 2 = 641 := by
  obtain ⟨rQ, rP, sk, tape, K, m1, -, l3, -, hq, q0, -, -⟩ := exampleRings
  have q1 := sub_of_moduli m1 1 193 rfl
  have q2 := sub_of_moduli m1 2 641 rfl
  exact ⟨newEvaluator rQ rP none (fun _ => none) 7, K.rings.hQ, K.rings.sQ, l3, q0,
    by show (rQ.sub 1).q.toNat = 193; rw [q1]; rfl, by show (rQ.sub 2).q.toNat = 641; rw [q2]; rfl⟩

/-- a constant below 97 as a ciphertext -/
theorem exampleConst {ev : Evaluator} (hQ : ev.ringQ.Valid 4) (l3 : ev.ringQ.subs.length = 3) (q0 : ev.ringQ.qs 0 = 97)
    (q1 : ev.ringQ.qs 1 = 193) (q2 : ev.ringQ.qs 2 = 641) (scale : ℚ) (a : UInt64) (ha : a.toNat < 97)
    (s : ∀ u, Rq (2 ^ 4) (ev.ringQ.qs u)) :
    CtEnc 4 ev.ringQ 2 ev.ringQ.qs 1 (constCt scale [a, 0]) s (fun _ => (a.toNat : Rq (2 ^ 4) _)) := by
  have := constCt_enc hQ (show 2 < ev.ringQ.subs.length by omega) scale (a := a) (b := 0) (fun c hc u hu => by
    have hc' : c.toNat < 97 := by
      simp only [List.mem_cons, List.not_mem_nil, or_false] at hc
      rcases hc with rfl | rfl
      · exact ha
      · decide
    interval_cases u <;> omega) s
  simpa only [UInt64.toNat_zero, Nat.cast_zero, zero_mul, add_zero] using this

/-- **C78 (violated: `ScaleUp`).** The constant 4 at scale 2, scaled up by 5/2: the result decrypts to 8 at scale 5, not
to 10. -/
theorem C78_scaleUp_violated : ∃ (ev : Evaluator) (H H' : Heap), ev.ringQ.Valid 4 ∧ (H 0).scale = 2 ∧
    (∀ s, CtEnc 4 ev.ringQ 2 ev.ringQ.qs 1 (H 0) s (fun _ => (4 : ℕ))) ∧ ev.scaleUp H 0 (5 / 2) 0 = some H' ∧
    (H' 0).scale = 5 ∧ (∀ s, CtEnc 4 ev.ringQ 2 ev.ringQ.qs 1 (H' 0) s (fun _ => (8 : ℕ))) ∧
    ∀ s A, ¬ CtEnc 4 ev.ringQ 2 A 1 (H' 0) s (fun _ => (10 : ℕ)) := by
  obtain ⟨ev, hQ, -, l3, q0, q1, q2⟩ := exampleEv
  have c0 := fun s => exampleConst hQ l3 q0 q1 q2 2 4 (by decide) s
  have key := fun s => C78_scaleUp_value (H := fun _ => constCt 2 [4, 0]) (ct0 := 0) (out := 0) hQ (c0 s)
    (c0 s).choose_spec.1.shape le_rfl (by omega) (by show f64 2 = 2; decide +kernel) (f := 5 / 2) (by norm_num) (by norm_num)
  obtain ⟨H', a1, -, a3, -⟩ := key 0
  have ef : ⌊(5 / 2 : ℚ)⌋ = 2 := by norm_num [Int.floor_eq_iff]
  have res : ∀ s, CtEnc 4 ev.ringQ 2 ev.ringQ.qs 1 (H' 0) s (fun _ => (8 : ℕ)) := fun s => by
    obtain ⟨H'', b1, -, -, b4⟩ := key s
    obtain rfl : H' = H'' := Option.some.inj (a1.symm.trans b1)
    rw [ef] at b4
    have e : ∀ u, ((2 : ℤ) : Rq (2 ^ 4) (ev.ringQ.qs u)) * ((UInt64.toNat 4 : ℕ) : Rq (2 ^ 4) (ev.ringQ.qs u)) = (8 : ℕ) := by
      intro u
      rw [show UInt64.toNat 4 = 4 from rfl]
      push_cast
      norm_num
    simp only [e] at b4
    exact b4
  refine ⟨ev, _, H', hQ, rfl, c0, a1, a3.trans (by show f64 (2 * (5 / 2)) = 5; decide +kernel), res, fun s A hA => ?_⟩
  have e := CtEnc.unique hA (res s) (u := 0) (by omega)
  have := natCast_rq_inj hQ (show 0 < ev.ringQ.subs.length by omega) e
  rw [q0] at this
  revert this
  decide

/-- **C78 (violated: `SetScale`).** The constant 4 at scale 2, set to scale 5, top modulus 641: the factor 5/2 is encoded
with scale 641, the inner `Rescale` does not divide because 2 < 5/2, and the result decrypts to `1603·4` at scale 5, not
to 10. -/
theorem C78_setScale_violated : ∃ (ev : Evaluator) (H H' : Heap), ev.ringQ.Valid 4 ∧ (H 0).scale = 2 ∧
    (∀ s, CtEnc 4 ev.ringQ 2 ev.ringQ.qs 1 (H 0) s (fun _ => (4 : ℕ))) ∧ ev.setScale H 0 5 = some H' ∧ (H' 0).scale = 5 ∧
    (∀ s, CtEnc 4 ev.ringQ 2 (fun u => 2 * ev.ringQ.qs u) 1 (H' 0) s (fun _ => (1603 * 4 : ℕ))) ∧
    ∀ s A, ¬ CtEnc 4 ev.ringQ 2 A 1 (H' 0) s (fun _ => (10 : ℕ)) := by
  obtain ⟨ev, hQ, sQ, l3, q0, q1, q2⟩ := exampleEv
  have c0 := fun s => exampleConst hQ l3 q0 q1 q2 2 4 (by decide) s
  have hl : 2 < ev.ringQ.subs.length := by omega
  have hd : f64Div 5 2 = 5 / 2 := by decide +kernel
  have key := fun s => C78_setScale_value (H := fun _ => constCt 2 [4, 0]) (ct := 0) hQ sQ hl (by norm_num) (c0 s)
    (by show (0 : ℚ) < 2; norm_num) (scale := 5) (by norm_num)
  have eg : (getConstAndScale ev.ringQ 2 (.float (f64Div 5 2))).2.2 = 641 := by
    unfold getConstAndScale
    have : (ev.ringQ.sub 2).q.toNat = 641 := q2
    dsimp only
    rw [this]
    decide +kernel
  have s1 : scaleAfter ev.ringQ 2 (f64 (2 * 641)) 1 = 2 := by
    show f64Div (f64 (2 * 641)) (f64OfNat (ev.ringQ.qs 2)) = 2
    rw [q2]
    decide +kernel
  have first : scaleAfter ev.ringQ 2 (f64 (2 * 641)) 1 < f64Div 5 2 := by rw [s1, hd]; norm_num
  have hpos : ∀ u ≤ 2, 0 < ev.ringQ.qs u := fun u hu => by interval_cases u <;> omega
  have last : scaleAfter ev.ringQ 2 (f64 (2 * 641)) (2 + 1) < f64Div 5 2 :=
    lt_of_le_of_lt (scaleAfter_anti (f64_pos (by norm_num)) (f64_idem _ (by norm_num)) hpos (by norm_num)) first
  have run : ∀ s, ∃ H', ev.setScale (fun _ => constCt 2 [4, 0]) 0 5 = some H' ∧ (H' 0).scale = 5 ∧
      CtEnc 4 ev.ringQ 2 (fun u => 2 * ev.ringQ.qs u) 1 (H' 0) s (fun _ => (1603 * 4 : ℕ)) := by
    intro s
    obtain ⟨sc, e, -, hv⟩ := key s
    have e' : sc = 641 := e.trans eg
    subst e'
    obtain ⟨nb, b1, b2, H', m', δ, b3, -, b5, ⟨x, hx, ex⟩, b7, b8⟩ := hv last
    obtain rfl : nb = 0 := by
      have := (b2 1 (by omega)).not.1 (not_le.2 first)
      omega
    refine ⟨H', b3, b5, x, hx, fun u hu => ?_⟩
    rw [ex u hu]
    have c7 := b7 u hu
    have hd : ∀ i, δ i = fun _ => 0 := fun i => funext fun k => by
      have := b8 i k
      have e0 : topQ ev.ringQ 2 0 = 1 := by simp [topQ]
      rw [e0] at this
      have := abs_nonneg (δ i k)
      have h0 : |δ i k| = 0 := by omega
      exact abs_eq_zero.1 h0
    have hz : ∀ q, intR (2 ^ 4) q (fun _ => 0) = 0 := fun q => by simp [intR, toR]
    have hfp : fixedPoint (f64Div 5 (constCt 2 [4, 0]).scale) 641 = 1603 := by
      show fixedPoint (f64Div 5 2) 641 = 1603
      decide +kernel
    rw [hfp] at c7
    simp only [topQ, range_zero, prod_empty, Nat.cast_one, one_mul, hd, hz, zero_mul, sum_const_zero, add_zero] at c7
    rw [c7, show UInt64.toNat 4 = 4 from rfl]
    push_cast
    norm_num
  obtain ⟨H', a1, a2, -⟩ := run 0
  have res : ∀ s, CtEnc 4 ev.ringQ 2 (fun u => 2 * ev.ringQ.qs u) 1 (H' 0) s (fun _ => (1603 * 4 : ℕ)) := fun s => by
    obtain ⟨H'', b1, -, b3⟩ := run s
    obtain rfl : H' = H'' := Option.some.inj (a1.symm.trans b1)
    exact b3
  refine ⟨ev, _, H', hQ, rfl, c0, a1, a2, res, fun s A hA => ?_⟩
  have e := CtEnc.unique hA (res s) (u := 1) (by omega)
  have := natCast_rq_inj hQ (show 1 < ev.ringQ.subs.length by omega) e
  rw [q1] at this
  revert this
  decide

/-- instances of the partial theorems: the constant 4 at scale 2 set to scale 6; at scale 1000 set to scale 1500 -/
example : ∃ (ev : Evaluator) (H1 H2 : Heap) (m' : ∀ u, Rq (2 ^ 4) (ev.ringQ.qs u)), ev.ringQ.Valid 4 ∧
    ev.setScale (fun _ => constCt 2 [4, 0]) 0 ((3 : ℕ) * (constCt 2 [4, 0]).scale) = some H1 ∧
    CtEnc 4 ev.ringQ 2 (fun u => 2 * ev.ringQ.qs u) 1 (H1 0) 0 (fun _ => (3 : ℕ) * (UInt64.toNat 4 : ℕ)) ∧
    ev.setScale (fun _ => constCt 1000 [4, 0]) 0 1500 = some H2 ∧ (H2 0).scale = 1500 ∧
    CtEnc 4 ev.ringQ 1 (fun u => 2 * ev.ringQ.qs u) 1 (H2 0) 0 m' := by
  obtain ⟨ev, hQ, sQ, l3, q0, q1, q2⟩ := exampleEv
  have hl : 2 < ev.ringQ.subs.length := by omega
  obtain ⟨H1, a1, -, -, a4⟩ := C78_setScale_int_partial (H := fun _ => constCt 2 [4, 0]) (ct := 0) hQ sQ hl (by norm_num)
    (exampleConst hQ l3 q0 q1 q2 2 4 (by decide) 0) (by show (0 : ℚ) < 2; norm_num) (by show f64 2 = 2; decide +kernel)
    (k := 3) (by norm_num) (by norm_num)
  have hd : f64Div 1500 (constCt 1000 [4, 0]).scale = 3 / 2 := by show f64Div 1500 1000 = 3 / 2; decide +kernel
  obtain ⟨H2, m', δ, v, b1, -, b3, b4, -⟩ := C78_setScale_frac_partial (H := fun _ => constCt 1000 [4, 0]) (ct := 0) hQ sQ hl
    (by norm_num) (exampleConst hQ l3 q0 q1 q2 1000 4 (by decide) 0) (by show (0 : ℚ) < 1000; norm_num) (scale := 1500)
    (by norm_num) (by rw [hd]; norm_num)
    (by
      intro z h
      rw [hd] at h
      have : (3 : ℤ) = 2 * z := by
        have h' : (3 : ℚ) = 2 * z := by linarith
        exact_mod_cast h'
      omega)
    (by
      show f64Div 1500 2 ≤ f64Div (f64 (1000 * f64OfNat (ev.ringQ.qs 2))) (f64OfNat (ev.ringQ.qs 2))
      rw [q2]
      decide +kernel)
    (by
      show f64Div (f64Div (f64 (1000 * f64OfNat (ev.ringQ.qs 2))) (f64OfNat (ev.ringQ.qs 2))) (f64OfNat (ev.ringQ.qs 1))
        < f64Div 1500 2
      rw [q1, q2]
      decide +kernel)
  exact ⟨ev, H1, H2, m', hQ, a1, a4, b1, b3, b4⟩

end FastKsw.Props
