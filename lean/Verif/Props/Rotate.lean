import Verif.Lemmas.CkksPermute
import Verif.Props.Constants
import Verif.Lemmas.ConstCt

/-!
# C65: `Rotate` and `Conjugate` of `ckks` into another receiver; C36: in place

In place, `permuteNTT` first overwrites component 0 with the key-switched component 1 and then adds component 0: the original
component 0 is lost.
-/

namespace FastKsw.Props

open FastKsw Finset

section
variable {n : ℕ} {ev : Evaluator} {rP : Ring} (K : KeyParams n ev.ringQ rP) (h32 : rP.subs.length ≤ 32)
  (hks : ev.ks = newKeySwitcher ev.ringQ rP) {sk : PolyQP} {S : ℕ → ℤ}
  (hs : sk.IsMont n ev.ringQ rP (ev.ringQ.subs.length - 1) (rP.subs.length - 1) S)
  {tape : ℕ → KeyTape} {e : ℕ → ℕ → ℤ}
  (ht : TapeOK n ev.ringQ rP (ev.ringQ.subs.length - 1) (rP.subs.length - 1) tape e)
  {H : Heap} {ct0 out : Ref} {lin level : ℕ} {x : ℕ → ∀ u, Rq (2 ^ n) (ev.ringQ.qs u)}
  (hl : level < ev.ringQ.subs.length) (hov : DigitRoom ev.ringQ rP level (rP.subs.length - 1))
include K h32 hks hs ht hl hov

theorem permuteNTT_enc {g : UInt64} (go : g.toNat % 2 = 1)
    (hrtk : ev.rtks g = some (genSwitchingKeyForGalois ev.ringQ rP g sk tape))
    (h0 : CtIs n ev.ringQ lin (fun u => ev.ringQ.qs u + 1) 1 (H ct0) x) (ho : CtShape 1 level (H out)) (hne : ct0 ≠ out)
    (hlev : level ≤ lin) :
    ∃ H', ev.permuteNTT H ct0 g out = some H' ∧ (∀ b ≠ out, H' b = H b) ∧ (H' out).scale = (H out).scale ∧
      ∃ g', g' % 2 = 1 ∧ g' * g.toNat % (2 * 2 ^ n) = 1 ∧
      ∃ d0 d1 E, KeySwitched n ev.ringQ rP level (rP.subs.length - 1) (x 1) d0 d1 S (autInt (2 ^ n) g' S) e E ∧
      CtEnc n ev.ringQ level ev.ringQ.qs 1 (H' out) (fun u => intR _ _ S) (fun u =>
        aut (2 ^ n) (ev.ringQ.qs u) go (x 0 u + x 1 u * intR _ _ S + intR _ _ E)) := by
  obtain ⟨g', hg1, hg2, hsw⟩ := switches_galois K h32 hl hov hs go ht
  obtain ⟨y0, y1, w0, w1, E, hE⟩ := permuted_is K.rings.hQ K.rings.sQ hl (ct0 := ct0) (out := out) hks hsw
    ((h0.elt 1 (by omega)).below hlev) ho
  obtain ⟨H', a1, a2, a3, a4⟩ := permuteNTT_is K.rings.hQ K.rings.sQ hl hrtk go h0.shape.level hlev ho w0.is w1.is
    (w0.len.trans (ho.size 0 (by omega))) (w1.len.trans (ho.size 1 (by omega)))
    (by rw [if_neg hne]; exact (h0.elt 0 (by omega)).below hlev)
  refine ⟨H', a1, a2, a3, g', hg1, hg2, y0, y1, E, hE, _, a4, fun u hu => ?_⟩
  rw [sum_range_succ, sum_range_one, if_pos rfl, if_neg (by omega)]
  have hrel := congrArg (aut (2 ^ n) (ev.ringQ.qs u) go) (hE.rel u hu)
  rw [intR_autInt (by positivity) hg1, map_add, map_mul, C24_inverse _ _ _ _ (by positivity) hg1 go hg2] at hrel
  simp only [map_add, map_mul] at hrel ⊢
  linear_combination hrel

/-- **C65 (partial: another receiver, at a level not above the input's).** `Rotate` by `k ≠ 0` decrypts to the image of the
message and the key-switching error under the automorphism of the rotation. -/
theorem C65_rotate_partial {k : ℤ} (hk : k ≠ 0) (hrtk : ev.rtks (ev.ringQ.galoisElementForColumnRotationBy k)
      = some (genSwitchingKeyForGalois ev.ringQ rP (ev.ringQ.galoisElementForColumnRotationBy k) sk tape))
    (h0 : CtIs n ev.ringQ lin (fun u => ev.ringQ.qs u + 1) 1 (H ct0) x) (ho : CtShape 1 level (H out)) (hne : ct0 ≠ out)
    (hlev : level ≤ lin) :
    ∃ H', ev.rotate H ct0 k out = some H' ∧ (∀ b ≠ out, H' b = H b) ∧ (H' out).scale = (H ct0).scale ∧
      ∃ g', g' % 2 = 1 ∧ g' * (ev.ringQ.galoisElementForColumnRotationBy k).toNat % (2 * 2 ^ n) = 1 ∧
      ∃ d0 d1 E, KeySwitched n ev.ringQ rP level (rP.subs.length - 1) (x 1) d0 d1 S (autInt (2 ^ n) g' S) e E ∧
      CtEnc n ev.ringQ level ev.ringQ.qs 1 (H' out) (fun u => intR _ _ S) (fun u =>
        aut (2 ^ n) (ev.ringQ.qs u) (C25_rotation_odd K.rings.hQ k).1 (x 0 u + x 1 u * intR _ _ S + intR _ _ E)) := by
  unfold Evaluator.rotate
  rw [h0.shape.degree, ho.degree, if_neg (by omega), if_neg hk]
  obtain ⟨H', a1, a2, a3, a4⟩ := permuteNTT_enc K h32 hks hs ht hl hov (H := H.setScale out (H ct0).scale) (ct0 := ct0)
    (out := out) (C25_rotation_odd K.rings.hQ k).1 hrtk (by rw [Heap.setScale_ne _ _ _ _ hne]; exact h0)
    (by rw [Heap.setScale_self]; exact ⟨ho.len, ho.ntt, ho.size⟩) hne hlev
  exact ⟨H', a1, fun b hb => (a2 b hb).trans (Heap.setScale_ne _ _ _ _ hb), by rw [a3, Heap.setScale_self], a4⟩

/-- **C65 (partial: another receiver).** `Conjugate` -/
theorem C65_conjugate_partial {g : UInt64} (hg : ev.ringQ.galoisElementForRowRotation = some g) (go : g.toNat % 2 = 1)
    (hrtk : ev.rtks g = some (genSwitchingKeyForGalois ev.ringQ rP g sk tape))
    (h0 : CtIs n ev.ringQ lin (fun u => ev.ringQ.qs u + 1) 1 (H ct0) x) (ho : CtShape 1 level (H out)) (hne : ct0 ≠ out)
    (hlev : level ≤ lin) :
    ∃ H', ev.conjugate H ct0 out = some H' ∧ (∀ b ≠ out, H' b = H b) ∧ (H' out).scale = (H ct0).scale ∧
      ∃ g', g' % 2 = 1 ∧ g' * g.toNat % (2 * 2 ^ n) = 1 ∧
      ∃ d0 d1 E, KeySwitched n ev.ringQ rP level (rP.subs.length - 1) (x 1) d0 d1 S (autInt (2 ^ n) g' S) e E ∧
      CtEnc n ev.ringQ level ev.ringQ.qs 1 (H' out) (fun u => intR _ _ S) (fun u =>
        aut (2 ^ n) (ev.ringQ.qs u) go (x 0 u + x 1 u * intR _ _ S + intR _ _ E)) := by
  unfold Evaluator.conjugate
  rw [h0.shape.degree, ho.degree, if_neg (by omega), hg, Option.bind_some]
  obtain ⟨H', a1, a2, a3, a4⟩ := permuteNTT_enc K h32 hks hs ht hl hov (H := H.setScale out (H ct0).scale) (ct0 := ct0)
    (out := out) go hrtk (by rw [Heap.setScale_ne _ _ _ _ hne]; exact h0)
    (by rw [Heap.setScale_self]; exact ⟨ho.len, ho.ntt, ho.size⟩) hne hlev
  exact ⟨H', a1, fun b hb => (a2 b hb).trans (Heap.setScale_ne _ _ _ _ hb), by rw [a3, Heap.setScale_self], a4⟩

/-- **C65 (`RotateNew`).** No condition on the receiver. -/
theorem C65_rotateNew {k : ℤ} (hk : k ≠ 0) (hrtk : ev.rtks (ev.ringQ.galoisElementForColumnRotationBy k)
      = some (genSwitchingKeyForGalois ev.ringQ rP (ev.ringQ.galoisElementForColumnRotationBy k) sk tape))
    {new : Ref} (h0 : CtIs n ev.ringQ level (fun u => ev.ringQ.qs u + 1) 1 (H ct0) x) (hne : ct0 ≠ new) :
    ∃ H', ev.rotateNew H ct0 k new = some H' ∧ (∀ b ≠ new, H' b = H b) ∧ (H' new).scale = (H ct0).scale ∧
      ∃ g', g' % 2 = 1 ∧ g' * (ev.ringQ.galoisElementForColumnRotationBy k).toNat % (2 * 2 ^ n) = 1 ∧
      ∃ d0 d1 E, KeySwitched n ev.ringQ rP level (rP.subs.length - 1) (x 1) d0 d1 S (autInt (2 ^ n) g' S) e E ∧
      CtEnc n ev.ringQ level ev.ringQ.qs 1 (H' new) (fun u => intR _ _ S) (fun u =>
        aut (2 ^ n) (ev.ringQ.qs u) (C25_rotation_odd K.rings.hQ k).1 (x 0 u + x 1 u * intR _ _ S + intR _ _ E)) := by
  unfold Evaluator.rotateNew
  rw [h0.shape.level, h0.shape.degree]
  obtain ⟨H', a1, a2, a3, a4⟩ := C65_rotate_partial K h32 hks hs ht hl hov hk hrtk
    (H := H.set new (newCiphertext ev.ringQ.n 1 level (H ct0).scale)) (ct0 := ct0) (out := new)
    (by rw [Heap.set_ne _ _ _ _ hne]; exact h0) (by rw [Heap.set_self]; exact newCiphertext_shape _ _ _ _) hne le_rfl
  rw [Heap.set_ne _ _ _ _ hne] at a3
  exact ⟨H', a1, fun b hb => by rw [a2 b hb, Heap.set_ne _ _ _ _ hb], a3, a4⟩

/-- **C65 (`ConjugateNew`).** -/
theorem C65_conjugateNew {g : UInt64} (hg : ev.ringQ.galoisElementForRowRotation = some g) (go : g.toNat % 2 = 1)
    (hrtk : ev.rtks g = some (genSwitchingKeyForGalois ev.ringQ rP g sk tape))
    {new : Ref} (h0 : CtIs n ev.ringQ level (fun u => ev.ringQ.qs u + 1) 1 (H ct0) x) (hne : ct0 ≠ new) :
    ∃ H', ev.conjugateNew H ct0 new = some H' ∧ (∀ b ≠ new, H' b = H b) ∧ (H' new).scale = (H ct0).scale ∧
      ∃ g', g' % 2 = 1 ∧ g' * g.toNat % (2 * 2 ^ n) = 1 ∧
      ∃ d0 d1 E, KeySwitched n ev.ringQ rP level (rP.subs.length - 1) (x 1) d0 d1 S (autInt (2 ^ n) g' S) e E ∧
      CtEnc n ev.ringQ level ev.ringQ.qs 1 (H' new) (fun u => intR _ _ S) (fun u =>
        aut (2 ^ n) (ev.ringQ.qs u) go (x 0 u + x 1 u * intR _ _ S + intR _ _ E)) := by
  unfold Evaluator.conjugateNew
  rw [h0.shape.level, h0.shape.degree]
  obtain ⟨H', a1, a2, a3, a4⟩ := C65_conjugate_partial K h32 hks hs ht hl hov hg go hrtk
    (H := H.set new (newCiphertext ev.ringQ.n 1 level (H ct0).scale)) (ct0 := ct0) (out := new)
    (by rw [Heap.set_ne _ _ _ _ hne]; exact h0) (by rw [Heap.set_self]; exact newCiphertext_shape _ _ _ _) hne le_rfl
  rw [Heap.set_ne _ _ _ _ hne] at a3
  exact ⟨H', a1, fun b hb => by rw [a2 b hb, Heap.set_ne _ _ _ _ hb], a3, a4⟩

end

section
variable {ev : Evaluator} {level : ℕ} {H G : Heap} {a : Ref} {g : UInt64} {rtk : SwitchingKey}

theorem permuteNTT_inPlace (hrtk : ev.rtks g = some rtk) (hb : 0 < ceilDivF (level + 1) (rtk.alpha - 1 + 1))
    (hH : CtShape 1 level (H a)) (hG : CtShape 1 level (G a)) (hs : (H a).scale = (G a).scale)
    (h1 : (H a).rows 1 = (G a).rows 1) :
    (ev.permuteNTT H a g a).map (· a) = (ev.permuteNTT G a g a).map (· a) := by
  unfold Evaluator.permuteNTT
  rw [hrtk]
  simp only [Option.map_some]
  rw [hH.level, hG.level, min_self]
  have eh : ∀ H : Heap, ∀ i, H.rows a i = (H a).rows i := fun _ _ => rfl
  rw [show H.rows a 1 = G.rows a 1 from h1, switchKeysInPlace_full hb (p0 := H.rows a 0) (p1 := G.rows a 1)
    (p0' := G.rows a 0) (p1' := G.rows a 1) (hH.size 0 (by omega)) (hG.size 1 (by omega)) (hG.size 0 (by omega))
    (hG.size 1 (by omega))]
  generalize ev.ks.switchKeysInPlace level false _ rtk _ _ = d
  generalize G.rows a 1 = c1
  clear h1
  simp only [eh, Heap.setRows_self]
  rw [hH.eq_one, hG.eq_one, hs]
  rfl

/-- **C36 (in place, the first component is ignored).** Two ciphertexts that differ in component 0 only rotate in place to
the same ciphertext. -/
theorem C36_inPlace_ignores {k : ℤ} (hk : k ≠ 0) (hrtk : ev.rtks (ev.ringQ.galoisElementForColumnRotationBy k) = some rtk)
    (hb : 0 < ceilDivF (level + 1) (rtk.alpha - 1 + 1))
    (hH : CtShape 1 level (H a)) (hG : CtShape 1 level (G a)) (hs : (H a).scale = (G a).scale)
    (h1 : (H a).rows 1 = (G a).rows 1) :
    (ev.rotate H a k a).map (· a) = (ev.rotate G a k a).map (· a) := by
  unfold Evaluator.rotate
  rw [hH.degree, hG.degree, if_neg (by omega), if_neg hk, if_neg (by omega), if_neg hk]
  refine permuteNTT_inPlace hrtk hb ?_ ?_ ?_ ?_
  · rw [Heap.setScale_self]; exact ⟨hH.len, hH.ntt, hH.size⟩
  · rw [Heap.setScale_self]; exact ⟨hG.len, hG.ntt, hG.size⟩
  · rw [Heap.setScale_self, Heap.setScale_self]; exact hs
  · rw [Heap.setScale_self, Heap.setScale_self]; exact h1

/-- **C36 (partial: rotation by 0).** -/
theorem C36_rotate_zero_partial {out : Ref} (hH : CtShape 1 level (H a)) (ho : CtShape 1 level (H out)) :
    (ev.rotate H a 0 a).map (· a) = (ev.rotate H a 0 out).map (· out) := by
  unfold Evaluator.rotate
  rw [hH.degree, ho.degree, if_neg (by omega), if_pos rfl, if_neg (by omega), if_pos rfl]
  unfold Heap.copy
  rw [if_pos rfl]
  by_cases hc : out = a
  · subst hc; rw [if_pos rfl]
  · rw [if_neg hc, if_neg (by rw [hH.len, ho.len]; omega)]
    simp only [Option.map_some, Heap.set_self]
    have s0 := hH.size 0 (by omega)
    have s1 := hH.size 1 (by omega)
    have t0 := ho.size 0 (by omega)
    have t1 := ho.size 1 (by omega)
    rw [hH.eq_one, ho.eq_one]
    have hcopy : ∀ p q : Rows, p.length = level + 1 → q.length = level + 1 →
        (⟨p, true⟩ : Poly) = Poly.copy ⟨q, true⟩ ⟨p, true⟩ := by
      intro p q hp hq
      unfold Poly.copy Poly.level
      rw [hp, hq]
      simp only [Poly.mk.injEq, and_true]
      refine List.ext_getElem (by simp [copyValuesLvl, length_writeLvl, hp, hq]) fun i hi hi' => ?_
      simp [copyValuesLvl, writeLvl, Rows.row, List.getD, hi, show i ≤ level by omega]
    simp [List.mapIdx_cons, ← hcopy _ _ s0 t0, ← hcopy _ _ s1 t1]

end

/-- `Rotate` in place and into another receiver, in terms of the key-switched component 1 -/
theorem rotate_inOut {n : ℕ} {ev : Evaluator} (hr : ev.ringQ.Valid n) (sr : ev.ringQ.Small) {rP : Ring}
    (hks : ev.ks = newKeySwitcher ev.ringQ rP) {level : ℕ} (hl : level < ev.ringQ.subs.length) {k : ℤ} (hk : k ≠ 0)
    {rtk : SwitchingKey} (hrtk : ev.rtks (ev.ringQ.galoisElementForColumnRotationBy k) = some rtk)
    (hb : 0 < ceilDivF (level + 1) (rtk.alpha - 1 + 1)) {H : Heap} {a b : Ref} (hab : a ≠ b) {D : Rows × Rows} {c : Rows}
    (hD : ev.ks.switchKeysInPlace level false (ev.ringQ.invNttLvl level c (newPoly ev.ringQ.n ev.ringQ.subs.length)) rtk
      (newPoly ev.ringQ.n (level + 1)) (newPoly ev.ringQ.n (level + 1)) = D)
    {y0 y1 z : ∀ u, Rq (2 ^ n) (ev.ringQ.qs u)} (w0 : EltIs n ev.ringQ level ev.ringQ.qs false D.1 y0)
    (w1 : EltIs n ev.ringQ level ev.ringQ.qs false D.2 y1) (wz : EltIs n ev.ringQ level ev.ringQ.qs true D.1 z)
    (m0 : D.1.length = level + 1) (m1 : D.2.length = level + 1) {x : ℕ → ∀ u, Rq (2 ^ n) (ev.ringQ.qs u)}
    (hx : CtIs n ev.ringQ level ev.ringQ.qs 1 (H a) x) (hc : (H a).rows 1 = c) (ho : CtShape 1 level (H b)) :
    ∃ Hin Hout, ev.rotate H a k a = some Hin ∧ ev.rotate H a k b = some Hout ∧
      CtIs n ev.ringQ level ev.ringQ.qs 1 (Hin a)
        (fun i u => aut (2 ^ n) (ev.ringQ.qs u) (C25_rotation_odd hr k).1 (if i = 0 then y0 u + z u else y1 u)) ∧
      CtIs n ev.ringQ level ev.ringQ.qs 1 (Hout b)
        (fun i u => aut (2 ^ n) (ev.ringQ.qs u) (C25_rotation_odd hr k).1 (if i = 0 then y0 u + x 0 u else y1 u)) := by
  unfold Evaluator.rotate
  rw [hx.shape.degree, ho.degree, if_neg (by omega), if_neg hk, if_neg (by omega), if_neg hk]
  have go := (C25_rotation_odd hr k).1
  have key : ∀ (G : Heap) (o : Ref), CtShape 1 level (G o) → (G a).rows 1 = c → ev.permuted G level a rtk o = D := by
    intro G o hS h1
    unfold Evaluator.permuted
    rw [show G.rows a 1 = c from h1, ← hD]
    exact switchKeysInPlace_full hb (hS.size 0 (by omega)) (hS.size 1 (by omega)) (length_newPoly _ _) (length_newPoly _ _)
  have hA : CtShape 1 level ((H.setScale a (H a).scale) a) := by
    rw [Heap.setScale_self]; exact hx.shape
  have hB : CtShape 1 level ((H.setScale b (H a).scale) b) := by
    rw [Heap.setScale_self]; exact ⟨ho.len, ho.ntt, ho.size⟩
  have k1 := key _ a hA (by rw [Heap.setScale_self]; exact hc)
  have k2 := key _ b hB (by rw [Heap.setScale_ne _ _ _ _ hab]; exact hc)
  obtain ⟨Hin, a1, -, -, a4⟩ := permuteNTT_is hr sr hl (ct0 := a) (out := a) hrtk go hA.level le_rfl hA
    (by rw [k1]; exact w0) (by rw [k1]; exact w1) (by rw [k1]; exact m0) (by rw [k1]; exact m1)
    (by rw [k1, if_pos rfl]; exact wz.mono fun u _ => by omega)
  obtain ⟨Hout, b1, -, -, b4⟩ := permuteNTT_is hr sr hl (h := H.setScale b (H a).scale) (ct0 := a) (out := b) hrtk go
    (by rw [Heap.setScale_ne _ _ _ _ hab]; exact hx.shape.level) le_rfl hB (by rw [k2]; exact w0) (by rw [k2]; exact w1)
    (by rw [k2]; exact m0) (by rw [k2]; exact m1) (z := x 0)
    (by rw [k2, if_neg hab, Heap.rows_setScale]; exact (hx.elt 0 (by omega)).mono fun u _ => by omega)
  exact ⟨Hin, Hout, a1, b1, a4, b4⟩

/-- **C36 (violated, witness).** Degree 16, moduli 97, 193, 641, a generated key for the rotation by 1: for at least one of
the ciphertexts `(5, 7)` and `(6, 7)` the ciphertext rotated in place and the one rotated into another receiver decrypt to
different messages under every secret. -/
theorem C36_violated : ∃ (ev : Evaluator) (H Hin Hout : Heap), ev.ringQ.Valid 4 ∧
    (∃ x, CtIs 4 ev.ringQ 2 ev.ringQ.qs 1 (H 0) x) ∧ CtShape 1 2 (H 1) ∧
    ev.rotate H 0 1 0 = some Hin ∧ ev.rotate H 0 1 1 = some Hout ∧
    ∀ s m, ¬(CtEnc 4 ev.ringQ 2 ev.ringQ.qs 1 (Hin 0) s m ∧ CtEnc 4 ev.ringQ 2 ev.ringQ.qs 1 (Hout 1) s m) := by
  obtain ⟨rQ, rP, sk, tape, K, -, -, l3, l2, hq, q0, hsk, ht⟩ := exampleRings
  obtain ⟨ev, rfl, hks, hrt⟩ : ∃ ev : Evaluator, ev.ringQ = rQ ∧ ev.ks = newKeySwitcher rQ rP ∧ ∀ g, ev.rtks g
      = some (genSwitchingKeyForGalois rQ rP g (genSecretKey rQ rP sk) tape) :=
    ⟨newEvaluator rQ rP none (fun g => some (genSwitchingKeyForGalois rQ rP g (genSecretKey rQ rP sk) tape)) 7, rfl, rfl,
      fun _ => rfl⟩
  have hQ := K.rings.hQ
  have sQ := K.rings.sQ
  have hl : 2 < ev.ringQ.subs.length := by omega
  have go := (C25_rotation_odd hQ 1).1
  have hrtk := hrt (ev.ringQ.galoisElementForColumnRotationBy 1)
  have hal : (genSwitchingKeyForGalois ev.ringQ rP (ev.ringQ.galoisElementForColumnRotationBy 1) (genSecretKey ev.ringQ rP sk)
      tape).alpha = 2 := by
    refine (genSwitchingKeyCore_alpha (by omega) (by omega) _ _ _).trans ?_
    omega
  obtain ⟨g', hg1, hg2, hsw⟩ := switches_galois (level := 2) K (by omega) hl (Or.inl (by omega)) hsk go ht
  generalize genSwitchingKeyForGalois ev.ringQ rP (ev.ringQ.galoisElementForColumnRotationBy 1) _ tape = rtk at *
  have hb : 0 < ceilDivF (2 + 1) (rtk.alpha - 1 + 1) := by
    rw [hal, ceilDivF_eq (by omega) (by omega) (by omega)]; decide
  let H : UInt64 → Heap := fun c a => if a = 0 then constCt 1 [c, 7] else constCt 1 [0, 0]
  have hlt : ∀ c : UInt64, c ≤ 7 → ∀ u ≤ 2, c.toNat < ev.ringQ.qs u := fun c hc u hu => by
    have := hq u hu
    have : c.toNat ≤ 7 := hc
    omega
  have hH : ∀ c ≤ 7, CtIs 4 ev.ringQ 2 ev.ringQ.qs 1 (H c 0) (fun i _ => (([c, 7].getD i 0).toNat : Rq (2 ^ 4) _)) := fun c hc =>
    constCt_is hQ (by omega) 1 (cs := [c, 7]) (by simp) (fun d hd => hlt d (by
      rcases List.mem_cons.1 hd with rfl | hd
      · exact hc
      · rw [List.mem_singleton.1 hd]; decide))
  have hO : ∀ c, CtShape 1 2 (H c 1) := fun c => (constCt_is hQ (by omega) 1 (cs := [0, 0]) (by simp)
    (fun d hd => hlt d (by revert d; decide))).shape
  obtain ⟨D, hD⟩ : ∃ D, ev.ks.switchKeysInPlace 2 false (ev.ringQ.invNttLvl 2 ((H 5 0).rows 1) (newPoly ev.ringQ.n
      ev.ringQ.subs.length)) rtk (newPoly ev.ringQ.n (2 + 1)) (newPoly ev.ringQ.n (2 + 1)) = D := ⟨_, rfl⟩
  have w := invNttLvl_elt hQ hl sQ (fun u hu => by omega) ((hH 5 (by decide)).elt 1 (by omega))
    (show 2 < (newPoly ev.ringQ.n ev.ringQ.subs.length).length by rw [length_newPoly]; exact hl)
  obtain ⟨y0, y1, w0, w1, -⟩ := hsw false _ _ w.is (newPoly ev.ringQ.n (2 + 1)) (newPoly ev.ringQ.n (2 + 1))
    (by rw [length_newPoly]; omega) (by rw [length_newPoly]; omega)
  rw [← hks, hD] at w0 w1
  have wz : EltIs 4 ev.ringQ 2 ev.ringQ.qs true D.1 (ev.ringQ.elt 4 true D.1) := ⟨w0.is.lvl, w0.is.len, w0.is.lt, fun _ _ => rfl⟩
  generalize ev.ringQ.elt 4 true D.1 = z at wz
  have main : ∀ c ≤ 7, z 0 ≠ (c.toNat : Rq (2 ^ 4) _) → ∃ Hin Hout, ev.rotate (H c) 0 1 0 = some Hin ∧
      ev.rotate (H c) 0 1 1 = some Hout ∧
      ∀ s m, ¬(CtEnc 4 ev.ringQ 2 ev.ringQ.qs 1 (Hin 0) s m ∧ CtEnc 4 ev.ringQ 2 ev.ringQ.qs 1 (Hout 1) s m) := by
    intro c hc hz
    obtain ⟨Hin, Hout, a1, a2, a3, a4⟩ := rotate_inOut (ev := ev) (H := H c) (a := 0) (b := 1) hQ sQ hks hl (k := 1) (by decide)
      hrtk hb (by decide) hD w0.is w1.is wz (w0.len.trans (length_newPoly _ _)) (w1.len.trans (length_newPoly _ _)) (hH c hc) rfl
      (hO c)
    refine ⟨Hin, Hout, a1, a2, fun s m ⟨hi, ho⟩ => hz ?_⟩
    have e1 := CtEnc.unique hi ⟨_, a3, fun _ _ => rfl⟩ (u := 0) (by omega)
    have e2 := CtEnc.unique ho ⟨_, a4, fun _ _ => rfl⟩ (u := 0) (by omega)
    rw [e1] at e2
    simp only [sum_range_succ, sum_range_zero, if_true, one_ne_zero, if_false, pow_zero, mul_one, zero_add, add_left_inj] at e2
    have e3 := congrArg (aut (2 ^ 4) (ev.ringQ.qs 0) hg1) e2
    rw [C24_inverse _ _ _ _ (by positivity) go hg1 (by rw [mul_comm]; exact hg2),
      C24_inverse _ _ _ _ (by positivity) go hg1 (by rw [mul_comm]; exact hg2)] at e3
    exact add_left_cancel e3
  by_cases h5 : z 0 = ((5 : UInt64).toNat : Rq (2 ^ 4) _)
  · obtain ⟨Hin, Hout, b1, b2, b3⟩ := main 6 (by decide) (fun h6 => by
      have := natCast_rq_inj hQ (by omega) (h5.symm.trans h6)
      rw [q0] at this
      exact absurd this (by decide))
    exact ⟨ev, H 6, Hin, Hout, hQ, ⟨_, hH 6 (by decide)⟩, hO 6, b1, b2, b3⟩
  · obtain ⟨Hin, Hout, b1, b2, b3⟩ := main 5 (by decide) h5
    exact ⟨ev, H 5, Hin, Hout, hQ, ⟨_, hH 5 (by decide)⟩, hO 5, b1, b2, b3⟩

/-- with generated keys, `(5, 7)` is rotated by `-3` and conjugated into new ciphertexts -/
example : ∃ (rQ rP : Ring) (sk : PolyQP) (tape : ℕ → KeyTape) (H' H'' : Heap) (m m' : ∀ u, Rq (2 ^ 4) (rQ.qs u)),
    rQ.moduli = [97, 193, 641] ∧ rP.moduli = [257, 353] ∧
    let ev := newEvaluator rQ rP none (fun g => some (genSwitchingKeyForGalois rQ rP g sk tape)) 9
    let H : Heap := fun _ => constCt 1 [5, 7]
    ev.rotateNew H 0 (-3) 1 = some H' ∧ CtEnc 4 rQ 2 rQ.qs 1 (H' 1) (fun u => intR _ _ exampleS) m ∧
    ev.conjugateNew H' 0 2 = some H'' ∧ CtEnc 4 rQ 2 rQ.qs 1 (H'' 2) (fun u => intR _ _ exampleS) m' := by
  obtain ⟨rQ, rP, sk, tape, K, m1, m2, l3, l2, hq, q0, hsk, ht⟩ := exampleRings
  have hQ := K.rings.hQ
  have hlt : ∀ c : UInt64, c ≤ 7 → ∀ u ≤ 2, c.toNat < rQ.qs u := fun c hc u hu => by
    have := hq u hu
    have : c.toNat ≤ 7 := hc
    omega
  have c0 := constCt_is hQ (by omega) 1 (cs := [5, 7]) (by simp) (fun c hc => hlt c (by revert c; decide))
  have c1 : CtIs 4 rQ 2 (fun u => rQ.qs u + 1) 1 (constCt 1 [5, 7]) _ :=
    ⟨c0.shape, fun i hi => (c0.elt i hi).mono fun u _ => by omega⟩
  obtain ⟨g, hg, -, go, -⟩ := C25_row_rotation hQ
  let ev := newEvaluator rQ rP none (fun g => some (genSwitchingKeyForGalois rQ rP g (genSecretKey rQ rP sk) tape)) 9
  obtain ⟨H', a1, a2, -, g', -, -, d0, d1, E, -, w⟩ := C65_rotateNew (ev := ev) (H := fun _ => constCt 1 [5, 7]) (ct0 := 0) (new := 1)
    (level := 2) K (by omega) rfl hsk ht (by show 2 < rQ.subs.length; omega) (Or.inl (by omega)) (k := -3) (by decide) rfl c1
    (by decide)
  obtain ⟨H'', b1, -, -, g'', -, -, e0, e1, E', -, w'⟩ := C65_conjugateNew (ev := ev) (H := H') (ct0 := 0) (new := 2)
    (level := 2) K (by omega) rfl hsk ht (by show 2 < rQ.subs.length; omega) (Or.inl (by omega)) hg go rfl
    (by rw [a2 0 (by decide)]; exact c1) (by decide)
  exact ⟨rQ, rP, _, tape, H', H'', _, _, m1, m2, a1, w, b1, w'⟩

end FastKsw.Props
