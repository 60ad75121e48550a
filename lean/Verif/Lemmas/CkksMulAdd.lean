import Verif.Lemmas.CkksMul

/-!
# `mulRelinAndAdd` and `permuteNTT` of the classical evaluator
-/

namespace FastKsw

open Props Finset

theorem newPoly_elt {n : ℕ} {r : Ring} (hr : r.Valid n) {level m : ℕ} (hl : level < r.subs.length) (hm : level < m)
    (b : Bool) : EltIs n r level r.qs b (newPoly r.n m) (fun _ => 0) := by
  refine (PolyIs.eltIs hr (v := fun _ _ => 0) ⟨by rw [length_newPoly]; exact hm, fun i hi => ?_⟩ fun u hu => rfl).congr
    (x := fun u => r.eltOf n b u fun _ => 0) fun u hu => ?_
  · rw [row_newPoly (by omega)]
    refine ⟨by simp, fun k hk => ?_, fun k hk => ?_⟩
    · have := (hr.subAt (show i < r.subs.length by omega)).prime.pos
      simpa [Row.at, List.getD, hk] using this
    · simp [zval, Row.at, List.getD, hk]
  · have := eltOf_smul (b := b) hr hl hu 0 (fun _ => 0)
    simp only [mul_zero, map_zero, zero_mul] at this
    exact this

/-- Components of the receiver after the products of `mulRelinAndAdd`.  The second cross term is `x_0 y_1` again. -/
theorem mulCtAndAdd_is {n : ℕ} {ev : Evaluator} {rP : Ring} (hr : ev.ringQ.Valid n)
    (hks : ev.ks = newKeySwitcher ev.ringQ rP) {level : ℕ} (hl : level < ev.ringQ.subs.length) {rlk : SwitchingKey}
    {sIn sOut : ℕ → ℤ} {e : ℕ → ℕ → ℤ} (hsw : Switches n ev.ringQ rP level rlk sIn sOut e)
    {h : Heap} {tmp0 tmp1 out : Ref} {x y z : ℕ → ∀ u, Rq (2 ^ n) (ev.ringQ.qs u)} {A B : ℕ → ℕ}
    (h0 : ∀ i ≤ 1, EltIs n ev.ringQ level A true (h.rows tmp0 i) (x i))
    (h1 : ∀ i ≤ 1, EltIs n ev.ringQ level B true (h.rows tmp1 i) (y i)) {deg : ℕ}
    (hs : CtIs n ev.ringQ level ev.ringQ.qs deg (h out) z) (hdeg : 1 ≤ deg) (hal : tmp1 ≠ out) :
    let h' := ev.mulCtAndAdd h level tmp0 tmp1 out (some rlk)
    (h' out).scale = (h out).scale ∧ (∀ b ≠ out, h' b = h b) ∧ ∃ d0 d1 E,
      KeySwitched n ev.ringQ rP level (rP.subs.length - 1) (fun u => x 1 u * y 1 u) d0 d1 sIn sOut e E ∧
      CtIs n ev.ringQ level ev.ringQ.qs deg (h' out) (fun i u => z i u
        + if i = 0 then x 0 u * y 0 u + d0 u else if i = 1 then 2 * (x 0 u * y 1 u) + d1 u else 0) := by
  rw [Evaluator.mulCtAndAdd]
  dsimp only [Option.isNone]
  have hlen := hs.shape.len
  have hpool : level < (newPoly ev.ringQ.n ev.ringQ.subs.length).length := by rw [length_newPoly]; exact hl
  have a0 := h0 0 (by omega)
  have a1 := h0 1 (by omega)
  have b0 := h1 0 (by omega)
  have b1 := h1 1 (by omega)
  have z0 := hs.elt 0 (by omega)
  have z1 := hs.elt 1 (by omega)
  have w0 := mulPoolAdd_elt hr hl a0 b0 z0
  have w1 := mulPoolAdd_elt hr hl a0 b1 z1
  have w2 := mulPoolAdd_elt hr hl a0 b1 w1.is
  have c2 := mulPool_elt hr hl a1 b1 hpool
  obtain ⟨y0, y1, g0, g1, E, hE⟩ := hsw true _ _ c2.is _ _ hpool hpool
  have v0 := addLvl_elt hr hl w0.is g0.is (fun u _ => by omega) w0.is.lvl
  have v1 := addLvl_elt hr hl w2.is g1.is (fun u _ => by omega) w2.is.lvl
  have s0 := w0.len.trans (hs.shape.size 0 (by omega))
  have s1 := w1.len.trans (hs.shape.size 1 (by omega))
  have s2 := w2.len.trans s1
  have t0 := v0.len.trans s0
  have t1 := v1.len.trans s2
  have d1 : 1 < deg + 1 := by omega
  have hro : ∀ i, (h out).rows i = h.rows out i := fun _ => rfl
  rw [hro] at w0 w1 w2 s0 s1 s2 t0 t1 v0 v1
  rw [Evaluator.switchPool, hks]
  simp only [Bool.false_eq_true, hal, if_false, Heap.rows_setRows_ite, Heap.length_setRows, hlen, Heap.scale_setRows, d1,
    and_true, true_and, one_ne_zero, zero_ne_one, and_false, false_and, if_true, Nat.zero_lt_succ]
  refine ⟨fun b hb => ?_, y0, y1, E, hE, ?_, fun i hi => ?_⟩
  · simp only [Heap.setRows_ne _ _ _ _ _ hb]
  · simp only [Heap.setRows_self]
    exact ((((hs.shape.setRows s0).setRows s1).setRows s2).setRows t0).setRows t1
  · show EltIs _ _ _ _ _ (Heap.rows _ out i) _
    simp only [Heap.rows_setRows_ite, Heap.length_setRows, hlen, d1, and_true, true_and, Nat.zero_lt_succ]
    by_cases i0 : i = 0
    · subst i0
      simp only [zero_ne_one, if_false, if_true]
      exact v0.is.congr fun u _ => by ring
    · by_cases i1 : i = 1
      · subst i1
        simp only [one_ne_zero, if_false, if_true]
        exact v1.is.congr fun u _ => by ring
      · simp only [i0, i1, if_false, add_zero]
        exact hs.elt i hi

/-- the same without relinearisation, into a receiver of degree 1 or 2 -/
theorem mulCtAndAdd_is' {n : ℕ} {ev : Evaluator} (hr : ev.ringQ.Valid n) {level : ℕ} (hl : level < ev.ringQ.subs.length)
    {h : Heap} {tmp0 tmp1 out : Ref} {x y z : ℕ → ∀ u, Rq (2 ^ n) (ev.ringQ.qs u)} {A B : ℕ → ℕ}
    (h0 : ∀ i ≤ 1, EltIs n ev.ringQ level A true (h.rows tmp0 i) (x i))
    (h1 : ∀ i ≤ 1, EltIs n ev.ringQ level B true (h.rows tmp1 i) (y i)) {deg : ℕ}
    (hs : CtIs n ev.ringQ level ev.ringQ.qs deg (h out) z) (hdeg : 1 ≤ deg) (hal : tmp1 ≠ out) :
    let h' := ev.mulCtAndAdd h level tmp0 tmp1 out none
    (h' out).scale = (h out).scale ∧ (∀ b ≠ out, h' b = h b) ∧
      CtIs n ev.ringQ level ev.ringQ.qs (max deg 2) (h' out) (fun i u => (if i ≤ deg then z i u else 0)
        + if i = 0 then x 0 u * y 0 u else if i = 1 then 2 * (x 0 u * y 1 u) else if i = 2 then x 1 u * y 1 u else 0) := by
  rw [Evaluator.mulCtAndAdd]
  dsimp only [Option.isNone]
  simp only [true_and]
  obtain ⟨hh, ehh, hS, hsc, hne, hrows⟩ : ∃ hh, (if (h out).degree < 2 then h.set out ((h out).resize ev.ringQ.n 2) else h) = hh ∧
      CtIs n ev.ringQ level ev.ringQ.qs (max deg 2) (hh out) (fun i u => if i ≤ deg then z i u else 0) ∧
      (hh out).scale = (h out).scale ∧ (∀ b ≠ out, hh b = h b) ∧ ∀ b i, i ≤ 1 → hh.rows b i = h.rows b i := by
    obtain ⟨g1, g2, g3, g4⟩ := resize2 (ev := ev) hr hl hs.shape hdeg
    refine ⟨_, rfl, ⟨g1, fun i hi => ?_⟩, g2, g3, g4⟩
    by_cases hid : i ≤ deg
    · have : (if (h out).degree < 2 then h.set out ((h out).resize ev.ringQ.n 2) else h).rows out i = (h out).rows i := by
        split
        · rw [Heap.rows_set_self, hs.shape.rows_resize_up (by rw [hs.shape.degree] at *; omega) hid]
        · rfl
      show EltIs _ _ _ _ _ (Heap.rows _ out i) _
      rw [this]
      simp only [if_pos hid]
      exact hs.elt i hid
    · have hd : deg = 1 ∧ i = 2 := by omega
      obtain ⟨rfl, rfl⟩ := hd
      rw [hs.shape.degree, if_pos (by omega), Heap.set_self]
      have hl' := hs.shape.len
      have e : ((h out).resize ev.ringQ.n 2).rows 2 = newPoly ev.ringQ.n (level + 1) := by
        unfold Ct.resize
        rw [hs.shape.degree, if_neg (by omega), hs.shape.level, Ct.rows, List.getD,
          List.getElem?_append_right (by omega), List.getElem?_replicate, if_pos (by omega)]
        rfl
      rw [e]
      exact (newPoly_elt hr hl (by omega) true).congr fun u _ => by simp
  rw [ehh]
  have a0 := hrows tmp0 0 (by omega) ▸ h0 0 (by omega)
  have a1 := hrows tmp0 1 (by omega) ▸ h0 1 (by omega)
  have b0 := hrows tmp1 0 (by omega) ▸ h1 0 (by omega)
  have b1 := hrows tmp1 1 (by omega) ▸ h1 1 (by omega)
  have hlen := hS.shape.len
  have z0 := hS.elt 0 (by omega)
  have z1 := hS.elt 1 (by omega)
  have z2 := hS.elt 2 (by omega)
  have w0 := mulPoolAdd_elt hr hl a0 b0 z0
  have w1 := mulPoolAdd_elt hr hl a0 b1 z1
  have w2 := mulPoolAdd_elt hr hl a0 b1 w1.is
  have w3 := mulPoolAdd_elt hr hl a1 b1 z2
  have s0 := w0.len.trans (hS.shape.size 0 (by omega))
  have s1 := w1.len.trans (hS.shape.size 1 (by omega))
  have s2 := w2.len.trans s1
  have s3 := w3.len.trans (hS.shape.size 2 (by omega))
  have d1 : 1 < max deg 2 + 1 := by omega
  have d2 : 2 < max deg 2 + 1 := by omega
  have hro : ∀ i, (hh out).rows i = hh.rows out i := fun _ => rfl
  rw [hro] at w0 w1 w2 s0 s1 s2 s3 w3
  simp only [hal, if_false, Heap.rows_setRows_ite, Heap.length_setRows, hlen, Heap.scale_setRows, d1, d2,
    and_true, true_and, one_ne_zero, zero_ne_one, and_false, false_and, if_true, Nat.zero_lt_succ, hsc,
    OfNat.ofNat_ne_zero, OfNat.ofNat_ne_one]
  refine ⟨fun b hb => ?_, ?_, fun i hi => ?_⟩
  · simp only [Heap.setRows_ne _ _ _ _ _ hb, hne b hb]
  · simp only [Heap.setRows_self]
    exact (((hS.shape.setRows s0).setRows s1).setRows s2).setRows s3
  · show EltIs _ _ _ _ _ (Heap.rows _ out i) _
    simp only [Heap.rows_setRows_ite, Heap.length_setRows, hlen, d1, d2, and_true, true_and, Nat.zero_lt_succ]
    by_cases i0 : i = 0
    · subst i0
      simp only [zero_ne_one, OfNat.zero_ne_ofNat, if_false, if_true]
      exact w0.is
    · by_cases i1 : i = 1
      · subst i1
        simp only [one_ne_zero, OfNat.one_ne_ofNat, if_false, if_true]
        exact w2.is.congr fun u _ => by ring
      · by_cases i2 : i = 2
        · subst i2
          simp only [OfNat.ofNat_ne_zero, OfNat.ofNat_ne_one, if_false, if_true]
          exact w3.is
        · simp only [i0, i1, i2, if_false, add_zero]
          exact hS.elt i hi

/-- `mulPtAndAdd` -/
theorem mulPtAndAdd_is {n : ℕ} {ev : Evaluator} (hr : ev.ringQ.Valid n) {level : ℕ} (hl : level < ev.ringQ.subs.length)
    {h : Heap} {pt ct out : Ref} {x y z : ℕ → ∀ u, Rq (2 ^ n) (ev.ringQ.qs u)} {A B : ℕ → ℕ}
    (h0 : EltIs n ev.ringQ level A true (h.rows pt 0) (x 0))
    (h1 : ∀ i ≤ 1, EltIs n ev.ringQ level B true (h.rows ct i) (y i)) {deg : ℕ}
    (hs : CtIs n ev.ringQ level ev.ringQ.qs deg (h out) z) (hdeg : 1 ≤ deg) :
    let h' := ev.mulPtAndAdd h level pt ct out
    (h' out).scale = (h out).scale ∧ (∀ b ≠ out, h' b = h b) ∧
      CtIs n ev.ringQ level ev.ringQ.qs deg (h' out) (fun i u => z i u + if i ≤ 1 then x 0 u * y i u else 0) := by
  rw [Evaluator.mulPtAndAdd]
  dsimp only
  have hlen := hs.shape.len
  have w0 := mulPoolAdd_elt hr hl h0 (h1 0 (by omega)) (hs.elt 0 (by omega))
  have w1 := mulPoolAdd_elt hr hl h0 (h1 1 (by omega)) (hs.elt 1 (by omega))
  have s0 := w0.len.trans (hs.shape.size 0 (by omega))
  have s1 := w1.len.trans (hs.shape.size 1 (by omega))
  have d1 : 1 < deg + 1 := by omega
  have hro : ∀ i, (h out).rows i = h.rows out i := fun _ => rfl
  rw [hro] at w0 w1 s0 s1
  simp only [Heap.rows_setRows_ite, Heap.length_setRows, hlen, Heap.scale_setRows, d1,
    and_true, true_and, one_ne_zero, zero_ne_one, and_false, false_and, if_true, Nat.zero_lt_succ, if_false]
  refine ⟨fun b hb => ?_, ?_, fun i hi => ?_⟩
  · simp only [Heap.setRows_ne _ _ _ _ _ hb]
  · simp only [Heap.setRows_self]
    exact (hs.shape.setRows s0).setRows s1
  · show EltIs _ _ _ _ _ (Heap.rows _ out i) _
    simp only [Heap.rows_setRows_ite, Heap.length_setRows, hlen, d1, and_true, true_and, Nat.zero_lt_succ]
    by_cases i0 : i = 0
    · subst i0
      simp only [zero_ne_one, if_false, if_true, Nat.zero_le]
      exact w0.is
    · by_cases i1 : i = 1
      · subst i1
        simp only [if_true, le_refl]
        exact w1.is
      · simp only [i0, i1, show ¬i ≤ 1 by omega, if_false, add_zero]
        exact hs.elt i hi

end FastKsw
