import Verif.Lemmas.Heap

/-!
# The tensor product of two ciphertexts
-/

namespace FastKsw

section
variable {n : ℕ} {ev : Evaluator} (hr : ev.ringQ.Valid n) {level : ℕ} (hl : level < ev.ringQ.subs.length)
include hr hl

theorem mformPool_elt {A : ℕ → ℕ} {b : Bool} {p : Rows} {x} (h : EltIs n ev.ringQ level A b p x) :
    EltIs n ev.ringQ level ev.ringQ.qs b (ev.mformPool level p) (fun u => 2 ^ 64 * x u) :=
  (mformLvl_elt hr hl h (by rw [length_newPoly]; exact hl)).is

/-- product with a factor that went through `MFormLvl` -/
theorem mulPool_elt {A B : ℕ → ℕ} {p q o : Rows} {x y} (h : EltIs n ev.ringQ level A true p x)
    (h' : EltIs n ev.ringQ level B true q y) (ho : level < o.length) :
    EltWritten n ev.ringQ level ev.ringQ.qs true o
      (ev.ringQ.mulCoeffsMontgomeryLvl level (ev.mformPool level p) q o) (fun u => x u * y u) :=
  mulMont_elt hr hl (mformPool_elt hr hl h) h'.any (fun _ _ => le_rfl) (fun u _ => by ring) ho

theorem mulPoolAdd_elt {A B : ℕ → ℕ} {p q o : Rows} {x y t} (h : EltIs n ev.ringQ level A true p x)
    (h' : EltIs n ev.ringQ level B true q y) (ho : EltIs n ev.ringQ level ev.ringQ.qs true o t) :
    EltWritten n ev.ringQ level ev.ringQ.qs true o
      (ev.ringQ.mulCoeffsMontgomeryAndAddLvl level (ev.mformPool level p) q o) (fun u => t u + x u * y u) :=
  mulMontAndAdd_elt hr hl (mformPool_elt hr hl h) h'.any (fun _ _ => le_rfl) (fun u _ => by ring) ho

/-- the rows after a resize to degree 2 -/
theorem resize2 {h : Heap} {out : Ref} {deg : ℕ} (hs : CtShape deg level (h out)) (hdeg : 1 ≤ deg) :
    let h1 := if (h out).degree < 2 then h.set out ((h out).resize ev.ringQ.n 2) else h
    CtShape (max deg 2) level (h1 out) ∧ (h1 out).scale = (h out).scale ∧ (∀ b ≠ out, h1 b = h b) ∧
      ∀ b i, i ≤ 1 → h1.rows b i = h.rows b i := by
  intro h1
  by_cases hd : deg < 2
  · have e : h1 = h.set out ((h out).resize ev.ringQ.n 2) := if_pos (by rw [hs.degree]; exact hd)
    rw [e]
    refine ⟨?_, ?_, fun b hb => Heap.set_ne _ _ _ _ hb, fun b i hi => ?_⟩
    · rw [Heap.set_self, show max deg 2 = 2 by omega]
      exact hs.resize_up (by omega)
    · rw [Heap.set_self, Ct.scale_resize]
    · by_cases hb : b = out
      · subst hb
        rw [Heap.rows_set_self, hs.rows_resize_up (by omega) (by omega), Heap.rows]
      · rw [Heap.rows_set_ne _ _ _ _ _ hb]
  · have e : h1 = h := if_neg (by rw [hs.degree]; exact hd)
    rw [e, show max deg 2 = deg by omega]
    exact ⟨hs, rfl, fun _ _ => rfl, fun _ _ _ => rfl⟩

omit hl in
theorem CtShape.lvl {deg : ℕ} {c : Ct} (h : CtShape deg level c) {i : ℕ} (hi : i ≤ deg) : level < (c.rows i).length := by
  have := h.size i hi
  omega

theorem mulCt_is {h : Heap} {tmp0 tmp1 out : Ref} {sq : Bool} {x y : ℕ → ∀ u, Rq (2 ^ n) (ev.ringQ.qs u)} {A B : ℕ → ℕ}
    (h0 : ∀ i ≤ 1, EltIs n ev.ringQ level A true (h.rows tmp0 i) (x i))
    (h1 : ∀ i ≤ 1, EltIs n ev.ringQ level B true (h.rows tmp1 i) (y i)) {deg : ℕ}
    (hs : CtShape deg level (h out)) (hdeg : 1 ≤ deg) (hal : tmp1 ≠ out ∨ sq = true) (hsq : sq = true → tmp0 = tmp1) :
    let h' := ev.mulCt h level tmp0 tmp1 out sq
    CtShape (max deg 2) level (h' out) ∧ (h' out).scale = (h out).scale ∧ (∀ b ≠ out, h' b = h b) ∧
      EltIs n ev.ringQ level ev.ringQ.qs true (h'.rows out 0) (fun u => x 0 u * y 0 u) ∧
      EltIs n ev.ringQ level ev.ringQ.qs true (h'.rows out 1) (fun u => x 0 u * y 1 u + x 1 u * y 0 u) ∧
      EltIs n ev.ringQ level ev.ringQ.qs true (h'.rows out 2) (fun u => x 1 u * y 1 u) := by
  have R := resize2 hr hl hs hdeg
  rw [Evaluator.mulCt]
  dsimp only at R ⊢
  generalize (if (h out).degree < 2 then h.set out ((h out).resize ev.ringQ.n 2) else h) = hh at R ⊢
  obtain ⟨hS, hsc, hne, hrows⟩ := R
  have hlen := hS.len
  generalize hD : max deg 2 = D at hS hlen ⊢
  have a0 := hrows tmp0 0 (by omega) ▸ h0 0 (by omega)
  have a1 := hrows tmp0 1 (by omega) ▸ h0 1 (by omega)
  have b0 := hrows tmp1 0 (by omega) ▸ h1 0 (by omega)
  have b1 := hrows tmp1 1 (by omega) ▸ h1 1 (by omega)
  have w0 := mulPool_elt hr hl a0 b0 (hS.lvl hr (show 0 ≤ D by omega))
  have w2 := mulPool_elt hr hl a1 b1 (hS.lvl hr (show 2 ≤ D by omega))
  have w1 := mulPool_elt hr hl a0 b1 (hS.lvl hr (show 1 ≤ D by omega))
  have s0 := w0.len.trans (hS.size 0 (by omega))
  have s1 := w1.len.trans (hS.size 1 (by omega))
  have s2 := w2.len.trans (hS.size 2 (by omega))
  have d1 : 1 < D + 1 := by omega
  have d2 : 2 < D + 1 := by omega
  have hro : ∀ i, (hh out).rows i = hh.rows out i := fun _ => rfl
  rw [hro] at w0 w1 w2 s0 s1 s2
  cases hsq' : sq with
  | true =>
    have ht := hsq hsq'
    have w := (addLvl_elt hr hl w1.is w1.is (fun u _ => by omega) w1.is.lvl).congr
      (y := fun u => x 0 u * y 1 u + x 1 u * y 0 u) fun u hu => by
      have e0 : x 0 u = y 0 u := by rw [← (h0 0 (by omega)).val u hu, ← (h1 0 (by omega)).val u hu, ht]
      have e1' : x 1 u = y 1 u := by rw [← (h0 1 (by omega)).val u hu, ← (h1 1 (by omega)).val u hu, ht]
      rw [e0, e1']; ring
    have s := w.len.trans s1
    simp only [if_true, Heap.rows_setRows_ite, Heap.length_setRows, hlen, Heap.scale_setRows, d1, d2, and_true, true_and,
      Nat.reduceEqDiff, one_ne_zero, zero_ne_one, OfNat.ofNat_ne_zero, OfNat.ofNat_ne_one, OfNat.zero_ne_ofNat,
      OfNat.one_ne_ofNat, and_false, false_and, if_false, Nat.zero_lt_succ, ite_true]
    refine ⟨?_, hsc, fun b hb => ?_, w0.is, w.is, w2.is⟩
    · simp only [Heap.setRows_self]
      exact (((hS.setRows s0).setRows s2).setRows s1).setRows s
    · simp only [Heap.setRows_ne _ _ _ _ _ hb, hne b hb]
  | false =>
    have hne' : tmp1 ≠ out := hal.resolve_right (by rw [hsq']; decide)
    have w := mulPoolAdd_elt hr hl a1 b0 w1.is
    have s := w.len.trans s1
    simp only [Bool.false_eq_true, hne', if_false, Heap.rows_setRows_ite, Heap.length_setRows, hlen, Heap.scale_setRows, d1,
      d2, and_true, true_and,
      Nat.reduceEqDiff, one_ne_zero, zero_ne_one, OfNat.ofNat_ne_zero, OfNat.ofNat_ne_one, OfNat.zero_ne_ofNat,
      OfNat.one_ne_ofNat, and_false, false_and, if_true, Nat.zero_lt_succ, ite_true, if_false]
    refine ⟨?_, hsc, fun b hb => ?_, w0.is, w.is, w2.is⟩
    · simp only [Heap.setRows_self]
      exact (((hS.setRows s0).setRows s2).setRows s1).setRows s
    · simp only [Heap.setRows_ne _ _ _ _ _ hb, hne b hb]

omit hr hl in
/-- reads after the receiver was cut down to the level -/
theorem dropTo_elt {r : Ring} {h : Heap} {out b : Ref} {lb d l : ℕ} {A : ℕ → ℕ} {x} (hb : CtIs n r lb A d (h b) x)
    (hle : l ≤ lb) {i : ℕ} (hi : i ≤ d) :
    EltIs n r l A true ((h.set out ((h out).dropTo l)).rows b i) (x i) := by
  by_cases e : b = out
  · subst e
    rw [Heap.rows_set_self]
    exact (hb.dropTo hle).elt i hi
  · rw [Heap.rows_set_ne _ _ _ _ _ e]
    exact (hb.elt i hi).below hle

omit hr hl in
theorem mulPrepare_eq {h : Heap} {op0 op1 out : Ref} {d0 d1 deg l0 l1 lo : ℕ} (h0 : CtShape d0 l0 (h op0))
    (h1 : CtShape d1 l1 (h op1)) (ho : CtShape deg lo (h out)) (hd : d0 + d1 ≠ 0) (hd0 : d0 ≤ 1) (hd1 : d1 ≤ 1)
    (hdeg : max d0 d1 ≤ deg) : Evaluator.mulPrepare h op0 op1 out
      = some (h.set out ((h out).dropTo (min (min l0 l1) lo)), min (min l0 l1) lo) := by
  have c : checkBinary h op0 op1 out (max d0 d1) = true := by
    simp only [checkBinary, h0.degree, h1.degree, ho.degree, h0.all, h1.all, Bool.and_true, Bool.and_eq_true,
      decide_eq_true_eq]
    exact ⟨hd, hdeg⟩
  have e : ∀ b, ((h.set out ((h out).dropTo (min (min l0 l1) lo))) b).degree = (h b).degree := fun b => by
    by_cases e : b = out
    · subst e; rw [Heap.set_self, Ct.degree_dropTo]
    · rw [Heap.set_ne _ _ _ _ e]
  unfold Evaluator.mulPrepare
  rw [h0.degree, h1.degree, if_pos c]
  dsimp only
  rw [h0.level, h1.level, ho.level, e, e, h0.degree, h1.degree, if_neg (by omega)]

omit hl in
/-- `Mul` of two ciphertexts of degree 1 -/
theorem mul_is {h : Heap} {op0 op1 out : Ref} {deg l0 l1 lo : ℕ} {A B : ℕ → ℕ}
    {x y : ℕ → ∀ u, Rq (2 ^ n) (ev.ringQ.qs u)} (h0 : CtIs n ev.ringQ l0 A 1 (h op0) x)
    (h1 : CtIs n ev.ringQ l1 B 1 (h op1) y) (ho : CtShape deg lo (h out)) (hdeg : 1 ≤ deg) {level : ℕ}
    (hlev : level = min (min l0 l1) lo) (hl : level < ev.ringQ.subs.length) :
    ∃ h', ev.mulRelin h op0 op1 false out = some h' ∧
    CtShape (max deg 2) level (h' out) ∧ (h' out).scale = f64 ((h op0).scale * (h op1).scale) ∧ (∀ b ≠ out, h' b = h b) ∧
      EltIs n ev.ringQ level ev.ringQ.qs true (h'.rows out 0) (fun u => x 0 u * y 0 u) ∧
      EltIs n ev.ringQ level ev.ringQ.qs true (h'.rows out 1) (fun u => x 0 u * y 1 u + x 1 u * y 0 u) ∧
      EltIs n ev.ringQ level ev.ringQ.qs true (h'.rows out 2) (fun u => x 1 u * y 1 u) := by
  have hlo : level ≤ lo := by omega
  unfold Evaluator.mulRelin
  rw [mulPrepare_eq h0.shape h1.shape ho (by omega) (by omega) (by omega) (by omega), ← hlev, Option.bind_some]
  dsimp only
  have sc : ∀ b, ((h.set out ((h out).dropTo level)) b).scale = (h b).scale := fun b => by
    by_cases e : b = out
    · subst e; rw [Heap.set_self, Ct.scale_dropTo]
    · rw [Heap.set_ne _ _ _ _ e]
  have dg : ∀ b, ((h.set out ((h out).dropTo level)) b).degree = (h b).degree := fun b => by
    by_cases e : b = out
    · subst e; rw [Heap.set_self, Ct.degree_dropTo]
    · rw [Heap.set_ne _ _ _ _ e]
  have hS : CtShape deg level ((h.set out ((h out).dropTo level)) out) := by
    rw [Heap.set_self]; exact ho.dropTo hlo
  have r0 := fun i (hi : i ≤ 1) => dropTo_elt (out := out) h0 (show level ≤ l0 by omega) hi
  have r1 := fun i (hi : i ≤ 1) => dropTo_elt (out := out) h1 (show level ≤ l1 by omega) hi
  have hne : ∀ b ≠ out, (h.set out ((h out).dropTo level)) b = h b := fun b hb => Heap.set_ne _ _ _ _ hb
  simp only [Heap.degree_setScale, dg, h0.shape.degree, h1.shape.degree, sc, Nat.reduceAdd, if_true, Bool.false_eq_true,
    if_false]
  generalize h.set out ((h out).dropTo level) = hh at *
  have hS' : CtShape deg level ((hh.setScale out (f64 ((h op0).scale * (h op1).scale))) out) := by
    rw [Heap.setScale_self]; exact hS.scale _
  by_cases e : op1 = out
  · rw [if_pos e]
    obtain ⟨g1, g2, g3, g4, g5, g6⟩ := mulCt_is hr hl (tmp0 := op1) (tmp1 := op0) (sq := decide (op0 = op1)) (x := y) (y := x)
      (fun i hi => by rw [Heap.rows_setScale]; exact r1 i hi) (fun i hi => by rw [Heap.rows_setScale]; exact r0 i hi)
      hS' hdeg (by
        by_cases e' : op0 = op1
        · exact Or.inr (decide_eq_true e')
        · exact Or.inl (fun h => e' (h.trans e.symm)))
      (fun h => (of_decide_eq_true h).symm)
    refine ⟨_, rfl, g1, by rw [g2, Heap.setScale_self], fun b hb => by rw [g3 b hb, Heap.setScale_ne _ _ _ _ hb, hne b hb],
      g4.congr fun u _ => by ring, g5.congr fun u _ => by ring, g6.congr fun u _ => by ring⟩
  · rw [if_neg e]
    obtain ⟨g1, g2, g3, g4, g5, g6⟩ := mulCt_is hr hl (tmp0 := op0) (tmp1 := op1) (sq := decide (op0 = op1)) (x := x) (y := y)
      (fun i hi => by rw [Heap.rows_setScale]; exact r0 i hi) (fun i hi => by rw [Heap.rows_setScale]; exact r1 i hi)
      hS' hdeg (Or.inl e) of_decide_eq_true
    exact ⟨_, rfl, g1, by rw [g2, Heap.setScale_self], fun b hb => by rw [g3 b hb, Heap.setScale_ne _ _ _ _ hb, hne b hb],
      g4, g5, g6⟩

end

end FastKsw
