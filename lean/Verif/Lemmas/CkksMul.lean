import Verif.Lemmas.Switch

/-!
# `mulRelin` of the classical evaluator
-/

namespace FastKsw

open Props Finset

/-- `MulRelin` of two ciphertexts of degree 1 -/
theorem mulRelin_is {n : ℕ} {ev : Evaluator} {rP : Ring} (hr : ev.ringQ.Valid n) (sr : ev.ringQ.Small)
    (hks : ev.ks = newKeySwitcher ev.ringQ rP) {rlk : SwitchingKey} (hrlk : ev.rlk = some rlk) {level : ℕ}
    {sIn sOut : ℕ → ℤ} {e : ℕ → ℕ → ℤ} (hsw : Switches n ev.ringQ rP level rlk sIn sOut e)
    {h : Heap} {op0 op1 out : Ref} {deg l0 l1 lo : ℕ} {A B : ℕ → ℕ}
    {x y : ℕ → ∀ u, Rq (2 ^ n) (ev.ringQ.qs u)} (h0 : CtIs n ev.ringQ l0 A 1 (h op0) x)
    (h1 : CtIs n ev.ringQ l1 B 1 (h op1) y) (ho : CtShape deg lo (h out)) (hdeg : 1 ≤ deg)
    (hlev : level = min (min l0 l1) lo) (hl : level < ev.ringQ.subs.length) :
    ∃ h', ev.mulRelin h op0 op1 true out = some h' ∧
    CtShape deg level (h' out) ∧ (h' out).scale = f64 ((h op0).scale * (h op1).scale) ∧ (∀ b ≠ out, h' b = h b) ∧
      (∀ i, 2 ≤ i → i ≤ deg → h'.rows out i = (h.rows out i).take (level + 1)) ∧ ∃ d0 d1 E,
      KeySwitched n ev.ringQ rP level (rP.subs.length - 1) (fun u => x 1 u * y 1 u) d0 d1 sIn sOut e E ∧
      EltIs n ev.ringQ level (fun u => 6 * ev.ringQ.qs u) true (h'.rows out 0) (fun u => x 0 u * y 0 u + d0 u) ∧
      EltIs n ev.ringQ level (fun u => 6 * ev.ringQ.qs u) true (h'.rows out 1)
        (fun u => x 0 u * y 1 u + x 1 u * y 0 u + d1 u) := by
  have hlo : level ≤ lo := by omega
  unfold Evaluator.mulRelin
  rw [mulPrepare_eq h0.shape h1.shape ho (by omega) (by omega) (by omega) (by omega), ← hlev, Option.bind_some, hrlk]
  dsimp only
  have sc : ∀ b, ((h.set out ((h out).dropTo level)) b).scale = (h b).scale := fun b => by
    by_cases e : b = out
    · subst e; rw [Heap.set_self, Ct.scale_dropTo]
    · rw [Heap.set_ne _ _ _ _ e]
  have dg : ∀ b, ((h.set out ((h out).dropTo level)) b).degree = (h b).degree := fun b => by
    by_cases e : b = out
    · subst e; rw [Heap.set_self, Ct.degree_dropTo]
    · rw [Heap.set_ne _ _ _ _ e]
  have hS : CtShape deg level ((h.set out ((h out).dropTo level)) out) := by
    rw [Heap.set_self]; exact ho.dropTo hlo
  have r0 := fun i (hi : i ≤ 1) => dropTo_elt (out := out) h0 (show level ≤ l0 by omega) hi
  have r1 := fun i (hi : i ≤ 1) => dropTo_elt (out := out) h1 (show level ≤ l1 by omega) hi
  have hne : ∀ b ≠ out, (h.set out ((h out).dropTo level)) b = h b := fun b hb => Heap.set_ne _ _ _ _ hb
  have hrw : ∀ i ≤ deg, (h.set out ((h out).dropTo level)).rows out i = (h.rows out i).take (level + 1) := fun i hi => by
    rw [Heap.rows_set_self, ho.rows_dropTo hlo hi, Heap.rows]
  simp only [Heap.degree_setScale, dg, h0.shape.degree, h1.shape.degree, sc, Nat.reduceAdd, if_true, Option.map_some]
  generalize h.set out ((h out).dropTo level) = hh at *
  have hS' : CtShape deg level ((hh.setScale out (f64 ((h op0).scale * (h op1).scale))) out) := by
    rw [Heap.setScale_self]; exact hS.scale _
  by_cases e : op1 = out
  · rw [if_pos e]
    obtain ⟨g1, g2, g3, g4, d0, d1, E, hE, g5, g6⟩ := mulCtRelin_is hr sr hks hl hsw (tmp0 := op1) (tmp1 := op0)
      (sq := decide (op0 = op1)) (x := y) (y := x)
      (fun i hi => by rw [Heap.rows_setScale]; exact r1 i hi) (fun i hi => by rw [Heap.rows_setScale]; exact r0 i hi)
      hS' hdeg (by
        by_cases e' : op0 = op1
        · exact Or.inr (decide_eq_true e')
        · exact Or.inl (fun h => e' (h.trans e.symm)))
      (fun h => (of_decide_eq_true h).symm)
    refine ⟨_, rfl, g1, by rw [g2, Heap.setScale_self], fun b hb => by rw [g3 b hb, Heap.setScale_ne _ _ _ _ hb, hne b hb],
      fun i hi hi' => by rw [g4 i hi, Heap.rows_setScale, hrw i hi'], d0, d1, E, hE.congr fun u _ => mul_comm _ _,
      g5.congr fun u _ => by ring, g6.congr fun u _ => by ring⟩
  · rw [if_neg e]
    obtain ⟨g1, g2, g3, g4, d0, d1, E, hE, g5, g6⟩ := mulCtRelin_is hr sr hks hl hsw (tmp0 := op0) (tmp1 := op1)
      (sq := decide (op0 = op1)) (x := x) (y := y)
      (fun i hi => by rw [Heap.rows_setScale]; exact r0 i hi) (fun i hi => by rw [Heap.rows_setScale]; exact r1 i hi)
      hS' hdeg (Or.inl e) of_decide_eq_true
    exact ⟨_, rfl, g1, by rw [g2, Heap.setScale_self], fun b hb => by rw [g3 b hb, Heap.setScale_ne _ _ _ _ hb, hne b hb],
      fun i hi hi' => by rw [g4 i hi, Heap.rows_setScale, hrw i hi'], d0, d1, E, hE, g5, g6⟩

/-- product of a plaintext (an operand of degree 0) and a ciphertext of degree 1 -/
theorem mulPt_is {n : ℕ} {ev : Evaluator} (hr : ev.ringQ.Valid n) {h : Heap} {op0 op1 out : Ref} {deg l0 l1 lo : ℕ}
    {A B : ℕ → ℕ} {x y : ℕ → ∀ u, Rq (2 ^ n) (ev.ringQ.qs u)} (h0 : CtIs n ev.ringQ l0 A 0 (h op0) x)
    (h1 : CtIs n ev.ringQ l1 B 1 (h op1) y) (ho : CtShape deg lo (h out)) (hdeg : 1 ≤ deg) {level : ℕ}
    (hlev : level = min (min l0 l1) lo) (hl : level < ev.ringQ.subs.length) (relin swap : Bool) :
    ∃ h', ev.mulRelin h (if swap then op1 else op0) (if swap then op0 else op1) relin out = some h' ∧
    CtShape deg level (h' out) ∧ (h' out).scale = f64 ((h op0).scale * (h op1).scale) ∧ (∀ b ≠ out, h' b = h b) ∧
      (∀ i, 2 ≤ i → i ≤ deg → h'.rows out i = (h.rows out i).take (level + 1)) ∧
      ∀ i ≤ 1, EltIs n ev.ringQ level ev.ringQ.qs true (h'.rows out i) (fun u => x 0 u * y i u) := by
  have hlo : level ≤ lo := by omega
  have e1 : ev.mulRelin h (if swap then op1 else op0) (if swap then op0 else op1) relin out
      = some (ev.mulPt ((h.set out ((h out).dropTo level)).setScale out (f64 ((h op0).scale * (h op1).scale))) level
        op0 op1 out) := by
    have sc : ∀ b, ((h.set out ((h out).dropTo level)) b).scale = (h b).scale := fun b => by
      by_cases e : b = out
      · subst e; rw [Heap.set_self, Ct.scale_dropTo]
      · rw [Heap.set_ne _ _ _ _ e]
    have dg : ∀ b, ((h.set out ((h out).dropTo level)) b).degree = (h b).degree := fun b => by
      by_cases e : b = out
      · subst e; rw [Heap.set_self, Ct.degree_dropTo]
      · rw [Heap.set_ne _ _ _ _ e]
    unfold Evaluator.mulRelin
    cases swap
    · rw [if_neg (by decide), if_neg (by decide),
        mulPrepare_eq h0.shape h1.shape ho (by omega) (by omega) (by omega) (by omega), ← hlev, Option.bind_some]
      dsimp only
      simp only [Heap.degree_setScale, dg, h0.shape.degree, h1.shape.degree, sc, Nat.reduceAdd, Nat.reduceEqDiff,
        if_false, zero_ne_one]
    · rw [if_pos rfl, if_pos rfl,
        mulPrepare_eq h1.shape h0.shape ho (by omega) (by omega) (by omega) (by omega), min_comm l1 l0, ← hlev,
        Option.bind_some]
      dsimp only
      simp only [Heap.degree_setScale, dg, h0.shape.degree, h1.shape.degree, sc, Nat.reduceAdd, Nat.reduceEqDiff,
        if_false, if_true, mul_comm (h op1).scale]
  rw [e1]
  have hS : CtShape deg level (((h.set out ((h out).dropTo level)).setScale out (f64 ((h op0).scale * (h op1).scale))) out) := by
    rw [Heap.setScale_self, Heap.set_self]; exact (ho.dropTo hlo).scale _
  have r0 : EltIs n ev.ringQ level A true
      (((h.set out ((h out).dropTo level)).setScale out (f64 ((h op0).scale * (h op1).scale))).rows op0 0) (x 0) := by
    rw [Heap.rows_setScale]; exact dropTo_elt (out := out) h0 (by omega) le_rfl
  have r1 : ∀ i ≤ 1, EltIs n ev.ringQ level B true
      (((h.set out ((h out).dropTo level)).setScale out (f64 ((h op0).scale * (h op1).scale))).rows op1 i) (y i) := fun i hi => by
    rw [Heap.rows_setScale]; exact dropTo_elt (out := out) h1 (by omega) hi
  have hsc : (((h.set out ((h out).dropTo level)).setScale out (f64 ((h op0).scale * (h op1).scale))) out).scale
      = f64 ((h op0).scale * (h op1).scale) := by rw [Heap.setScale_self]
  have hfr : ∀ b ≠ out, ((h.set out ((h out).dropTo level)).setScale out (f64 ((h op0).scale * (h op1).scale))) b = h b :=
    fun b hb => by rw [Heap.setScale_ne _ _ _ _ hb, Heap.set_ne _ _ _ _ hb]
  have hrw : ∀ i ≤ deg, ((h.set out ((h out).dropTo level)).setScale out (f64 ((h op0).scale * (h op1).scale))).rows out i
      = (h.rows out i).take (level + 1) := fun i hi => by
    rw [Heap.rows_setScale, Heap.rows_set_self, ho.rows_dropTo hlo hi, Heap.rows]
  generalize (h.set out ((h out).dropTo level)).setScale out (f64 ((h op0).scale * (h op1).scale)) = hh at *
  have hlen := hS.len
  have w0 := mulPool_elt hr hl r0 (r1 0 (by omega)) (hS.lvl hr (show 0 ≤ deg by omega))
  have w1 := mulPool_elt hr hl r0 (r1 1 (by omega)) (hS.lvl hr (show 1 ≤ deg by omega))
  have s0 := w0.len.trans (hS.size 0 (by omega))
  have s1 := w1.len.trans (hS.size 1 (by omega))
  have d1 : 1 < deg + 1 := by omega
  have hro : ∀ i, (hh out).rows i = hh.rows out i := fun _ => rfl
  rw [hro] at w0 w1 s0 s1
  refine ⟨_, rfl, ?_⟩
  unfold Evaluator.mulPt
  dsimp only
  simp only [Heap.rows_setRows_ite, Heap.length_setRows, hlen, Heap.scale_setRows, d1,
      and_true, true_and, one_ne_zero, zero_ne_one, and_false, false_and, if_true, Nat.zero_lt_succ, if_false]
  refine ⟨?_, hsc, fun b hb => ?_, fun i hi hi' => ?_, fun i hi => ?_⟩
  · simp only [Heap.setRows_self]
    exact (hS.setRows s0).setRows s1
  · simp only [Heap.setRows_ne _ _ _ _ _ hb, hfr b hb]
  · simp only [show i ≠ 0 by omega, show i ≠ 1 by omega, if_false, hrw i hi']
  · rcases (by omega : i = 0 ∨ i = 1) with rfl | rfl
    · simp only [zero_ne_one, if_false, if_true]; exact w0.is
    · simp only [if_true]; exact w1.is

/-- `Relinearize` of a ciphertext of degree 2 -/
theorem relinearize_is {n : ℕ} {ev : Evaluator} {rP : Ring} (hr : ev.ringQ.Valid n)
    (hks : ev.ks = newKeySwitcher ev.ringQ rP) {rlk : SwitchingKey} (hrlk : ev.rlk = some rlk) {level : ℕ}
    {sIn sOut : ℕ → ℤ} {e : ℕ → ℕ → ℤ} (hsw : Switches n ev.ringQ rP level rlk sIn sOut e)
    {h : Heap} {ct0 out : Ref} {deg l0 lo : ℕ} {x : ℕ → ∀ u, Rq (2 ^ n) (ev.ringQ.qs u)}
    (h0 : CtIs n ev.ringQ l0 (fun u => ev.ringQ.qs u + 1) 2 (h ct0) x)
    (h2 : EltIs n ev.ringQ l0 ev.ringQ.qs true ((h ct0).rows 2) (x 2)) (ho : CtShape deg lo (h out)) (hdeg : 1 ≤ deg)
    (hlev : level = min l0 lo) (hl : level < ev.ringQ.subs.length) :
    ∃ h', ev.relinearize h ct0 out = some h' ∧ (∀ b ≠ out, h' b = h b) ∧ (h' out).scale = (h ct0).scale ∧
      ∃ d0 d1 E, KeySwitched n ev.ringQ rP level (rP.subs.length - 1) (x 2) d0 d1 sIn sOut e E ∧
      CtIs n ev.ringQ level ev.ringQ.qs 1 (h' out) (fun i u => x i u + if i = 0 then d0 u else d1 u) := by
  have hlo : level ≤ lo := by omega
  have hl0 : level ≤ l0 := by omega
  have hpool : level < (newPoly ev.ringQ.n ev.ringQ.subs.length).length := by rw [length_newPoly]; exact hl
  have E0 : (h out).dropTo l0 = (h out).dropTo level := by
    unfold Ct.dropTo
    rw [ho.level]
    by_cases hc : lo > l0
    · rw [show level = l0 by omega]
    · rw [if_neg hc, if_neg (by omega)]
  unfold Evaluator.relinearize
  rw [h0.shape.degree, ho.degree, if_neg (by omega), hrlk, Option.map_some]
  refine ⟨_, rfl, ?_⟩
  rw [h0.shape.level, E0]
  have hS : CtShape deg level ((h.set out ((h out).dropTo level)) out) := by
    rw [Heap.set_self]; exact ho.dropTo hlo
  have C : CtIs n ev.ringQ (if ct0 = out then level else l0) (fun u => ev.ringQ.qs u + 1) 2
      ((h.set out ((h out).dropTo level)) ct0) x := by
    by_cases e : ct0 = out
    · subst e; rw [if_pos rfl, Heap.set_self]; exact h0.dropTo hl0
    · rw [if_neg e, Heap.set_ne _ _ _ _ e]; exact h0
  have R2 : EltIs n ev.ringQ level ev.ringQ.qs true ((h.set out ((h out).dropTo level)).rows ct0 2) (x 2) := by
    by_cases e : ct0 = out
    · subst e
      rw [Heap.rows_set_self, h0.shape.rows_dropTo hl0 le_rfl]
      exact (h2.below hl0).take (by omega)
    · rw [Heap.rows_set_ne _ _ _ _ _ e]; exact h2.below hl0
  have sc : ((h.set out ((h out).dropTo level)) ct0).scale = (h ct0).scale := by
    by_cases e : ct0 = out
    · subst e; rw [Heap.set_self, Ct.scale_dropTo]
    · rw [Heap.set_ne _ _ _ _ e]
  have hne : ∀ b ≠ out, (h.set out ((h out).dropTo level)) b = h b := fun b hb => Heap.set_ne _ _ _ _ hb
  have hlv : min (if ct0 = out then level else l0) level = level := by split <;> omega
  simp only [Heap.rows_setScale, Heap.level_setScale, Heap.value_setScale, sc]
  rw [C.shape.level, hS.level, hlv, C.shape.ntt 2 le_rfl]
  generalize h.set out ((h out).dropTo level) = hh at *
  have r := fun i (hi : i ≤ 2) => (C.elt i hi).below (show level ≤ (if ct0 = out then level else l0) by split <;> omega)
  obtain ⟨y0, y1, g0, g1, E, hE⟩ := hsw true _ _ R2 _ _ hpool hpool
  rw [Evaluator.switchPool, hks]
  have w0 := addLvl_elt hr hl (r 0 (by omega)) g0.is (fun u _ => by omega) (hS.lvl hr (show 0 ≤ deg by omega))
  have w1 := addLvl_elt hr hl (r 1 (by omega)) g1.is (fun u _ => by omega) (hS.lvl hr (show 1 ≤ deg by omega))
  have s0 := w0.len.trans (hS.size 0 (by omega))
  have s1 := w1.len.trans (hS.size 1 (by omega))
  have hro : ∀ i, (hh out).rows i = hh.rows out i := fun _ => rfl
  have hro' : ∀ i, (hh ct0).rows i = hh.rows ct0 i := fun _ => rfl
  rw [hro, hro'] at w0 w1 s0 s1
  have hlen := hS.len
  have d1 : 1 < deg + 1 := by omega
  have S := (hS.scale (h ct0).scale).setRows (i := 0) s0
  have S := S.setRows (i := 1) s1
  have fin : ∀ c : Ct, CtShape deg level c → CtShape 1 level (c.resize ev.ringQ.n 1) ∧
      ∀ i ≤ 1, (c.resize ev.ringQ.n 1).rows i = c.rows i := fun c hc => by
    by_cases hd : 1 < deg
    · refine ⟨hc.resize_down hd, fun i hi => ?_⟩
      unfold Ct.resize
      rw [hc.degree, if_pos hd, Ct.rows_take (by omega)]
    · have : deg = 1 := by omega
      subst this
      exact ⟨hc.resize_up le_rfl, fun i hi => hc.rows_resize_up le_rfl hi⟩
  obtain ⟨F1, F2⟩ := fin _ S
  simp only [Heap.rows_setRows_ite, Heap.length_setRows, Heap.value_setScale, hlen, Heap.rows_setScale, one_ne_zero, false_and,
    and_false, if_false]
  refine ⟨fun b hb => ?_, ?_, y0, y1, E, hE, ?_, fun i hi => ?_⟩
  · rw [Heap.set_ne _ _ _ _ hb, Heap.setRows_ne _ _ _ _ _ hb, Heap.setRows_ne _ _ _ _ _ hb, Heap.setScale_ne _ _ _ _ hb, hne b hb]
  · simp
  · rw [Heap.set_self]
    simp only [Heap.setRows_self, Heap.setScale_self]
    exact F1
  · rw [Heap.set_self]
    simp only [Heap.setRows_self, Heap.setScale_self]
    rw [F2 i hi]
    rcases (by omega : i = 0 ∨ i = 1) with rfl | rfl
    · rw [Ct.rows_setRows_ne _ _ _ _ (by omega), Ct.rows_setRows_self _ _ _ (by rw [hlen]; omega)]
      exact w0.is.congr fun u _ => by simp
    · rw [Ct.rows_setRows_self _ _ _ (by rw [Ct.length_setRows, hlen]; omega)]
      exact w1.is.congr fun u _ => by simp

end FastKsw
