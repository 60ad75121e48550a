import Verif.Lemmas.Switch
import Verif.Lemmas.FEvaluator
import Verif.Props.FEvaluator

/-!
# The classical evaluator: `permuteNTT`
-/

namespace FastKsw

open Props Finset

section
variable {n : ℕ} {r : Ring}

theorem accStep_full {level m : ℕ} {x y p p' : Rows} (h : p.length = level + 1) (h' : p'.length = level + 1) :
    r.accStep level m 0 x y p = r.accStep level m 0 x y p' := by
  unfold Ring.accStep
  rw [if_pos rfl, if_pos rfl]
  unfold Ring.mulCoeffsMontgomeryConstantLvl
  rw [writeLvl_full h h']

/-- the key switch overwrites its two receivers -/
theorem switchKeysInPlace_full {ks : KeySwitcher} {level : ℕ} {b : Bool} {cx : Rows} {evk : SwitchingKey}
    (hb : 0 < ceilDivF (level + 1) (evk.alpha - 1 + 1)) {p0 p1 p0' p1' : Rows} (h0 : p0.length = level + 1)
    (h1 : p1.length = level + 1) (h0' : p0'.length = level + 1) (h1' : p1'.length = level + 1) :
    ks.switchKeysInPlace level b cx evk p0 p1 = ks.switchKeysInPlace level b cx evk p0' p1' := by
  unfold KeySwitcher.switchKeysInPlace
  have e : ks.switchKeysNoModDown level b cx evk ⟨p0, ks.newPolyQP.p⟩ ⟨p1, ks.newPolyQP.p⟩
      = ks.switchKeysNoModDown level b cx evk ⟨p0', ks.newPolyQP.p⟩ ⟨p1', ks.newPolyQP.p⟩ := by
    unfold KeySwitcher.switchKeysNoModDown
    dsimp only
    obtain ⟨c, hc⟩ : ∃ c, ceilDivF (level + 1) (evk.alpha - 1 + 1) = c + 1 := ⟨_, (Nat.succ_pred_eq_of_pos hb).symm⟩
    rw [hc, List.range_succ_eq_map, List.foldl_cons, List.foldl_cons]
    unfold KeySwitcher.accStep
    rw [accStep_full h0 h0', accStep_full h1 h1']
  rw [e]

theorem CtShape.eq_one {level : ℕ} {c : Ct} (h : CtShape 1 level c) :
    c = ⟨[⟨c.rows 0, true⟩, ⟨c.rows 1, true⟩], c.scale⟩ := by
  have h1 := h.len
  have n0 := h.ntt 0 (by omega)
  have n1 := h.ntt 1 (by omega)
  obtain ⟨v, s⟩ := c
  match v with
  | [a, b] =>
    simp only [List.getD_cons_zero, List.getD_cons_succ] at n0 n1
    obtain ⟨a1, a2⟩ := a
    obtain ⟨b1, b2⟩ := b
    simp only at n0 n1
    simp [Ct.rows, n0, n1]
  | [] => simp at h1
  | [a] => simp at h1
  | a :: b :: c :: t => simp at h1

end

section
variable {n : ℕ} {ev : Evaluator} (hr : ev.ringQ.Valid n) (sr : ev.ringQ.Small)
  {level : ℕ} (hl : level < ev.ringQ.subs.length) {h : Heap} {ct0 out : Ref} {lin : ℕ}
  {x : ℕ → ∀ u, Rq (2 ^ n) (ev.ringQ.qs u)} {A : ℕ → ℕ}

/-- the key-switched component 1 of the input, in coefficient form, as `permuteNTT` writes it into the receiver -/
def Evaluator.permuted (ev : Evaluator) (h : Heap) (level : ℕ) (ct0 : Ref) (rtk : SwitchingKey) (out : Ref) : Rows × Rows :=
  ev.ks.switchKeysInPlace level false (ev.ringQ.invNttLvl level (h.rows ct0 1) (newPoly ev.ringQ.n ev.ringQ.subs.length)) rtk
    (h.rows out 0) (h.rows out 1)

include hr sr hl

theorem permuted_is {rP : Ring} (hks : ev.ks = newKeySwitcher ev.ringQ rP) {rtk : SwitchingKey} {sIn sOut : ℕ → ℤ}
    {e : ℕ → ℕ → ℤ} (hsw : Switches n ev.ringQ rP level rtk sIn sOut e)
    (h1 : EltIs n ev.ringQ level (fun u => ev.ringQ.qs u + 1) true (h.rows ct0 1) (x 1)) (ho : CtShape 1 level (h out)) :
    ∃ y0 y1, EltWritten n ev.ringQ level ev.ringQ.qs false (h.rows out 0) (ev.permuted h level ct0 rtk out).1 y0 ∧
      EltWritten n ev.ringQ level ev.ringQ.qs false (h.rows out 1) (ev.permuted h level ct0 rtk out).2 y1 ∧
      ∃ E, KeySwitched n ev.ringQ rP level (rP.subs.length - 1) (x 1) y0 y1 sIn sOut e E := by
  have hpool : level < (newPoly ev.ringQ.n ev.ringQ.subs.length).length := by rw [length_newPoly]; exact hl
  have w := invNttLvl_elt hr hl sr (fun u hu => by
    have := (hr.subAt (show u < ev.ringQ.subs.length by omega)).prime.two_le
    unfold Ring.qs; omega) h1 hpool
  have s0 := ho.size 0 (by omega)
  have s1 := ho.size 1 (by omega)
  unfold Evaluator.permuted
  rw [hks]
  exact hsw false _ _ w.is _ _ (by show level < ((h out).rows 0).length; omega) (by show level < ((h out).rows 1).length; omega)

/-- what `permuteNTT` computes, in place or not -/
theorem permuteNTT_is {g : UInt64} {rtk : SwitchingKey} (hrtk : ev.rtks g = some rtk) (go : g.toNat % 2 = 1)
    (hin : (h ct0).level = lin) (hlin : level ≤ lin) (ho : CtShape 1 level (h out)) {y0 y1 : ∀ u, Rq (2 ^ n) (ev.ringQ.qs u)}
    (w0 : EltIs n ev.ringQ level ev.ringQ.qs false (ev.permuted h level ct0 rtk out).1 y0)
    (w1 : EltIs n ev.ringQ level ev.ringQ.qs false (ev.permuted h level ct0 rtk out).2 y1)
    (m0 : (ev.permuted h level ct0 rtk out).1.length = level + 1) (m1 : (ev.permuted h level ct0 rtk out).2.length = level + 1)
    {z : ∀ u, Rq (2 ^ n) (ev.ringQ.qs u)}
    (hz : EltIs n ev.ringQ level (fun u => ev.ringQ.qs u + 1) true
      (if ct0 = out then (ev.permuted h level ct0 rtk out).1 else h.rows ct0 0) z) :
    ∃ h', ev.permuteNTT h ct0 g out = some h' ∧ (∀ b ≠ out, h' b = h b) ∧ (h' out).scale = (h out).scale ∧
      CtIs n ev.ringQ level ev.ringQ.qs 1 (h' out)
        (fun i u => aut (2 ^ n) (ev.ringQ.qs u) go (if i = 0 then y0 u + z u else y1 u)) := by
  have hlen := ho.len
  have hpool : level < (newPoly ev.ringQ.n ev.ringQ.subs.length).length := by rw [length_newPoly]; exact hl
  have hrow : ∀ i ≤ 1, (h.rows out i).length = level + 1 := fun i hi => ho.size i hi
  unfold Evaluator.permuteNTT
  rw [hrtk, Option.map_some]
  dsimp only
  rw [hin, ho.level, min_eq_right hlin]
  have hd : ev.ks.switchKeysInPlace level false (ev.ringQ.invNttLvl level (h.rows ct0 1) (newPoly ev.ringQ.n
    ev.ringQ.subs.length)) rtk (h.rows out 0) (h.rows out 1) = ev.permuted h level ct0 rtk out := rfl
  rw [hd]
  clear hd
  generalize ev.permuted h level ct0 rtk out = d at *
  have q4 : ∀ u ≤ level, ev.ringQ.qs u ≤ 4 * ev.ringQ.qs u := fun u _ => by omega
  have n1 := nttLvl_elt hr hl sr q4 w1 hpool
  have n0 := fun (p : Rows) (hp : level < p.length) => nttLvl_elt hr hl sr q4 w0 hp
  have e0 : ((h.setRows out 0 d.1).setRows out 1 d.2).rows out 0 = d.1 := by
    rw [Heap.rows_setRows_ne _ _ _ _ _ _ (Or.inr (by omega)), Heap.rows_setRows_self _ _ _ _ (by omega)]
  have e1 : ((h.setRows out 0 d.1).setRows out 1 d.2).rows out 1 = d.2 := by
    rw [Heap.rows_setRows_self _ _ _ _ (by rw [Heap.length_setRows]; omega)]
  have ec : ((h.setRows out 0 d.1).setRows out 1 d.2).rows ct0 0 = if ct0 = out then d.1 else h.rows ct0 0 := by
    by_cases hc : ct0 = out
    · subst hc; rw [if_pos rfl, e0]
    · rw [if_neg hc, Heap.rows_setRows_ne _ _ _ _ _ _ (Or.inl hc), Heap.rows_setRows_ne _ _ _ _ _ _ (Or.inl hc)]
  have hS : CtShape 1 level (((h.setRows out 0 d.1).setRows out 1 d.2) out) := by
    rw [Heap.setRows_self, Heap.setRows_self]
    exact (ho.setRows (i := 0) m0).setRows (i := 1) m1
  have hsc : (((h.setRows out 0 d.1).setRows out 1 d.2) out).scale = (h out).scale := by simp
  have hne : ∀ b ≠ out, ((h.setRows out 0 d.1).setRows out 1 d.2) b = h b := fun b hb => by
    rw [Heap.setRows_ne _ _ _ _ _ hb, Heap.setRows_ne _ _ _ _ _ hb]
  rw [ec, e0, e1]
  generalize (h.setRows out 0 d.1).setRows out 1 d.2 = g2 at *
  have hpl : level < (ev.ringQ.invNttLvl level (h.rows ct0 1) (newPoly ev.ringQ.n ev.ringQ.subs.length)).length := by
    unfold Ring.invNttLvl
    rw [length_writeLvl]
    exact hpool
  have k0 := n0 _ hpl
  have a0 := addLvl_elt hr hl k0.is hz (fun u _ => by omega) k0.is.lvl
  have b0 := permuteNTTLvl_elt hr hl (out := d.1) w0.lvl go a0.is
  have b1 := permuteNTTLvl_elt hr hl (out := d.2) w1.lvl go n1.is
  have l0 := b0.len.trans m0
  have l1 := b1.len.trans m1
  refine ⟨_, rfl, fun b hb => by rw [Heap.setRows_ne _ _ _ _ _ hb, Heap.setRows_ne _ _ _ _ _ hb, hne b hb],
    by rw [Heap.scale_setRows, Heap.scale_setRows, hsc], ⟨?_, fun i hi => ?_⟩⟩
  · rw [Heap.setRows_self, Heap.setRows_self, Heap.rows_setRows_ne _ _ _ _ _ _ (Or.inr (by omega)), e1]
    exact (hS.setRows (i := 0) l0).setRows (i := 1) l1
  · rw [Heap.setRows_self, Heap.setRows_self, Heap.rows_setRows_ne _ _ _ _ _ _ (Or.inr (by omega)), e1]
    have hlen2 := hS.len
    rcases (by omega : i = 0 ∨ i = 1) with rfl | rfl
    · rw [Ct.rows_setRows_ne _ _ _ _ (by omega), Ct.rows_setRows_self _ _ _ (by omega)]
      exact b0.is
    · rw [Ct.rows_setRows_self _ _ _ (by rw [Ct.length_setRows]; omega)]
      exact b1.is

end

end FastKsw
