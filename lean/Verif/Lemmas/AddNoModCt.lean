import Verif.Props.AddScales
import Verif.Model.EvaluatorNoMod

/-!
# `evaluateInPlace` with different bounds on the operands and on the result
-/

namespace FastKsw

open Props Finset

/-- `f` computes `op` on elements with entries below `A` and `B`, with entries below `C` -/
def BinOp3 (n : ℕ) (r : Ring) (level : ℕ) (A B C : ℕ → ℕ) (f : ℕ → Rows → Rows → Rows → Rows)
    (op : (∀ u, Rq (2 ^ n) (r.qs u)) → (∀ u, Rq (2 ^ n) (r.qs u)) → ∀ u, Rq (2 ^ n) (r.qs u)) : Prop :=
  ∀ p1 p2 p3 x y, EltIs n r level A true p1 x → EltIs n r level B true p2 y → level < p3.length →
    EltWritten n r level C true p3 (f level p1 p2 p3) (op x y)

section
variable {n : ℕ} {r : Ring} (hr : r.Valid n) {level : ℕ} {A B C : ℕ → ℕ}
include hr

theorem evaluateTail_is3 {f : ℕ → Rows → Rows → Rows → Rows} {op} (hf : BinOp3 n r level A B C f op)
    (hAC : ∀ u ≤ level, A u ≤ C u) (hBC : ∀ u ≤ level, B u ≤ C u) {g : Heap}
    {c0 c1 out tmp0 tmp1 : Ref} {d0 d1 : ℕ} {s : ℚ} {x y : ℕ → ∀ u, Rq (2 ^ n) (r.qs u)}
    (h0 : ∀ i ≤ d0, EltIs n r level A true (g.rows tmp0 i) (x i)) (h1 : ∀ i ≤ d1, EltIs n r level B true (g.rows tmp1 i) (y i))
    (e0 : (g c0).degree = d0) (e1 : (g c1).degree = d1) (ho : CtShape (max d0 d1) level (g out)) :
    let g' := evaluateTail g c0 c1 out tmp0 tmp1 level (min d0 d1) (max d0 d1) s f
    (∀ b ≠ out, g' b = g b) ∧ (g' out).scale = s ∧
    CtIs n r level C (max d0 d1) (g' out) (fun i => if i ≤ min d0 d1 then op (x i) (y i) else if i ≤ d0 then x i else y i) ∧
    ∀ i, d0 < i → i ≤ d1 → EltIs n r level B true ((g' out).rows i) (y i) := by
  intro g'
  have hlen := ho.len
  have L := overComponents_is0 (out := out)
    (F := fun i h => f level (h.rows tmp0 i) (h.rows tmp1 i) (h.rows out i))
    (fun u h h' hh => by rw [hh, hh, hh]) (min d0 d1 + 1) g
  have hg' : g' = evaluateTail g c0 c1 out tmp0 tmp1 level (min d0 d1) (max d0 d1) s f := rfl
  unfold evaluateTail at hg'
  dsimp only at hg' L
  generalize overComponents (fun i h => h.setRows out i (f level (h.rows tmp0 i) (h.rows tmp1 i) (h.rows out i)))
    (min d0 d1 + 1) g = g1 at hg' L
  have w : ∀ i ≤ min d0 d1, EltWritten n r level C true (g.rows out i)
      (f level (g.rows tmp0 i) (g.rows tmp1 i) (g.rows out i)) (op (x i) (y i)) := fun i hi =>
    hf _ _ _ _ _ (h0 i (by omega)) (h1 i (by omega)) (by
      have := ho.size i (by omega)
      unfold Heap.rows
      omega)
  have S1 : CtShape (max d0 d1) level (g1 out) := L.shape ho fun u hu hd =>
    (w u (by omega)).len.trans (ho.size u (by omega))
  have R1 : ∀ i ≤ min d0 d1, EltIs n r level C true ((g1 out).rows i) (op (x i) (y i)) := fun i hi => by
    have := L.row i (by omega) (by omega)
    rw [Nat.zero_add] at this
    rw [this]
    exact (w i hi).is
  have dg : ∀ b, (g1 b).degree = (g b).degree := fun b => by
    by_cases hb : b = out
    · subst hb; unfold Ct.degree; rw [L.len]
    · rw [L.frame b hb]
  rw [Heap.degree_setScale, Heap.degree_setScale, dg, dg, e0, e1] at hg'
  have S2 : CtShape (max d0 d1) level ((g1.setScale out s) out) := by
    rw [Heap.setScale_self]; exact S1.scale s
  have R2 : ∀ i, ((g1.setScale out s) out).rows i = (g1 out).rows i := fun i => by
    rw [Heap.setScale_self]; rfl
  have F2 : ∀ b ≠ out, (g1.setScale out s) b = g b := fun b hb => by
    rw [Heap.setScale_ne _ _ _ _ hb, L.frame b hb]
  have C2 : ((g1.setScale out s) out).scale = s := by rw [Heap.setScale_self]
  generalize g1.setScale out s = g2 at hg' S2 R2 F2 C2
  have cp : ∀ (tmp : Ref) (z : ℕ → ∀ u, Rq (2 ^ n) (r.qs u)) (D : ℕ → ℕ), (∀ u ≤ level, D u ≤ C u) → tmp ≠ out →
      (∀ i, min d0 d1 < i → i ≤ max d0 d1 → EltIs n r level D true (g.rows tmp i) (z i)) →
      let g3 := overComponents (fun i h => h.setRows out (min d0 d1 + 1 + i)
        (copyValuesLvl level (h.rows tmp (min d0 d1 + 1 + i)) (h.rows out (min d0 d1 + 1 + i))))
        (max d0 d1 - min d0 d1) g2
      (∀ b ≠ out, g3 b = g b) ∧ (g3 out).scale = s ∧
      CtIs n r level C (max d0 d1) (g3 out) (fun i => if i ≤ min d0 d1 then op (x i) (y i) else z i) ∧
      ∀ i, min d0 d1 < i → i ≤ max d0 d1 → EltIs n r level D true ((g3 out).rows i) (z i) := by
    intro tmp z D hD ht hz g3
    have L3 := overComponents_is (out := out) (o := min d0 d1 + 1) (F := fun i h =>
        copyValuesLvl level (h.rows tmp (min d0 d1 + 1 + i)) (h.rows out (min d0 d1 + 1 + i)))
      (fun u h h' hh => by rw [hh, hh]) (max d0 d1 - min d0 d1) g2
    have W : ∀ i, min d0 d1 + 1 + i ≤ max d0 d1 → EltWritten n r level D true ((g2 out).rows (min d0 d1 + 1 + i))
        (copyValuesLvl level (g2.rows tmp (min d0 d1 + 1 + i)) (g2.rows out (min d0 d1 + 1 + i)))
        (z (min d0 d1 + 1 + i)) := fun i hi => by
      have hz' := hz (min d0 d1 + 1 + i) (by omega) hi
      have e : g2.rows tmp (min d0 d1 + 1 + i) = g.rows tmp (min d0 d1 + 1 + i) := by
        unfold Heap.rows; rw [F2 tmp ht]
      rw [e]
      exact (copyValuesLvl_is (hz'.polyIs hr) (by
        have := S2.size (min d0 d1 + 1 + i) hi
        omega)).eltWritten hr fun u hu => hz'.eltOf hr hu
    have hlen2 := S2.len
    refine ⟨fun b hb => (L3.frame b hb).trans (F2 b hb), L3.scale.trans C2,
      ⟨L3.shape S2 fun u hu hd => (W u hd).len.trans (S2.size _ hd), fun i hi => ?_⟩, fun i hi hi' => ?_⟩
    · by_cases hi' : i ≤ min d0 d1
      · rw [if_pos hi', L3.other i (by omega), R2]
        exact R1 i hi'
      · rw [if_neg hi']
        obtain ⟨u, rfl⟩ : ∃ u, i = min d0 d1 + 1 + u := ⟨i - (min d0 d1 + 1), by omega⟩
        rw [L3.row u (by omega) (by omega)]
        exact (W u hi).is.mono hD
    · obtain ⟨u, rfl⟩ : ∃ u, i = min d0 d1 + 1 + u := ⟨i - (min d0 d1 + 1), by omega⟩
      rw [L3.row u (by omega) (by omega)]
      exact (W u hi').is
  by_cases k1 : d0 > d1 ∧ tmp0 ≠ out
  · rw [if_pos k1] at hg'
    rw [hg']
    obtain ⟨a1, a2, a3, -⟩ := cp tmp0 x A hAC k1.2 fun i hi hi' => h0 i (by omega)
    refine ⟨a1, a2, ⟨a3.shape, fun i hi => (a3.elt i hi).congr fun u _ => ?_⟩, fun i hi hi' => by omega⟩
    have : i ≤ d0 := by omega
    simp only [this, if_true]
  · rw [if_neg k1] at hg'
    by_cases k2 : d1 > d0 ∧ tmp1 ≠ out
    · rw [if_pos k2] at hg'
      rw [hg']
      obtain ⟨a1, a2, a3, a5⟩ := cp tmp1 y B hBC k2.2 fun i hi hi' => h1 i (by omega)
      refine ⟨a1, a2, ⟨a3.shape, fun i hi => (a3.elt i hi).congr fun u _ => ?_⟩, fun i hi hi' => a5 i (by omega) (by omega)⟩
      by_cases k3 : i ≤ min d0 d1
      · simp only [k3, if_true]
      · have : ¬ i ≤ d0 := by omega
        simp only [this, k3, if_false]
    · rw [if_neg k2] at hg'
      rw [hg']
      refine ⟨F2, C2, ⟨S2, fun i hi => ?_⟩, fun i hi hi' => ?_⟩
      · rw [R2]
        by_cases k3 : i ≤ min d0 d1
        · rw [if_pos k3]; exact R1 i k3
        · rw [if_neg k3, L.other i (by omega)]
          by_cases k4 : i ≤ d0
          · rw [if_pos k4]
            have : tmp0 = out := by by_contra hc; exact k1 ⟨by omega, hc⟩
            rw [← this]; exact (h0 i k4).mono hAC
          · rw [if_neg k4]
            have : tmp1 = out := by by_contra hc; exact k2 ⟨by omega, hc⟩
            rw [← this]; exact (h1 i (by omega)).mono hBC
      · rw [R2, L.other i (by omega)]
        have : tmp1 = out := by by_contra hc; exact k2 ⟨by omega, hc⟩
        rw [← this]; exact h1 i hi'

end

section
variable {n : ℕ} {ev : Evaluator} (hr : ev.ringQ.Valid n) {level : ℕ} {A B C : ℕ → ℕ}
include hr

omit hr in
/-- `evaluateInPlace` up to the scaling -/
theorem evaluate_prep3 (f : ℕ → Rows → Rows → Rows → Rows) {H : Heap}
    {c0 c1 out : Ref} {d0 d1 dd l0 l1 lo : ℕ} {x y : ℕ → ∀ u, Rq (2 ^ n) (ev.ringQ.qs u)}
    (h0 : CtIs n ev.ringQ l0 A d0 (H c0) x) (h1 : CtIs n ev.ringQ l1 B d1 (H c1) y) (ho : CtShape dd lo (H out))
    (hd : max d0 d1 ≤ dd) (hlev : level = min (min l0 l1) lo) :
    ∃ g, ev.evaluateInPlace H c0 c1 out f = (ev.matchScales g c0 c1 out).map (fun (h, tmp0, tmp1) =>
        evaluateTail h c0 c1 out tmp0 tmp1 level (min d0 d1) (max d0 d1) (max (H c0).scale (H c1).scale) f) ∧
      (∀ b ≠ out, g b = H b) ∧ CtShape (max d0 d1) level (g out) ∧
      (g c0).scale = (H c0).scale ∧ (g c1).scale = (H c1).scale ∧
      CtIs n ev.ringQ (if c0 = out then level else l0) A d0 (g c0) x ∧
      CtIs n ev.ringQ (if c1 = out then level else l1) B d1 (g c1) y := by
  have same : ∀ (b : Ref) (d l : ℕ), CtShape d l (H b) → d ≤ max d0 d1 →
      (H.set out ((H out).resize ev.ringQ.n (max d0 d1))) b = H b := by
    intro b d l hb hle
    by_cases e : b = out
    · subst e
      have : d = dd := by have := hb.len; have := ho.len; omega
      obtain rfl : d = max d0 d1 := by omega
      rw [Heap.set_self, hb.resize_same]
    · exact Heap.set_ne _ _ _ _ e
  have So : CtShape (max d0 d1) lo ((H out).resize ev.ringQ.n (max d0 d1)) := by
    by_cases e : max d0 d1 < dd
    · exact ho.resize_down e
    · obtain rfl : dd = max d0 d1 := by omega
      rw [ho.resize_same]; exact ho
  generalize hgd : (H.set out ((H out).resize ev.ringQ.n (max d0 d1))).set out
    (((H out).resize ev.ringQ.n (max d0 d1)).dropTo level) = g
  obtain ⟨p0, p2⟩ := evaluatePrepare (level := level) (N := ev.ringQ.n) (dm := max d0 d1) h0 ho (by omega) hd (by omega) g hgd.symm
  obtain ⟨q0, q2⟩ := evaluatePrepare (level := level) (N := ev.ringQ.n) (dm := max d0 d1) h1 ho (by omega) hd (by omega) g hgd.symm
  have So' : CtShape (max d0 d1) level (g out) := by
    rw [← hgd, Heap.set_self]; exact So.dropTo (by omega)
  have hif : (if lo > level then (H.set out ((H out).resize ev.ringQ.n (max d0 d1))).set out
      (((H out).resize ev.ringQ.n (max d0 d1)).dropLevel (lo - min l0 l1))
      else H.set out ((H out).resize ev.ringQ.n (max d0 d1))) = g := by
    rw [← hgd]
    unfold Ct.dropTo
    rw [So.level]
    by_cases k : lo > level
    · rw [if_pos k, if_pos k, show lo - min l0 l1 = lo - level by omega]
    · rw [if_neg k, if_neg k]
      conv_lhs => rw [← Heap.set_same (H.set out ((H out).resize ev.ringQ.n (max d0 d1))) out, Heap.set_self]
  refine ⟨g, ?_, fun b hb => ?_, So', p2, q2, p0, q0⟩
  · unfold Evaluator.evaluateInPlace
    dsimp only
    rw [h0.shape.level, h1.shape.level, ho.level, h0.shape.degree, h1.shape.degree, ← hlev, same c0 d0 l0 h0.shape (by omega),
      same c1 d1 l1 h1.shape (by omega), Heap.set_self, So.level, h0.shape.level, h1.shape.level, hif]
  · rw [← hgd, Heap.set_ne _ _ _ _ hb, Heap.set_ne _ _ _ _ hb]

theorem evaluate_is3 {f : ℕ → Rows → Rows → Rows → Rows} {op} (hf : BinOp3 n ev.ringQ level A B C f op)
    (hAC : ∀ u ≤ level, A u ≤ C u) (hBC : ∀ u ≤ level, B u ≤ C u) {H : Heap}
    {c0 c1 out : Ref} {d0 d1 dd l0 l1 lo : ℕ} {x y : ℕ → ∀ u, Rq (2 ^ n) (ev.ringQ.qs u)}
    (h0 : CtIs n ev.ringQ l0 A d0 (H c0) x) (h1 : CtIs n ev.ringQ l1 B d1 (H c1) y) (ho : CtShape dd lo (H out))
    (hd : max d0 d1 ≤ dd) (hlev : level = min (min l0 l1) lo) (hs : SameScale (H c0).scale (H c1).scale) :
    ∃ H', ev.evaluateInPlace H c0 c1 out f = some H' ∧ (∀ b ≠ out, H' b = H b) ∧
      (H' out).scale = max (H c0).scale (H c1).scale ∧
      CtIs n ev.ringQ level C (max d0 d1) (H' out)
        (fun i => if i ≤ min d0 d1 then op (x i) (y i) else if i ≤ d0 then x i else y i) ∧
      ∀ i, d0 < i → i ≤ d1 → EltIs n ev.ringQ level B true ((H' out).rows i) (y i) := by
  obtain ⟨g, e, fr, So, p2, q2, p0, q0⟩ := evaluate_prep3 (ev := ev) f h0 h1 ho hd hlev
  obtain ⟨t1, t2, t3, t4⟩ := evaluateTail_is3 hr hf hAC hBC (s := max (H c0).scale (H c1).scale) (out := out)
    (fun i hi => (p0.elt i hi).below (by split <;> omega)) (fun i hi => (q0.elt i hi).below (by split <;> omega))
    p0.shape.degree q0.shape.degree So
  rw [e, matchScales_same (by rw [p2, q2]; exact hs), Option.map_some]
  exact ⟨_, rfl, fun b hb => (t1 b hb).trans (fr b hb), t2, t3, t4⟩

end

end FastKsw
