import Verif.Lemmas.Rescale
import Verif.Lemmas.ConstCt
import Verif.Props.Constants

/-!
# C37: `Rescale`

`scaleAfter r level s j` is the float64 scale after `j` divisions by the top moduli.  The loop divides as long as the next
scale is at least `minScale/2`; its index test comes after the array access and allows the index 0, so when even the last
division qualifies the loop reads `Modulus[-1]`.
-/

namespace FastKsw.Props

open FastKsw Finset

/-- the product of the top `nb` moduli at level `level` -/
def topQ (r : Ring) (level nb : ℕ) : ℕ := ∏ i ∈ range nb, r.qs (level - i)

/-- division by `P`, rounded to the nearest integer -/
def roundDiv (P : ℕ) (X : ℕ → ℤ) (k : ℕ) : ℤ := (X k + (P : ℤ) / 2) / P

theorem roundDiv_err {P : ℕ} (hP : 0 < P) (X : ℕ → ℤ) (k : ℕ) : 2 * |P * roundDiv P X k - X k| ≤ P := by
  unfold roundDiv
  have h1 := Int.emod_add_mul_ediv (X k + (P : ℤ) / 2) P
  have h2 := Int.emod_nonneg (X k + (P : ℤ) / 2) (show (P : ℤ) ≠ 0 by omega)
  have h3 := Int.emod_lt_of_pos (X k + (P : ℤ) / 2) (show (0 : ℤ) < P by omega)
  rcases abs_cases ((P : ℤ) * ((X k + (P : ℤ) / 2) / P) - X k) with ⟨h, -⟩ | ⟨h, -⟩ <;> rw [h] <;> omega

/-- `Rescale` when the loop consumes `nb > 0` moduli -/
theorem rescale_eq {ev : Evaluator} {H : Heap} {ctIn out : Ref} {minScale : ℚ} {level lo deg : ℕ}
    (h0 : CtShape deg level (H ctIn)) (ho : CtShape deg lo (H out)) (hm : 0 < minScale)
    (hs : (H ctIn).scale ≠ 0) (hlev : 0 < level) {nb : ℕ} {s' : ℚ}
    (hloop : rescaleLoop ev.ringQ minScale (level + 1) 0 (H ctIn).scale = some (nb, s')) (hnb : 0 < nb)
    (hlo : level ≤ lo + nb) :
    ev.rescale H ctIn minScale out = some (.ok (overComponents (fun i h => h.setRows out i
      ((ev.ringQ.divRoundByLastModulusManyNTTLvl level nb (h.rows ctIn i) (newPoly ev.ringQ.n ev.ringQ.subs.length)
        (h.rows out i)).take (level + 1 - nb))) (deg + 1) (H.setScale out s'))) := by
  unfold Evaluator.rescale
  rw [if_neg (not_le.2 hm), if_neg hs, h0.level, if_neg (by omega), ho.degree, h0.degree, if_neg (by simp)]
  dsimp only
  rw [hloop]
  dsimp only
  rw [if_pos hnb, Heap.level_setScale, ho.level, if_neg (by omega), Heap.value_setScale, ho.len]

section
variable {n : ℕ} {ev : Evaluator} (hr : ev.ringQ.Valid n) {H : Heap} {ctIn out : Ref} {minScale : ℚ} {level lo deg : ℕ}
include hr

/-- **C37 (number of divisions).** For a positive float64 scale: if the loop returns, it has divided by the largest number
`nb` of top moduli for which the scale stays at least `minScale/2`, never by all of them. -/
theorem C37_loop {s s' : ℚ} {nb : ℕ} (hl : level < ev.ringQ.subs.length) (hs : 0 < s) (hf : f64 s = s)
    (h : rescaleLoop ev.ringQ minScale (level + 1) 0 s = some (nb, s')) :
    nb ≤ level ∧ s' = scaleAfter ev.ringQ level s nb ∧
      ∀ j, 0 < j → (f64Div minScale 2 ≤ scaleAfter ev.ringQ level s j ↔ j ≤ nb) := by
  obtain ⟨-, h2, h3, h4, h5⟩ := rescaleLoop_some (level := level) (s := s) (nb := 0) (by omega) h
  refine ⟨h2, h3, fun j hj => ⟨fun hj' => ?_, fun hj' => h4 j hj hj'⟩⟩
  by_contra hc
  have := scaleAfter_anti hs hf (r := ev.ringQ) (level := level) (fun u hu => (hr.subAt (show u < _ by omega)).prime.pos)
    (show nb + 1 ≤ j by omega)
  linarith

/-- **C37 (the panic).** The loop reads `Modulus[-1]` exactly if dividing by all moduli leaves a scale of at least
`minScale/2`. -/
theorem C37_panics_iff {s : ℚ} (hl : level < ev.ringQ.subs.length) (hs : 0 < s) (hf : f64 s = s) :
    rescaleLoop ev.ringQ minScale (level + 1) 0 s = none ↔ f64Div minScale 2 ≤ scaleAfter ev.ringQ level s (level + 1) := by
  constructor
  · intro h
    exact rescaleLoop_none (level := level) (s := s) (nb := 0) (by omega) h (level + 1) (by omega) le_rfl
  · intro h
    rw [Option.eq_none_iff_forall_ne_some]
    rintro ⟨nb, s'⟩ he
    obtain ⟨h1, -, h3⟩ := C37_loop hr hl hs hf he
    have := (h3 (level + 1) (by omega)).1 h
    omega

variable {A : ℕ → ℕ} {x : ℕ → ∀ u, Rq (2 ^ n) (ev.ringQ.qs u)}

/-- **C37 (division).** When the loop consumes `nb > 0` moduli: the receiver, which may be the input, drops to level
`level - nb` and its components are those of the input divided by the product of these moduli, rounded; `X i` is any integer
polynomial congruent to component `i`. -/
theorem C37_divides (sr : ev.ringQ.Small) (hl : level < ev.ringQ.subs.length) (h0 : CtIs n ev.ringQ level A deg (H ctIn) x)
    (hA : ∀ u ≤ level, A u ≤ 2 * ev.ringQ.qs u) (ho : CtShape deg lo (H out)) (hm : 0 < minScale)
    (hs : (H ctIn).scale ≠ 0) (hlev : 0 < level) {nb : ℕ} {s' : ℚ}
    (hloop : rescaleLoop ev.ringQ minScale (level + 1) 0 (H ctIn).scale = some (nb, s')) (hnb : 0 < nb)
    (hlo : level ≤ lo + nb) {X : ℕ → ℕ → ℤ}
    (hX : ∀ i ≤ deg, ∀ u ≤ level, x i u = intR (2 ^ n) (ev.ringQ.qs u) (X i)) :
    ∃ H', ev.rescale H ctIn minScale out = some (.ok H') ∧ (∀ b ≠ out, H' b = H b) ∧ (H' out).scale = s' ∧
      CtIs n ev.ringQ (level - nb) ev.ringQ.qs deg (H' out)
        (fun i u => intR (2 ^ n) (ev.ringQ.qs u) (roundDiv (topQ ev.ringQ level nb) (X i))) := by
  have hle : nb ≤ level := (rescaleLoop_some (level := level) (s := (H ctIn).scale) (nb := 0) (by omega) hloop).2.1
  rw [rescale_eq h0.shape ho hm hs hlev hloop hnb hlo]
  refine ⟨_, rfl, ?_⟩
  have L := overComponents_is0 (out := out) (F := fun i h => (ev.ringQ.divRoundByLastModulusManyNTTLvl level nb
    (h.rows ctIn i) (newPoly ev.ringQ.n ev.ringQ.subs.length) (h.rows out i)).take (level + 1 - nb))
    (fun u h h' hh => by rw [hh ctIn, hh out]) (deg + 1) (H.setScale out s')
  have W : ∀ i ≤ deg, EltIs n ev.ringQ (level - nb) ev.ringQ.qs true ((ev.ringQ.divRoundByLastModulusManyNTTLvl level nb
      (H.rows ctIn i) (newPoly ev.ringQ.n ev.ringQ.subs.length) (H.rows out i)).take (level + 1 - nb))
      (fun u => intR (2 ^ n) (ev.ringQ.qs u) (roundDiv (topQ ev.ringQ level nb) (X i))) ∧
      ((ev.ringQ.divRoundByLastModulusManyNTTLvl level nb
      (H.rows ctIn i) (newPoly ev.ringQ.n ev.ringQ.subs.length) (H.rows out i)).take (level + 1 - nb)).length
        = level - nb + 1 := by
    intro i hi
    have a : PolyIs ev.ringQ level _ (H.rows ctIn i) _ := ((h0.elt i hi).mono hA).nttVec hr hl (hX i hi)
    have so : (H.rows out i).length = lo + 1 := ho.size i hi
    have w := C22_divRoundManyNTT_lazy (pool := newPoly ev.ringQ.n ev.ringQ.subs.length) (p1 := H.rows out i) hr sr hl hle hnb a
      (by rw [length_newPoly]; exact hl) (by rw [so]; omega)
    refine ⟨((w.eltWritten hr (b := true) fun u hu => ?_).is).take (by omega), ?_⟩
    · exact ofNtt_nttVec hr (by omega) _
    · rw [List.length_take, w.len, so]; omega
  refine ⟨fun b hb => by rw [L.frame b hb, Heap.setScale_ne _ _ _ _ hb], by rw [L.scale, Heap.setScale_self], ?_⟩
  have hrow : ∀ i ≤ deg, _ := fun i (hi : i ≤ deg) => L.row i (by omega) (by rw [Heap.value_setScale, ho.len]; omega)
  simp only [Nat.zero_add, Heap.rows_setScale] at hrow
  refine ⟨⟨by rw [L.len, Heap.value_setScale, ho.len], fun i hi => by rw [L.ntt, Heap.value_setScale]; exact ho.ntt i hi,
    fun i hi => ?_⟩, fun i hi => ?_⟩
  · rw [hrow i hi]; exact (W i hi).2
  · rw [hrow i hi]; exact (W i hi).1

/-- **C37 (no division).** When the loop consumes no modulus, the receiver gets a copy of the input. -/
theorem C37_copies (h0 : CtIs n ev.ringQ level A deg (H ctIn) x) (ho : CtShape deg level (H out)) (hm : 0 < minScale)
    (hs : (H ctIn).scale ≠ 0) (hlev : 0 < level) {s' : ℚ}
    (hloop : rescaleLoop ev.ringQ minScale (level + 1) 0 (H ctIn).scale = some (0, s')) :
    ∃ H', ev.rescale H ctIn minScale out = some (.ok H') ∧ (∀ b ≠ out, H' b = H b) ∧ (H' out).scale = (H ctIn).scale ∧
      CtIs n ev.ringQ level A deg (H' out) x := by
  have e' : s' = (H ctIn).scale :=
    (rescaleLoop_some (level := level) (s := (H ctIn).scale) (nb := 0) (by omega) hloop).2.2.1
  unfold Evaluator.rescale
  rw [if_neg (not_le.2 hm), if_neg hs, h0.shape.level, if_neg (by omega), ho.degree, h0.shape.degree, if_neg (by simp)]
  dsimp only
  rw [hloop]
  dsimp only
  rw [if_neg (by omega), e']
  clear hloop e'
  unfold Heap.copy
  by_cases e : out = ctIn
  · subst e
    rw [if_pos rfl]
    exact ⟨_, rfl, fun b hb => by rw [Heap.setScale_ne _ _ _ _ hb], by rw [Heap.setScale_self],
      by rw [Heap.setScale_self]; exact h0.scale _⟩
  rw [if_neg e, Heap.value_setScale, Heap.value_setScale, ho.len, h0.shape.len, if_neg (by omega), Option.map_some]
  refine ⟨_, rfl, fun b hb => by rw [Heap.set_ne _ _ _ _ hb, Heap.setScale_ne _ _ _ _ hb], by
    rw [Heap.set_self, Heap.setScale_ne _ _ _ _ (Ne.symm e)], ?_⟩
  rw [Heap.set_self, Heap.setScale_ne _ _ _ _ (Ne.symm e)]
  have hl0 := h0.shape.len
  have hlo := ho.len
  have key : ∀ i ≤ deg, ((List.mapIdx (fun i p => if i < deg + 1 then Poly.copy p ((H ctIn).value.getD i default) else p)
      (H out).value).getD i default) = Poly.copy ((H out).value.getD i default) ((H ctIn).value.getD i default) := by
    intro i hi
    have h1 : i < (H out).value.length := by omega
    simp [List.getD, h1, show i < deg + 1 by omega]
    omega
  have rw' : ∀ i ≤ deg, copyValuesLvl (min ((H out).value.getD i default).level ((H ctIn).value.getD i default).level)
      ((H ctIn).value.getD i default).coeffs ((H out).value.getD i default).coeffs = (H ctIn).rows i := by
    intro i hi
    have s1 : ((H out).value.getD i default).coeffs.length = level + 1 := ho.size i hi
    have s2 : ((H ctIn).value.getD i default).coeffs.length = level + 1 := h0.shape.size i hi
    unfold Poly.level
    rw [s1, s2, show min (level + 1 - 1) (level + 1 - 1) = level by omega]
    unfold copyValuesLvl
    apply List.ext_getElem
    · rw [length_writeLvl]; exact s1.trans s2.symm
    · intro k hk hk'
      have hk2 : k ≤ level := by rw [length_writeLvl, s1] at hk; omega
      have := row_writeLvl (level := level) (f := fun i => Rows.row ((H ctIn).value.getD i default).coeffs i)
        (out := ((H out).value.getD i default).coeffs) (i := k)
      simp [writeLvl, hk2, Rows.row, Ct.rows, List.getD] at hk' ⊢
      simp [hk']
  refine ⟨⟨?_, fun i hi => ?_, fun i hi => ?_⟩, fun i hi => ?_⟩
  · simp only [List.length_mapIdx]; exact hlo
  · dsimp only; rw [key i hi]; exact h0.shape.ntt i hi
  · unfold Ct.rows; dsimp only; rw [key i hi]; unfold Poly.copy; dsimp only; rw [rw' i hi]; exact h0.shape.size i hi
  · unfold Ct.rows; dsimp only; rw [key i hi]; unfold Poly.copy; dsimp only; rw [rw' i hi]; exact h0.elt i hi

/-- **C37 (partial: the scale must fall below `minScale/2` before the last modulus is consumed, and the words of the input
must be below `2 q`).** `Rescale` of a ciphertext at level ≥ 1 into a receiver of the same degree and level, or in place:
with `nb` the largest number of top moduli by which the scale can be divided while staying at least `minScale/2`, and `P`
their product, it returns without error at level `level - nb`, with the scale divided `nb` times, and
`P dec' = dec + ∑ δ_i s^i` where every coefficient of `δ_i` is at most `P/2` in size.  Missing: scales that stay at least
`minScale/2` after the division by all moduli (`C37_violated`). -/
theorem C37_rescale_partial (sr : ev.ringQ.Small) (hl : level < ev.ringQ.subs.length)
    {s m : ∀ u, Rq (2 ^ n) (ev.ringQ.qs u)} (h0 : CtEnc n ev.ringQ level (fun u => 2 * ev.ringQ.qs u) deg (H ctIn) s m)
    (ho : CtShape deg level (H out)) (hm : 0 < minScale) (hs : 0 < (H ctIn).scale) (hf : f64 (H ctIn).scale = (H ctIn).scale)
    (hlev : 0 < level) (hlast : scaleAfter ev.ringQ level (H ctIn).scale (level + 1) < f64Div minScale 2) :
    ∃ nb ≤ level, (∀ j, 0 < j → (f64Div minScale 2 ≤ scaleAfter ev.ringQ level (H ctIn).scale j ↔ j ≤ nb)) ∧
      ∃ (H' : Heap) (m' : ∀ u, Rq (2 ^ n) (ev.ringQ.qs u)) (δ : ℕ → ℕ → ℤ), ev.rescale H ctIn minScale out = some (.ok H') ∧ (∀ b ≠ out, H' b = H b) ∧
        (H' out).scale = scaleAfter ev.ringQ level (H ctIn).scale nb ∧
        CtEnc n ev.ringQ (level - nb) (fun u => 2 * ev.ringQ.qs u) deg (H' out) s m' ∧
        (∀ u ≤ level - nb, (topQ ev.ringQ level nb : Rq (2 ^ n) (ev.ringQ.qs u)) * m' u
          = m u + ∑ i ∈ range (deg + 1), intR (2 ^ n) (ev.ringQ.qs u) (δ i) * s u ^ i) ∧
        ∀ i k, 2 * |δ i k| ≤ topQ ev.ringQ level nb := by
  obtain ⟨x, hx, ex⟩ := h0
  cases hloop : rescaleLoop ev.ringQ minScale (level + 1) 0 (H ctIn).scale with
  | none =>
    have := (C37_panics_iff hr hl hs hf).1 hloop
    linarith
  | some w =>
    obtain ⟨nb, s'⟩ := w
    obtain ⟨h1, h2, h3⟩ := C37_loop hr hl hs hf hloop
    refine ⟨nb, h1, h3, ?_⟩
    rcases Nat.eq_zero_or_pos nb with h | h
    · subst h
      obtain ⟨H', a1, a2, a3, a4⟩ := C37_copies hr hx ho hm hs.ne' hlev hloop
      refine ⟨H', m, fun _ _ => 0, a1, a2, a3, ⟨x, a4, ex⟩, fun u hu => ?_, fun i k => by simp [topQ]⟩
      have : ∀ q, intR (2 ^ n) q (fun _ => 0) = 0 := fun q => by simp [intR, toR]
      simp [topQ, this]
    · choose X hX using fun i => exists_intR hr (x i)
      obtain ⟨H', a1, a2, a3, a4⟩ := C37_divides hr sr hl hx (fun _ _ => le_rfl) ho hm hs.ne' hlev hloop h (by omega)
        (X := X) (fun i _ u hu => hX i u (by omega))
      have hP : 0 < topQ ev.ringQ level nb :=
        prod_pos fun i hi => (hr.subAt (show level - i < _ by omega)).prime.pos
      refine ⟨H', _, fun i k => topQ ev.ringQ level nb * roundDiv (topQ ev.ringQ level nb) (X i) k - X i k, a1, a2,
        a3.trans h2, ⟨_, ⟨a4.shape, fun i hi => (a4.elt i hi).mono fun u _ => by omega⟩, fun u _ => rfl⟩, fun u hu => ?_,
        fun i k => roundDiv_err hP _ _⟩
      rw [← ex u (by omega), ← sum_add_distrib, mul_sum]
      refine sum_congr rfl fun i hi => ?_
      rw [← intR_sub, ← intR_natMul, hX i u (by omega)]
      ring

end

/-- the loop for the moduli 97, 193, 641 -/
theorem exampleLoop {r : Ring} (hm : r.moduli = [97, 193, 641]) :
    rescaleLoop r 1 3 0 (2 ^ 40) = none ∧ rescaleLoop r 1000 3 0 1000000 = some (1, f64 (1000000 / 641)) := by
  have q0 := sub_of_moduli hm 0 97 rfl
  have q1 := sub_of_moduli hm 1 193 rfl
  have q2 := sub_of_moduli hm 2 641 rfl
  simp only [rescaleLoop, q0, q1, q2]
  decide +kernel

/-- **C37 (violated, witness).** Degree 16, moduli 97, 193, 641, a ciphertext at level 2 with scale `2^40`: `Rescale` with
`minScale = 1` panics. -/
theorem C37_violated : ∃ (ev : Evaluator) (H : Heap) (x : ℕ → ∀ u, Rq (2 ^ 4) (ev.ringQ.qs u)), ev.ringQ.Valid 4 ∧
    ev.ringQ.moduli = [97, 193, 641] ∧ CtIs 4 ev.ringQ 2 ev.ringQ.qs 1 (H 0) x ∧ (H 0).scale = 2 ^ 40 ∧
    ev.rescale H 0 1 0 = none := by
  obtain ⟨rQ, rP, sk, tape, K, m1, -, l3, -, hq, q0, -, -⟩ := exampleRings
  obtain ⟨ev, rfl⟩ : ∃ ev : Evaluator, ev.ringQ = rQ := ⟨newEvaluator rQ rP none (fun _ => none) 7, rfl⟩
  have hQ := K.rings.hQ
  have hlt : ∀ c : UInt64, c ≤ 7 → ∀ u ≤ 2, c.toNat < ev.ringQ.qs u := fun c hc u hu => by
    have := hq u hu
    have : c.toNat ≤ 7 := hc
    omega
  have c0 := constCt_is hQ (by omega) (2 ^ 40) (cs := [5, 7]) (by simp) (fun c hc => hlt c (by revert c; decide))
  refine ⟨ev, fun _ => constCt (2 ^ 40) [5, 7], _, hQ, m1, c0, rfl, ?_⟩
  unfold Evaluator.rescale
  dsimp only
  rw [if_neg (by norm_num), if_neg (by simp [constCt]), c0.shape.level, if_neg (by omega), if_neg (by simp),
    show (constCt (2 ^ 40) [5, 7]).scale = 2 ^ 40 from rfl, (exampleLoop m1).1]

/-- the hypotheses of C37 are met, and one modulus of three is consumed: the constants 5 and 7 with scale 1000000 and
`minScale` 1000 -/
example : ∃ (ev : Evaluator) (H H' : Heap) (m' : ∀ u, Rq (2 ^ 4) (ev.ringQ.qs u)), ev.ringQ.moduli = [97, 193, 641] ∧
    (H 0) = constCt 1000000 [5, 7] ∧ ev.rescale H 0 1000 0 = some (.ok H') ∧ (H' 0).scale = f64 (1000000 / 641) ∧
    CtEnc 4 ev.ringQ 1 (fun u => 2 * ev.ringQ.qs u) 1 (H' 0) (fun _ => 1) m' := by
  obtain ⟨rQ, rP, sk, tape, K, m1, -, l3, -, hq, q0, -, -⟩ := exampleRings
  obtain ⟨ev, rfl⟩ : ∃ ev : Evaluator, ev.ringQ = rQ := ⟨newEvaluator rQ rP none (fun _ => none) 7, rfl⟩
  have hQ := K.rings.hQ
  have hlt : ∀ c : UInt64, c ≤ 7 → ∀ u ≤ 2, c.toNat < ev.ringQ.qs u := fun c hc u hu => by
    have := hq u hu
    have : c.toNat ≤ 7 := hc
    omega
  have c0 := constCt_is hQ (by omega) 1000000 (cs := [5, 7]) (by simp) (fun c hc => hlt c (by revert c; decide))
  have c0' : CtIs 4 ev.ringQ 2 (fun u => 2 * ev.ringQ.qs u) 1 (constCt 1000000 [5, 7]) _ :=
    ⟨c0.shape, fun i hi => (c0.elt i hi).mono fun u _ => by omega⟩
  have hf : f64 1000000 = 1000000 := by decide +kernel
  have hl : 2 < ev.ringQ.subs.length := by omega
  obtain ⟨nb, h1, h2, H', m', δ, a1, a2, a3, a4, -⟩ := C37_rescale_partial (ev := ev) (H := fun _ => constCt 1000000 [5, 7])
    (ctIn := 0) (out := 0) (minScale := 1000) (s := fun _ => 1) hQ K.rings.sQ hl ⟨_, c0', fun u _ => rfl⟩ c0.shape
    (by norm_num) (by simp [constCt]) hf (by omega) (by
      by_contra hc
      have := (C37_panics_iff (minScale := 1000) (s := 1000000) hQ hl (by norm_num) hf).2 (not_lt.1 hc)
      rw [(exampleLoop m1).2] at this
      exact absurd this (by simp))
  have e := (C37_loop hQ hl (by norm_num) hf (exampleLoop m1).2)
  have hnb : nb = 1 := by
    have e1 := (h2 1 (by omega)).symm.trans (e.2.2 1 (by omega))
    have e2 := (h2 2 (by omega)).symm.trans (e.2.2 2 (by omega))
    omega
  subst hnb
  exact ⟨ev, _, H', m', m1, rfl, a1, a3.trans e.2.1.symm, a4⟩

end FastKsw.Props
