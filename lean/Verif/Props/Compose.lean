import Verif.Props.Rescale
import Verif.Props.Mul
import Verif.Lemmas.ComposeExample

/-!
# C66: the product returned by `MulRelin` can be passed on

`MulRelin` of `fckks` leaves reduced words, so `Rescale` applies.  `MulRelin` of `ckks` adds the result of `NTTLazyLvl`, whose
words go up to `6 q`, with a single conditional subtraction; `Rescale` computes `2 q - y + x` on those words, which wraps.
-/

namespace FastKsw.Props

open FastKsw Finset

section
variable {fuel n : ℕ} {p : FParams} {kg : FKeyGenerator} {ev : FEvaluator} {pool : Ref}

/-- `C37_rescale_partial` for an evaluator over the ring `r` -/
theorem rescale_of_eq {n : ℕ} {ev : Evaluator} {r : Ring} (he : ev.ringQ = r) (hr : r.Valid n) {H : Heap} {ct : Ref}
    {minScale : ℚ} {level deg : ℕ} (sr : r.Small) (hl : level < r.subs.length)
    {s m : ∀ u, Rq (2 ^ n) (r.qs u)} (h0 : CtEnc n r level (fun u => 2 * r.qs u) deg (H ct) s m) (hm : 0 < minScale)
    (hs : 0 < (H ct).scale) (hf : f64 (H ct).scale = (H ct).scale) (hlev : 0 < level)
    (hlast : scaleAfter r level (H ct).scale (level + 1) < f64Div minScale 2) :
    ∃ nb ≤ level, (∀ j, 0 < j → (f64Div minScale 2 ≤ scaleAfter r level (H ct).scale j ↔ j ≤ nb)) ∧
      ∃ (H' : Heap) (m' : ∀ u, Rq (2 ^ n) (r.qs u)) (δ : ℕ → ℕ → ℤ), ev.rescale H ct minScale ct = some (.ok H') ∧
        (∀ b ≠ ct, H' b = H b) ∧ (H' ct).scale = scaleAfter r level (H ct).scale nb ∧
        CtEnc n r (level - nb) (fun u => 2 * r.qs u) deg (H' ct) s m' ∧
        (∀ u ≤ level - nb, (topQ r level nb : Rq (2 ^ n) (r.qs u)) * m' u
          = m u + ∑ i ∈ range (deg + 1), intR (2 ^ n) (r.qs u) (δ i) * s u ^ i) ∧
        ∀ i k, 2 * |δ i k| ≤ topQ r level nb := by
  subst he
  have hsh : CtShape deg level (H ct) := h0.choose_spec.1.shape
  exact C37_rescale_partial hr sr hl h0 hsh hm hs hf hlev hlast

/-- **C66 (`fckks`).** `MulRelin` with a generated relinearization key followed by `Rescale` of the product in place: with
`P` the product of the moduli consumed, `P dec' = dec(ct0) dec(ct1) + E + δ_0 + δ_1 s`, where `E` is the error of one key
switch and the coefficients of the `δ_i` are at most `P/2`.  Partial: `ckks` violates the statement (`C66_violated`). -/
theorem C66_fckks_mulRelin_rescale_partial (h : p.OK fuel n) (hF : p.Fits)
    (hov : p.alpha ≤ 16 ∨ ∀ t ≤ p.levelT, 10 * p.ringT.qs t + 2 ^ 15 ≤ 2 ^ 64)
    (hev : newFEvaluator fuel p pool = some ev) (hg : newFKeyGenerator fuel p = some kg) {sk : PolyQP} {S : ℕ → ℤ}
    (hs : sk.IsMont n p.ringQ p.ringP p.maxLevel (p.alpha - 1) S) {tape : ℕ → KeyTape} {e : ℕ → ℕ → ℤ}
    (ht : TapeOK n p.ringQ p.ringP p.maxLevel (p.alpha - 1) tape e) {H : Heap} {ct0 ct1 out : Ref} {deg l0 l1 lo : ℕ}
    {x y : ℕ → ∀ u, Rq (2 ^ n) (p.ringQ.qs u)} (h0 : CtIs n p.ringQ l0 anyWord 1 (H ct0) x)
    (h1 : CtIs n p.ringQ l1 anyWord 1 (H ct1) y) (ho : CtShape deg lo (H out)) (hdeg : 1 ≤ deg) {level : ℕ}
    (hlev : level = min (min l0 l1) lo) (hl : level < p.ringQ.subs.length) (hpos : 0 < level) {minScale : ℚ}
    (hm : 0 < minScale) (hs0 : 0 < (H ct0).scale) (hs1 : 0 < (H ct1).scale)
    (hlast : scaleAfter p.ringQ level (f64 ((H ct0).scale * (H ct1).scale)) (level + 1) < f64Div minScale 2) :
    ∃ (H' H'' : Heap) (d0 d1 : ∀ u, Rq (2 ^ n) (p.ringQ.qs u)) (E : ℕ → ℤ) (nb : ℕ) (m' : ∀ u, Rq (2 ^ n) (p.ringQ.qs u))
      (δ : ℕ → ℕ → ℤ), ev.mulRelin H ct0 ct1 (kg.genRelinKey sk tape) out = some H' ∧
      KeySwitched n p.ringQ p.ringP level (p.alpha - 1) (fun u => x 1 u * y 1 u) d0 d1 (negPow (2 ^ n) S 2) S e E ∧
      ev.ckks.rescale H' out minScale out = some (.ok H'') ∧ nb ≤ level ∧
      (∀ j, 0 < j → (f64Div minScale 2 ≤ scaleAfter p.ringQ level (f64 ((H ct0).scale * (H ct1).scale)) j ↔ j ≤ nb)) ∧
      (H'' out).scale = scaleAfter p.ringQ level (f64 ((H ct0).scale * (H ct1).scale)) nb ∧
      CtEnc n p.ringQ (level - nb) (fun u => 2 * p.ringQ.qs u) 1 (H'' out) (fun u => intR _ _ S) m' ∧
      (∀ u ≤ level - nb, (topQ p.ringQ level nb : Rq (2 ^ n) (p.ringQ.qs u)) * m' u
        = (x 0 u + x 1 u * intR _ _ S) * (y 0 u + y 1 u * intR _ _ S) + intR _ _ E
          + (intR _ _ (δ 0) + intR _ _ (δ 1) * intR _ _ S)) ∧
      ∀ i k, 2 * |δ i k| ≤ topQ p.ringQ level nb := by
  obtain ⟨H', a1, -, a3, d0, d1, E, hE, hc⟩ := C30_mulRelin h hF hov hev hg hs ht h0 h1 ho hdeg hlev hl
  obtain ⟨hr, -⟩ := newFEvaluator_eq hev
  have hp := mul_pos hs0 hs1
  obtain ⟨x', hx', ex'⟩ := hc
  have hc' : CtEnc n p.ringQ level (fun u => 2 * p.ringQ.qs u) 1 (H' out) _ _ :=
    ⟨x', ⟨hx'.shape, fun i hi => (hx'.elt i hi).mono fun u _ => by omega⟩, ex'⟩
  obtain ⟨nb, b1, b2, H'', m', δ, b3, -, b5, b6, b7, b8⟩ := rescale_of_eq (minScale := minScale) hr h.hQ h.sQ hl hc' hm
    (by rw [a3]; exact f64_pos hp) (by rw [a3]; exact f64_idem _ hp) hpos (by rw [a3]; exact hlast)
  rw [a3] at b2 b5
  refine ⟨H', H'', d0, d1, E, nb, m', δ, a1, hE, b3, b1, b2, b5, b6, fun u hu => ?_, b8⟩
  rw [b7 u hu, sum_range_succ, sum_range_one, pow_zero, pow_one, mul_one]

end

/-! ## The witness for `ckks` -/

/-- reducing the words changes no element -/
theorem EltIs.reduced {n : ℕ} {r : Ring} (hr : r.Valid n) {level : ℕ} {A : ℕ → ℕ} {b : Bool} {p p' : Rows}
    {x : ∀ u, Rq (2 ^ n) (r.qs u)} (hl : level < r.subs.length) (h : EltIs n r level A b p x) (hlen : p'.length = p.length)
    (hp : ∀ u ≤ level, p'.row u = (p.row u).map fun w => w % (r.sub u).q) : EltIs n r level r.qs b p' x := by
  have hw : ∀ u ≤ level, ∀ k < 2 ^ n, ((p'.row u).at k).toNat = ((p.row u).at k).toNat % r.qs u := by
    intro u hu k hk
    have h1 : k < (p.row u).length := by rw [h.len u hu]; exact hk
    rw [hp u hu]
    simp [Row.at, List.getD, h1, Ring.qs, UInt64.toNat_mod]
  refine ⟨hlen ▸ h.lvl, fun u hu => by rw [hp u hu, List.length_map, h.len u hu], fun u hu k hk => ?_, fun u hu => ?_⟩
  · rw [hw u hu k hk]
    exact Nat.mod_lt _ (hr.subAt (show u < r.subs.length by omega)).prime.pos
  · rw [← h.val u hu, Ring.elt_eq, Ring.elt_eq]
    refine Ring.eltOf_congr fun k hk => ?_
    unfold zval
    rw [hw u hu k hk, ZMod.natCast_mod]

theorem compose_core {ev : Evaluator} (hQ : ev.ringQ.Valid 4) (sQ : ev.ringQ.Small) (hm : ev.ringQ.moduli = [97, 193, 641])
    {H1 : Heap} {z : ℕ → ∀ u, Rq (2 ^ 4) (ev.ringQ.qs u)}
    (hz : CtIs 4 ev.ringQ 2 (fun u => 6 * ev.ringQ.qs u) 1 (H1 2) z) (hsc : (H1 2).scale = 1000000)
    (hne : ((exOut ev H1).at 2).toNat % 97 ≠ ((exOut ev (H1.set 2 (exRed ev.ringQ (H1 2)))).at 2).toNat % 97) :
    ∃ H2, ev.rescale H1 2 1000 2 = some (.ok H2) ∧
    ∀ X : ℕ → ℕ → ℤ, (∀ i ≤ 1, ∀ u ≤ 2, z i u = intR (2 ^ 4) (ev.ringQ.qs u) (X i)) →
      ¬ ∃ A, CtIs 4 ev.ringQ 1 A 1 (H2 2) (fun i u => intR (2 ^ 4) (ev.ringQ.qs u) (roundDiv 641 (X i))) := by
  have hl : 2 < ev.ringQ.subs.length := by
    have : ev.ringQ.subs.length = 3 := by simpa [Ring.moduli] using congrArg List.length hm
    omega
  have q0 := sub_of_moduli hm 0 97 rfl
  have q2 := sub_of_moduli hm 2 641 rfl
  have hloop := (exampleLoop hm).2
  have e1 := rescale_eq (ev := ev) (H := H1) (ctIn := 2) (out := 2) (minScale := 1000) hz.shape hz.shape (by norm_num)
    (by rw [hsc]; norm_num) (by omega) (by rw [hsc]; exact hloop) (by omega) (by omega)
  obtain ⟨H2, e2⟩ : ∃ H2, ev.rescale H1 2 1000 2 = some (.ok H2) := ⟨_, e1⟩
  clear e1
  refine ⟨H2, e2, ?_⟩
  have o1 : exOut ev H1 = (H2.rows 2 0).row 0 := by unfold exOut; rw [e2]
  rw [o1] at hne
  clear o1
  rintro X hX ⟨A, hA⟩
  have htop : topQ ev.ringQ 2 1 = 641 := by simp [topQ, Ring.qs, q2]
  have hrows : ∀ i, (exRed ev.ringQ (H1 2)).rows i = ((H1 2).rows i).mapIdx fun u row => row.map fun w => w % (ev.ringQ.sub u).q := by
    intro i
    unfold exRed Ct.rows
    simp only [List.getD, List.getElem?_map]
    cases (H1 2).value[i]? <;> rfl
  have hred : CtIs 4 ev.ringQ 2 ev.ringQ.qs 1 (exRed ev.ringQ (H1 2)) z := by
    refine ⟨⟨by simp [exRed, hz.shape.len], fun i hi => ?_, fun i hi => ?_⟩, fun i hi => ?_⟩
    · have := hz.shape.ntt i hi
      have hi' : i < (H1 2).value.length := by rw [hz.shape.len]; omega
      simp [exRed, List.getD, hi'] at this ⊢
      exact this
    · rw [hrows, List.length_mapIdx]; exact hz.shape.size i hi
    · refine EltIs.reduced hQ hl (hz.elt i hi) (by rw [hrows, List.length_mapIdx]) fun u hu => ?_
      have hu' : u < ((H1 2).rows i).length := by rw [hz.shape.size i hi]; omega
      rw [hrows]
      simp [Rows.row, List.getD, hu']
  have hred' : CtIs 4 ev.ringQ 2 ev.ringQ.qs 1 ((H1.set 2 (exRed ev.ringQ (H1 2))) 2) z := by
    rw [Heap.set_self]; exact hred
  have hsc' : ((H1.set 2 (exRed ev.ringQ (H1 2))) 2).scale = 1000000 := by rw [Heap.set_self]; exact hsc
  obtain ⟨H2', b1, -, -, b4⟩ := C37_divides (ev := ev) (minScale := 1000) (out := 2) hQ sQ hl hred' (fun u _ => by omega)
    hred'.shape (by norm_num) (by rw [hsc']; norm_num) (by omega) (by rw [hsc']; exact hloop) (by omega) (by omega) hX
  have o2 : exOut ev (H1.set 2 (exRed ev.ringQ (H1 2))) = (H2'.rows 2 0).row 0 := by unfold exOut; rw [b1]
  rw [o2] at hne
  rw [htop] at b4
  have V := hQ.subAt (show 0 < ev.ringQ.subs.length by omega)
  have := V.fact
  have w1 : ofNtt (ev.ringQ.sub 0).psi 4 (zval _ ((H2.rows 2 0).row 0)) = _ := (hA.elt 0 (by omega)).val 0 (by omega)
  have w2 : ofNtt (ev.ringQ.sub 0).psi 4 (zval _ ((H2'.rows 2 0).row 0)) = _ := (b4.elt 0 (by omega)).val 0 (by omega)
  have := congrArg (evalAt (V.psiOK (by omega)) (show 2 < 2 ^ 4 by norm_num)) (w1.trans w2.symm)
  rw [evalAt_ofNtt, evalAt_ofNtt] at this
  unfold zval at this
  rw [ZMod.natCast_eq_natCast_iff', q0] at this
  exact hne this

theorem compose_core_mul {ev : Evaluator} {rP : Ring} (K : KeyParams 4 ev.ringQ rP) (hks : ev.ks = newKeySwitcher ev.ringQ rP)
    (hm : ev.ringQ.moduli = [97, 193, 641]) (hmP : rP.moduli = [257, 353]) {sk : PolyQP} {S : ℕ → ℤ}
    (hs : sk.IsMont 4 ev.ringQ rP 2 1 S) {tape : ℕ → ℕ → KeyTape} {e : ℕ → ℕ → ℤ}
    (ht : TapeOK 4 ev.ringQ rP 2 1 (tape 0) e)
    (hrlk : ev.rlk = some ((genRelinearizationKey ev.ringQ rP sk 1 tape).getD 0 []))
    {H : Heap} {x y : ℕ → ∀ u, Rq (2 ^ 4) (ev.ringQ.qs u)} {A B : ℕ → ℕ}
    (h0 : CtIs 4 ev.ringQ 2 A 1 (H 0) x) (h1 : CtIs 4 ev.ringQ 2 B 1 (H 1) y) (h2 : CtShape 1 2 (H 2))
    (hs0 : (H 0).scale = 1000) (hs1 : (H 1).scale = 1000)
    (hne : ((exOut ev ((ev.mulRelin H 0 1 true 2).getD H)).at 2).toNat % 97 ≠
      ((exOut ev (((ev.mulRelin H 0 1 true 2).getD H).set 2 (exRed ev.ringQ
        (((ev.mulRelin H 0 1 true 2).getD H) 2)))).at 2).toNat % 97) :
    ∃ H1 H2 z, ev.mulRelin H 0 1 true 2 = some H1 ∧ CtIs 4 ev.ringQ 2 (fun u => 6 * ev.ringQ.qs u) 1 (H1 2) z ∧
    ev.rescale H1 2 1000 2 = some (.ok H2) ∧
    ∀ X : ℕ → ℕ → ℤ, (∀ i ≤ 1, ∀ u ≤ 2, z i u = intR (2 ^ 4) (ev.ringQ.qs u) (X i)) →
      ¬ ∃ A, CtIs 4 ev.ringQ 1 A 1 (H2 2) (fun i u => intR (2 ^ 4) (ev.ringQ.qs u) (roundDiv 641 (X i))) := by
  have l3 : ev.ringQ.subs.length = 3 := by simpa [Ring.moduli] using congrArg List.length hm
  have l2 : rP.subs.length = 2 := by simpa [Ring.moduli] using congrArg List.length hmP
  obtain ⟨H1, a1, -, a3, -, -, -, -, z, hz, -⟩ := C64_mulRelin_partial (tape := tape) (level := 2) K (by omega) hks
    (by rw [l3, l2]; exact hs) Nat.one_pos (by rw [l3, l2]; exact ht) hrlk (by omega) (Or.inl (by omega)) h0 h1 h2 (by simp)
  rw [a1] at hne
  obtain ⟨H2, b1, b2⟩ := compose_core K.rings.hQ K.rings.sQ hm hz (by rw [a3, hs0, hs1]; decide +kernel) hne
  exact ⟨H1, H2, z, a1, hz, b1, b2⟩

theorem compose_of_params {F : FParams} (hok : F.OK 100 4) (hQm : F.ringQ.moduli = [97, 193, 641])
    (hPm : F.ringP.moduli = [257, 353]) (hne : ((exOut (exEv F) (exMid F)).at 2).toNat % 97 ≠
      ((exOut (exEv F) ((exMid F).set 2 (exRed (exEv F).ringQ (exMid F 2)))).at 2).toNat % 97) : ∃ (ev : Evaluator) (rP : Ring) (sk : PolyQP) (tape : ℕ → KeyTape) (H H1 H2 : Heap)
    (x y z : ℕ → ∀ u, Rq (2 ^ 4) (ev.ringQ.qs u)),
    KeyParams 4 ev.ringQ rP ∧ ev.ringQ.moduli = [97, 193, 641] ∧ ev.ks = newKeySwitcher ev.ringQ rP ∧
    sk.IsMont 4 ev.ringQ rP 2 1 (fun k => if k = 0 then 1 else 0) ∧
    ev.rlk = some ((genRelinearizationKey ev.ringQ rP sk 1 (fun _ => tape)).getD 0 []) ∧
    TapeOK 4 ev.ringQ rP 2 1 tape (fun _ _ => 0) ∧
    CtIs 4 ev.ringQ 2 ev.ringQ.qs 1 (H 0) x ∧ CtIs 4 ev.ringQ 2 ev.ringQ.qs 1 (H 1) y ∧
    ev.mulRelin H 0 1 true 2 = some H1 ∧ CtIs 4 ev.ringQ 2 (fun u => 6 * ev.ringQ.qs u) 1 (H1 2) z ∧
    ev.rescale H1 2 1000 2 = some (.ok H2) ∧
    ∀ X : ℕ → ℕ → ℤ, (∀ i ≤ 1, ∀ u ≤ 2, z i u = intR (2 ^ 4) (ev.ringQ.qs u) (X i)) →
      ¬ ∃ A, CtIs 4 ev.ringQ 1 A 1 (H2 2) (fun i u => intR (2 ^ 4) (ev.ringQ.qs u) (roundDiv 641 (X i))) := by
  have hl3 : F.ringQ.subs.length = 3 := by simpa [Ring.moduli] using congrArg List.length hQm
  have hl2 : F.ringP.subs.length = 2 := by simpa [Ring.moduli] using congrArg List.length hPm
  have K : KeyParams 4 F.ringQ F.ringP := FParams.OK.keyParams hok
  have hQ := K.rings.hQ
  have hP := K.rings.hP
  have q0 := sub_of_moduli hQm 0 97 rfl
  have q1 := sub_of_moduli hQm 1 193 rfl
  have q2 := sub_of_moduli hQm 2 641 rfl
  have p0 := sub_of_moduli hPm 0 257 rfl
  have p1 := sub_of_moduli hPm 1 353 rfl
  have hq : ∀ u ≤ 2, 96 < F.ringQ.qs u := by
    intro u hu
    unfold Ring.qs
    interval_cases u
    · rw [q0]; decide
    · rw [q1]; decide
    · rw [q2]; decide
  have hp : ∀ u < 2, 96 < F.ringP.qs u := by
    intro u hu
    unfold Ring.qs
    interval_cases u
    · rw [p0]; decide
    · rw [p1]; decide
  have hsam : Sampled F.ringQ (F.ringQ.subs.length - 1) (List.replicate 3 (1 :: List.replicate 15 0))
      (fun k => if k = 0 then 1 else 0) := by
    refine ⟨⟨by simp [hl3], fun u hu => ?_⟩, fun k _ => ?_⟩
    · have hr : Rows.row (List.replicate 3 (1 :: List.replicate 15 0)) u = 1 :: List.replicate 15 0 := by
        rw [Rows.row, List.getD, List.getElem?_replicate, if_pos (by omega)]; rfl
      rw [hr, hQ.deg]
      have := hq u (by omega)
      refine ⟨rfl, fun k hk => ?_, fun k hk => ?_⟩
      · have : (Row.at (1 :: List.replicate 15 0) k).toNat ≤ 1 := by revert k; decide
        omega
      · cases k with
        | zero => simp [zval, Row.at, Ring.intVec]
        | succ k =>
          have : Row.at (1 :: List.replicate 15 0) (k + 1) = 0 := by
            have : ∀ j < 15, Row.at (1 :: List.replicate 15 0) (j + 1) = 0 := by decide
            exact this k (by omega)
          rw [zval, this]
          simp [Ring.intVec]
    · have := hq 0 (by omega)
      split <;> simp <;> omega
  have hsk := C33_secretKey K hsam (fun k _ u hu => by
    have := hp u (by omega)
    split <;> simp <;> omega)
  have zQ := newPoly_is hQ (level := 2) (by omega)
  have zP := newPoly_is hP (level := 1) (by omega)
  have ht : TapeOK 4 F.ringQ F.ringP 2 1 (fun _ => exTape F) (fun _ _ => 0) :=
    ⟨fun _ _ => ⟨_, _, zQ, zP⟩, fun _ _ => ⟨(zQ.mono fun u _ => by omega).congr fun u _ k _ => by simp [Ring.intVec],
      fun k _ => by have := hq 0 (by omega); simp; omega⟩, fun _ _ k _ u _ => by simp⟩
  rw [hl3, hl2] at hsk
  have hlt : ∀ c : UInt64, c ≤ 7 → ∀ u ≤ 2, c.toNat < F.ringQ.qs u := fun c hc u hu => by
    have := hq u hu
    have : c.toNat ≤ 7 := hc
    omega
  have c1 := constCt_is hQ (by omega) 1000 (cs := [1, 1]) (by simp) (fun c hc => hlt c (by revert c; decide))
  have c2 := constCt_is hQ (by omega) 1 (cs := [0, 0]) (by simp) (fun c hc => hlt c (by revert c; decide))
  have c0 : CtIs 4 F.ringQ 2 F.ringQ.qs 1 exRamp (fun i u => F.ringQ.elt 4 true (exRamp.rows i) u) := by
    refine ⟨⟨rfl, by decide, by decide⟩, fun i hi => elt_self (by revert i; decide) (fun u hu => by revert i u; decide)
      fun u hu k hk => ?_⟩
    have : (((exRamp.rows i).row u).at k).toNat ≤ 15 := by revert i u k; decide
    have := hq u hu
    omega
  have e0 : exHeap 0 = exRamp := rfl
  have e1 : exHeap 1 = constCt 1000 [1, 1] := rfl
  have e2 : exHeap 2 = constCt 1 [0, 0] := rfl
  rw [← e0] at c0
  rw [← e1] at c1
  rw [← e2] at c2
  have hks : (exEv F).ks = newKeySwitcher (exEv F).ringQ F.ringP := rfl
  have hrlk : (exEv F).rlk = some ((genRelinearizationKey (exEv F).ringQ F.ringP (exSk F) 1 (fun _ _ => exTape F)).getD 0 []) := rfl
  have hl : 2 < (exEv F).ringQ.subs.length := by show 2 < F.ringQ.subs.length; omega
  have K' : KeyParams 4 (exEv F).ringQ F.ringP := K
  have hsk' : (exSk F).IsMont 4 (exEv F).ringQ F.ringP 2 1 (fun k => if k = 0 then 1 else 0) := hsk
  have ht' : TapeOK 4 (exEv F).ringQ F.ringP 2 1 ((fun _ _ => exTape F : ℕ → ℕ → KeyTape) 0) (fun _ _ => 0) := ht
  have hQm' : (exEv F).ringQ.moduli = [97, 193, 641] := hQm
  have c0' : CtIs 4 (exEv F).ringQ 2 (exEv F).ringQ.qs 1 (exHeap 0) _ := c0
  have c1' : CtIs 4 (exEv F).ringQ 2 (exEv F).ringQ.qs 1 (exHeap 1) _ := c1
  clear c0 c1
  unfold exMid at hne
  have hs0 : (exHeap 0).scale = 1000 := rfl
  have hs1 : (exHeap 1).scale = 1000 := rfl
  obtain ⟨H1, H2, z, w1, w2, w3, w4⟩ := compose_core_mul K' hks hQm' hPm hsk' ht' hrlk c0' c1' c2.shape hs0 hs1 hne
  exact ⟨exEv F, F.ringP, exSk F, fun _ => exTape F, exHeap, H1, H2, _, _, z, K', hQm', hks, hsk', hrlk, ht', c0', c1', w1, w2, w3, w4⟩

/-- **C66 (violated for `ckks`, witness).** Degree 16, moduli 97, 193, 641, the secret 1 and a generated relinearization key
without errors: `MulRelin` of the ciphertext with NTT values `(0 … 15, 1 … 1)` by `(1, 1)`, at scale 1000 each, then
`Rescale` with `minScale` 1000.  One modulus is consumed and no error is reported, but the result is not the product
divided by 641. -/
theorem C66_violated : ∃ (ev : Evaluator) (rP : Ring) (sk : PolyQP) (tape : ℕ → KeyTape) (H H1 H2 : Heap)
    (x y z : ℕ → ∀ u, Rq (2 ^ 4) (ev.ringQ.qs u)),
    KeyParams 4 ev.ringQ rP ∧ ev.ringQ.moduli = [97, 193, 641] ∧ ev.ks = newKeySwitcher ev.ringQ rP ∧
    sk.IsMont 4 ev.ringQ rP 2 1 (fun k => if k = 0 then 1 else 0) ∧
    ev.rlk = some ((genRelinearizationKey ev.ringQ rP sk 1 (fun _ => tape)).getD 0 []) ∧
    TapeOK 4 ev.ringQ rP 2 1 tape (fun _ _ => 0) ∧
    CtIs 4 ev.ringQ 2 ev.ringQ.qs 1 (H 0) x ∧ CtIs 4 ev.ringQ 2 ev.ringQ.qs 1 (H 1) y ∧
    ev.mulRelin H 0 1 true 2 = some H1 ∧ CtIs 4 ev.ringQ 2 (fun u => 6 * ev.ringQ.qs u) 1 (H1 2) z ∧
    ev.rescale H1 2 1000 2 = some (.ok H2) ∧
    ∀ X : ℕ → ℕ → ℤ, (∀ i ≤ 1, ∀ u ≤ 2, z i u = intR (2 ^ 4) (ev.ringQ.qs u) (X i)) →
      ¬ ∃ A, CtIs 4 ev.ringQ 1 A 1 (H2 2) (fun i u => intR (2 ^ 4) (ev.ringQ.qs u) (roundDiv 641 (X i))) := by
  obtain ⟨fp, -, -, hfp, hok, -, -, -, -, hQm, hPm⟩ := exampleF
  have hF : exF = fp := by unfold exF; exact Option.some.inj ((Option.some_get _).trans hfp)
  rw [← hF] at hok hQm hPm
  exact compose_of_params hok hQm hPm exOut_ne

end FastKsw.Props
