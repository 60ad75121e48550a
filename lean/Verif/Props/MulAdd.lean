import Verif.Lemmas.CkksMulAdd
import Verif.Props.Constants
import Verif.Lemmas.ConstCt

/-!
# C35: `MulAndAdd` and `MulRelinAndAdd` of `ckks`

The receiver's scale is at least the product of the scales here; a receiver of smaller scale, which the code first multiplies by
the rounded quotient, is in `Props.MulAddScale`.
-/

namespace FastKsw.Props

open FastKsw Finset

section
variable {n : ℕ} {ev : Evaluator} (hr : ev.ringQ.Valid n)

/-- operands and receiver as `mulRelinAndAdd` sees them after `DropLevel` -/
theorem mulRelinAndAdd_prepare {H : Heap} {op0 op1 out : Ref} {d0 d1 deg l0 l1 lo level : ℕ}
    (h0 : CtShape d0 l0 (H op0)) (h1 : CtShape d1 l1 (H op1)) (ho : CtShape deg lo (H out)) (hd : d0 + d1 ≠ 0)
    (hd0 : d0 ≤ 1) (hd1 : d1 ≤ 1) (hdeg : max d0 d1 ≤ deg) (hlev : level = min (min l0 l1) lo)
    (hsc : f64 ((H op0).scale * (H op1).scale) ≤ (H out).scale) (relin : Bool) :
    ev.mulRelinAndAdd H op0 op1 relin out =
      let h := H.set out ((H out).dropTo level)
      if d0 + d1 = 2 then
        let (tmp0, tmp1) := if op1 = out then (op1, op0) else (op0, op1)
        if relin then ev.rlk.map fun rlk => ev.mulCtAndAdd h level tmp0 tmp1 out (some rlk)
        else some (ev.mulCtAndAdd h level tmp0 tmp1 out none)
      else if d0 = 1 then some (ev.mulPtAndAdd h level op1 op0 out)
      else some (ev.mulPtAndAdd h level op0 op1 out) := by
  have sc : ∀ b, ((H.set out ((H out).dropTo level)) b).scale = (H b).scale := fun b => by
    by_cases e : b = out
    · subst e; rw [Heap.set_self, Ct.scale_dropTo]
    · rw [Heap.set_ne _ _ _ _ e]
  have dg : ∀ b, ((H.set out ((H out).dropTo level)) b).degree = (H b).degree := fun b => by
    by_cases e : b = out
    · subst e; rw [Heap.set_self, Ct.degree_dropTo]
    · rw [Heap.set_ne _ _ _ _ e]
  unfold Evaluator.mulRelinAndAdd
  rw [mulPrepare_eq h0 h1 ho hd hd0 hd1 hdeg, ← hlev, Option.bind_some]
  dsimp only
  rw [sc, sc, sc, if_neg (not_lt.2 hsc), Option.bind_some, dg, dg, h0.degree, h1.degree]

variable {H : Heap} {op0 op1 out : Ref} {deg l0 l1 lo level : ℕ} {A B : ℕ → ℕ}
  {x y z : ℕ → ∀ u, Rq (2 ^ n) (ev.ringQ.qs u)}
include hr

/-- **C35 (what the code computes).** `MulRelinAndAdd` on two ciphertexts of degree 1, not both the receiver: to the
three components it adds `x0 y0 + d0`, `2 x0 y1 + d1` (or `2 x1 y0 + d1` when the second operand is the receiver) and
nothing, where `d0 + d1 s = x1 y1 s^2 + E`. -/
theorem C35_computes {rP : Ring} (hks : ev.ks = newKeySwitcher ev.ringQ rP) {rlk : SwitchingKey} (hrlk : ev.rlk = some rlk)
    {sIn sOut : ℕ → ℤ} {e : ℕ → ℕ → ℤ} (hsw : Switches n ev.ringQ rP level rlk sIn sOut e)
    (h0 : CtIs n ev.ringQ l0 A 1 (H op0) x) (h1 : CtIs n ev.ringQ l1 B 1 (H op1) y)
    (ho : CtIs n ev.ringQ lo ev.ringQ.qs deg (H out) z) (hdeg : 1 ≤ deg) (hne : ¬(op0 = out ∧ op1 = out))
    (hlev : level = min (min l0 l1) lo) (hl : level < ev.ringQ.subs.length)
    (hsc : f64 ((H op0).scale * (H op1).scale) ≤ (H out).scale) :
    ∃ H', ev.mulRelinAndAdd H op0 op1 true out = some H' ∧ (∀ b ≠ out, H' b = H b) ∧
      (H' out).scale = (H out).scale ∧ ∃ d0 d1 E,
      KeySwitched n ev.ringQ rP level (rP.subs.length - 1) (fun u => x 1 u * y 1 u) d0 d1 sIn sOut e E ∧
      CtIs n ev.ringQ level ev.ringQ.qs deg (H' out) (fun i u => z i u
        + if i = 0 then x 0 u * y 0 u + d0 u
          else if i = 1 then 2 * (if op1 = out then x 1 u * y 0 u else x 0 u * y 1 u) + d1 u else 0) := by
  rw [mulRelinAndAdd_prepare h0.shape h1.shape ho.shape (by omega) le_rfl le_rfl (by omega) hlev hsc, hrlk]
  dsimp only
  rw [if_pos rfl]
  have hS : CtIs n ev.ringQ level ev.ringQ.qs deg ((H.set out ((H out).dropTo level)) out) z := by
    rw [Heap.set_self]; exact ho.dropTo (by omega)
  have r0 := fun i (hi : i ≤ 1) => dropTo_elt (out := out) h0 (show level ≤ l0 by omega) hi
  have r1 := fun i (hi : i ≤ 1) => dropTo_elt (out := out) h1 (show level ≤ l1 by omega) hi
  have hfr : ∀ b ≠ out, (H.set out ((H out).dropTo level)) b = H b := fun b hb => Heap.set_ne _ _ _ _ hb
  have hsc' : ((H.set out ((H out).dropTo level)) out).scale = (H out).scale := by rw [Heap.set_self, Ct.scale_dropTo]
  generalize H.set out ((H out).dropTo level) = hh at *
  by_cases e1 : op1 = out
  · simp only [if_pos e1, if_true, Option.map_some]
    obtain ⟨g1, g2, d0, d1, E, hE, g3⟩ := mulCtAndAdd_is hr hks hl hsw r1 r0 hS hdeg (fun h => hne ⟨h, e1⟩)
    exact ⟨_, rfl, fun b hb => (g2 b hb).trans (hfr b hb), g1.trans hsc', d0, d1, E, hE.congr fun u _ => mul_comm _ _,
      g3.shape, fun i hi => (g3.elt i hi).congr fun u _ => by
        split
        · ring
        · split
          · ring
          · rfl⟩
  · simp only [if_neg e1, if_true, Option.map_some]
    obtain ⟨g1, g2, d0, d1, E, hE, g3⟩ := mulCtAndAdd_is hr hks hl hsw r0 r1 hS hdeg e1
    exact ⟨_, rfl, fun b hb => (g2 b hb).trans (hfr b hb), g1.trans hsc', d0, d1, E, hE, g3⟩

/-- **C35 (what the code computes, no relinearization).** -/
theorem C35_computes' (h0 : CtIs n ev.ringQ l0 A 1 (H op0) x) (h1 : CtIs n ev.ringQ l1 B 1 (H op1) y)
    (ho : CtIs n ev.ringQ lo ev.ringQ.qs deg (H out) z) (hdeg : 1 ≤ deg) (hne : ¬(op0 = out ∧ op1 = out))
    (hlev : level = min (min l0 l1) lo) (hl : level < ev.ringQ.subs.length)
    (hsc : f64 ((H op0).scale * (H op1).scale) ≤ (H out).scale) :
    ∃ H', ev.mulRelinAndAdd H op0 op1 false out = some H' ∧ (∀ b ≠ out, H' b = H b) ∧
      (H' out).scale = (H out).scale ∧
      CtIs n ev.ringQ level ev.ringQ.qs (max deg 2) (H' out) (fun i u => (if i ≤ deg then z i u else 0)
        + if i = 0 then x 0 u * y 0 u
          else if i = 1 then 2 * (if op1 = out then x 1 u * y 0 u else x 0 u * y 1 u)
          else if i = 2 then x 1 u * y 1 u else 0) := by
  rw [mulRelinAndAdd_prepare h0.shape h1.shape ho.shape (by omega) le_rfl le_rfl (by omega) hlev hsc]
  dsimp only
  rw [if_pos rfl]
  have hS : CtIs n ev.ringQ level ev.ringQ.qs deg ((H.set out ((H out).dropTo level)) out) z := by
    rw [Heap.set_self]; exact ho.dropTo (by omega)
  have r0 := fun i (hi : i ≤ 1) => dropTo_elt (out := out) h0 (show level ≤ l0 by omega) hi
  have r1 := fun i (hi : i ≤ 1) => dropTo_elt (out := out) h1 (show level ≤ l1 by omega) hi
  have hfr : ∀ b ≠ out, (H.set out ((H out).dropTo level)) b = H b := fun b hb => Heap.set_ne _ _ _ _ hb
  have hsc' : ((H.set out ((H out).dropTo level)) out).scale = (H out).scale := by rw [Heap.set_self, Ct.scale_dropTo]
  generalize H.set out ((H out).dropTo level) = hh at *
  by_cases e1 : op1 = out
  · simp only [if_pos e1, Bool.false_eq_true, if_false]
    obtain ⟨g1, g2, g3⟩ := mulCtAndAdd_is' hr hl r1 r0 hS hdeg (fun h => hne ⟨h, e1⟩)
    exact ⟨_, rfl, fun b hb => (g2 b hb).trans (hfr b hb), g1.trans hsc',
      g3.shape, fun i hi => (g3.elt i hi).congr fun u _ => by
        congr 1
        split
        · ring
        · split
          · ring
          · split
            · ring
            · rfl⟩
  · simp only [if_neg e1, Bool.false_eq_true, if_false]
    obtain ⟨g1, g2, g3⟩ := mulCtAndAdd_is' hr hl r0 r1 hS hdeg e1
    exact ⟨_, rfl, fun b hb => (g2 b hb).trans (hfr b hb), g1.trans hsc', g3⟩

/-- **C35 (partial).** If the two cross terms agree, `x0 y1 = x1 y0`, in particular for a square, `MulRelinAndAdd` adds the
product up to the error of one key switch. -/
theorem C35_mulRelinAndAdd_partial {rP : Ring} (hks : ev.ks = newKeySwitcher ev.ringQ rP) {rlk : SwitchingKey}
    (hrlk : ev.rlk = some rlk) {S : ℕ → ℤ} {e : ℕ → ℕ → ℤ} (hsw : Switches n ev.ringQ rP level rlk (negPow (2 ^ n) S 2) S e)
    (h0 : CtIs n ev.ringQ l0 A 1 (H op0) x) (h1 : CtIs n ev.ringQ l1 B 1 (H op1) y)
    (hxy : ∀ u ≤ level, x 0 u * y 1 u = x 1 u * y 0 u)
    {m : ∀ u, Rq (2 ^ n) (ev.ringQ.qs u)} (ho : CtEnc n ev.ringQ lo ev.ringQ.qs deg (H out) (fun u => intR _ _ S) m)
    (hdeg : 1 ≤ deg) (hne : ¬(op0 = out ∧ op1 = out))
    (hlev : level = min (min l0 l1) lo) (hl : level < ev.ringQ.subs.length)
    (hsc : f64 ((H op0).scale * (H op1).scale) ≤ (H out).scale) :
    ∃ H', ev.mulRelinAndAdd H op0 op1 true out = some H' ∧ (∀ b ≠ out, H' b = H b) ∧
      (H' out).scale = (H out).scale ∧ ∃ d0 d1 E,
      KeySwitched n ev.ringQ rP level (rP.subs.length - 1) (fun u => x 1 u * y 1 u) d0 d1 (negPow (2 ^ n) S 2) S e E ∧
      CtEnc n ev.ringQ level ev.ringQ.qs deg (H' out) (fun u => intR _ _ S) (fun u => m u +
        (x 0 u + x 1 u * intR _ _ S) * (y 0 u + y 1 u * intR _ _ S) + intR _ _ E) := by
  obtain ⟨z, hz, hm⟩ := ho
  obtain ⟨H', a1, a2, a3, d0, d1, E, hE, a4⟩ := C35_computes hr hks hrlk hsw h0 h1 hz hdeg hne hlev hl hsc
  refine ⟨H', a1, a2, a3, d0, d1, E, hE, _, a4, fun u hu => ?_⟩
  have hrel := hE.rel u hu
  have hx := hxy u hu
  rw [intR_negPow_two (by positivity)] at hrel
  dsimp only
  have e1 : (if op1 = out then x 1 u * y 0 u else x 0 u * y 1 u) = x 0 u * y 1 u := by
    split
    · exact hx.symm
    · rfl
  simp only [add_mul, sum_add_distrib, e1]
  rw [hm u (by omega)]
  have e2 : ∑ i ∈ range (deg + 1), (if i = 0 then x 0 u * y 0 u + d0 u
      else if i = 1 then 2 * (x 0 u * y 1 u) + d1 u else 0) * intR (2 ^ n) (ev.ringQ.qs u) S ^ i
      = x 0 u * y 0 u + d0 u + (2 * (x 0 u * y 1 u) + d1 u) * intR (2 ^ n) (ev.ringQ.qs u) S := by
    rw [show deg + 1 = deg - 1 + 1 + 1 by omega, sum_range_succ', sum_range_succ']
    simp
    ring
  rw [e2]
  linear_combination hrel + intR (2 ^ n) (ev.ringQ.qs u) S * hx

/-- **C35 (partial, no relinearization).** -/
theorem C35_mulAndAdd_partial (h0 : CtIs n ev.ringQ l0 A 1 (H op0) x) (h1 : CtIs n ev.ringQ l1 B 1 (H op1) y)
    (hxy : ∀ u ≤ level, x 0 u * y 1 u = x 1 u * y 0 u) {s m : ∀ u, Rq (2 ^ n) (ev.ringQ.qs u)}
    (ho : CtEnc n ev.ringQ lo ev.ringQ.qs deg (H out) s m) (hdeg : 1 ≤ deg) (hne : ¬(op0 = out ∧ op1 = out))
    (hlev : level = min (min l0 l1) lo) (hl : level < ev.ringQ.subs.length)
    (hsc : f64 ((H op0).scale * (H op1).scale) ≤ (H out).scale) :
    ∃ H', ev.mulRelinAndAdd H op0 op1 false out = some H' ∧ (∀ b ≠ out, H' b = H b) ∧
      (H' out).scale = (H out).scale ∧
      CtEnc n ev.ringQ level ev.ringQ.qs (max deg 2) (H' out) s (fun u => m u +
        (x 0 u + x 1 u * s u) * (y 0 u + y 1 u * s u)) := by
  obtain ⟨z, hz, hm⟩ := ho
  obtain ⟨H', a1, a2, a3, a4⟩ := C35_computes' hr h0 h1 hz hdeg hne hlev hl hsc
  refine ⟨H', a1, a2, a3, _, a4, fun u hu => ?_⟩
  have hx := hxy u hu
  have e1 : (if op1 = out then x 1 u * y 0 u else x 0 u * y 1 u) = x 0 u * y 1 u := by
    split
    · exact hx.symm
    · rfl
  simp only [add_mul, sum_add_distrib, e1]
  have e3 : ∑ i ∈ range (max deg 2 + 1), (if i ≤ deg then z i u else 0) * s u ^ i = m u := by
    rw [← hm u (by omega), ← sum_pad (show deg ≤ max deg 2 by omega)]
    exact sum_congr rfl fun i _ => by unfold pad; split <;> rfl
  have e2 : ∑ i ∈ range (max deg 2 + 1), (if i = 0 then x 0 u * y 0 u
      else if i = 1 then 2 * (x 0 u * y 1 u) else if i = 2 then x 1 u * y 1 u else 0) * s u ^ i
      = x 0 u * y 0 u + 2 * (x 0 u * y 1 u) * s u + x 1 u * y 1 u * s u ^ 2 := by
    rw [show max deg 2 + 1 = max deg 2 - 2 + 1 + 1 + 1 by omega, sum_range_succ', sum_range_succ', sum_range_succ']
    simp
    ring
  rw [e2, e3]
  linear_combination s u * hx

/-- **C35 (plaintext times ciphertext).** In either order, with or without the relinearization flag: the product is added
exactly. -/
theorem C35_mulPtAndAdd (h0 : CtIs n ev.ringQ l0 A 0 (H op0) x) (h1 : CtIs n ev.ringQ l1 B 1 (H op1) y)
    {s m : ∀ u, Rq (2 ^ n) (ev.ringQ.qs u)}
    (ho : CtEnc n ev.ringQ lo ev.ringQ.qs deg (H out) s m) (hdeg : 1 ≤ deg)
    (hlev : level = min (min l0 l1) lo) (hl : level < ev.ringQ.subs.length)
    (hsc : f64 ((H op0).scale * (H op1).scale) ≤ (H out).scale) (relin swap : Bool) :
    ∃ H', ev.mulRelinAndAdd H (if swap then op1 else op0) (if swap then op0 else op1) relin out = some H' ∧
      (∀ b ≠ out, H' b = H b) ∧ (H' out).scale = (H out).scale ∧
      CtEnc n ev.ringQ level ev.ringQ.qs deg (H' out) s (fun u => m u + x 0 u * (y 0 u + y 1 u * s u)) := by
  obtain ⟨z, hz, hm⟩ := ho
  have e1 : ev.mulRelinAndAdd H (if swap then op1 else op0) (if swap then op0 else op1) relin out
      = some (ev.mulPtAndAdd (H.set out ((H out).dropTo level)) level op0 op1 out) := by
    cases swap
    · rw [if_neg (by decide), if_neg (by decide),
        mulRelinAndAdd_prepare h0.shape h1.shape hz.shape (by omega) (by omega) le_rfl (by omega) hlev hsc]
      simp
    · rw [if_pos rfl, if_pos rfl, mulRelinAndAdd_prepare (level := level) h1.shape h0.shape hz.shape (by omega) le_rfl (by omega)
        (by omega) (by omega) (by rw [mul_comm]; exact hsc)]
      simp
  have hS : CtIs n ev.ringQ level ev.ringQ.qs deg ((H.set out ((H out).dropTo level)) out) z := by
    rw [Heap.set_self]; exact hz.dropTo (by omega)
  obtain ⟨g1, g2, g3⟩ := mulPtAndAdd_is hr hl (dropTo_elt (out := out) h0 (show level ≤ l0 by omega) le_rfl)
    (fun i hi => dropTo_elt (out := out) h1 (show level ≤ l1 by omega) hi) hS hdeg
  refine ⟨_, e1, fun b hb => (g2 b hb).trans (Heap.set_ne _ _ _ _ hb), g1.trans (by rw [Heap.set_self, Ct.scale_dropTo]), _, g3,
    fun u hu => ?_⟩
  simp only [add_mul, sum_add_distrib]
  rw [hm u (by omega)]
  have e2 : ∑ i ∈ range (deg + 1), (if i ≤ 1 then x 0 u * y i u else 0) * s u ^ i
      = x 0 u * y 0 u + x 0 u * y 1 u * s u := by
    rw [show deg + 1 = deg - 1 + 1 + 1 by omega, sum_range_succ', sum_range_succ']
    simp
    ring
  rw [e2]
  ring

/-- **C35 (partial, squares).** -/
theorem C35_squareAndAdd_partial (h0 : CtIs n ev.ringQ l0 A 1 (H op0) x) {s m : ∀ u, Rq (2 ^ n) (ev.ringQ.qs u)}
    (ho : CtEnc n ev.ringQ lo ev.ringQ.qs deg (H out) s m) (hdeg : 1 ≤ deg) (hne : op0 ≠ out)
    (hlev : level = min l0 lo) (hl : level < ev.ringQ.subs.length)
    (hsc : f64 ((H op0).scale * (H op0).scale) ≤ (H out).scale) :
    ∃ H', ev.mulRelinAndAdd H op0 op0 false out = some H' ∧ (∀ b ≠ out, H' b = H b) ∧
      (H' out).scale = (H out).scale ∧
      CtEnc n ev.ringQ level ev.ringQ.qs (max deg 2) (H' out) s (fun u => m u +
        (x 0 u + x 1 u * s u) * (x 0 u + x 1 u * s u)) :=
  C35_mulAndAdd_partial hr h0 h0 (fun u _ => mul_comm _ _) ho hdeg (fun h => hne h.1) (by omega) hl hsc

end

/-- **C35 (violated, witness).** Degree 16, moduli 97, 193, 641.  With components `(5, 7)` and `(2, 3)` and a zero receiver,
`MulAndAdd` leaves `(10, 30, 21)` instead of `(10, 29, 21)`: under the secret 1 it does not decrypt to the sum. -/
theorem C35_violated : ∃ (ev : Evaluator) (H H' : Heap) (x y : ℕ → ∀ u, Rq (2 ^ 4) (ev.ringQ.qs u))
    (s m : ∀ u, Rq (2 ^ 4) (ev.ringQ.qs u)), ev.ringQ.Valid 4 ∧ CtIs 4 ev.ringQ 2 ev.ringQ.qs 1 (H 0) x ∧
    CtIs 4 ev.ringQ 2 ev.ringQ.qs 1 (H 1) y ∧ CtEnc 4 ev.ringQ 2 ev.ringQ.qs 2 (H 2) s m ∧
    f64 ((H 0).scale * (H 1).scale) ≤ (H 2).scale ∧ ev.mulRelinAndAdd H 0 1 false 2 = some H' ∧
    ¬ ∃ A, CtEnc 4 ev.ringQ 2 A 2 (H' 2) s (fun u => m u + (x 0 u + x 1 u * s u) * (y 0 u + y 1 u * s u)) := by
  obtain ⟨rQ, rP, sk, tape, K, -, -, l3, -, hq, q0, -, -⟩ := exampleRings
  obtain ⟨ev, rfl⟩ : ∃ ev : Evaluator, ev.ringQ = rQ := ⟨newEvaluator rQ rP none (fun _ => none) 7, rfl⟩
  have hQ := K.rings.hQ
  let H : Heap := fun a => if a = 0 then constCt 1 [5, 7] else if a = 1 then constCt 1 [2, 3] else constCt 1 [0, 0, 0]
  have hlt : ∀ c : UInt64, c ≤ 7 → ∀ u ≤ 2, c.toNat < ev.ringQ.qs u := fun c hc u hu => by
    have := hq u hu
    have : c.toNat ≤ 7 := hc
    omega
  have c0 := constCt_is hQ (by omega) 1 (cs := [5, 7]) (by simp) (fun c hc => hlt c (by revert c; decide))
  have c1 := constCt_is hQ (by omega) 1 (cs := [2, 3]) (by simp) (fun c hc => hlt c (by revert c; decide))
  have c2 := constCt_is hQ (by omega) 1 (cs := [0, 0, 0]) (by simp) (fun c hc => hlt c (by revert c; decide))
  have hs : f64 ((H 0).scale * (H 1).scale) ≤ (H 2).scale := by
    show f64 ((1 : ℚ) * 1) ≤ 1
    decide +kernel
  obtain ⟨H', a1, -, -, a4⟩ := C35_computes' (ev := ev) (H := H) (op0 := 0) (op1 := 1) (out := 2) (level := 2) hQ c0 c1 c2
    (by simp) (by decide) rfl (by show 2 < ev.ringQ.subs.length; omega) hs
  refine ⟨ev, H, H', _, _, fun _ => 1, _, hQ, c0, c1, ⟨_, c2, fun _ _ => rfl⟩, hs, a1, ?_⟩
  rintro ⟨A, hA⟩
  have e := CtEnc.unique hA ⟨_, a4, fun _ _ => rfl⟩ (u := 0) (by omega)
  simp [sum_range_succ] at e
  have e2 : ((60 : ℕ) : Rq (2 ^ 4) (ev.ringQ.qs 0)) = ((61 : ℕ) : Rq (2 ^ 4) (ev.ringQ.qs 0)) := by
    push_cast
    linear_combination e
  have := natCast_rq_inj hQ (by omega) e2
  rw [q0] at this
  omega

end FastKsw.Props
