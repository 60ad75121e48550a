import Verif.Lemmas.Components
import Verif.Props.KeySwitch

/-!
# The classical evaluator: key-switching a component
-/

namespace FastKsw

open Props Finset

/-- The key `evk` switches from `sIn` to `sOut` at level `level`, with errors `e`: what `C28_switchKeys` gives. -/
def Switches (n : ℕ) (rQ rP : Ring) (level : ℕ) (evk : SwitchingKey) (sIn sOut : ℕ → ℤ) (e : ℕ → ℕ → ℤ) : Prop :=
  ∀ (b : Bool) (a : Rows) (x : ∀ u, Rq (2 ^ n) (rQ.qs u)), EltIs n rQ level rQ.qs b a x →
    ∀ c0 c1 : Rows, level < c0.length → level < c1.length →
    ∃ y0 y1,
      EltWritten n rQ level rQ.qs b c0 ((newKeySwitcher rQ rP).switchKeysInPlace level b a evk c0 c1).1 y0 ∧
      EltWritten n rQ level rQ.qs b c1 ((newKeySwitcher rQ rP).switchKeysInPlace level b a evk c0 c1).2 y1 ∧
      ∃ E, KeySwitched n rQ rP level (rP.subs.length - 1) x y0 y1 sIn sOut e E

section
variable {n : ℕ} {rQ rP : Ring} (K : KeyParams n rQ rP) (h32 : rP.subs.length ≤ 32) {level : ℕ}
  (hl : level < rQ.subs.length) (hov : DigitRoom rQ rP level (rP.subs.length - 1))
include K h32 hl hov

theorem switches_of_key {evk : SwitchingKey} {sIn sOut : ℕ → ℤ} {e : ℕ → ℕ → ℤ} (hal : evk.alpha = rP.subs.length)
    (hkey : IsSwitchKey n rQ rP (rQ.subs.length - 1) (rP.subs.length - 1) evk sIn sOut e) :
    Switches n rQ rP level evk sIn sOut e := by
  intro b a x ha c0 c1 hc0 hc1
  have hlP := K.rings.lP
  have h1q := K.q100
  have h1p := K.p100
  have hQ := K.rings.hQ
  obtain ⟨⟨E, hE⟩, y0, y1, w0, w1⟩ := C28_switchKeys (K.at hl hlP) (by omega) (by omega) (by omega) (by omega)
    hkey (by omega) hov b (ha.polyIs hQ) hc0 hc1
  have v0 := w0.eltWritten hQ (b := b) (x := fun u => rQ.eltOf n b u (y0 u)) fun _ _ => rfl
  have v1 := w1.eltWritten hQ (b := b) (x := fun u => rQ.eltOf n b u (y1 u)) fun _ _ => rfl
  exact ⟨_, _, v0.congr fun u hu => (v0.is.val u hu).symm, v1.congr fun u hu => (v1.is.val u hu).symm, E,
    hE.congr ha.val⟩

theorem switches_relin {sk : PolyQP} {S : ℕ → ℤ}
    (hs : sk.IsMont n rQ rP (rQ.subs.length - 1) (rP.subs.length - 1) S) {maxDegree i : ℕ} (hi : i < maxDegree)
    {tape : ℕ → ℕ → KeyTape} {E : ℕ → ℕ → ℤ}
    (ht : TapeOK n rQ rP (rQ.subs.length - 1) (rP.subs.length - 1) (tape i) E) :
    Switches n rQ rP level ((genRelinearizationKey rQ rP sk maxDegree tape).getD i []) (negPow (2 ^ n) S (i + 2)) S E := by
  have hlP := K.rings.lP
  have h1q := K.q100
  have h1p := K.p100
  refine switches_of_key K h32 hl hov ?_ (C33_relinearization K hs hi ht)
  unfold genRelinearizationKey
  rw [getD_map_range' _ _ _ hi, genSwitchingKeyCore_alpha (by omega) (by omega)]
  omega

theorem switches_galois {sk : PolyQP} {S : ℕ → ℤ}
    (hs : sk.IsMont n rQ rP (rQ.subs.length - 1) (rP.subs.length - 1) S) {g : UInt64} (hg : g.toNat % 2 = 1)
    {tape : ℕ → KeyTape} {E : ℕ → ℕ → ℤ}
    (ht : TapeOK n rQ rP (rQ.subs.length - 1) (rP.subs.length - 1) tape E) :
    ∃ g', g' % 2 = 1 ∧ g' * g.toNat % (2 * 2 ^ n) = 1 ∧
      Switches n rQ rP level (genSwitchingKeyForGalois rQ rP g sk tape) S (autInt (2 ^ n) g' S) E := by
  have hlP := K.rings.lP
  have h1q := K.q100
  have h1p := K.p100
  obtain ⟨g', hg1, hg2, hkey⟩ := C33_galois K hs hg ht
  refine ⟨g', hg1, hg2, switches_of_key K h32 hl hov ?_ hkey⟩
  refine (genSwitchingKeyCore_alpha (by omega) (by omega) _ _ _).trans ?_
  omega

end

/-- what the products of `mulRelin` leave in components 0 and 1 of the receiver and in the pool -/
theorem mulCtRelin_is {n : ℕ} {ev : Evaluator} {rP : Ring} (hr : ev.ringQ.Valid n) (sr : ev.ringQ.Small)
    (hks : ev.ks = newKeySwitcher ev.ringQ rP) {level : ℕ} (hl : level < ev.ringQ.subs.length) {rlk : SwitchingKey}
    {sIn sOut : ℕ → ℤ} {e : ℕ → ℕ → ℤ} (hsw : Switches n ev.ringQ rP level rlk sIn sOut e)
    {h : Heap} {tmp0 tmp1 out : Ref} {sq : Bool} {x y : ℕ → ∀ u, Rq (2 ^ n) (ev.ringQ.qs u)} {A B : ℕ → ℕ}
    (h0 : ∀ i ≤ 1, EltIs n ev.ringQ level A true (h.rows tmp0 i) (x i))
    (h1 : ∀ i ≤ 1, EltIs n ev.ringQ level B true (h.rows tmp1 i) (y i)) {deg : ℕ}
    (hs : CtShape deg level (h out)) (hdeg : 1 ≤ deg) (hal : tmp1 ≠ out ∨ sq = true) (hsq : sq = true → tmp0 = tmp1) :
    let h' := ev.mulCtRelin h level tmp0 tmp1 out sq rlk
    CtShape deg level (h' out) ∧ (h' out).scale = (h out).scale ∧ (∀ b ≠ out, h' b = h b) ∧
      (∀ i, 2 ≤ i → h'.rows out i = h.rows out i) ∧ ∃ d0 d1 E,
      KeySwitched n ev.ringQ rP level (rP.subs.length - 1) (fun u => x 1 u * y 1 u) d0 d1 sIn sOut e E ∧
      EltIs n ev.ringQ level (fun u => 6 * ev.ringQ.qs u) true (h'.rows out 0) (fun u => x 0 u * y 0 u + d0 u) ∧
      EltIs n ev.ringQ level (fun u => 6 * ev.ringQ.qs u) true (h'.rows out 1)
        (fun u => x 0 u * y 1 u + x 1 u * y 0 u + d1 u) := by
  rw [Evaluator.mulCtRelin]
  dsimp only
  have hlen := hs.len
  have hpool : level < (newPoly ev.ringQ.n ev.ringQ.subs.length).length := by rw [length_newPoly]; exact hl
  have a0 := h0 0 (by omega)
  have a1 := h0 1 (by omega)
  have b0 := h1 0 (by omega)
  have b1 := h1 1 (by omega)
  have w0 := mulPool_elt hr hl a0 b0 (hs.lvl hr (show 0 ≤ deg by omega))
  have w2 := mulPool_elt hr hl a1 b1 hpool
  have w1 := mulPool_elt hr hl a0 b1 (hs.lvl hr (show 1 ≤ deg by omega))
  have s0 := w0.len.trans (hs.size 0 (by omega))
  have s1 := w1.len.trans (hs.size 1 (by omega))
  have d1 : 1 < deg + 1 := by omega
  have hro : ∀ i, (h out).rows i = h.rows out i := fun _ => rfl
  rw [hro] at w0 w1 s0 s1
  have six : ∀ u ≤ level, ev.ringQ.qs u ≤ 6 * ev.ringQ.qs u ∧ ev.ringQ.qs u + 6 * ev.ringQ.qs u ≤ 2 ^ 64 := fun u hu => by
    have := sr _ (Ring.sub_mem (show u < ev.ringQ.subs.length by omega))
    unfold Ring.qs
    omega
  have i2 := invNttLvl_elt hr hl sr (fun u _ => by omega) w2.is (w2.is.lvl)
  obtain ⟨y0, y1, g0, g1, E, hE⟩ := hsw false _ _ i2.is _ _ hpool hpool
  have k0 := nttLazyLvl_elt hr hl sr (fun u _ => by omega) g0.is g0.is.lvl
  have k1 := nttLazyLvl_elt hr hl sr (fun u _ => by omega) g1.is g1.is.lvl
  rw [Evaluator.switchPool, hks]
  have f0 := addLvl_lazy hr hl w0.is k0.is six w0.is.lvl
  have t0 := f0.len.trans s0
  cases hsq' : sq with
  | true =>
    have ht := hsq hsq'
    have w := (addLvl_elt hr hl w1.is w1.is (fun u _ => by omega) w1.is.lvl).congr
      (y := fun u => x 0 u * y 1 u + x 1 u * y 0 u) fun u hu => by
      have e0 : x 0 u = y 0 u := by rw [← a0.val u hu, ← b0.val u hu, ht]
      have e1' : x 1 u = y 1 u := by rw [← a1.val u hu, ← b1.val u hu, ht]
      rw [e0, e1']; ring
    have s := w.len.trans s1
    have f1 := addLvl_lazy hr hl w.is k1.is six w.is.lvl
    have t1 := f1.len.trans s
    have hI : tmp1 = out ∨ tmp1 ≠ out := em _
    simp only [if_true, Heap.rows_setRows_ite, Heap.length_setRows, hlen, Heap.scale_setRows, d1, and_true, true_and,
      Nat.reduceEqDiff, one_ne_zero, zero_ne_one, OfNat.ofNat_ne_zero, OfNat.ofNat_ne_one, OfNat.zero_ne_ofNat,
      OfNat.one_ne_ofNat, and_false, false_and, if_false, Nat.zero_lt_succ, ite_true]
    refine ⟨?_, fun b hb => ?_, fun i hi => ?_, y0, y1, E, hE, f0.is, f1.is⟩
    · simp only [Heap.setRows_self]
      exact ((((hs.setRows s0).setRows s1).setRows s).setRows t0).setRows t1
    · simp only [Heap.setRows_ne _ _ _ _ _ hb]
    · simp only [show i ≠ 0 by omega, show i ≠ 1 by omega, if_false]
  | false =>
    have hne' : tmp1 ≠ out := hal.resolve_right (by rw [hsq']; decide)
    have w := mulPoolAdd_elt hr hl a1 b0 w1.is
    have s := w.len.trans s1
    have f1 := addLvl_lazy hr hl w.is k1.is six w.is.lvl
    have t1 := f1.len.trans s
    simp only [Bool.false_eq_true, hne', if_false, Heap.rows_setRows_ite, Heap.length_setRows, hlen, Heap.scale_setRows, d1,
      and_true, true_and,
      Nat.reduceEqDiff, one_ne_zero, zero_ne_one, OfNat.ofNat_ne_zero, OfNat.ofNat_ne_one, OfNat.zero_ne_ofNat,
      OfNat.one_ne_ofNat, and_false, false_and, if_true, Nat.zero_lt_succ, ite_true, if_false]
    refine ⟨?_, fun b hb => ?_, fun i hi => ?_, y0, y1, E, hE, f0.is, f1.is⟩
    · simp only [Heap.setRows_self]
      exact ((((hs.setRows s0).setRows s1).setRows s).setRows t0).setRows t1
    · simp only [Heap.setRows_ne _ _ _ _ _ hb]
    · simp only [show i ≠ 0 by omega, show i ≠ 1 by omega, if_false]

end FastKsw
