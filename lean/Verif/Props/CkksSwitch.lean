import Verif.Lemmas.CkksMul
import Verif.Props.Constants
import Verif.Lemmas.ConstCt

/-!
# C93: `SwitchKeys` and `SwitchKeysNew` of `ckks` re-encrypt under another secret
-/

namespace FastKsw.Props

open FastKsw Finset

/-- `SwitchKeys`: what is written, and that the rows above the common level are kept -/
theorem switchKeys_is {n : ℕ} {ev : Evaluator} {rP : Ring} (hr : ev.ringQ.Valid n)
    (hks : ev.ks = newKeySwitcher ev.ringQ rP) {evk : SwitchingKey} {level : ℕ}
    {sIn sOut : ℕ → ℤ} {e : ℕ → ℕ → ℤ} (hsw : Switches n ev.ringQ rP level evk sIn sOut e)
    {h : Heap} {ct0 out : Ref} {l0 lo : ℕ} {x : ℕ → ∀ u, Rq (2 ^ n) (ev.ringQ.qs u)}
    (h0 : CtIs n ev.ringQ l0 (fun u => ev.ringQ.qs u + 1) 1 (h ct0) x)
    (h1 : EltIs n ev.ringQ l0 ev.ringQ.qs true ((h ct0).rows 1) (x 1)) (ho : CtShape 1 lo (h out))
    (hlev : level = min l0 lo) (hl : level < ev.ringQ.subs.length) :
    ∃ h', ev.switchKeys h ct0 evk out = some h' ∧ (∀ b ≠ out, h' b = h b) ∧ (h' out).scale = (h ct0).scale ∧
      CtShape 1 lo (h' out) ∧
      ∃ d0 d1 E, KeySwitched n ev.ringQ rP level (rP.subs.length - 1) (x 1) d0 d1 sIn sOut e E ∧
      EltWritten n ev.ringQ level ev.ringQ.qs true ((h out).rows 0) ((h' out).rows 0) (fun u => x 0 u + d0 u) ∧
      EltWritten n ev.ringQ level ev.ringQ.qs true ((h out).rows 1) ((h' out).rows 1) d1 := by
  have hpool : level < (newPoly ev.ringQ.n ev.ringQ.subs.length).length := by rw [length_newPoly]; exact hl
  unfold Evaluator.switchKeys
  rw [h0.shape.degree, ho.degree, if_neg (by omega)]
  refine ⟨_, rfl, ?_⟩
  rw [h0.shape.level, ho.level, ← hlev]
  simp only [Heap.rows_setScale, show ((h.setScale out (h ct0).scale ct0).value) = (h ct0).value by rw [Heap.value_setScale]]
  rw [h0.shape.ntt 1 le_rfl]
  obtain ⟨y0, y1, g0, g1, E, hE⟩ := hsw true _ _ (h1.below (show level ≤ l0 by omega)) _ _ hpool hpool
  rw [Evaluator.switchPool, hks]
  have hlo : ∀ i ≤ 1, level < ((h out).rows i).length := fun i hi => by rw [ho.size i hi]; omega
  have w0 := addLvl_elt hr hl ((h0.elt 0 (by omega)).below (show level ≤ l0 by omega)) g0.is (fun u _ => by omega) (hlo 0 (by omega))
  have w1 := (copyValuesLvl_is (g1.is.polyIs hr) (hlo 1 le_rfl)).eltWritten hr (b := true) (x := y1) fun u hu => g1.is.val u hu
  have s0 := w0.len.trans (ho.size 0 (by omega))
  have s1 := w1.len.trans (ho.size 1 (by omega))
  have hro : ∀ i, (h out).rows i = h.rows out i := fun _ => rfl
  have hro' : ∀ i, (h ct0).rows i = h.rows ct0 i := fun _ => rfl
  rw [hro, hro'] at w0 s0
  rw [hro, hro'] at w1 s1
  have hlen := ho.len
  have S := (ho.scale (h ct0).scale).setRows (i := 0) s0
  have S := S.setRows (i := 1) s1
  simp only [Heap.rows_setRows_ite, Heap.length_setRows, Heap.value_setScale, hlen, Heap.rows_setScale, one_ne_zero, false_and,
    and_false, if_false]
  refine ⟨fun b hb => ?_, ?_, ?_, y0, y1, E, hE, ?_, ?_⟩
  · rw [Heap.setRows_ne _ _ _ _ _ hb, Heap.setRows_ne _ _ _ _ _ hb, Heap.setScale_ne _ _ _ _ hb]
  · simp
  · simp only [Heap.setRows_self, Heap.setScale_self]
    exact S
  · simp only [Heap.setRows_self, Heap.setScale_self]
    rw [Ct.rows_setRows_ne _ _ _ _ (by omega), Ct.rows_setRows_self _ _ _ (by simp only []; rw [hlen]; omega)]
    exact w0
  · simp only [Heap.setRows_self, Heap.setScale_self]
    rw [Ct.rows_setRows_self _ _ _ (by rw [Ct.length_setRows, hlen]; omega)]
    exact w1

section
variable {n : ℕ} {ev : Evaluator} {rP : Ring} (K : KeyParams n ev.ringQ rP) (h32 : rP.subs.length ≤ 32)
  (hks : ev.ks = newKeySwitcher ev.ringQ rP) {level : ℕ} (hl : level < ev.ringQ.subs.length)
  (hov : DigitRoom ev.ringQ rP level (rP.subs.length - 1)) {skIn skOut : PolyQP} {S S' : ℕ → ℤ}
  (qi : skIn.q.length = ev.ringQ.subs.length) (qo : skOut.q.length = ev.ringQ.subs.length)
  (po : skOut.p.length = rP.subs.length)
  (hi : skIn.IsMont n ev.ringQ rP (ev.ringQ.subs.length - 1) (rP.subs.length - 1) S)
  (ho : skOut.IsMont n ev.ringQ rP (ev.ringQ.subs.length - 1) (rP.subs.length - 1) S') {tape : ℕ → KeyTape} {e : ℕ → ℕ → ℤ}
  (ht : TapeOK n ev.ringQ rP (ev.ringQ.subs.length - 1) (rP.subs.length - 1) tape e)
include K h32 hl hov qi qo po hi ho ht

theorem switches_generated : Switches n ev.ringQ rP level (genSwitchingKey ev.ringQ rP skIn skOut tape) S S' e := by
  have hlP := K.rings.lP
  have h1q := K.q100
  have h1p := K.p100
  refine switches_of_key K h32 hl hov ((genSwitchingKeyCore_alpha (by omega) (by omega) _ _ _).trans (by omega)) ?_
  exact C33_genSwitchingKey K (lIn := ev.ringQ.subs.length - 1) (by omega) (by omega) (by omega) (by omega) (by omega) (by omega)
    hi.q (fun h => absurd h (by omega)) ho ht

variable {H : Heap} {ct0 : Ref} {l0 lo : ℕ} {x : ℕ → ∀ u, Rq (2 ^ n) (ev.ringQ.qs u)} {m : ∀ u, Rq (2 ^ n) (ev.ringQ.qs u)}
include hks

/-- **C93 (partial: the level of the receiver is at most the level of the ciphertext).** `SwitchKeys` with a key generated
from `S` to `S'`: the receiver decrypts under `S'` to the message of the ciphertext under `S` plus the error of the
key-switch and has the scale of the ciphertext; nothing else is touched, and the receiver may be the ciphertext itself.
Component 1 must be reduced, component 0 may hold zeros written as `q`. -/
theorem C93_switchKeys_partial {out : Ref} (h0 : CtIs n ev.ringQ l0 (fun u => ev.ringQ.qs u + 1) 1 (H ct0) x)
    (h1 : EltIs n ev.ringQ l0 ev.ringQ.qs true ((H ct0).rows 1) (x 1))
    (hm : ∀ u ≤ l0, x 0 u + x 1 u * intR _ _ S = m u) (hc : CtShape 1 level (H out)) (hlev : level ≤ l0) :
    ∃ H', ev.switchKeys H ct0 (genSwitchingKey ev.ringQ rP skIn skOut tape) out = some H' ∧ (∀ b ≠ out, H' b = H b) ∧
      (H' out).scale = (H ct0).scale ∧ ∃ d0 d1 E,
      KeySwitched n ev.ringQ rP level (rP.subs.length - 1) (x 1) d0 d1 S S' e E ∧
      CtEnc n ev.ringQ level ev.ringQ.qs 1 (H' out) (fun u => intR _ _ S') (fun u => m u + intR _ _ E) := by
  obtain ⟨H', a1, a2, a3, a4, d0, d1, E, hE, w0, w1⟩ := switchKeys_is K.rings.hQ hks
    (switches_generated K h32 hl hov qi qo po hi ho ht) h0 h1 hc (by omega) hl
  refine ⟨H', a1, a2, a3, d0, d1, E, hE, fun i u => if i = 0 then x 0 u + d0 u else d1 u, ⟨a4, fun i hi => ?_⟩, fun u hu => ?_⟩
  · interval_cases i
    · exact w0.is
    · exact w1.is
  · have hrel := hE.rel u hu
    rw [sum_range_succ, sum_range_one]
    simp only [if_true, one_ne_zero, if_false]
    linear_combination hrel + hm u (by omega)

/-- **C93 (`SwitchKeysNew`).** The new ciphertext has the level and the scale of the ciphertext. -/
theorem C93_switchKeysNew {new : Ref} (hn : ct0 ≠ new) (h0 : CtIs n ev.ringQ level (fun u => ev.ringQ.qs u + 1) 1 (H ct0) x)
    (h1 : EltIs n ev.ringQ level ev.ringQ.qs true ((H ct0).rows 1) (x 1))
    (hm : ∀ u ≤ level, x 0 u + x 1 u * intR _ _ S = m u) :
    ∃ H', ev.switchKeysNew H ct0 (genSwitchingKey ev.ringQ rP skIn skOut tape) new = some H' ∧ (∀ b ≠ new, H' b = H b) ∧
      (H' new).scale = (H ct0).scale ∧ ∃ d0 d1 E,
      KeySwitched n ev.ringQ rP level (rP.subs.length - 1) (x 1) d0 d1 S S' e E ∧
      CtEnc n ev.ringQ level ev.ringQ.qs 1 (H' new) (fun u => intR _ _ S') (fun u => m u + intR _ _ E) := by
  unfold Evaluator.switchKeysNew
  rw [h0.shape.level, h0.shape.degree]
  obtain ⟨H', a1, a2, a3, a4⟩ := C93_switchKeys_partial K h32 hks hl hov qi qo po hi ho ht (x := x) (l0 := level)
    (H := H.set new (newCiphertext ev.ringQ.n 1 level (H ct0).scale)) (ct0 := ct0) (out := new)
    (by rw [Heap.set_ne _ _ _ _ hn]; exact h0) (by rw [Heap.set_ne _ _ _ _ hn]; exact h1) hm
    (by rw [Heap.set_self]; exact newCiphertext_shape _ _ _ _) le_rfl
  rw [Heap.set_ne _ _ _ _ hn] at a3
  exact ⟨H', a1, fun b hb => by rw [a2 b hb, Heap.set_ne _ _ _ _ hb], a3, a4⟩

/-- **C93 (a receiver of a higher level).** The receiver keeps its level, and its rows above the level of the ciphertext
keep what they held; only the rows up to the level of the ciphertext hold the result. -/
theorem C93_switchKeys_stale {out : Ref} (h0 : CtIs n ev.ringQ level (fun u => ev.ringQ.qs u + 1) 1 (H ct0) x)
    (h1 : EltIs n ev.ringQ level ev.ringQ.qs true ((H ct0).rows 1) (x 1)) (hc : CtShape 1 lo (H out)) (hlev : level < lo) :
    ∃ H', ev.switchKeys H ct0 (genSwitchingKey ev.ringQ rP skIn skOut tape) out = some H' ∧ CtShape 1 lo (H' out) ∧
      ∀ i ≤ 1, ∀ u > level, ((H' out).rows i).row u = ((H out).rows i).row u := by
  obtain ⟨H', a1, a2, a3, a4, d0, d1, E, hE, w0, w1⟩ := switchKeys_is K.rings.hQ hks
    (switches_generated K h32 hl hov qi qo po hi ho ht) h0 h1 hc (by omega) hl
  refine ⟨H', a1, a4, fun i hi u hu => ?_⟩
  interval_cases i
  · exact w0.above u hu
  · exact w1.above u hu

end

/-- **C93 (violated, witness).** Degree 16, moduli 97, 193, 641, a generated key: switching the same ciphertext of level 1
into two receivers of level 2 gives two ciphertexts of level 2 that decrypt to different messages under every secret. -/
theorem C93_violated : ∃ (ev : Evaluator) (evk : SwitchingKey) (H H1 H2 : Heap), ev.ringQ.Valid 4 ∧
    (∃ x, CtIs 4 ev.ringQ 1 ev.ringQ.qs 1 (H 0) x) ∧ CtShape 1 2 (H 1) ∧ CtShape 1 2 (H 2) ∧
    ev.switchKeys H 0 evk 1 = some H1 ∧ ev.switchKeys H 0 evk 2 = some H2 ∧ CtShape 1 2 (H1 1) ∧ CtShape 1 2 (H2 2) ∧
    ∀ s m, ¬(CtEnc 4 ev.ringQ 2 ev.ringQ.qs 1 (H1 1) s m ∧ CtEnc 4 ev.ringQ 2 ev.ringQ.qs 1 (H2 2) s m) := by
  obtain ⟨rQ, rP, sk, tape, K, -, -, l3, l2, hq, q0, hsk, ht⟩ := exampleRings
  obtain ⟨ev, rfl, hks⟩ : ∃ ev : Evaluator, ev.ringQ = rQ ∧ ev.ks = newKeySwitcher rQ rP :=
    ⟨newEvaluator rQ rP none (fun _ => none) 7, rfl, rfl⟩
  have hQ := K.rings.hQ
  have hlt : ∀ c : UInt64, c ≤ 7 → ∀ u ≤ 2, c.toNat < ev.ringQ.qs u := fun c hc u hu => by
    have := hq u hu
    have : c.toNat ≤ 7 := hc
    omega
  have hC : ∀ c ≤ 7, CtIs 4 ev.ringQ 2 ev.ringQ.qs 1 (constCt 1 [c, 0]) (fun i _ => (([c, 0].getD i 0).toNat : Rq (2 ^ 4) _)) :=
    fun c hc => constCt_is hQ (by omega) 1 (cs := [c, 0]) (by simp) (fun d hd => hlt d (by
      rcases List.mem_cons.1 hd with rfl | hd
      · exact hc
      · rw [List.mem_singleton.1 hd]; decide))
  let H : Heap := fun a => if a = 0 then (constCt 1 [5, 0]).dropTo 1 else if a = 1 then constCt 1 [0, 0] else constCt 1 [1, 0]
  have c0 : CtIs 4 ev.ringQ 1 ev.ringQ.qs 1 (H 0) _ := (hC 5 (by decide)).dropTo (show 1 ≤ 2 by omega)
  have c1 := hC 0 (by decide)
  have c2 := hC 1 (by decide)
  have tk : ∀ {r : Ring} {l : ℕ} {A : ℕ → ℕ} {p : Rows} {v}, PolyIs r l A p v → PolyIs r l A (p.take (l + 1)) v ∧
      (p.take (l + 1)).length = l + 1 := fun {r l A p v} h => by
    have hlp := h.lvl
    have hlen : (p.take (l + 1)).length = l + 1 := by rw [List.length_take]; omega
    refine ⟨⟨by omega, fun u hu => ?_⟩, hlen⟩
    have : Rows.row (p.take (l + 1)) u = p.row u := by
      simp [Rows.row, List.getD, List.getElem?_take, show u < l + 1 by omega]
    rw [this]
    exact h.row u hu
  obtain ⟨sk', hsk', qi, po⟩ : ∃ sk' : PolyQP, sk'.IsMont 4 ev.ringQ rP (ev.ringQ.subs.length - 1) (rP.subs.length - 1) exampleS ∧
      sk'.q.length = ev.ringQ.subs.length ∧ sk'.p.length = rP.subs.length :=
    ⟨⟨_, _⟩, ⟨(tk hsk.q).1, (tk hsk.p).1⟩, (tk hsk.q).2.trans (by omega), (tk hsk.p).2.trans (by omega)⟩
  have st := fun (out : Ref) (hc : CtShape 1 2 (H out)) => C93_switchKeys_stale (level := 1) (lo := 2) K (by omega) hks (by omega)
    (Or.inl (by omega)) qi qi po hsk' hsk' ht (H := H) (ct0 := 0) (out := out)
    ⟨c0.shape, fun i hi => (c0.elt i hi).mono fun u _ => by omega⟩ (c0.elt 1 le_rfl) hc (by omega)
  obtain ⟨H1, a1, a2, a3⟩ := st 1 c1.shape
  obtain ⟨H2, b1, b2, b3⟩ := st 2 c2.shape
  refine ⟨ev, _, H, H1, H2, hQ, ⟨_, c0⟩, c1.shape, c2.shape, a1, b1, a2, b2, ?_⟩
  rintro s m ⟨⟨x, hx, hxm⟩, ⟨y, hy, hym⟩⟩
  have ex := fun i hi => (hx.elt i hi).val 2 le_rfl
  have ey := fun i hi => (hy.elt i hi).val 2 le_rfl
  have fx : ∀ i ≤ 1, x i 2 = (([0, 0].getD i 0 : UInt64).toNat : Rq (2 ^ 4) _) := fun i hi => by
    rw [← ex i hi, ← (c1.elt i hi).val 2 le_rfl, Ring.elt, Ring.elt, a3 i hi 2 (by omega)]; rfl
  have fy : ∀ i ≤ 1, y i 2 = (([1, 0].getD i 0 : UInt64).toNat : Rq (2 ^ 4) _) := fun i hi => by
    rw [← ey i hi, ← (c2.elt i hi).val 2 le_rfl, Ring.elt, Ring.elt, b3 i hi 2 (by omega)]; rfl
  have e := (hxm 2 le_rfl).trans (hym 2 le_rfl).symm
  rw [sum_range_succ, sum_range_one, sum_range_succ, sum_range_one, fx 0 (by omega), fx 1 le_rfl, fy 0 (by omega), fy 1 le_rfl] at e
  have e' : ((0 : ℕ) : Rq (2 ^ 4) (ev.ringQ.qs 2)) = (1 : ℕ) := by simpa using e
  have := natCast_rq_inj hQ (show 2 < ev.ringQ.subs.length by omega) e'
  have h97 := hq 2 le_rfl
  rw [Nat.zero_mod, Nat.mod_eq_of_lt (by omega)] at this
  omega

end FastKsw.Props
