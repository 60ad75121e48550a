import Verif.Model.Profile
import Verif.Props.Defaults
import Verif.Props.CkksSwitch
import Verif.Props.FEvaluator
import Verif.Props.EndToEnd

/-!
# C109: the programs of profile/ run to the end
-/

namespace FastKsw.Props

open FastKsw Finset

/-! ## The encoding of the zero message -/

def AllZero (x : List (ℚ × ℚ)) : Prop := ∀ v ∈ x, v = 0

theorem AllZero.getD {x : List (ℚ × ℚ)} (h : AllZero x) (i : ℕ) : x.getD i 0 = 0 := by
  by_cases hi : i < x.length
  · rw [List.getD_eq_getElem _ _ hi]
    exact h _ (List.getElem_mem hi)
  · simp [List.getD, List.getElem?_eq_none (not_lt.1 hi)]

theorem AllZero.set {x : List (ℚ × ℚ)} (h : AllZero x) (i : ℕ) : AllZero (x.set i 0) := fun v hv =>
  (List.mem_or_eq_of_mem_set hv).elim (h v) id

theorem AllZero.layer {x : List (ℚ × ℚ)} (h : AllZero x) (bf : ℚ × ℚ → ℚ × ℚ → ℚ × ℚ → (ℚ × ℚ) × (ℚ × ℚ)) (hb : ∀ w, bf 0 0 w = (0, 0))
    (w : ℕ → ℚ × ℚ) (nb lenh : ℕ) : AllZero (fftLayer bf w nb lenh x) ∧ (fftLayer bf w nb lenh x).length = x.length := by
  unfold fftLayer
  refine List.foldlRecOn (motive := fun y => AllZero y ∧ y.length = x.length) _ _ ⟨h, rfl⟩ fun y hy b _ => ?_
  refine List.foldlRecOn (motive := fun y => AllZero y ∧ y.length = x.length) _ _ hy fun z hz j _ => ?_
  dsimp only
  rw [hz.1.getD, hz.1.getD, hb]
  exact ⟨(hz.1.set _).set _, by rw [List.length_set, List.length_set, hz.2]⟩

theorem f64s_zero : f64s 0 = 0 := by simp [f64s]

theorem fcZero (w : ℚ × ℚ) : fcAdd 0 0 = 0 ∧ fcSub 0 0 = 0 ∧ fcMul 0 w = 0 := by
  simp [fcAdd, fcSub, fcMul, f64s_zero]

theorem AllZero.ifftLayers (u : Bool) (N M : ℕ) (roots : ℕ → ℚ × ℚ) (l : ℕ) : ∀ {x : List (ℚ × ℚ)}, AllZero x →
    AllZero (ifftLayersF u N M roots l x) ∧ (ifftLayersF u N M roots l x).length = x.length := by
  induction l with
  | zero => exact fun h => ⟨h, rfl⟩
  | succ l ih =>
    intro x h
    have h1 := h.layer (fun u v w => (fcAdd u v, fcMul (fcSub u v) w)) (fun w => by
      obtain ⟨a, b, c⟩ := fcZero w
      rw [a, b, c]) (ifftRoot roots M (2 ^ (l + 1))) (fftBlocks u N (2 ^ (l + 1))) (2 ^ l)
    obtain ⟨a, b⟩ := ih h1.1
    exact ⟨a, b.trans h1.2⟩

theorem AllZero.bitReverse (N : ℕ) {x : List (ℚ × ℚ)} (h : AllZero x) :
    AllZero (cSliceBitReverse N x) ∧ (cSliceBitReverse N x).length = x.length := by
  unfold cSliceBitReverse cSliceBitReverseLoop
  refine List.foldlRecOn (motive := fun (y : ℕ × List (ℚ × ℚ)) => AllZero y.2 ∧ y.2.length = x.length) _ _ ⟨h, rfl⟩ fun y hy b _ => ?_
  dsimp only
  split
  · rw [hy.1.getD, hy.1.getD]
    exact ⟨(hy.1.set _).set _, by rw [List.length_set, List.length_set, hy.2]⟩
  · exact hy

theorem AllZero.ifft (u : Bool) (N M : ℕ) (roots : ℕ → ℚ × ℚ) (len : ℕ) {x : List (ℚ × ℚ)} (h : AllZero x) :
    AllZero (specialiFFTF u N M roots len x) ∧ (specialiFFTF u N M roots len x).length = x.length := by
  obtain ⟨a, b⟩ := AllZero.ifftLayers u N M roots (len64 N - 1) h
  have hd : ∀ (k : ℕ) (d : ℚ), AllZero (((ifftLayersF u N M roots (len64 N - 1) x).take k).map (fcDiv · d) ++
      (ifftLayersF u N M roots (len64 N - 1) x).drop k) := by
    intro k d v hv
    rcases List.mem_append.1 hv with hv | hv
    · obtain ⟨w, hw, rfl⟩ := List.mem_map.1 hv
      rw [a w (List.mem_of_mem_take hw)]
      simp [fcDiv, f64s_zero]
    · exact a v (List.mem_of_mem_drop hv)
  have hl : ∀ (k : ℕ) (d : ℚ), (((ifftLayersF u N M roots (len64 N - 1) x).take k).map (fcDiv · d) ++
      (ifftLayersF u N M roots (len64 N - 1) x).drop k).length = x.length := by
    intro k d
    rw [List.length_append, List.length_map, List.length_take, List.length_drop, b]
    omega
  unfold specialiFFTF
  dsimp only
  split
  · obtain ⟨c1, c2⟩ := (hd ((len + 7) / 8 * 8) N).bitReverse N
    exact ⟨c1, c2.trans (hl _ _)⟩
  · obtain ⟨c1, c2⟩ := (hd N N).bitReverse N
    exact ⟨c1, c2.trans (hl _ _)⟩

theorem encodeZero {M : ℕ} (roots : ℕ → ℚ × ℚ) {logSlots : ℕ} (h : 2 ^ logSlots ≤ M / 4) :
    ∃ w, encodeFFTF M roots (List.replicate (M / 4) 0) (List.replicate (2 ^ logSlots) 0) logSlots = some w ∧ AllZero w ∧
      w.length = 2 ^ logSlots := by
  unfold encodeFFTF
  dsimp only
  rw [if_neg (by rw [List.length_replicate]; omega)]
  have hz : AllZero (List.replicate (2 ^ logSlots) (0 : ℚ × ℚ) ++ List.replicate (2 ^ logSlots - (List.replicate (2 ^ logSlots) (0 : ℚ × ℚ)).length) 0 ++
      (List.replicate (M / 4) 0).drop (2 ^ logSlots)) := by
    intro v hv
    simp only [List.mem_append, List.drop_replicate, List.mem_replicate] at hv
    rcases hv with (hv | hv) | hv <;> exact hv.2
  obtain ⟨a, b⟩ := hz.ifft (decide (3 ≤ logSlots)) (2 ^ logSlots) M roots (M / 4)
  refine ⟨_, rfl, fun v hv => a v (List.mem_of_mem_take hv), ?_⟩
  rw [List.length_take, b]
  simp

section
variable {n logSlots d : ℕ} (hn : n = logSlots + 1 + d) {rQ rP : Ring} (K : KeyParams n rQ rP)
include hn K

/-- `EncryptMsgNew` of a new message, for any table of roots: the encoding is exactly zero, and the ciphertext decrypts to noise -/
theorem encryptZero_is {c : CParams} (hlog : c.logSlots = logSlots) (h3 : 3 ≤ logSlots) {scale : ℚ} (hscale : f64OfBits c.defaultScale = scale)
    (hs0 : 0 < scale) (roots : ℕ → ℚ × ℚ) {S E : ℕ → ℤ} {pk : PolyQP × PolyQP} {bound : ℕ}
    (hpk : IsPublicKey n rQ rP (rQ.subs.length - 1) 0 pk S E)
    (hS : ∀ k, |S k| ≤ 1) (hE : ∀ k < 2 ^ n, |E k| ≤ bound)
    (hb : ∀ u < rQ.subs.length, bound ≤ rQ.qs u) (hb0 : 2 * bound < rQ.qs 0) (hbp : bound ≤ rP.qs 0)
    {t : EncTape} {U G0 G1 : ℕ → ℤ} (ht : TapeIs n rQ bound t U G0 G1) :
    ∃ ct, encryptZero c rQ rP roots pk t = some ct ∧ ct.scale = scale ∧
      ∃ D : ℕ → ℤ, (∀ k < 2 ^ n, |(D k : ℚ)| ≤ encBound (2 ^ n) (rP.qs 0) bound) ∧
      CtEnc n rQ (rQ.subs.length - 1) rQ.qs 1 ct (fun u => intR _ _ S) (fun u => intR _ _ D) := by
  subst hn
  have R := K.rings
  have hM : rQ.nthRoot = 2 ^ (logSlots + 2 + d) := by
    rw [R.hQ.root]; congr 1; omega
  have hM4 : rQ.nthRoot / 4 = 2 ^ (logSlots + d) := by
    rw [hM, show 2 ^ (logSlots + 2 + d) = 4 * 2 ^ (logSlots + d) by ring, Nat.mul_div_cancel_left _ (by norm_num)]
  have hle : 2 ^ logSlots ≤ 2 ^ (logSlots + d) := Nat.pow_le_pow_right (by norm_num) (by omega)
  obtain ⟨w, hw, hw0, hwl⟩ := encodeZero (M := rQ.nthRoot) roots (logSlots := logSlots) (by rw [hM4]; exact hle)
  have h8 : 2 ^ 3 ≤ 2 ^ logSlots := Nat.pow_le_pow_right (by norm_num) h3
  obtain ⟨y, hy, hyl, henc⟩ := encode_slotVal (level := rQ.subs.length - 1) R.hQ R.sQ R.lQ (List.replicate (2 ^ (logSlots + d) + 16) (0 : ℂ))
    ⟨by simp, by simp⟩ [] (by simp) hs0
  have ok := newPlaintext_ok rQ.n (rQ.subs.length - 1) scale
  set pool := newPlaintext rQ.n (rQ.subs.length - 1) scale with hpool
  have hw' : ∀ k, w.getD k 0 = 0 := hw0.getD
  obtain ⟨z, hz1, hz2, hz3, hz4⟩ := henc w (∑ k ∈ range (2 ^ logSlots), ‖y.getD k 0‖) 0 hwl (fun k hk => by
      have h1 : ‖y.getD k 0‖ ≤ ∑ k ∈ range (2 ^ logSlots), ‖y.getD k 0‖ :=
        single_le_sum (f := fun k => ‖y.getD k 0‖) (fun _ _ => norm_nonneg _) (mem_range.2 hk)
      rw [hw' k]
      simp only [Prod.fst_zero, Prod.snd_zero, Rat.cast_zero, zero_sub, abs_neg]
      exact ⟨(Complex.abs_re_le_norm _).trans h1, (Complex.abs_im_le_norm _).trans h1⟩)
    (fun v hv => by
      rw [hw0 v hv]
      have a0 : f64 |0 * scale| ≠ 2 ^ 64 := by rw [zero_mul, abs_zero]; decide +kernel
      exact ⟨a0, a0⟩)
    (fun v hv => by rw [hw0 v hv]; simp) pool.value.coeffs (by rw [ok.len]; omega) ok.row (Or.inl h3)
  have z0 : ∀ k < rQ.n, z k = 0 := by
    intro k hk
    have h1 := hz2 k hk
    have h2 : |(z k : ℚ)| < 1 := h1.trans_lt (by norm_num)
    have h3 : |z k| < 1 := by exact_mod_cast h2
    exact Int.abs_lt_one_iff.1 h3
  have hlev := ok.level
  set pool' : Pt := { pool with value := ⟨rQ.embedPoly pool.value.level logSlots w pool.scale false pool.value.coeffs, pool.value.isNTT⟩ } with hpool'
  have ok' : PoolOK rQ.n (rQ.subs.length - 1) pool' := by
    refine ⟨ok.ntt, ?_, fun i hi => ?_⟩
    · rw [hpool', hlev]; exact hz3.len.trans ok.len
    · rw [hpool', hlev]; exact (hz3.is.row i hi).len
  obtain ⟨ct', e1, e2, D, hD, hct⟩ := ckksEncrypt_is K hpk hS hE hb hb0 hbp ht (z := z) ok' R.lQ (by rw [hpool', hlev]; exact hz3.is)
    (newCiphertext_shape rQ.n 1 (rQ.subs.length - 1) scale)
  rw [min_self] at hct
  refine ⟨ct', ?_, e2, D, hD, ?_⟩
  · unfold encryptZero encryptMsgF Ring.encodeSlotsF
    dsimp only
    rw [hscale, show c.logSlots.toNat = logSlots by rw [hlog]; rfl, hw, Option.map_some, Option.bind_some, ← hpool]
    rw [← hpool', e1]
    rfl
  · obtain ⟨x, x1, x2⟩ := hct
    refine ⟨x, x1, fun u hu => (x2 u hu).trans (intR_congr fun k hk => ?_)⟩
    rw [z0 k (by rw [R.hQ.deg]; exact hk), zero_add]

end

/-! ## The calls -/

theorem toCoefficients_is {n : ℕ} {r : Ring} (hr : r.Valid n) (sr : r.Small) {level : ℕ} (hl : level < r.subs.length) {ct : Ct}
    {x : ℕ → ∀ u, Rq (2 ^ n) (r.qs u)} (h : CtIs n r level r.qs 1 ct x) :
    CoeffShape 1 level (toCoefficients r ct) ∧ (toCoefficients r ct).scale = ct.scale ∧
      ∀ i ≤ 1, EltIs n r level r.qs false ((toCoefficients r ct).rows i) (x i) := by
  have hlen := h.shape.len
  have w : ∀ i ≤ 1, EltWritten n r level r.qs false (ct.rows i) (r.invNttLvl level (ct.rows i) (ct.rows i)) (x i) := fun i hi =>
    invNttLvl_elt hr hl sr (fun u _ => by omega) (h.elt i hi) (by rw [h.shape.size i hi]; omega)
  have hrow : ∀ i ≤ 1, (toCoefficients r ct).value.getD i default = ⟨r.invNttLvl level (ct.rows i) (ct.rows i), false⟩ := by
    intro i hi
    unfold toCoefficients
    rw [h.shape.level]
    rcases (by omega : i = 0 ∨ i = 1) with rfl | rfl <;> simp [List.getD, List.getElem?_set, hlen]
  have hrow' : ∀ i ≤ 1, (toCoefficients r ct).rows i = r.invNttLvl level (ct.rows i) (ct.rows i) := fun i hi => by
    show ((toCoefficients r ct).value.getD i default).coeffs = _
    rw [hrow i hi]
  refine ⟨⟨by simp [toCoefficients, hlen], fun i hi => by rw [hrow i hi], fun i hi => ?_⟩, rfl, fun i hi => ?_⟩
  · rw [hrow' i hi, (w i hi).len, h.shape.size i hi]
  · rw [hrow' i hi]
    exact (w i hi).is

theorem callNew_is {call : Heap → Ref → Option Heap} {c : Ct} {P : Ct → Prop}
    (hcall : ∀ (h : Heap) (new : ℕ), h 0 = c → new ≠ 0 → ∃ h', call h new = some h' ∧ (∀ b ≠ new, h' b = h b) ∧ P (h' new))
    (k : ℕ) {h : Heap} (h0 : h 0 = c) :
    ∃ h', callNew call k h = some h' ∧ h' 0 = c ∧ ∀ i, 1 ≤ i → i ≤ k → P (h' i) := by
  induction k with
  | zero => exact ⟨h, rfl, h0, fun i h1 h2 => by omega⟩
  | succ k ih =>
    obtain ⟨h1, e1, e2, e3⟩ := ih
    obtain ⟨h2, f1, f2, f3⟩ := hcall h1 (k + 1) e2 (Nat.succ_ne_zero k)
    refine ⟨h2, by rw [callNew, e1]; exact f1, by rw [f2 0 (Nat.succ_ne_zero k).symm, e2], fun i hi1 hi2 => ?_⟩
    by_cases he : i = k + 1
    · rw [he]; exact f3
    · rw [f2 i he]; exact e3 i hi1 (by omega)

/-- `SwitchKeysNew` of `ckks` on a ciphertext in the coefficient domain -/
theorem switchKeysNew_coeff {n : ℕ} {ev : Evaluator} {rQ rP : Ring} (hring : ev.ringQ = rQ) (hr : rQ.Valid n)
    (hks : ev.ks = newKeySwitcher rQ rP) {evk : SwitchingKey} {level : ℕ} {sIn sOut : ℕ → ℤ} {e : ℕ → ℕ → ℤ}
    (hsw : Switches n rQ rP level evk sIn sOut e) {H : Heap} {ct0 new : Ref} (hne : ct0 ≠ new)
    {x : ℕ → ∀ u, Rq (2 ^ n) (rQ.qs u)} (h0 : CoeffShape 1 level (H ct0))
    (hx : ∀ i ≤ 1, EltIs n rQ level rQ.qs false ((H ct0).rows i) (x i)) (hl : level < rQ.subs.length) :
    ∃ H', ev.switchKeysNew H ct0 evk new = some H' ∧ (∀ b ≠ new, H' b = H b) ∧ (H' new).scale = (H ct0).scale ∧
      (∀ i ≤ 1, ((H' new).value.getD i default).isNTT = true) ∧ ∃ y0 y1 d0 d1 E,
      KeySwitched n rQ rP level (rP.subs.length - 1) (x 1) d0 d1 sIn sOut e E ∧
      EltIs n rQ level rQ.qs false ((H' new).rows 0) y0 ∧
      EltIs n rQ level rQ.qs false ((H' new).rows 1) y1 ∧
      ∀ u ≤ level, y0 u + y1 u * intR _ _ sOut = x 0 u + x 1 u * intR _ _ sIn + intR _ _ E := by
  subst hring
  have hl0 : (H ct0).level = level := by
    rw [Ct.level_eq, h0.size 0 (by omega)]; rfl
  have hd0 : (H ct0).degree = 1 := by rw [Ct.degree, h0.len]
  have N := newCiphertext_shape ev.ringQ.n 1 level (H ct0).scale
  set H1 := H.set new (newCiphertext ev.ringQ.n 1 level (H ct0).scale) with hH1
  have hc : H1 ct0 = H ct0 := Heap.set_ne _ _ _ _ hne
  have hn : H1 new = newCiphertext ev.ringQ.n 1 level (H ct0).scale := Heap.set_self _ _ _
  rw [← hn] at N
  have hpool : level < (newPoly ev.ringQ.n ev.ringQ.subs.length).length := by rw [length_newPoly]; exact hl
  have hE0 := hx 0 (by omega)
  have hE1 := hx 1 le_rfl
  have hn1 := h0.ntt 1 le_rfl
  rw [← hc] at hE0 hE1 hn1
  obtain ⟨y0, y1, g0, g1, E, hE⟩ := hsw false _ _ hE1 _ _ hpool hpool
  have w0 := addLvl_elt hr hl hE0 g0.is (fun u _ => by omega) (show level < ((H1 new).rows 0).length by rw [N.size 0 (by omega)]; omega)
  have w1 := (copyValuesLvl_is (g1.is.polyIs hr) (show level < ((H1 new).rows 1).length by rw [N.size 1 (by omega)]; omega)).eltWritten hr
    (b := false) (x := y1) fun u hu => g1.is.val u hu
  unfold Evaluator.switchKeysNew Evaluator.switchKeys
  rw [hl0, hd0, ← hH1, hc, hd0, N.degree, if_neg (by omega), hl0, N.level, min_self]
  refine ⟨_, rfl, fun b hb => ?_, ?_, fun i hi => ?_, fun u => x 0 u + y0 u, y1, y0, y1, E, hE, ?_, ?_, fun u hu => ?_⟩
  · rw [Heap.setRows_ne _ _ _ _ _ hb, Heap.setRows_ne _ _ _ _ _ hb, Heap.setScale_ne _ _ _ _ hb, hH1, Heap.set_ne _ _ _ _ hb]
  · simp
  · rw [Heap.isNTT_setRows, Heap.isNTT_setRows, Heap.value_setScale]
    exact N.ntt i hi
  · rw [show ∀ (X : Heap), (X new).rows 0 = X.rows new 0 from fun _ => rfl, Heap.rows_setRows_ne _ _ _ _ _ _ (Or.inr (by omega)),
      Heap.rows_setRows_self _ _ _ _ (by rw [Heap.value_setScale, N.len]; omega)]
    simp only [Heap.rows_setScale, Heap.value_setScale]
    rw [Evaluator.switchPool, hks, hn1]
    exact w0.is
  · rw [show ∀ (X : Heap), (X new).rows 1 = X.rows new 1 from fun _ => rfl,
      Heap.rows_setRows_self _ _ _ _ (by rw [Heap.length_setRows, Heap.value_setScale, N.len]; omega),
      Heap.rows_setRows_ne _ _ _ _ _ _ (Or.inr (by omega))]
    simp only [Heap.rows_setScale, Heap.value_setScale]
    rw [Evaluator.switchPool, hks, hn1]
    exact w1.is
  · have hrel := hE.rel u hu
    linear_combination hrel

/-! ## The programs -/

/-- What the samplers may write: a ternary secret `S`, an error `E` of the public key, errors `e` of the relinearization key, and the draws of the
encryption; the errors are at most 19, the bound of the Gaussian sampler -/
structure _root_.FastKsw.ProfileDraws.OK (rQ rP : Ring) (D : ProfileDraws) (S : ℕ → ℤ) (e : ℕ → ℕ → ℤ) : Prop where
  secret : Sampled rQ (rQ.subs.length - 1) D.s S
  ternary : ∀ k, |S k| ≤ 1
  err : ∃ E, Sampled rQ (rQ.subs.length - 1) D.e E ∧ ∀ k < 2 ^ 16, |E k| ≤ 19
  mask : ∃ v w, PolyIs rQ (rQ.subs.length - 1) rQ.qs D.a.q v ∧ PolyIs rP (rP.subs.length - 1) rP.qs D.a.p w
  rlk : TapeOK 16 rQ rP (rQ.subs.length - 1) (rP.subs.length - 1) D.rlk e
  rlkErr : ∀ i, ∀ k < 2 ^ 16, |e i k| ≤ 19
  enc : ∃ U G0 G1, TapeIs 16 rQ 19 D.enc U G0 G1

theorem profile_setup : ∃ S fp, (∀ fuel, 2 ^ 61 ≤ fuel → fckksNewParametersFromLiteral fuel profileNewLit = some (.ok S)) ∧
    S.ckks.logSlots = 15 ∧ f64OfBits S.ckks.defaultScale = 2 ^ 36 ∧ FUsable profileNewLit.fl S.frlwe fp ∧ S.frlwe.parts = some fp := by
  obtain ⟨S, fp, h1, -, h3, h4, hU⟩ := C104_fckks fcPN16QP1760 (by simp)
  refine ⟨S, fp, h1, by rw [h3]; rfl, by rw [h4]; decide +kernel, hU, ?_⟩
  have hg : S.frlwe.gamma = fp.gamma := hU.gamma.2.trans hU.gamma.1.symm
  unfold FullFParams.parts
  rw [← hU.ringP, ← hU.ringQ, ← hU.ringR, ← hU.ringT, hg]
  rfl

theorem qs_of_mem {r : Ring} {l : List UInt64} (h : r.moduli = l) {B : ℕ} (hB : ∀ x ∈ l, B < x.toNat) : ∀ u < r.subs.length, B < r.qs u := by
  intro u hu
  refine hB _ ?_
  rw [← h, Ring.moduli, Ring.sub, List.getD_eq_getElem _ _ hu]
  exact List.mem_map.2 ⟨_, List.getElem_mem hu, rfl⟩

/-- the rings of the programs -/
structure ProfileRings (fp : FParams) : Prop where
  lQ : fp.ringQ.subs.length = 47
  lP : fp.ringP.subs.length = 1
  q : ∀ u < fp.ringQ.subs.length, 2 ^ 35 < fp.ringQ.qs u
  p : ∀ u < fp.ringP.subs.length, 2 ^ 35 < fp.ringP.qs u
  p0 : fp.ringP.qs 0 = 0x1002700001

theorem profile_rings {F : FullFParams} {fp : FParams} (hU : FUsable profileNewLit.fl F fp) : ProfileRings fp := by
  have mQ := Option.some.inj hU.q
  have mP := Option.some.inj hU.p
  refine ⟨?_, ?_, qs_of_mem mQ (by decide), qs_of_mem mP (by decide), ?_⟩
  · have := congrArg List.length mQ
    rw [Ring.moduli, List.length_map] at this
    exact this
  · have := congrArg List.length mP
    rw [Ring.moduli, List.length_map] at this
    exact this
  · unfold Ring.qs
    rw [sub_of_moduli mP 0 0x1002700001 rfl]
    rfl

theorem profile_noise : (profileNewLit.fl, 26) ∈ [(fPN15QP880, 16), (fcPN15QP870.fl, 24), (fcPN16QP1760.fl, 26)] :=
  List.mem_cons_of_mem _ (List.mem_cons_of_mem _ (List.mem_cons_self ..))

section
variable {S : FCParams} {fp : FParams} {D : ProfileDraws} {s : ℕ → ℤ} {e : ℕ → ℕ → ℤ}

theorem profile_sk (hU : FUsable profileNewLit.fl S.frlwe fp) (hD : D.OK fp.ringQ fp.ringP s e) :
    (genSecretKey fp.ringQ fp.ringP D.s).IsMont 16 fp.ringQ fp.ringP (fp.ringQ.subs.length - 1) (fp.ringP.subs.length - 1) s :=
  C33_secretKey (FParams.OK.keyParams (hU.ok _ le_rfl)) hD.secret fun k _ u hu => by
    have h1 := (profile_rings hU).p u hu
    have h2 := hD.ternary k
    omega

/-- the ciphertext before the loop -/
theorem profile_ct0 (hU : FUsable profileNewLit.fl S.frlwe fp) (h15 : S.ckks.logSlots = 15) (h36 : f64OfBits S.ckks.defaultScale = 2 ^ 36)
    (hD : D.OK fp.ringQ fp.ringP s e) (roots : ℕ → ℚ × ℚ) :
    ∃ ct, encryptZero S.ckks fp.ringQ fp.ringP roots (genPublicKey fp.ringQ fp.ringP (genSecretKey fp.ringQ fp.ringP D.s) D.e D.a) D.enc = some ct ∧
      CoeffShape 1 46 (toCoefficients fp.ringQ ct) ∧ (toCoefficients fp.ringQ ct).scale = 2 ^ 36 ∧
      ∃ x : ℕ → ∀ u, Rq (2 ^ 16) (fp.ringQ.qs u), (∀ i ≤ 1, EltIs 16 fp.ringQ 46 fp.ringQ.qs false ((toCoefficients fp.ringQ ct).rows i) (x i)) ∧
        ∃ E : ℕ → ℤ, (∀ k < 2 ^ 16, |E k| ≤ 65537) ∧ ∀ u ≤ 46, x 0 u + x 1 u * intR _ _ s = intR _ _ E := by
  have K : KeyParams 16 fp.ringQ fp.ringP := FParams.OK.keyParams (hU.ok _ le_rfl)
  have R := profile_rings hU
  have hQ := R.q
  have hP := R.p
  have lQ := R.lQ
  have lP := R.lP
  obtain ⟨E, hE1, hE2⟩ := hD.err
  obtain ⟨v, w, hv, hw⟩ := hD.mask
  obtain ⟨U, G0, G1, ht⟩ := hD.enc
  have hpk := C32_publicKey K (profile_sk hU hD) hE1 (fun k hk u hu => by
    have := hE2 k hk
    have := hP u hu
    omega) hv hw (show fp.ringQ.subs.length - 1 < fp.ringQ.subs.length by omega) (show 0 < fp.ringP.subs.length by omega)
  obtain ⟨ct, e1, e2, E', hE', x, hx, hval⟩ := encryptZero_is (n := 16) (logSlots := 15) (d := 0) rfl K (bound := 19) (c := S.ckks) h15 (by norm_num) h36 (by norm_num) roots hpk
    hD.ternary hE2 (fun u hu => by have := hQ u hu; omega) (by have := hQ 0 (by omega); omega) (by have := hP 0 (by omega); omega) ht
  rw [show fp.ringQ.subs.length - 1 = 46 by omega] at hx hval
  obtain ⟨c1, c2, c3⟩ := toCoefficients_is K.rings.hQ K.rings.sQ (by omega) hx
  refine ⟨ct, e1, c1, c2.trans e2, x, c3, E', fun k hk => ?_, fun u hu => ?_⟩
  · have h1 := hE' k hk
    rw [R.p0] at h1
    have h2 : |(E' k : ℚ)| < 65538 := h1.trans_lt (by unfold encBound; norm_num)
    have h3 : |E' k| < 65538 := by exact_mod_cast h2
    omega
  · have h1 := hval u hu
    rw [sum_range_succ, sum_range_succ, sum_range_zero, pow_zero, pow_one, mul_one, zero_add] at h1
    exact h1

end

/-- what a pass of the loop returns: see `ProfileRun` -/
def SwitchedOut (n level : ℕ) (r : Ring) (s : ℕ → ℤ) (x : ℕ → ∀ u, Rq (2 ^ n) (r.qs u)) (B : ℕ) (c : Ct) : Prop :=
  (∀ j ≤ 1, (c.value.getD j default).isNTT = true) ∧
      ∃ y0 y1, EltIs n r level r.qs false (c.rows 0) y0 ∧ EltIs n r level r.qs false (c.rows 1) y1 ∧
      ∃ E : ℕ → ℤ, (∀ k < 2 ^ n, |E k| < 2 ^ B) ∧
        ∀ u ≤ level, y0 u + y1 u * intR _ _ s = x 0 u + x 1 u * (intR _ _ s * intR _ _ s) + intR _ _ E

/-- What is left in memory after a run.  The input stays in the coefficient domain and decrypts to the noise of the encryption.  Each of the 50 outputs
decrypts under `s` to what the input `(x0, x1)` decrypts to under the secret pair `(1, s²)`, up to an error below `2^26`, on all 47 primes; its rows
hold coefficients although it is marked as being in the NTT domain. -/
structure ProfileRun (fp : FParams) (s : ℕ → ℤ) (H : Heap) : Prop where
  shape : CoeffShape 1 46 (H 0)
  scale : (H 0).scale = 2 ^ 36
  run : ∃ x : ℕ → ∀ u, Rq (2 ^ 16) (fp.ringQ.qs u), (∀ i ≤ 1, EltIs 16 fp.ringQ 46 fp.ringQ.qs false ((H 0).rows i) (x i)) ∧
    (∃ E : ℕ → ℤ, (∀ k < 2 ^ 16, |E k| ≤ 65537) ∧ ∀ u ≤ 46, x 0 u + x 1 u * intR _ _ s = intR _ _ E) ∧
    ∀ i, 1 ≤ i → i ≤ 50 → (H i).scale = 2 ^ 36 ∧ SwitchedOut 16 46 fp.ringQ s x 26 (H i)

section
variable {fuel n : ℕ} {l : FParamLit} {B : ℕ} {F : FullFParams} {fp : FParams} {s : ℕ → ℤ} {e : ℕ → ℕ → ℤ} {sk : PolyQP}
  {tape : ℕ → KeyTape} {level : ℕ} {c : Ct} {x : ℕ → ∀ u, Rq (2 ^ n) (fp.ringQ.qs u)}

/-- a pass of the loop of profile/new -/
theorem passNew (hl : (l, B) ∈ [(fPN15QP880, 16), (fcPN15QP870.fl, 24), (fcPN16QP1760.fl, 26)]) (hn : n = l.rl.logN.toNat) (hU : FUsable l F fp)
    (hf : 2 ^ 61 ≤ fuel) {kg : FKeyGenerator} (hg : newFKeyGenerator fuel fp = some kg) {ev : FEvaluator} {pool : Ref}
    (hev : newFEvaluator fuel fp pool = some ev) (ha : fp.alpha ≤ 16)
    (hsk : sk.IsMont n fp.ringQ fp.ringP (fp.ringQ.subs.length - 1) (fp.ringP.subs.length - 1) s) (hs : ∀ k, |s k| ≤ 1)
    (ht : TapeOK n fp.ringQ fp.ringP (fp.ringQ.subs.length - 1) (fp.ringP.subs.length - 1) tape e) (he : ∀ i, ∀ k < 2 ^ n, |e i k| ≤ 19)
    (hlev : level < fp.ringQ.subs.length) (hc : CoeffShape 1 level c) (hx : ∀ i ≤ 1, EltIs n fp.ringQ level fp.ringQ.qs false (c.rows i) (x i))
    (h : Heap) (new : ℕ) (h0 : h 0 = c) (hne : new ≠ 0) :
    ∃ h', ev.switchKeysNew h 0 (kg.genRelinKey sk tape) new = some h' ∧ (∀ b ≠ new, h' b = h b) ∧ (h' new).scale = c.scale ∧
      SwitchedOut n level fp.ringQ s x B (h' new) := by
  subst hn
  have hok := hU.ok fuel hf
  have hkey := C33_relinearization (FParams.OK.keyParams hok) hsk (maxDegree := 1) (i := 0) (by omega) (tape := fun _ => tape) ht
  have N := newCiphertext_shape ev.ckks.ringQ.n 1 level (h 0).scale
  have hc2 : CoeffShape 1 level (h 0) := h0 ▸ hc
  have f1 : (h 0).level = level := by
    have := hc2.size 0 (by omega)
    rw [Ct.level_eq]
    omega
  have f2 : (h 0).degree = 1 := by rw [Ct.degree, hc2.len]
  obtain ⟨H', a1, a2, ⟨a3, a4, a5⟩, a6, y0, y1, d0, d1, E, b1, b2, b3, b4⟩ := switchKeys_core hok hU.fits (Or.inl ha) hev hg hkey
    (H := h.set new (newCiphertext ev.ckks.ringQ.n 1 level (h 0).scale)) (ct0 := (0 : ℕ)) (out := new) (x := x)
    (by rw [Heap.set_ne _ _ _ _ hne.symm]; exact hc2) (by rw [Heap.set_ne _ _ _ _ hne.symm, h0]; exact hx)
    (by rw [Heap.set_self]; exact N.len) (by rw [Heap.set_self]; exact N.size) (min_self _).symm hlev
  refine ⟨H', ?_, fun b hb => by rw [a2 b hb, Heap.set_ne _ _ _ _ hb], ?_, fun j hj => ?_, y0, y1, b2, b3, E, ?_, fun u hu => ?_⟩
  · unfold FEvaluator.switchKeysNew FKeyGenerator.genRelinKey
    rw [f1, f2, (kg_ok hok hg).params]
    exact a1
  · rw [a6, Heap.set_ne _ _ _ _ hne.symm, h0]
  · rw [a5 j, Heap.set_self]
    exact N.ntt j hj
  · exact C104_noise (l, B) hl hU hlev b1 he fun k _ => hs k
  · rw [b4 u hu, intR_negPow_two (by positivity)]

/-- a pass of the loop of profile/old -/
theorem passOld (hl : (l, B) ∈ [(fPN15QP880, 16), (fcPN15QP870.fl, 24), (fcPN16QP1760.fl, 26)]) (hn : n = l.rl.logN.toNat) (hU : FUsable l F fp)
    (ha : fp.alpha ≤ 16) {rlk : Option SwitchingKey} {rtks : UInt64 → Option SwitchingKey} {pool : Ref}
    (hsk : sk.IsMont n fp.ringQ fp.ringP (fp.ringQ.subs.length - 1) (fp.ringP.subs.length - 1) s) (hs : ∀ k, |s k| ≤ 1)
    (ht : TapeOK n fp.ringQ fp.ringP (fp.ringQ.subs.length - 1) (fp.ringP.subs.length - 1) tape e) (he : ∀ i, ∀ k < 2 ^ n, |e i k| ≤ 19)
    (hlev : level < fp.ringQ.subs.length) (hc : CoeffShape 1 level c) (hx : ∀ i ≤ 1, EltIs n fp.ringQ level fp.ringQ.qs false (c.rows i) (x i))
    (h : Heap) (new : ℕ) (h0 : h 0 = c) (hne : new ≠ 0) :
    ∃ h', (newEvaluator fp.ringQ fp.ringP rlk rtks pool).switchKeysNew h 0
        ((genRelinearizationKey fp.ringQ fp.ringP sk 1 fun _ => tape).getD 0 []) new = some h' ∧
      (∀ b ≠ new, h' b = h b) ∧ (h' new).scale = c.scale ∧ SwitchedOut n level fp.ringQ s x B (h' new) := by
  subst hn
  have hok := hU.ok _ le_rfl
  have K := FParams.OK.keyParams hok
  have lP := hok.lenP
  have hsw := switches_relin K hok.alpha32 hlev (Or.inl (by unfold FParams.alpha at ha; omega)) hsk (maxDegree := 1) (i := 0)
    (by omega) (tape := fun _ => tape) ht
  obtain ⟨H', a1, a2, a3, a4, y0, y1, d0, d1, E, b1, b2, b3, b4⟩ := switchKeysNew_coeff (ev := newEvaluator fp.ringQ fp.ringP rlk rtks pool)
    (rP := fp.ringP) (rQ := fp.ringQ) rfl K.rings.hQ rfl hsw
    (H := h) (ct0 := (0 : ℕ)) (new := new) hne.symm (x := x) (h0 ▸ hc) (by rw [h0]; exact hx) hlev
  refine ⟨H', a1, a2, by rw [a3, h0], a4, y0, y1, b2, b3, E, ?_, fun u hu => ?_⟩
  · exact C104_noise (l, B) hl hU hlev b1 he fun k _ => hs k
  · rw [b4 u hu, intR_negPow_two (by positivity)]

end

theorem profileNewWith_eq {lit : FCParamLit} {fuel : ℕ} {roots : ℕ → ℚ × ℚ} {D : ProfileDraws} {S : FCParams} {fp : FParams} {kg : FKeyGenerator}
    {ev : FEvaluator} {ct : Ct} (h1 : fckksNewParametersFromLiteral fuel lit = some (.ok S)) (h4 : S.frlwe.parts = some fp)
    (hg : newFKeyGenerator fuel fp = some kg) (hev : newFEvaluator fuel fp 51 = some ev)
    (c1 : encryptZero S.ckks fp.ringQ fp.ringP roots (genPublicKey fp.ringQ fp.ringP (genSecretKey fp.ringQ fp.ringP D.s) D.e D.a) D.enc = some ct) :
    profileNewWith lit fuel roots D = callNew (fun h new => ev.switchKeysNew h 0 (kg.genRelinKey (genSecretKey fp.ringQ fp.ringP D.s) D.rlk) new) 50
      fun _ => toCoefficients fp.ringQ ct := by
  unfold profileNewWith
  rw [h1]
  dsimp only
  rw [h4, Option.bind_some, hg, Option.bind_some, hev, Option.bind_some, c1, Option.bind_some]

theorem profileOldWith_eq {lit : FCParamLit} {fuel : ℕ} {roots : ℕ → ℚ × ℚ} {D : ProfileDraws} {S : FCParams} {fp : FParams} {kg : FKeyGenerator}
    {ct : Ct} (h1 : fckksNewParametersFromLiteral fuel lit = some (.ok S)) (h4 : S.frlwe.parts = some fp)
    (hg : newFKeyGenerator fuel fp = some kg)
    (c1 : encryptZero S.ckks fp.ringQ fp.ringP roots (genPublicKey fp.ringQ fp.ringP (genSecretKey fp.ringQ fp.ringP D.s) D.e D.a) D.enc = some ct) :
    profileOldWith lit fuel roots D = callNew (fun h new => (newEvaluator fp.ringQ fp.ringP
        (some ((genRelinearizationKey fp.ringQ fp.ringP (genSecretKey fp.ringQ fp.ringP D.s) 1 fun _ => D.rlk).getD 0 [])) (fun _ => none) 51).switchKeysNew
      h 0 ((genRelinearizationKey fp.ringQ fp.ringP (genSecretKey fp.ringQ fp.ringP D.s) 1 fun _ => D.rlk).getD 0 []) new) 50
      fun _ => toCoefficients fp.ringQ ct := by
  unfold profileOldWith
  rw [h1]
  dsimp only
  rw [h4, Option.bind_some, hg, Option.bind_some, c1, Option.bind_some]

/-- **C109 (profile/new).** The parameters of the program are accepted, and for every output of the samplers and every table of roots of the encoder the
program runs to the end. -/
theorem C109_new : ∃ S fp, (∀ fuel, 2 ^ 61 ≤ fuel → fckksNewParametersFromLiteral fuel profileNewLit = some (.ok S)) ∧
    S.frlwe.parts = some fp ∧ ∀ fuel, 2 ^ 61 ≤ fuel → ∀ roots (D : ProfileDraws) s e, D.OK fp.ringQ fp.ringP s e →
      ∃ H, profileNew fuel roots D = some H ∧ ProfileRun fp s H := by
  obtain ⟨S, fp, h1, h2, h3, hU, h4⟩ := profile_setup
  refine ⟨S, fp, h1, h4, fun fuel hf roots D s e hD => ?_⟩
  obtain ⟨ct, c1, c2, c3, x, c4, c5⟩ := profile_ct0 hU h2 h3 hD roots
  obtain ⟨ksw, kg, hk, hg⟩ := hU.built fuel hf
  have R := profile_rings hU
  have lQ := R.lQ
  have ha : fp.alpha = 1 := R.lP
  obtain ⟨ev, hev⟩ : ∃ ev, newFEvaluator fuel fp 51 = some ev := ⟨_, by unfold newFEvaluator; rw [hk]; rfl⟩
  obtain ⟨H, a1, a2, a3⟩ := callNew_is
    (call := fun h new => ev.switchKeysNew h 0 (kg.genRelinKey (genSecretKey fp.ringQ fp.ringP D.s) D.rlk) new)
    (P := fun c => c.scale = (toCoefficients fp.ringQ ct).scale ∧ SwitchedOut 16 46 fp.ringQ s x 26 c)
    (passNew (n := 16) profile_noise rfl hU hf hg hev (by omega) (profile_sk hU hD) hD.ternary hD.rlk hD.rlkErr (by omega) c2 c4)
    50 (h := fun _ => toCoefficients fp.ringQ ct) rfl
  refine ⟨H, ?_, ⟨a2 ▸ c2, by rw [a2]; exact c3, x, by rw [a2]; exact c4, c5, fun i i1 i2 => ?_⟩⟩
  · exact (profileNewWith_eq (h1 fuel hf) h4 hg hev c1).trans a1
  · obtain ⟨g1, g2⟩ := a3 i i1 i2
    exact ⟨g1.trans c3, g2⟩

/-- **C109 (profile/old).** The same for the program that switches with `ckks.Evaluator`. -/
theorem C109_old : ∃ S fp, (∀ fuel, 2 ^ 61 ≤ fuel → fckksNewParametersFromLiteral fuel profileOldLit = some (.ok S)) ∧
    S.frlwe.parts = some fp ∧ ∀ fuel, 2 ^ 61 ≤ fuel → ∀ roots (D : ProfileDraws) s e, D.OK fp.ringQ fp.ringP s e →
      ∃ H, profileOld fuel roots D = some H ∧ ProfileRun fp s H := by
  obtain ⟨S, fp, h1, h2, h3, hU, h4⟩ := profile_setup
  refine ⟨S, fp, h1, h4, fun fuel hf roots D s e hD => ?_⟩
  obtain ⟨ct, c1, c2, c3, x, c4, c5⟩ := profile_ct0 hU h2 h3 hD roots
  obtain ⟨ksw, kg, hk, hg⟩ := hU.built fuel hf
  have R := profile_rings hU
  have lQ := R.lQ
  have ha : fp.alpha = 1 := R.lP
  obtain ⟨H, a1, a2, a3⟩ := callNew_is
    (call := fun h new => (newEvaluator fp.ringQ fp.ringP
        (some ((genRelinearizationKey fp.ringQ fp.ringP (genSecretKey fp.ringQ fp.ringP D.s) 1 fun _ => D.rlk).getD 0 [])) (fun _ => none) 51).switchKeysNew
      h 0 ((genRelinearizationKey fp.ringQ fp.ringP (genSecretKey fp.ringQ fp.ringP D.s) 1 fun _ => D.rlk).getD 0 []) new)
    (P := fun c => c.scale = (toCoefficients fp.ringQ ct).scale ∧ SwitchedOut 16 46 fp.ringQ s x 26 c)
    (passOld (n := 16) profile_noise rfl hU (by omega) (profile_sk hU hD) hD.ternary hD.rlk hD.rlkErr (by omega) c2 c4)
    50 (h := fun _ => toCoefficients fp.ringQ ct) rfl
  refine ⟨H, ?_, ⟨a2 ▸ c2, by rw [a2]; exact c3, x, by rw [a2]; exact c4, c5, fun i i1 i2 => ?_⟩⟩
  · exact (profileOldWith_eq (h1 fuel hf) h4 hg c1).trans a1
  · obtain ⟨g1, g2⟩ := a3 i i1 i2
    exact ⟨g1.trans c3, g2⟩

/-- Such draws exist for the parameters of the programs: the secret `exampleS` and errors between -2 and 2 -/
example : ∃ S fp D, fckksNewParametersFromLiteral (2 ^ 61) profileNewLit = some (.ok S) ∧ S.frlwe.parts = some fp ∧
    ProfileDraws.OK fp.ringQ fp.ringP D exampleS (fun _ k => 2 - k % 5) := by
  obtain ⟨S, fp, h1, h2, h3, hU, h4⟩ := profile_setup
  have K : KeyParams 16 fp.ringQ fp.ringP := FParams.OK.keyParams (hU.ok _ le_rfl)
  have R := profile_rings hU
  have hQ := R.q
  have hP := R.p
  have lQ := R.lQ
  have lP := R.lP
  have bS : ∀ k, |exampleS k| ≤ 1 := by
    intro k
    simp only [exampleS]
    split
    · norm_num
    · split <;> norm_num
  have bE : ∀ k : ℕ, |(2 - (k : ℤ) % 5)| ≤ 2 := by
    intro k
    rw [abs_le]
    omega
  have q0 := hQ 0 (by omega)
  have samp : ∀ X : ℕ → ℤ, (∀ k, |X k| ≤ 2) → ∃ p, ∀ l < fp.ringQ.subs.length, Sampled fp.ringQ l p X := by
    intro X hX
    obtain ⟨p, hp⟩ := exists_poly K.rings.hQ K.rings.lQ X
    refine ⟨p, fun l hl => ⟨⟨by have := hp.lvl; omega, fun i hi => (hp.mono (B := fun u => fp.ringQ.qs u + 1) (fun u _ => by omega)).row i (by omega)⟩, fun k _ => ?_⟩⟩
    have := hX k
    omega
  obtain ⟨s, hs⟩ := samp exampleS fun k => (bS k).trans (by norm_num)
  obtain ⟨er, her⟩ := samp (fun k => 2 - k % 5) bE
  obtain ⟨tape, ht⟩ := exists_tape K K.rings.lQ K.rings.lP (E := fun k => 2 - k % 5) (fun k _ => by have := bE k; omega)
    (fun k _ u hu => by have := bE k; have := hP u (by omega); omega)
  obtain ⟨aq, haq⟩ := exists_poly K.rings.hQ K.rings.lQ fun k => k
  obtain ⟨ap, hap⟩ := exists_poly K.rings.hP K.rings.lP fun k => k
  have hg : DrawsOK fp.ringQ.n 19 (List.replicate fp.ringQ.n (2, false)) (fun _ => -2) := by
    refine ⟨List.length_replicate, fun k hk => ?_, fun k hk => ?_⟩ <;>
      rw [List.getD_eq_getElem _ _ (by rw [List.length_replicate]; exact hk), List.getElem_replicate]
    · decide
    · rfl
  refine ⟨S, fp, ⟨s, er, ⟨aq, ap⟩, tape, ⟨[], s, List.replicate fp.ringQ.n (2, false), List.replicate fp.ringQ.n (2, false)⟩⟩, h1 _ le_rfl, h4,
    hs _ (by omega), bS, ⟨_, her _ (by omega), fun k _ => (bE k).trans (by norm_num)⟩, ⟨_, _, haq, hap⟩, ht,
    fun _ k _ => (bE k).trans (by norm_num), exampleS, fun _ => -2, fun _ => -2, fun l hl => hs l hl, bS, hg, hg⟩

end FastKsw.Props
