import Verif.Lemmas.FEvaluator

/-!
# C30, C31, C56: the evaluator of `fckks`

Ciphertexts are described by `CtIs` (what each component denotes) and `CtEnc` (what the ciphertext decrypts to);
`CtEnc.decrypt` (Lemmas/CtEnc.lean) says that `Decrypt` then returns that value.  `KeySwitched` (Spec/KeySwitch.lean)
ties the noise `E` to the errors of the key; `C27_noise` bounds it.
-/

namespace FastKsw.Props

open FastKsw Finset

section
variable {fuel n : ℕ} {p : FParams} {kg : FKeyGenerator} {ev : FEvaluator} {pool : Ref}

theorem newFEvaluator_eq (hev : newFEvaluator fuel p pool = some ev) :
    ev.ckks.ringQ = p.ringQ ∧ newFKeySwitcher fuel p = some ev.ksw := by
  unfold newFEvaluator at hev
  cases hk : newFKeySwitcher fuel p with
  | none => rw [hk] at hev; simp at hev
  | some k =>
    rw [hk] at hev
    simp only [Option.map_some, Option.some.injEq] at hev
    subst hev
    exact ⟨rfl, rfl⟩

theorem relinTail_is (h : p.OK fuel n) (hr : ev.ckks.ringQ = p.ringQ) {level : ℕ} (hl : level < p.ringQ.subs.length)
    {rlk : FSwitchingKey × FSwitchingKey} {sIn sOut : ℕ → ℤ} {e : ℕ → ℕ → ℤ}
    (hsw : FSwitches n p ev.ksw level rlk sIn sOut e) {c : Ct} {deg : ℕ} (hc : CtShape deg level c) (hd : 2 ≤ deg)
    {z0 z1 z2 : ∀ u, Rq (2 ^ n) (p.ringQ.qs u)} (h0 : EltIs n p.ringQ level p.ringQ.qs true (c.rows 0) z0)
    (h1 : EltIs n p.ringQ level p.ringQ.qs true (c.rows 1) z1)
    (h2 : EltIs n p.ringQ level p.ringQ.qs true (c.rows 2) z2) :
    ∃ c', ev.relinTail rlk c = some c' ∧ c'.scale = c.scale ∧ ∃ d0 d1 E,
      KeySwitched n p.ringQ p.ringP level (p.alpha - 1) z2 d0 d1 sIn sOut e E ∧
      CtIs n p.ringQ level p.ringQ.qs 1 c' (fun i => if i = 0 then fun u => z0 u + d0 u else fun u => z1 u + d1 u) := by
  obtain ⟨d, e1, y0, y1, g0, g1, -, E, hE⟩ := switchNtt_elt h hl hsw (fun u _ => by omega) h2
    (pool := newPoly p.ringQ.n p.ringQ.subs.length) (by rw [length_newPoly]; exact hl)
  have hlen := hc.len
  have a0 := addLvl_elt h.hQ hl g0 h0 (fun u _ => by omega) h0.lvl
  have a1 := addLvl_elt h.hQ hl g1 h1 (fun u _ => by omega) h1.lvl
  have s0 := hc.setRows (i := 0) (a0.len.trans (hc.size 0 (by omega)))
  have s1 := s0.setRows (i := 1) (a1.len.trans (hc.size 1 (by omega)))
  unfold FEvaluator.relinTail
  rw [hr]
  dsimp only
  rw [if_neg (by omega), hc.level, e1, Option.map_some, s0.level, Ct.rows_setRows_ne _ _ _ _ (by omega)]
  refine ⟨_, rfl, rfl, y0, y1, E, hE, s1.take (by omega), fun i hi => ?_⟩
  rw [Ct.rows_take (by omega)]
  rcases (by omega : i = 0 ∨ i = 1) with rfl | rfl
  · rw [Ct.rows_setRows_ne _ _ _ _ (by omega), Ct.rows_setRows_self _ _ _ (by omega), if_pos rfl]
    exact a0.is.congr fun u _ => add_comm _ _
  · rw [Ct.rows_setRows_self _ _ _ (by rw [Ct.length_setRows]; omega), if_neg (by omega)]
    exact a1.is.congr fun u _ => add_comm _ _

/-- **C30.** `MulRelin` with a generated relinearization key, on ciphertexts of degree 1 whose words are arbitrary
and at any levels, into a receiver of any degree ≥ 1, possibly one of the operands: it does not panic, touches
nothing but the receiver, and the receiver has degree 1, level the minimum of the three, scale the (rounded)
product, and decrypts to `dec(ct0) dec(ct1) + E` with `E` the error of one key switch. -/
theorem C30_mulRelin (h : p.OK fuel n) (hF : p.Fits)
    (hov : p.alpha ≤ 16 ∨ ∀ t ≤ p.levelT, 10 * p.ringT.qs t + 2 ^ 15 ≤ 2 ^ 64)
    (hev : newFEvaluator fuel p pool = some ev) (hg : newFKeyGenerator fuel p = some kg) {sk : PolyQP} {S : ℕ → ℤ}
    (hs : sk.IsMont n p.ringQ p.ringP p.maxLevel (p.alpha - 1) S) {tape : ℕ → KeyTape} {e : ℕ → ℕ → ℤ}
    (ht : TapeOK n p.ringQ p.ringP p.maxLevel (p.alpha - 1) tape e) {H : Heap} {ct0 ct1 out : Ref} {deg l0 l1 lo : ℕ}
    {x y : ℕ → ∀ u, Rq (2 ^ n) (p.ringQ.qs u)} (h0 : CtIs n p.ringQ l0 anyWord 1 (H ct0) x)
    (h1 : CtIs n p.ringQ l1 anyWord 1 (H ct1) y) (ho : CtShape deg lo (H out)) (hdeg : 1 ≤ deg) {level : ℕ}
    (hlev : level = min (min l0 l1) lo) (hl : level < p.ringQ.subs.length) :
    ∃ H', ev.mulRelin H ct0 ct1 (kg.genRelinKey sk tape) out = some H' ∧ (∀ b ≠ out, H' b = H b) ∧
      (H' out).scale = f64 ((H ct0).scale * (H ct1).scale) ∧ ∃ d0 d1 E,
      KeySwitched n p.ringQ p.ringP level (p.alpha - 1) (fun u => x 1 u * y 1 u) d0 d1 (negPow (2 ^ n) S 2) S e E ∧
      CtEnc n p.ringQ level p.ringQ.qs 1 (H' out) (fun u => intR _ _ S) (fun u =>
        (x 0 u + x 1 u * intR _ _ S) * (y 0 u + y 1 u * intR _ _ S) + intR _ _ E) := by
  obtain ⟨hr, hk⟩ := newFEvaluator_eq hev
  have hsw := fswitches_relin h hF hov hk hg hl hs ht
  unfold FEvaluator.mulRelin
  clear hev
  generalize kg.genRelinKey sk tape = rlk at *
  obtain ⟨⟨rQ, ks, k0, k1, cp⟩, ksw⟩ := ev
  dsimp only at hr
  subst hr
  obtain ⟨H1, m1, m2, m3, m4, z0, z1, z2⟩ := mul_is (ev := ⟨p.ringQ, ks, k0, k1, cp⟩) h.hQ h0 h1 ho hdeg hlev hl
  obtain ⟨c', t1, t2, d0, d1, E, hE, hc⟩ := relinTail_is (ev := ⟨⟨p.ringQ, ks, k0, k1, cp⟩, ksw⟩) h rfl hl hsw m2 (by omega)
    z0 z1 z2
  rw [m1, Option.bind_some, t1, Option.map_some]
  refine ⟨_, rfl, fun b hb => by rw [Heap.set_ne _ _ _ _ hb, m4 b hb], by rw [Heap.set_self, t2, m3], d0, d1, E, hE, _,
    by rw [Heap.set_self]; exact hc, fun u hu => ?_⟩
  have hrel := hE.rel u hu
  rw [intR_negPow_two (by positivity)] at hrel
  rw [sum_range_succ, sum_range_one, if_pos rfl, if_neg (by omega)]
  linear_combination hrel

theorem relinTail_congr {level deg deg' : ℕ} {c c' : Ct} (hc : CtShape deg level c) (hc' : CtShape deg' level c')
    (hd : 2 ≤ deg) (hd' : 2 ≤ deg') (hs : c.scale = c'.scale) (hrow : ∀ i < 3, c.rows i = c'.rows i)
    (rlk : FSwitchingKey × FSwitchingKey) : ev.relinTail rlk c = ev.relinTail rlk c' := by
  have e : ∀ (d : ℕ) (c : Ct), CtShape d level c → 2 ≤ d →
      ∃ t, c.value = ⟨c.rows 0, true⟩ :: ⟨c.rows 1, true⟩ :: ⟨c.rows 2, true⟩ :: t := by
    intro d c hc hd
    have h1 := hc.len
    have n0 := hc.ntt 0 (by omega)
    have n1 := hc.ntt 1 (by omega)
    have n2 := hc.ntt 2 (by omega)
    obtain ⟨v, s⟩ := c
    match v with
    | a :: b :: c :: t =>
      refine ⟨t, ?_⟩
      simp only [List.getD_cons_zero, List.getD_cons_succ] at n0 n1 n2
      simp only [Ct.rows, List.getD_cons_zero, List.getD_cons_succ, ← n0]
      rw [n0]
      obtain ⟨a1, a2⟩ := a
      obtain ⟨b1, b2⟩ := b
      obtain ⟨c1, c2⟩ := c
      simp only at n0 n1 n2 ⊢
      rw [n0, n1, n2]
    | [] => simp at h1
    | [a] => simp at h1; omega
    | [a, b] => simp at h1; omega
  obtain ⟨t, ht⟩ := e _ _ hc hd
  obtain ⟨t', ht'⟩ := e _ _ hc' hd'
  have r0 := hrow 0 (by omega)
  have r1 := hrow 1 (by omega)
  have r2 := hrow 2 (by omega)
  have l := hc.level.trans hc'.level.symm
  rw [← r0, ← r1, ← r2] at ht'
  generalize c.rows 0 = a0 at *
  generalize c.rows 1 = a1 at *
  generalize c.rows 2 = a2 at *
  obtain ⟨v, s⟩ := c
  obtain ⟨v', s'⟩ := c'
  dsimp only at hs ht ht'
  subst hs ht ht'
  rfl

/-- **C30 (aliasing).** The receiver after `MulRelin` is the same ciphertext, word for word, whatever the receiver
held and whether or not it, or the two operands, coincide: it depends on the two operands and the level only. -/
theorem C30_alias (hr : ev.ckks.ringQ.Valid n) {H G : Heap} {ct0 ct1 out ct0' ct1' out' : Ref} {deg deg' l0 l1 lo lo' : ℕ}
    {x y : ℕ → ∀ u, Rq (2 ^ n) (ev.ckks.ringQ.qs u)} (h0 : CtIs n ev.ckks.ringQ l0 anyWord 1 (H ct0) x)
    (h1 : CtIs n ev.ckks.ringQ l1 anyWord 1 (H ct1) y) (ho : CtShape deg lo (H out)) (hdeg : 1 ≤ deg)
    (e0 : G ct0' = H ct0) (e1 : G ct1' = H ct1) (ho' : CtShape deg' lo' (G out')) (hdeg' : 1 ≤ deg')
    (hlev : min (min l0 l1) lo = min (min l0 l1) lo') (hl : min (min l0 l1) lo < ev.ckks.ringQ.subs.length)
    (rlk : FSwitchingKey × FSwitchingKey) :
    (ev.mulRelin H ct0 ct1 rlk out).map (· out) = (ev.mulRelin G ct0' ct1' rlk out').map (· out') := by
  obtain ⟨H1, m1, m2, m3, -, z0, z1, z2⟩ := mul_is hr h0 h1 ho hdeg rfl hl
  obtain ⟨G1, m1', m2', m3', -, z0', z1', z2'⟩ := mul_is (h := G) (op0 := ct0') (op1 := ct1') (out := out') hr
    (by rw [e0]; exact h0) (by rw [e1]; exact h1) ho' hdeg' hlev hl
  rw [e0, e1] at m3'
  have hrow : ∀ i < 3, (H1 out).rows i = (G1 out').rows i := by
    intro i hi
    have s := m2.size i (by omega)
    have s' := m2'.size i (by omega)
    interval_cases i
    · exact z0.ext hr hl z0' s s'
    · exact z1.ext hr hl z1' s s'
    · exact z2.ext hr hl z2' s s'
  unfold FEvaluator.mulRelin
  rw [m1, m1', Option.bind_some, Option.bind_some, relinTail_congr m2 m2' (by omega) (by omega) (m3.trans m3'.symm) hrow]
  cases ev.relinTail rlk (G1 out') with
  | none => rfl
  | some c => simp

/-- **C30 (`MulRelinNew`).** The same for the variant that allocates its receiver, at a reference `new` that is
not an operand. -/
theorem C30_mulRelinNew (h : p.OK fuel n) (hF : p.Fits)
    (hov : p.alpha ≤ 16 ∨ ∀ t ≤ p.levelT, 10 * p.ringT.qs t + 2 ^ 15 ≤ 2 ^ 64)
    (hev : newFEvaluator fuel p pool = some ev) (hg : newFKeyGenerator fuel p = some kg) {sk : PolyQP} {S : ℕ → ℤ}
    (hs : sk.IsMont n p.ringQ p.ringP p.maxLevel (p.alpha - 1) S) {tape : ℕ → KeyTape} {e : ℕ → ℕ → ℤ}
    (ht : TapeOK n p.ringQ p.ringP p.maxLevel (p.alpha - 1) tape e) {H : Heap} {ct0 ct1 new : Ref} {l0 l1 : ℕ}
    (hn0 : ct0 ≠ new) (hn1 : ct1 ≠ new)
    {x y : ℕ → ∀ u, Rq (2 ^ n) (p.ringQ.qs u)} (h0 : CtIs n p.ringQ l0 anyWord 1 (H ct0) x)
    (h1 : CtIs n p.ringQ l1 anyWord 1 (H ct1) y) {level : ℕ} (hlev : level = min l0 l1)
    (hl : level < p.ringQ.subs.length) :
    ∃ H', ev.mulRelinNew H ct0 ct1 (kg.genRelinKey sk tape) new = some H' ∧ (∀ b ≠ new, H' b = H b) ∧
      (H' new).scale = f64 ((H ct0).scale * (H ct1).scale) ∧ ∃ d0 d1 E,
      KeySwitched n p.ringQ p.ringP level (p.alpha - 1) (fun u => x 1 u * y 1 u) d0 d1 (negPow (2 ^ n) S 2) S e E ∧
      CtEnc n p.ringQ level p.ringQ.qs 1 (H' new) (fun u => intR _ _ S) (fun u =>
        (x 0 u + x 1 u * intR _ _ S) * (y 0 u + y 1 u * intR _ _ S) + intR _ _ E) := by
  unfold FEvaluator.mulRelinNew
  rw [h0.shape.level, h1.shape.level, ← hlev]
  obtain ⟨H', a1, a2, a3, a4⟩ := C30_mulRelin h hF hov hev hg hs ht
    (H := H.set new (newCiphertext ev.ckks.ringQ.n 2 level 0)) (ct0 := ct0) (ct1 := ct1) (out := new) (level := level)
    (by rw [Heap.set_ne _ _ _ _ hn0]; exact h0) (by rw [Heap.set_ne _ _ _ _ hn1]; exact h1)
    (by rw [Heap.set_self]; exact newCiphertext_shape _ _ _ _) (by omega) (by omega) hl
  rw [Heap.set_ne _ _ _ _ hn0, Heap.set_ne _ _ _ _ hn1] at a3
  exact ⟨H', a1, fun b hb => by rw [a2 b hb, Heap.set_ne _ _ _ _ hb], a3, a4⟩

/-! ## C31 -/

/-- **C31.** `Rotate` by a key from `GenRotKey`, for every rotation index, on a ciphertext of degree 1 with
components at most `q` (so also those `Neg` leaves), into a receiver of degree 1 at a level not above that of the
input, possibly the input itself: no panic, nothing but the receiver is touched, its scale stays, and it decrypts
to the image of `dec(ctIn) + E` under `X ↦ X^g`, `g` the Galois element of the rotation, `E` the error of one key
switch. -/
theorem C31_rotate (h : p.OK fuel n) (hF : p.Fits)
    (hov : p.alpha ≤ 16 ∨ ∀ t ≤ p.levelT, 10 * p.ringT.qs t + 2 ^ 15 ≤ 2 ^ 64)
    (hev : newFEvaluator fuel p pool = some ev) (hg : newFKeyGenerator fuel p = some kg) {sk : PolyQP} {S : ℕ → ℤ}
    (hs : sk.IsMont n p.ringQ p.ringP p.maxLevel (p.alpha - 1) S) {tape : ℕ → KeyTape} {e : ℕ → ℕ → ℤ}
    (ht : TapeOK n p.ringQ p.ringP p.maxLevel (p.alpha - 1) tape e) (rot : ℤ) {H : Heap} {ctIn out : Ref}
    {lin level : ℕ} {x : ℕ → ∀ u, Rq (2 ^ n) (p.ringQ.qs u)}
    (h0 : CtIs n p.ringQ lin (fun u => p.ringQ.qs u + 1) 1 (H ctIn) x) (ho : CtShape 1 level (H out))
    (hlev : level ≤ lin) (hl : level < p.ringQ.subs.length) :
    ∃ H', ev.rotate H ctIn (kg.genRotKey rot sk tape) out = some H' ∧ (∀ b ≠ out, H' b = H b) ∧
      (H' out).scale = (H out).scale ∧
      ∃ g', g' % 2 = 1 ∧ g' * (p.ringQ.galoisElementForColumnRotationBy rot).toNat % (2 * 2 ^ n) = 1 ∧
      ∃ d0 d1 E, KeySwitched n p.ringQ p.ringP level (p.alpha - 1) (x 1) d0 d1 S (autInt (2 ^ n) g' S) e E ∧
      CtEnc n p.ringQ level p.ringQ.qs 1 (H' out) (fun u => intR _ _ S) (fun u =>
        aut (2 ^ n) (p.ringQ.qs u) (C25_rotation_odd h.hQ rot).1 (x 0 u + x 1 u * intR _ _ S + intR _ _ E)) := by
  obtain ⟨hr, hk⟩ := newFEvaluator_eq hev
  obtain ⟨g', hg1, hg2, hsw⟩ := fswitches_rot h hF hov hk hg hl hs ht rot
  unfold FEvaluator.rotate
  dsimp only
  rw [hr, galEl_genRotKey h hg, h0.shape.level, ho.level, h0.shape.degree, ho.degree, if_neg (by omega)]
  have hpool : level < (newPoly p.ringQ.n p.ringQ.subs.length).length := by rw [length_newPoly]; exact hl
  obtain ⟨d, e1, y0, y1, k0, k1, k2, E, hE⟩ := switchNtt_elt h hl hsw
    (fun u hu => by
      have := (h.hQ.subAt (show u < p.ringQ.subs.length by omega)).prime.two_le
      unfold Ring.qs; omega) ((h0.elt 1 (by omega)).below hlev) hpool
  have go := (C25_rotation_odd h.hQ rot).1
  rw [show H.rows ctIn 1 = (H ctIn).rows 1 from rfl, e1, Option.map_some]
  have a0 := addLvl_elt h.hQ hl ((h0.elt 0 (by omega)).below hlev) k0 (fun u _ => by omega) k2
  have s0 := ho.size 0 (by omega)
  have s1 := ho.size 1 (by omega)
  have b0 := permuteNTTLvl_elt h.hQ hl (out := (H out).rows 0) (by omega) go a0.is
  have b1 := permuteNTTLvl_elt h.hQ hl (out := (H out).rows 1) (by omega) go k1
  have c0 := ho.setRows (i := 0) (b0.len.trans s0)
  have c1 := c0.setRows (i := 1) (b1.len.trans s1)
  have hlen := ho.len
  refine ⟨_, rfl, fun b hb => by rw [Heap.setRows_ne _ _ _ _ _ hb, Heap.setRows_ne _ _ _ _ _ hb], by simp, g', hg1, hg2, y0, y1, E,
    hE, fun i => if i = 0 then fun u => aut (2 ^ n) (p.ringQ.qs u) go (x 0 u + y0 u)
      else fun u => aut (2 ^ n) (p.ringQ.qs u) go (y1 u), ⟨?_, fun i hi => ?_⟩, fun u hu => ?_⟩
  · rw [Heap.setRows_self, Heap.setRows_self, Heap.rows_setRows_ne _ _ _ _ _ _ (by omega)]
    exact c1
  · rw [Heap.setRows_self, Heap.setRows_self, Heap.rows_setRows_ne _ _ _ _ _ _ (by omega)]
    rcases (by omega : i = 0 ∨ i = 1) with rfl | rfl
    · rw [Ct.rows_setRows_ne _ _ _ _ (by omega), Ct.rows_setRows_self _ _ _ (by omega), if_pos rfl]
      exact b0.is
    · rw [Ct.rows_setRows_self _ _ _ (by rw [Ct.length_setRows]; omega), if_neg (by omega)]
      exact b1.is
  · dsimp only
    rw [sum_range_succ, sum_range_one, if_pos rfl, if_neg (by omega)]
    have hrel := congrArg (aut (2 ^ n) (p.ringQ.qs u) go) (hE.rel u hu)
    rw [intR_autInt (by positivity) hg1, map_add, map_mul, C24_inverse _ _ _ _ (by positivity) hg1 go hg2] at hrel
    simp only [map_add, map_mul] at hrel ⊢
    linear_combination hrel

/-- **C31 (`RotateNew`).** The receiver is allocated at the level and with the scale of the input, so there is no
condition on levels. -/
theorem C31_rotateNew (h : p.OK fuel n) (hF : p.Fits)
    (hov : p.alpha ≤ 16 ∨ ∀ t ≤ p.levelT, 10 * p.ringT.qs t + 2 ^ 15 ≤ 2 ^ 64)
    (hev : newFEvaluator fuel p pool = some ev) (hg : newFKeyGenerator fuel p = some kg) {sk : PolyQP} {S : ℕ → ℤ}
    (hs : sk.IsMont n p.ringQ p.ringP p.maxLevel (p.alpha - 1) S) {tape : ℕ → KeyTape} {e : ℕ → ℕ → ℤ}
    (ht : TapeOK n p.ringQ p.ringP p.maxLevel (p.alpha - 1) tape e) (rot : ℤ) {H : Heap} {ctIn new : Ref}
    (hne : ctIn ≠ new) {level : ℕ} {x : ℕ → ∀ u, Rq (2 ^ n) (p.ringQ.qs u)}
    (h0 : CtIs n p.ringQ level (fun u => p.ringQ.qs u + 1) 1 (H ctIn) x) (hl : level < p.ringQ.subs.length) :
    ∃ H', ev.rotateNew H ctIn (kg.genRotKey rot sk tape) new = some H' ∧ (∀ b ≠ new, H' b = H b) ∧
      (H' new).scale = (H ctIn).scale ∧
      ∃ g', g' % 2 = 1 ∧ g' * (p.ringQ.galoisElementForColumnRotationBy rot).toNat % (2 * 2 ^ n) = 1 ∧
      ∃ d0 d1 E, KeySwitched n p.ringQ p.ringP level (p.alpha - 1) (x 1) d0 d1 S (autInt (2 ^ n) g' S) e E ∧
      CtEnc n p.ringQ level p.ringQ.qs 1 (H' new) (fun u => intR _ _ S) (fun u =>
        aut (2 ^ n) (p.ringQ.qs u) (C25_rotation_odd h.hQ rot).1 (x 0 u + x 1 u * intR _ _ S + intR _ _ E)) := by
  unfold FEvaluator.rotateNew
  rw [h0.shape.level]
  obtain ⟨H', a1, a2, a3, a4⟩ := C31_rotate h hF hov hev hg hs ht rot
    (H := H.set new (newCiphertext ev.ckks.ringQ.n 1 level (H ctIn).scale)) (ctIn := ctIn) (out := new)
    (by rw [Heap.set_ne _ _ _ _ hne]; exact h0) (by rw [Heap.set_self]; exact newCiphertext_shape _ _ _ _) le_rfl hl
  rw [Heap.set_self] at a3
  exact ⟨H', a1, fun b hb => by rw [a2 b hb, Heap.set_ne _ _ _ _ hb], a3, a4⟩

theorem writeLvl_full {level : ℕ} {f : ℕ → Row} {p p' : Rows} (h : p.length = level + 1) (h' : p'.length = level + 1) :
    writeLvl level f p = writeLvl level f p' := by
  refine List.ext_getElem (by rw [length_writeLvl, length_writeLvl, h, h']) fun i hi hi' => ?_
  rw [length_writeLvl] at hi
  simp only [writeLvl, List.getElem_mapIdx]
  rw [if_pos (by omega), if_pos (by omega)]

/-- **C31 (in place).** Rotating a ciphertext into itself leaves, word for word, what `Rotate` into another receiver
of the same shape leaves there (any key; the inputs may hold any words). -/
theorem C31_alias (rtk : UInt64 × FSwitchingKey × FSwitchingKey) {H : Heap} {ctIn out : Ref} {level : ℕ}
    (h0 : CtShape 1 level (H ctIn)) (ho : CtShape 1 level (H out)) :
    (ev.rotate H ctIn rtk ctIn).map (fun H' => (H' ctIn).value)
      = (ev.rotate H ctIn rtk out).map fun H' => (H' out).value := by
  unfold FEvaluator.rotate
  dsimp only
  rw [h0.level, ho.level, h0.degree, ho.degree, if_neg (by omega), if_neg (by omega), Option.map_map, Option.map_map]
  congr 1
  funext d
  simp only [Function.comp, Heap.setRows_self]
  rw [Heap.rows_setRows_ne _ _ _ _ _ _ (by omega), Heap.rows_setRows_ne _ _ _ _ _ _ (by omega)]
  have key : ∀ c : Ct, CtShape 1 level c → ∀ a b : Rows,
      ((c.setRows 0 a).setRows 1 b).value = [⟨a, true⟩, ⟨b, true⟩] := by
    intro c hc a b
    have h1 := hc.len
    have n0 := hc.ntt 0 (by omega)
    have n1 := hc.ntt 1 (by omega)
    obtain ⟨v, s⟩ := c
    match v with
    | [u, w] =>
      simp only [List.getD_cons_zero, List.getD_cons_succ] at n0 n1
      simp [Ct.setRows, List.modify, n0, n1]
    | [] => simp at h1
    | [_] => simp at h1
    | _ :: _ :: _ :: _ => simp at h1
  rw [key _ h0, key _ ho]
  have e := fun (p : Rows) i (hi : i ≤ 1) g => writeLvl_full (level := level)
    (f := fun j => permuteNTTRow ev.ckks.ringQ.n (ev.ckks.ringQ.permuteNTTIndex g) (p.row j)) (h0.size i hi) (ho.size i hi)
  simp only [Ring.permuteNTTLvl, Ring.permuteNTTWithIndexLvl, Heap.rows]
  rw [e _ 0 (by omega), e _ 1 (by omega)]

/-! ## C56 -/

/-- **C56 (violated).** `SwitchKeys` panics on every ciphertext that is in the NTT domain. -/
theorem C56_panics {H : Heap} {ct0 out : Ref} {deg level : ℕ} (h0 : CtShape deg level (H ct0)) (hd : 1 ≤ deg)
    (swk : FSwitchingKey × FSwitchingKey) : ev.switchKeys H ct0 swk out = none := by
  unfold FEvaluator.switchKeys
  dsimp only
  split
  · rfl
  · have e : (((H.setScale out (H ct0).scale) ct0).value.getD 1 default).isNTT = true := by
      rw [Heap.value_setScale]; exact h0.ntt 1 hd
    rw [e]
    simp [FKeySwitcher.switchKey]

/-- a ciphertext whose components are marked as being in the coefficient domain, with `deg + 1` components of
`level + 1` rows -/
structure CoeffShape (deg level : ℕ) (c : Ct) : Prop where
  len : c.value.length = deg + 1
  ntt : ∀ i ≤ deg, (c.value.getD i default).isNTT = false
  size : ∀ i ≤ deg, (c.rows i).length = level + 1

theorem switchKeys_core (h : p.OK fuel n) (hF : p.Fits)
    (hov : p.alpha ≤ 16 ∨ ∀ t ≤ p.levelT, 10 * p.ringT.qs t + 2 ^ 15 ≤ 2 ^ 64)
    (hev : newFEvaluator fuel p pool = some ev) (hg : newFKeyGenerator fuel p = some kg)
    {key : SwitchingKey} {sIn sOut : ℕ → ℤ} {e : ℕ → ℕ → ℤ}
    (hkey : IsSwitchKey n p.ringQ p.ringP p.maxLevel (p.alpha - 1) key sIn sOut e) {H : Heap} {ct0 out : Ref}
    {l0 lo level : ℕ} {x : ℕ → ∀ u, Rq (2 ^ n) (p.ringQ.qs u)} (h0 : CoeffShape 1 l0 (H ct0))
    (hx : ∀ i ≤ 1, EltIs n p.ringQ l0 p.ringQ.qs false ((H ct0).rows i) (x i))
    (hlen : (H out).value.length = 2) (hsize : ∀ i ≤ 1, ((H out).rows i).length = lo + 1)
    (hlev : level = min l0 lo) (hl : level < p.ringQ.subs.length) :
    ∃ H', ev.switchKeys H ct0 (kg.convertKey key) out = some H' ∧ (∀ b ≠ out, H' b = H b) ∧
      ((H' out).value.length = 2 ∧ (∀ i ≤ 1, ((H' out).rows i).length = lo + 1) ∧
        ∀ i, ((H' out).value.getD i default).isNTT = ((H out).value.getD i default).isNTT) ∧
      (H' out).scale = (H ct0).scale ∧
      ∃ y0 y1 d0 d1 E, KeySwitched n p.ringQ p.ringP level (p.alpha - 1) (x 1) d0 d1 sIn sOut e E ∧
      EltIs n p.ringQ level p.ringQ.qs false ((H' out).rows 0) y0 ∧
      EltIs n p.ringQ level p.ringQ.qs false ((H' out).rows 1) y1 ∧
      ∀ u ≤ level, y0 u + y1 u * intR _ _ sOut = x 0 u + x 1 u * intR _ _ sIn + intR _ _ E := by
  obtain ⟨hr, hk⟩ := newFEvaluator_eq hev
  have hsw := fswitches_of_key h hF hov hk hg hl hkey
  have hpool : level < (newPoly p.ringQ.n p.ringQ.subs.length).length := by rw [length_newPoly]; exact hl
  obtain ⟨d0, d1, e1, y0, y1, w0, w1, E, hE⟩ := hsw _ _ ((hx 1 le_rfl).below (show level ≤ l0 by omega)) _ _ hpool hpool
  have s0 := hsize 0 (by omega)
  have s1 := hsize 1 (by omega)
  have e2 : min (H ct0).level (H out).level = level := by
    have a := h0.size 0 (by omega)
    rw [Ct.level_eq, Ct.level_eq]
    omega
  have l0' := h0.len
  have e3 : (((H.setScale out (H ct0).scale) ct0).value.getD 1 default).isNTT = false := by
    rw [Heap.value_setScale]; exact h0.ntt 1 le_rfl
  have a0 := addLvl_elt h.hQ hl ((hx 0 (by omega)).below (show level ≤ l0 by omega)) w0.is (fun u _ => by omega)
    (p3 := (H out).rows 0) (by omega)
  have a1 : EltWritten n p.ringQ level p.ringQ.qs false ((H out).rows 1) (copyValuesLvl level d1 ((H out).rows 1)) y1 :=
    (copyValuesLvl_is (w1.is.polyIs h.hQ) (by omega)).eltWritten h.hQ fun u hu => w1.is.eltOf h.hQ hu
  unfold FEvaluator.switchKeys
  dsimp only
  simp only [Heap.rows_setScale]
  rw [hr, e2, e3, if_neg (by unfold Ct.degree; omega), show H.rows ct0 1 = (H ct0).rows 1 from rfl, e1,
    Option.map_some]
  have ee : ∀ (h : Heap) i, (h out).rows i = h.rows out i := fun _ _ => rfl
  rw [ee] at s0 s1 a0 a1
  refine ⟨_, rfl, fun b hb => ?_, ⟨by simp [hlen], fun i hi => ?_, fun i => ?_⟩, by simp, fun u => x 0 u + y0 u, y1, y0, y1, E,
    hE, ?_, ?_, fun u hu => ?_⟩
  · rw [Heap.setRows_ne _ _ _ _ _ hb, Heap.setRows_ne _ _ _ _ _ hb, Heap.setScale_ne _ _ _ _ hb]
  · rw [ee]
    rcases (by omega : i = 0 ∨ i = 1) with rfl | rfl
    · simp only [Heap.rows_setRows_ite, Heap.length_setRows, hlen, Heap.value_setScale, Heap.rows_setScale, true_and, zero_ne_one,
        one_ne_zero, false_and, if_false, Nat.lt_add_one, Nat.zero_lt_succ, if_true, and_true]
      exact a0.len.trans s0
    · simp only [Heap.rows_setRows_ite, Heap.length_setRows, hlen, Heap.value_setScale, Heap.rows_setScale, true_and, zero_ne_one,
        one_ne_zero, false_and, if_false, Nat.lt_add_one, Nat.zero_lt_succ, if_true, and_true]
      exact a1.len.trans s1
  · rw [Heap.isNTT_setRows, Heap.isNTT_setRows, Heap.value_setScale]
  · rw [ee]
    simp only [Heap.rows_setRows_ite, Heap.length_setRows, hlen, Heap.value_setScale, Heap.rows_setScale, true_and, zero_ne_one,
        one_ne_zero, false_and, if_false, Nat.lt_add_one, Nat.zero_lt_succ, if_true, and_true]
    exact a0.is
  · rw [ee]
    simp only [Heap.rows_setRows_ite, Heap.length_setRows, hlen, Heap.value_setScale, Heap.rows_setScale, true_and, zero_ne_one,
        one_ne_zero, false_and, if_false, Nat.lt_add_one, Nat.zero_lt_succ, if_true, and_true]
    exact a1.is
  · linear_combination hE.rel u hu

/-- **C56 (partial).** In the coefficient domain `SwitchKeys` re-encrypts a ciphertext of degree 1 from `sIn` to
`sOut`.  Missing, and false by `C56_panics`: the NTT domain, the only one `fckks` produces. -/
theorem C56_switchKeys_partial (h : p.OK fuel n) (hF : p.Fits)
    (hov : p.alpha ≤ 16 ∨ ∀ t ≤ p.levelT, 10 * p.ringT.qs t + 2 ^ 15 ≤ 2 ^ 64)
    (hev : newFEvaluator fuel p pool = some ev) (hg : newFKeyGenerator fuel p = some kg)
    {key : SwitchingKey} {sIn sOut : ℕ → ℤ} {e : ℕ → ℕ → ℤ}
    (hkey : IsSwitchKey n p.ringQ p.ringP p.maxLevel (p.alpha - 1) key sIn sOut e) {H : Heap} {ct0 out : Ref}
    {l0 lo level : ℕ} {x : ℕ → ∀ u, Rq (2 ^ n) (p.ringQ.qs u)} (h0 : CoeffShape 1 l0 (H ct0))
    (hx : ∀ i ≤ 1, EltIs n p.ringQ l0 p.ringQ.qs false ((H ct0).rows i) (x i)) (ho : CoeffShape 1 lo (H out))
    (hlev : level = min l0 lo) (hl : level < p.ringQ.subs.length) :
    ∃ H', ev.switchKeys H ct0 (kg.convertKey key) out = some H' ∧ (∀ b ≠ out, H' b = H b) ∧
      CoeffShape 1 lo (H' out) ∧ (H' out).scale = (H ct0).scale ∧
      ∃ y0 y1 d0 d1 E, KeySwitched n p.ringQ p.ringP level (p.alpha - 1) (x 1) d0 d1 sIn sOut e E ∧
      EltIs n p.ringQ level p.ringQ.qs false ((H' out).rows 0) y0 ∧
      EltIs n p.ringQ level p.ringQ.qs false ((H' out).rows 1) y1 ∧
      ∀ u ≤ level, y0 u + y1 u * intR _ _ sOut = x 0 u + x 1 u * intR _ _ sIn + intR _ _ E := by
  obtain ⟨H', a1, a2, ⟨a3, a4, a5⟩, a6, a7⟩ := switchKeys_core h hF hov hev hg hkey h0 hx ho.len ho.size hlev hl
  exact ⟨H', a1, a2, ⟨a3, fun i hi => (a5 i).trans (ho.ntt i hi), a4⟩, a6, a7⟩

end

/-- **C56 (violated, `SwitchKeysNew`).** On a ciphertext in the coefficient domain, which `SwitchKeysNew` accepts, the
new ciphertext holds coefficients but is marked as being in the NTT domain. -/
theorem C56_switchKeysNew_flag {fuel n : ℕ} {p : FParams} {kg : FKeyGenerator} {ev : FEvaluator} {pool : Ref}
    (h : p.OK fuel n) (hF : p.Fits)
    (hov : p.alpha ≤ 16 ∨ ∀ t ≤ p.levelT, 10 * p.ringT.qs t + 2 ^ 15 ≤ 2 ^ 64)
    (hev : newFEvaluator fuel p pool = some ev) (hg : newFKeyGenerator fuel p = some kg)
    {key : SwitchingKey} {sIn sOut : ℕ → ℤ} {e : ℕ → ℕ → ℤ}
    (hkey : IsSwitchKey n p.ringQ p.ringP p.maxLevel (p.alpha - 1) key sIn sOut e) {H : Heap} {ct0 new : Ref}
    (hne : ct0 ≠ new) {level : ℕ} {x : ℕ → ∀ u, Rq (2 ^ n) (p.ringQ.qs u)} (h0 : CoeffShape 1 level (H ct0))
    (hx : ∀ i ≤ 1, EltIs n p.ringQ level p.ringQ.qs false ((H ct0).rows i) (x i)) (hl : level < p.ringQ.subs.length) :
    ∃ H', ev.switchKeysNew H ct0 (kg.convertKey key) new = some H' ∧
      (∀ i ≤ 1, ((H' new).value.getD i default).isNTT = true) ∧
      ∃ y0 y1 E, EltIs n p.ringQ level p.ringQ.qs false ((H' new).rows 0) y0 ∧
      EltIs n p.ringQ level p.ringQ.qs false ((H' new).rows 1) y1 ∧
      ∀ u ≤ level, y0 u + y1 u * intR _ _ sOut = x 0 u + x 1 u * intR _ _ sIn + intR _ _ E := by
  have N := newCiphertext_shape ev.ckks.ringQ.n 1 level (H ct0).scale
  have e1 : (H ct0).level = level := by
    have := h0.size 0 (by omega)
    rw [Ct.level_eq]
    omega
  have e2 : (H ct0).degree = 1 := by rw [Ct.degree, h0.len]
  obtain ⟨H', a1, a2, ⟨a3, a4, a5⟩, a6, y0, y1, d0, d1, E, -, a7⟩ := switchKeys_core h hF hov hev hg hkey
    (H := H.set new (newCiphertext ev.ckks.ringQ.n 1 level (H ct0).scale)) (ct0 := ct0) (out := new) (x := x)
    (by rw [Heap.set_ne _ _ _ _ hne]; exact h0) (by rw [Heap.set_ne _ _ _ _ hne]; exact hx)
    (by rw [Heap.set_self]; exact N.len) (by rw [Heap.set_self]; exact N.size) (min_self _).symm hl
  refine ⟨H', by rw [FEvaluator.switchKeysNew, e1, e2]; exact a1, fun i hi => ?_, y0, y1, E, a7⟩
  rw [a5 i, Heap.set_self]
  exact N.ntt i hi

/-! ## A concrete case -/

theorem elt_self {n : ℕ} {r : Ring} {level : ℕ} {A : ℕ → ℕ} {b : Bool} {p : Rows} (hl : level < p.length)
    (hlen : ∀ u ≤ level, (p.row u).length = 2 ^ n) (hlt : ∀ u ≤ level, ∀ k < 2 ^ n, ((p.row u).at k).toNat < A u) :
    EltIs n r level A b p (fun u => r.elt n b p u) := ⟨hl, hlen, hlt, fun _ _ => rfl⟩

/-- degree 1, three rows of sixteen entries, scale `2^20`; entries are `5` and `7` -/
def exampleCt : Ct :=
  ⟨[⟨List.replicate 3 (List.replicate 16 5), true⟩, ⟨List.replicate 3 (List.replicate 16 7), true⟩], 2 ^ 20⟩

theorem exampleCt_is {r : Ring} (hq : ∀ u ≤ 2, 7 < r.qs u) :
    CtIs 4 r 2 r.qs 1 exampleCt (fun i u => r.elt 4 true (exampleCt.rows i) u) := by
  refine ⟨⟨rfl, by decide, by decide⟩, fun i hi => elt_self ?_ ?_ fun u hu k hk => ?_⟩
  · revert i; decide
  · intro u hu
    revert u i; decide
  · have : ∀ i ≤ 1, ∀ u ≤ 2, ∀ k < 16, (((exampleCt.rows i).row u).at k).toNat ≤ 7 := by decide
    exact lt_of_le_of_lt (this i hi u hu k hk) (hq u hu)

/-- **C56 (violated, witness).** -/
theorem C56_violated (ev : FEvaluator) (swk : FSwitchingKey × FSwitchingKey) :
    CtShape 1 2 exampleCt ∧ ev.switchKeys (fun _ => exampleCt) 0 swk 1 = none :=
  ⟨⟨rfl, by decide, by decide⟩, C56_panics (deg := 1) (level := 2) ⟨rfl, by decide, by decide⟩ le_rfl swk⟩

/-- with the keys of `exampleKeys`, `exampleCt` is squared in place, and rotated by `-3` in place -/
example : ∃ (fp : FParams) (ev : FEvaluator) (kg : FKeyGenerator) (s : Rows) (tape : ℕ → KeyTape) (H' H'' : Heap)
    (m m' : ∀ u, Rq (2 ^ 4) (fp.ringQ.qs u)),
    newFParams 100 4 [97, 193, 641] [257, 353] [449, 577, 673, 769, 1153] 5 0x4009999999999999 2 = some fp ∧
    newFEvaluator 100 fp 7 = some ev ∧ newFKeyGenerator 100 fp = some kg ∧
    ev.mulRelin (fun _ => exampleCt) 0 0 (kg.genRelinKey (genSecretKey fp.ringQ fp.ringP s) tape) 0 = some H' ∧
    CtEnc 4 fp.ringQ 2 fp.ringQ.qs 1 (H' 0) (fun u => intR _ _ exampleS) m ∧
    ev.rotate (fun _ => exampleCt) 0 (kg.genRotKey (-3) (genSecretKey fp.ringQ fp.ringP s) tape) 0 = some H'' ∧
    CtEnc 4 fp.ringQ 2 fp.ringQ.qs 1 (H'' 0) (fun u => intR _ _ exampleS) m' := by
  obtain ⟨fp, ksw, kg, s, tape, h1, h, hF, ha, lQ, hk, hg, hQ, hP, hsam, hsk, ht⟩ := exampleKeys
  have q0 := sub_of_moduli hQ 0 97 rfl
  have q1 := sub_of_moduli hQ 1 193 rfl
  have q2 := sub_of_moduli hQ 2 641 rfl
  have hq : ∀ u ≤ 2, 7 < fp.ringQ.qs u := by
    intro u hu
    unfold Ring.qs
    interval_cases u
    · rw [q0]; decide
    · rw [q1]; decide
    · rw [q2]; decide
  have hct := exampleCt_is hq
  have hev : newFEvaluator 100 fp 7 = some ⟨newEvaluator fp.ringQ fp.ringP none (fun _ => none) 7, ksw⟩ := by
    rw [newFEvaluator, hk]; rfl
  obtain ⟨H', a1, -, -, d0, d1, E, -, a2⟩ := C30_mulRelin h hF (Or.inl (by omega)) hev hg hsk ht (H := fun _ => exampleCt)
    (ct0 := 0) (ct1 := 0) (out := 0) (level := 2) hct.any hct.any hct.shape le_rfl rfl (by omega)
  obtain ⟨H'', b1, -, -, g, -, -, d0', d1', E', -, b2⟩ := C31_rotate h hF (Or.inl (by omega)) hev hg hsk ht (-3)
    (H := fun _ => exampleCt) (ctIn := 0) (out := 0) (level := 2) (hct.mono fun u _ => by omega) hct.shape le_rfl (by omega)
  exact ⟨fp, _, kg, s, tape, H', H'', _, _, h1, hev, hg, a1, a2, b1, b2⟩

end FastKsw.Props
