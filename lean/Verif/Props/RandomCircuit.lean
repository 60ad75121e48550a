import Verif.Props.RandomSession

/-!
# C123: a rotated product, from random bytes to result

Key pair, relinearization key and rotation key come from one generator, two messages are encrypted, multiplied with `MulRelin` and the
product is rotated.
-/

namespace FastKsw.Props

open Finset MeasureTheory ENNReal

/-- `Rotate` with any key that switches from `s` to `s(X^g')` -/
theorem rotate_switches {fuel n : ℕ} {p : FParams} {ev : FEvaluator} {pool : Ref} (h : p.OK fuel n)
    (hev : newFEvaluator fuel p pool = some ev) {S : ℕ → ℤ} {e : ℕ → ℕ → ℤ} {rtk : UInt64 × FSwitchingKey × FSwitchingKey} {rot : ℤ}
    (hrot : p.ringQ.galoisElementForColumnRotationBy rtk.1.toInt64.toInt = p.ringQ.galoisElementForColumnRotationBy rot) {g' : ℕ}
    (hg1 : g' % 2 = 1) (hg2 : g' * (p.ringQ.galoisElementForColumnRotationBy rot).toNat % (2 * 2 ^ n) = 1) {H : Heap} {ctIn out : Ref}
    {lin level : ℕ} {x : ∀ u, Rq (2 ^ n) (p.ringQ.qs u)} (h0 : CtEnc n p.ringQ lin p.ringQ.qs 1 (H ctIn) (fun u => intR _ _ S) x)
    (ho : CtShape 1 level (H out)) (hlev : level ≤ lin) (hl : level < p.ringQ.subs.length)
    (hsw : FSwitches n p ev.ksw level rtk.2 S (autInt (2 ^ n) g' S) e) :
    ∃ H', ev.rotate H ctIn rtk out = some H' ∧ (∀ b ≠ out, H' b = H b) ∧ (H' out).scale = (H out).scale ∧ ∃ a d0 d1 E,
      KeySwitched n p.ringQ p.ringP level (p.alpha - 1) a d0 d1 S (autInt (2 ^ n) g' S) e E ∧
      CtEnc n p.ringQ level p.ringQ.qs 1 (H' out) (fun u => intR _ _ S) (fun u =>
        aut (2 ^ n) (p.ringQ.qs u) (C25_rotation_odd h.hQ rot).1 (x u + intR _ _ E)) := by
  obtain ⟨hr, hk⟩ := newFEvaluator_eq hev
  obtain ⟨x', h0, hx⟩ := h0
  unfold FEvaluator.rotate
  dsimp only
  rw [hr, hrot, h0.shape.level, ho.level, h0.shape.degree, ho.degree, if_neg (by omega)]
  have hpool : level < (newPoly p.ringQ.n p.ringQ.subs.length).length := by rw [length_newPoly]; exact hl
  obtain ⟨d, e1, y0, y1, k0, k1, k2, E, hE⟩ := switchNtt_elt h hl hsw (fun u _ => by omega) ((h0.elt 1 (by omega)).below hlev) hpool
  have go := (C25_rotation_odd h.hQ rot).1
  rw [show H.rows ctIn 1 = (H ctIn).rows 1 from rfl, e1, Option.map_some]
  have a0 := addLvl_elt h.hQ hl ((h0.elt 0 (by omega)).below hlev) k0 (fun u _ => by omega) k2
  have s0 := ho.size 0 (by omega)
  have s1 := ho.size 1 (by omega)
  have b0 := permuteNTTLvl_elt h.hQ hl (out := (H out).rows 0) (by omega) go a0.is
  have b1 := permuteNTTLvl_elt h.hQ hl (out := (H out).rows 1) (by omega) go k1
  have c0 := ho.setRows (i := 0) (b0.len.trans s0)
  have c1 := c0.setRows (i := 1) (b1.len.trans s1)
  have hlen := ho.len
  refine ⟨_, rfl, fun b hb => by rw [Heap.setRows_ne _ _ _ _ _ hb, Heap.setRows_ne _ _ _ _ _ hb], by simp, x' 1, y0, y1, E,
    hE, fun i => if i = 0 then fun u => aut (2 ^ n) (p.ringQ.qs u) go (x' 0 u + y0 u)
      else fun u => aut (2 ^ n) (p.ringQ.qs u) go (y1 u), ⟨?_, fun i hi => ?_⟩, fun u hu => ?_⟩
  · rw [Heap.setRows_self, Heap.setRows_self, Heap.rows_setRows_ne _ _ _ _ _ _ (by omega)]
    exact c1
  · rw [Heap.setRows_self, Heap.setRows_self, Heap.rows_setRows_ne _ _ _ _ _ _ (by omega)]
    rcases (by omega : i = 0 ∨ i = 1) with rfl | rfl
    · rw [Ct.rows_setRows_ne _ _ _ _ (by omega), Ct.rows_setRows_self _ _ _ (by omega), if_pos rfl]
      exact b0.is
    · rw [Ct.rows_setRows_self _ _ _ (by rw [Ct.length_setRows]; omega), if_neg (by omega)]
      exact b1.is
  · dsimp only
    rw [sum_range_succ, sum_range_one, if_pos rfl, if_neg (by omega)]
    have e0 := hx u (by omega)
    rw [sum_range_succ, sum_range_one, pow_zero, pow_one, mul_one] at e0
    have hrel := congrArg (aut (2 ^ n) (p.ringQ.qs u) go) (hE.rel u hu)
    rw [intR_autInt (by positivity) hg1, map_add, map_mul, C24_inverse _ _ _ _ (by positivity) hg1 go hg2] at hrel
    rw [← e0]
    simp only [map_add, map_mul] at hrel ⊢
    linear_combination hrel

section
variable {fuel n : ℕ} {p : FParams} {kg : FKeyGenerator} {ksw : FKeySwitcher} (h : p.OK fuel n) (hF : p.Fits) (hn : n < 32)
  (hg : newFKeyGenerator fuel p = some kg) {F : Type} (O : FloatOps F) (sigma : F) {bound : UInt64}
  (hb0 : 2 * bound.toNat < p.ringQ.qs 0) (hb : ∀ j < p.ringQ.subs.length, bound.toNat ≤ p.ringQ.qs j)
  (hb' : ∀ j < p.ringP.subs.length, bound.toNat ≤ p.ringP.qs j) {pools pools' : KgPools}
  (hpool : pools.poolQ.length = p.ringQ.subs.length) (hpool' : pools'.poolQ.length = p.ringQ.subs.length)
  (hqp : pools'.poolQP.q.length = p.ringQ.subs.length) (hpp : pools'.poolQP.p.length = p.ringP.subs.length) (hw : ℕ) (rot : ℤ)

/-- what a fast rotation key is -/
structure RotKeyFor (n : ℕ) (p : FParams) (ksw : FKeySwitcher) (b : ℕ) (rot : ℤ) (rtk : UInt64 × (FSwitchingKey × FSwitchingKey)) (S : ℕ → ℤ)
    (g' : ℕ) (T : ℕ → ℕ → ℤ) : Prop where
  idx : rtk.1 = UInt64.ofInt (rot.tmod ((2 ^ n / 2 : ℕ) : ℤ))
  odd : g' % 2 = 1
  inv : g' * (p.ringQ.galoisElementForColumnRotationBy rot).toNat % (2 * 2 ^ n) = 1
  err : ∀ i < p.beta, ∀ t < p.ringQ.n, |T i t| ≤ b
  key : ∀ levelQ < p.ringQ.subs.length, FSwitches n p ksw levelQ rtk.2 S (autInt (2 ^ n) g' S) T

include h in
theorem RotKeyFor.galEl {b : ℕ} {rot : ℤ} {rtk : UInt64 × (FSwitchingKey × FSwitchingKey)} {S : ℕ → ℤ} {g' : ℕ} {T : ℕ → ℕ → ℤ}
    (hr : RotKeyFor n p ksw b rot rtk S g' T) :
    p.ringQ.galoisElementForColumnRotationBy rtk.1.toInt64.toInt = p.ringQ.galoisElementForColumnRotationBy rot := by
  have h4 := h.hQ.four_le
  have hn := h.n_lt
  have h2 : (2 : ℕ) ^ n ≤ 2 ^ 61 := Nat.pow_le_pow_right (by norm_num) (by omega)
  have h3 : (2 : ℕ) ^ 4 ≤ 2 ^ n := Nat.pow_le_pow_right (by norm_num) h4
  have hpos : (0 : ℤ) < ((2 ^ n / 2 : ℕ) : ℤ) := by omega
  have b1 := Int.tmod_lt_of_pos rot hpos
  have b2 := Int.lt_tmod_of_pos rot hpos
  rw [hr.idx, ofInt_toInt64 (by omega) (by omega)]
  exact UInt64.toNat_inj.1 (galEl_tmod h rot)

include h hg in
theorem rotDraws_eq (x : PolyQP) (k : ℕ) (st : GaussState) : kg.genRotKeyBytes O k sigma bound pools rot x st =
    (readDigits O k p.ringQ p.ringP sigma bound (p.ringQ.subs.length - 1) (p.ringP.subs.length - 1)
      (newSwitchingKey p.ringQ p.ringP (p.ringQ.subs.length - 1) (p.ringP.subs.length - 1)) st).map fun ts =>
      ((UInt64.ofInt (rot.tmod ((p.ringQ.n / 2 : ℕ) : ℤ)), kg.convertKey (genSwitchingKeyInto p.ringQ p.ringP pools.poolQ x.q
        ⟨p.ringQ.permuteNTTWithIndexLvl (p.ringQ.subs.length - 1) x.q
          (p.ringQ.permuteNTTIndex (p.ringQ.galoisElementForColumnRotationBy (-(rot.tmod ((p.ringQ.n / 2 : ℕ) : ℤ))))) pools.poolQP.q,
         p.ringQ.permuteNTTWithIndexLvl (p.ringP.subs.length - 1) x.p
          (p.ringQ.permuteNTTIndex (p.ringQ.galoisElementForColumnRotationBy (-(rot.tmod ((p.ringQ.n / 2 : ℕ) : ℤ))))) pools.poolQP.p⟩
        (fun i => ts.1.getD i ⟨[], ⟨[], []⟩⟩) (newSwitchingKey p.ringQ p.ringP (p.ringQ.subs.length - 1) (p.ringP.subs.length - 1))).2),
        ts.2) := by
  have K := FParams.OK.keyParams h
  have h0 := swkShape_zero K (newSwitchingKey_shape K p.ringQ p.ringP (p.ringQ.subs.length - 1) (p.ringP.subs.length - 1))
  unfold FKeyGenerator.genRotKeyBytes genSwitchingKeyBytes
  dsimp only
  rw [(kg_ok h hg).params, h0.bq, h0.bp, Nat.add_sub_cancel, Nat.add_sub_cancel, Option.map_map]
  generalize newSwitchingKey p.ringQ p.ringP (p.ringQ.subs.length - 1) (p.ringP.subs.length - 1) = key
  cases readDigits O k p.ringQ p.ringP sigma bound (p.ringQ.subs.length - 1) (p.ringP.subs.length - 1) key st with
  | none => rfl
  | some a => simp only [Option.map_some, Function.comp_apply]

include h hF hg hb0 hb hb' hpool' hqp hpp in
theorem rotKey_outcome (hov : p.alpha ≤ 16 ∨ ∀ t ≤ p.levelT, 10 * p.ringT.qs t + 2 ^ 15 ≤ 2 ^ 64)
    (hk : newFKeySwitcher fuel p = some ksw) {sk : PolyQP} {S : ℕ → ℤ}
    (hs : sk.IsMont n p.ringQ p.ringP (p.ringQ.subs.length - 1) (p.ringP.subs.length - 1) S) {k : ℕ} {st st' : GaussState}
    {rtk : UInt64 × (FSwitchingKey × FSwitchingKey)} (hst : st.Ok)
    (hz : kg.genRotKeyBytes O k sigma bound pools' rot sk st = some (rtk, st')) : ∃ g' T, RotKeyFor n p ksw bound.toNat rot rtk S g' T := by
  have K := FParams.OK.keyParams h
  have hl := newKey_beta h
  have hsh := newSwitchingKey_shape K p.ringQ p.ringP (p.ringQ.subs.length - 1) (p.ringP.subs.length - 1)
  obtain ⟨g', g1, g2, ho⟩ := rot_secret h hs hqp hpp rot
  unfold FKeyGenerator.genRotKeyBytes at hz
  dsimp only at hz
  rw [(kg_ok h hg).params, Option.map_eq_some_iff] at hz
  obtain ⟨⟨key, st3⟩, hz1, hz2⟩ := hz
  rw [Prod.mk.injEq] at hz2
  obtain ⟨rfl, rfl⟩ := hz2
  obtain ⟨⟨T, t1, o1⟩, -⟩ := switchingKey_outcome K O sigma hb0 hb hb' hsh hpool' hs.q ho hst hz1
  rw [hl] at t1
  exact ⟨g', T, by rw [h.hQ.deg], g1, g2, t1, fun levelQ hlQ => fswitches_of_key h hF hov hk hg hlQ o1⟩

include h hF hn hg hb0 hb hb' hpool hpool' hqp hpp in
theorem circuitKeys_step (hO : O.Starts sigma bound)
    (hov : p.alpha ≤ 16 ∨ ∀ t ≤ p.levelT, 10 * p.ringT.qs t + 2 ^ 15 ≤ 2 ^ 64) (hk : newFKeySwitcher fuel p = some ksw) :
    Step (fun k st => kg.genSessionBytes O k hw sigma bound pools pools' rot st) (fun z => ∃ S X T g' T',
      SessionKeys n p ksw hw bound.toNat z.1 S X T ∧ RotKeyFor n p ksw bound.toNat rot z.2 S g' T') 1 := by
  have K := FParams.OK.keyParams h
  have s1 := sessionKeys_of (pools := pools) h hn hg O sigma hb0 hb hw hO (B := fun _ => True) fun _ _ _ _ => trivial
  have s2 := relinDraws_top h O sigma hb0 hb hO
  have e := fun (x : (PolyQP × (PolyQP × PolyQP)) × (FSwitchingKey × FSwitchingKey)) k st =>
    rotDraws_eq (bound := bound) (pools := pools') h hg O sigma rot x.1.1 k st
  have out : ∀ {k st x st1 z st2}, st.Ok → st1.Ok → kg.genKeysBytes O k hw sigma bound pools st = some (x, st1) →
      kg.genRotKeyBytes O k sigma bound pools' rot x.1.1 st1 = some (z, st2) → ∃ S X T g' T',
      SessionKeys n p ksw hw bound.toNat (x, z).1 S X T ∧ RotKeyFor n p ksw bound.toNat rot (x, z).2 S g' T' := by
    intro k st x st1 z st2 hst hst1 hx hz
    unfold FKeyGenerator.genKeysBytes at hx
    rw [(kg_ok h hg).params, Option.bind_eq_some_iff] at hx
    obtain ⟨⟨a, sta⟩, x1, x2⟩ := hx
    rw [Option.map_eq_some_iff] at x2
    obtain ⟨⟨b, stb⟩, x2, x3⟩ := x2
    cases x3
    obtain ⟨S, X, T, hs⟩ := sessionKeys_outcome h hF hn hg O sigma hb0 hb hb' hpool hw hov hk hst
      ((keyPair_top K hn O sigma hb0 hb hw hO).keeps hst x1).1 x1 x2
    obtain ⟨g', T', hr⟩ := rotKey_outcome h hF hg O sigma hb0 hb hb' hpool' hqp hpp rot hov hk hs.sk hst1 hz
    exact ⟨S, X, T, g', T', hs, hr⟩
  generalize newSwitchingKey p.ringQ p.ringP (p.ringQ.subs.length - 1) (p.ringP.subs.length - 1) = key at s2 e
  generalize hf : (fun k st => kg.genKeysBytes O k hw sigma bound pools st) = f at s1
  generalize hr : (fun k st => readDigits O k p.ringQ p.ringP sigma bound (p.ringQ.subs.length - 1) (p.ringP.subs.length - 1) key st) = r at s2
  have s3 := s1.dep s2 (g := fun (x : (PolyQP × (PolyQP × PolyQP)) × (FSwitchingKey × FSwitchingKey)) k st =>
      kg.genRotKeyBytes O k sigma bound pools' rot x.1.1 st)
    (φ := fun (x : (PolyQP × (PolyQP × PolyQP)) × (FSwitchingKey × FSwitchingKey)) (ts : List KeyTape) =>
      (UInt64.ofInt (rot.tmod ((p.ringQ.n / 2 : ℕ) : ℤ)), kg.convertKey (genSwitchingKeyInto p.ringQ p.ringP pools'.poolQ x.1.1.q
        ⟨p.ringQ.permuteNTTWithIndexLvl (p.ringQ.subs.length - 1) x.1.1.q
          (p.ringQ.permuteNTTIndex (p.ringQ.galoisElementForColumnRotationBy (-(rot.tmod ((p.ringQ.n / 2 : ℕ) : ℤ))))) pools'.poolQP.q,
         p.ringQ.permuteNTTWithIndexLvl (p.ringP.subs.length - 1) x.1.1.p
          (p.ringQ.permuteNTTIndex (p.ringQ.galoisElementForColumnRotationBy (-(rot.tmod ((p.ringQ.n / 2 : ℕ) : ℤ))))) pools'.poolQP.p⟩
        (fun i => ts.getD i ⟨[], ⟨[], []⟩⟩) key).2))
    (B := fun z => ∃ S X T g' T', SessionKeys n p ksw hw bound.toNat z.1 S X T ∧ RotKeyFor n p ksw bound.toNat rot z.2 S g' T')
    (by subst hr; exact e) (by subst hf; exact out)
  subst hf
  exact s3

end

section
variable {fuel n : ℕ} {p : FParams} {kg : FKeyGenerator} {ev : FEvaluator} {pool : Ref} (h : p.OK fuel n) (hF : p.Fits) (hn : n < 32)
  (hov : p.alpha ≤ 16 ∨ ∀ t ≤ p.levelT, 10 * p.ringT.qs t + 2 ^ 15 ≤ 2 ^ 64)
  (hg : newFKeyGenerator fuel p = some kg) (hev : newFEvaluator fuel p pool = some ev) {F : Type} (O : FloatOps F) (sigma : F)
  {bound : UInt64} (hO : O.Starts sigma bound)
  (hb0 : 2 * bound.toNat < p.ringQ.qs 0) (hb : ∀ j < p.ringQ.subs.length, bound.toNat ≤ p.ringQ.qs j)
  (hb' : ∀ j < p.ringP.subs.length, bound.toNat ≤ p.ringP.qs j) {pools pools' : KgPools}
  (hpool : pools.poolQ.length = p.ringQ.subs.length) (hpool' : pools'.poolQ.length = p.ringQ.subs.length)
  (hqp : pools'.poolQP.q.length = p.ringQ.subs.length) (hpp : pools'.poolQP.p.length = p.ringP.subs.length)
  (hw : ℕ) (rot : ℤ) {pt0 c00 c01 pt1 c10 c11 : Poly} {pool0 pool1 : Rows} {l0 l1 : ℕ} {m0 m1 : ∀ u, Rq (2 ^ n) (p.ringQ.qs u)}
  (i0 : EncInput n p.ringQ l0 pt0 c00 c01 pool0 m0) (i1 : EncInput n p.ringQ l1 pt1 c10 c11 pool1 m1)
include h hb0 hb hb' hn hO hF hov hg hev hpool hpool' hqp hpp i0 i1

/-- **C123.** Key pair, relinearization key and key for any rotation from one generator, two encryptions under the public key, `MulRelin`, then
`Rotate` of the product into any ciphertext of degree 1 at a level not above it, possibly the product itself, then `Decrypt`. With
probability one the keys are made, then with probability one the encryptions end, and then no operation panics and decryption gives the image
of `(m0 + D0) (m1 + D1) + E + E'` under `X ↦ X^g`, `g` the Galois element of the rotation, with errors within the bounds for fresh
ciphertexts and for one key switch each. -/
theorem C123_rotated_product {digit : ℕ} (hd : ∀ level ≤ p.maxLevel, ∀ i, i * p.alpha ≤ level → p.ringQ.blockQ p.alpha (level + 1) i ≤ digit)
    (pos pos0 pos1 : ℕ) (clk clk0 clk1 : UInt64) {buf buf0 buf1 : List UInt8} {ptr ptr0 ptr1 : ℕ} (hlen : buf.length = 1024)
    (hle : ptr ≤ 1024) (hptr : ptr % 8 = 0) (hlen0 : buf0.length = 1024) (hle0 : ptr0 ≤ 1024) (hptr0 : ptr0 % 8 = 0)
    (hlen1 : buf1.length = 1024) (hle1 : ptr1 ≤ 1024) (hptr1 : ptr1 % 8 = 0) :
    randomBytes {s | ∃ k z st', kg.genSessionBytes O k hw sigma bound pools pools' rot ⟨⟨s, pos, clk⟩, buf, ptr⟩ = some (z, st') ∧
      randomBytes {s0 | ∃ k ct0 st', pkEncryptBytes O k p.ringQ p.ringP hw sigma bound pool0 z.1.1.2 pt0 c00 c01 ⟨⟨s0, pos0, clk0⟩, buf0, ptr0⟩
          = some (ct0, st') ∧ (∀ scale, CtShape 1 l0 ⟨[ct0.1, ct0.2], scale⟩) ∧
        randomBytes {s1 | ∃ k ct1 st', pkEncryptBytes O k p.ringQ p.ringP hw sigma bound pool1 z.1.1.2 pt1 c10 c11
            ⟨⟨s1, pos1, clk1⟩, buf1, ptr1⟩ = some (ct1, st') ∧ (∀ scale, CtShape 1 l1 ⟨[ct1.1, ct1.2], scale⟩) ∧
          ∀ (H : Heap) (a0 a1 out : Ref) (scale0 scale1 : ℚ) (deg lo : ℕ), H a0 = ⟨[ct0.1, ct0.2], scale0⟩ →
            H a1 = ⟨[ct1.1, ct1.2], scale1⟩ → CtShape deg lo (H out) → 1 ≤ deg →
            ∃ H', ev.mulRelin H a0 a1 z.1.2 out = some H' ∧ (∀ b ≠ out, H' b = H b) ∧ CtShape 1 (min (min l0 l1) lo) (H' out) ∧
              ∀ (out' : Ref) (lr : ℕ), CtShape 1 lr (H' out') → lr ≤ min (min l0 l1) lo →
              ∃ H'', ev.rotate H' out z.2 out' = some H'' ∧ (∀ b ≠ out', H'' b = H' b) ∧ (H'' out').scale = (H' out').scale ∧
              ∃ D0 D1 E E' : ℕ → ℤ, AbsLe n D0 (encBound (2 ^ n) (p.ringP.qs 0) bound.toNat) ∧
                AbsLe n D1 (encBound (2 ^ n) (p.ringP.qs 0) bound.toNat) ∧
                AbsLe n E (ksErr p n digit bound.toNat (min (min l0 l1) lo)) ∧ AbsLe n E' (ksErr p n digit bound.toNat lr) ∧
                ∀ dst : Poly, dst.coeffs ≠ [] →
                (decrypt p.ringQ z.1.1.1.q (H'' out').value dst).isNTT = dst.isNTT ∧
                (decrypt p.ringQ z.1.1.1.q (H'' out').value dst).level = min lr dst.level ∧
                EltIs n p.ringQ (min lr dst.level) p.ringQ.qs dst.isNTT (decrypt p.ringQ z.1.1.1.q (H'' out').value dst).coeffs
                  (fun u => aut (2 ^ n) (p.ringQ.qs u) (C25_rotation_odd h.hQ rot).1
                    ((m0 u + intR _ _ D0) * (m1 u + intR _ _ D1) + intR _ _ E + intR _ _ E'))} = 1} = 1} = 1 := by
  have K := FParams.OK.keyParams h
  have hdeg := K.rings.hQ.deg
  have hk := (newFEvaluator_eq hev).2
  refine (circuitKeys_step h hF hn hg O sigma hb0 hb hb' hpool hpool' hqp hpp hw rot hO hov hk).almost ?_ pos clk hlen hle hptr
  rintro z ⟨S, X, T, g', T', hz, hrt⟩
  refine session_encrypt h hn O sigma hO hb0 hb hb' hw i0 hz (fun ct0 D0 b0 e0 => ?_) pos0 clk0 hlen0 hle0 hptr0
  have g0 : ∀ scale, CtEnc n p.ringQ l0 p.ringQ.qs 1 ⟨[ct0.1, ct0.2], scale⟩ _ _ := fun scale =>
    e0.ct (value := [default, default]) rfl (scale := scale)
  refine ⟨fun scale => (g0 scale).choose_spec.1.shape, ?_⟩
  refine session_encrypt h hn O sigma hO hb0 hb hb' hw i1 hz (fun ct1 D1 b1 e1 => ?_) pos1 clk1 hlen1 hle1 hptr1
  have g1 : ∀ scale, CtEnc n p.ringQ l1 p.ringQ.qs 1 ⟨[ct1.1, ct1.2], scale⟩ _ _ := fun scale =>
    e1.ct (value := [default, default]) rfl (scale := scale)
  refine ⟨fun scale => (g1 scale).choose_spec.1.shape, ?_⟩
  intro H a0 a1 out scale0 scale1 deg lo h0 h1 ho hdeg1
  have g0 := g0 scale0
  have g1 := g1 scale1
  have hl : min (min l0 l1) lo < p.ringQ.subs.length := by have := i0.lt; omega
  have hS : ∀ k < 2 ^ n, |S k| ≤ 1 := fun k hk => hz.secret.abs_le (by rw [hdeg]; exact hk)
  rw [← h0] at g0
  rw [← h1] at g1
  obtain ⟨H', r1, r2, r3, a, d0, d1, E, hE, hc⟩ := mulRelin_switches h hev g0 g1 ho hdeg1 rfl hl (hz.rlk _ hl)
  have hb := beta_iff h
  have ha : 0 < p.alpha := h.lenP
  have hml : p.maxLevel = p.ringQ.subs.length - 1 := rfl
  have hbe : ∀ {T : ℕ → ℕ → ℤ}, (∀ i < p.beta, ∀ t < p.ringQ.n, |T i t| ≤ bound.toNat) → ∀ {l : ℕ}, l < p.ringQ.subs.length →
      ∀ i, i * p.alpha ≤ l → ∀ k < 2 ^ n, |T i k| ≤ bound.toNat := fun hT l hl i hi k hk => by
    refine hT i ((hb i).2 ?_) k (by rw [hdeg]; exact hk)
    rw [Nat.sub_add_cancel (by omega)]
    omega
  refine ⟨H', r1, r2, hc.choose_spec.1.shape, fun out' lr ho' hlr => ?_⟩
  obtain ⟨H2, q1, q2, q3, a', d0', d1', E', hE', hc'⟩ := rotate_switches h hev (hrt.galEl h) hrt.odd hrt.inv hc ho' hlr (by omega)
    (hrt.key lr (by omega))
  have hS' : ∀ k < 2 ^ n, |autInt (2 ^ n) g' S k| ≤ 1 := fun k hk => by
    have := AbsLe.aut hrt.odd (z := S) (B := 1) (fun k hk => by exact_mod_cast hS k hk) k hk
    exact_mod_cast this
  refine ⟨H2, q1, q2, q3, D0, D1, E, E', b0, b1, ksErr_of h hE (hd _ (by omega)) (hbe hz.errRlk hl) hS,
    ksErr_of h hE' (hd _ (by omega)) (hbe hrt.err (by omega)) hS', fun dst hdst => ?_⟩
  exact hc'.decrypt K.rings.hQ K.rings.sQ (Or.inl fun _ _ => le_rfl) hdst (by omega)
    ((elt_mont K.rings.hQ K.rings.lQ hz.sk.q).below (by omega))

end

/-- moduli 97, 193, 641 and 257, 353, `T = 449·577·673·769·1153`, `gamma = 2`, degree 16, Hamming weight 11, `sigma = 3.2`, bound 19, pools and
receivers of sevens: with probability one the keys are made, two encryptions of `k ↦ 5 k` at level 1 succeed, their product is written over
the first, rotated by 3 in place, and decrypts to `(5 k + D0) (5 k + D1) + E + E'` at `X^29`, with `D0`, `D1` below 20 and `E`, `E'` below 80 -/
example : ∃ (p : FParams) (ev : FEvaluator) (kg : FKeyGenerator) (msg : Rows) (go : (p.ringQ.galoisElementForColumnRotationBy 3).toNat % 2 = 1),
    newFParams 100 4 [97, 193, 641] [257, 353] [449, 577, 673, 769, 1153] 5 0x4009999999999999 2 = some p ∧
    newFEvaluator 100 p 7 = some ev ∧ newFKeyGenerator 100 p = some kg ∧ (p.ringQ.galoisElementForColumnRotationBy 3).toNat = 29 ∧
    EltIs 4 p.ringQ 1 p.ringQ.qs false msg (fun u => intR _ (p.ringQ.qs u) fun k => 5 * k) ∧
    let pools : KgPools := ⟨List.replicate 3 [7], ⟨List.replicate 3 [7], List.replicate 2 [7]⟩⟩
    let c : Poly := ⟨List.replicate 3 [7], true⟩
    let pool : Rows := List.replicate 3 (List.replicate 16 7)
    let st : (ℕ → UInt8) → GaussState := fun s => ⟨⟨s, 7, 0⟩, List.replicate 1024 1, 1016⟩
    randomBytes {s | ∃ k z st', kg.genSessionBytes realOps k 11 3.2 19 pools pools 3 (st s) = some (z, st') ∧
      randomBytes {s0 | ∃ k ct0 st', pkEncryptBytes realOps k p.ringQ p.ringP 11 3.2 19 pool z.1.1.2 ⟨msg, false⟩ c c (st s0) = some (ct0, st') ∧
        randomBytes {s1 | ∃ k ct1 st', pkEncryptBytes realOps k p.ringQ p.ringP 11 3.2 19 pool z.1.1.2 ⟨msg, false⟩ c c (st s1) = some (ct1, st') ∧
          ∃ H' H'', ev.mulRelin (fun a => if a = 0 then ⟨[ct0.1, ct0.2], 8⟩ else ⟨[ct1.1, ct1.2], 4⟩) 0 1 z.1.2 0 = some H' ∧
            ev.rotate H' 0 z.2 0 = some H'' ∧
            ∃ D0 D1 E E' : ℕ → ℤ, (∀ k < 16, |D0 k| < 20 ∧ |D1 k| < 20 ∧ |E k| < 80 ∧ |E' k| < 80) ∧
              EltIs 4 p.ringQ 1 p.ringQ.qs false (decrypt p.ringQ z.1.1.1.q (H'' 0).value ⟨List.replicate 3 [7], false⟩).coeffs
                (fun u => aut (2 ^ 4) (p.ringQ.qs u) go ((intR _ (p.ringQ.qs u) (fun k => 5 * k) + intR _ _ D0) *
                  (intR _ (p.ringQ.qs u) (fun k => 5 * k) + intR _ _ D1) + intR _ _ E + intR _ _ E'))} = 1} = 1} = 1 := by
  obtain ⟨p, ksw, kg, sr, tape, h1, h, hF, ha, lQ, hk, hg, hQ, hP, hsam, hsk, ht⟩ := exampleKeys
  have l2 : p.ringP.subs.length = 2 := ha
  have a0 := sub_of_moduli hQ 0 97 rfl
  have a1 := sub_of_moduli hQ 1 193 rfl
  have a2 := sub_of_moduli hQ 2 641 rfl
  have b0 := sub_of_moduli hP 0 257 rfl
  have b1 := sub_of_moduli hP 1 353 rfl
  have hn : p.ringQ.n = 16 := h.hQ.deg
  have hmax : p.maxLevel = 2 := by unfold FParams.maxLevel; omega
  have p0 : p.ringP.qs 0 = 257 := by unfold Ring.qs; rw [b0]; rfl
  have hb : ∀ j < p.ringQ.subs.length, (19 : UInt64).toNat ≤ p.ringQ.qs j := fun j hj => by
    unfold Ring.qs
    obtain rfl | rfl | rfl : j = 0 ∨ j = 1 ∨ j = 2 := by omega
    · rw [a0]; decide
    · rw [a1]; decide
    · rw [a2]; decide
  have hb' : ∀ j < p.ringP.subs.length, (19 : UInt64).toNat ≤ p.ringP.qs j := fun j hj => by
    unfold Ring.qs
    obtain rfl | rfl : j = 0 ∨ j = 1 := by omega
    · rw [b0]; decide
    · rw [b1]; decide
  have hb0 : 2 * (19 : UInt64).toNat < p.ringQ.qs 0 := by unfold Ring.qs; rw [a0]; decide
  have rep : ∀ {k j : ℕ} {x : UInt64}, j < k → Rows.row (List.replicate k (List.replicate 16 x)) j = List.replicate 16 x := fun h => by
    rw [Rows.row, List.getD_eq_getElem _ _ (by simpa using h), List.getElem_replicate]
  have hev : newFEvaluator 100 p 7 = some ⟨newEvaluator p.ringQ p.ringP none (fun _ => none) 7, ksw⟩ := by
    rw [newFEvaluator, hk]; rfl
  obtain ⟨msg, hp⟩ := exists_poly h.hQ (show 1 < p.ringQ.subs.length by omega) (fun k => 5 * k)
  have hmsg := (elt_intVec h.hQ hp).take (m := 2) (by omega)
  have hpl : (msg.take 2).length = 2 := by have := hp.lvl; simp; omega
  have hlev : (Poly.mk (msg.take 2) false).level = 1 := by rw [Poly.level, hpl]
  have i0 : EncInput 4 p.ringQ 1 ⟨msg.take 2, false⟩ ⟨List.replicate 3 [7], true⟩ ⟨List.replicate 3 [7], true⟩
      (List.replicate 3 (List.replicate 16 7)) (fun u => intR _ (p.ringQ.qs u) fun k => 5 * k) :=
    ⟨by rw [hlev]; rfl, by omega, by simp, rfl, by simp, hmsg, by simp, fun j hj => by rw [rep (by omega), hn]; rfl⟩
  refine ⟨p, _, kg, msg.take 2, (C25_rotation_odd h.hQ 3).1, h1, hev, hg, ?_, hmsg, ?_⟩
  · rw [galEl_eq h.hQ]
    decide
  have hd : ∀ level ≤ p.maxLevel, ∀ i, i * p.alpha ≤ level → p.ringQ.blockQ p.alpha (level + 1) i ≤ 18721 := by
    intro level hl i hi
    rw [ha] at hi ⊢
    refine (blockQ_mono (cnt' := 3) h.hQ (by omega) (by omega)).trans ?_
    obtain rfl | rfl : i = 0 ∨ i = 1 := by omega
    · rw [Ring.blockQ, show min 2 (3 - 0 * 2) = 2 from rfl, Finset.prod_range_succ, Finset.prod_range_one, a0, a1]
      decide
    · rw [Ring.blockQ, show min 2 (3 - 1 * 2) = 1 from rfl, Finset.prod_range_one, a2]
      decide
  have main := C123_rotated_product h hF (by norm_num) (Or.inl (by omega)) hg hev realOps 3.2 (bound := 19) (realOps_starts _ _) hb0 hb hb'
    (pools := ⟨List.replicate 3 [7], ⟨List.replicate 3 [7], List.replicate 2 [7]⟩⟩)
    (pools' := ⟨List.replicate 3 [7], ⟨List.replicate 3 [7], List.replicate 2 [7]⟩⟩) (by rw [lQ]; rfl) (by rw [lQ]; rfl) (by rw [lQ]; rfl)
    (by rw [l2]; rfl) 11 3 i0 i0 hd 7 7 7 0 0 0
    (buf := List.replicate 1024 1) (buf0 := List.replicate 1024 1) (buf1 := List.replicate 1024 1) (ptr := 1016) (ptr0 := 1016)
    (ptr1 := 1016) List.length_replicate (by norm_num) rfl List.length_replicate (by norm_num) rfl List.length_replicate (by norm_num) rfl
  have h19 : (19 : UInt64).toNat = 19 := rfl
  refine le_antisymm prob_le_one (main.symm.le.trans (measure_mono ?_))
  rintro s ⟨k, z, st', hz, h2⟩
  refine ⟨k, z, st', hz, le_antisymm prob_le_one (h2.symm.le.trans (measure_mono ?_))⟩
  rintro s0 ⟨k, ct0, st', hc0, hsh, h3⟩
  refine ⟨k, ct0, st', hc0, le_antisymm prob_le_one (h3.symm.le.trans (measure_mono ?_))⟩
  rintro s1 ⟨k, ct1, st', hc1, -, h4⟩
  obtain ⟨H', r1, -, hsh', h5⟩ := h4 (fun a => if a = 0 then ⟨[ct0.1, ct0.2], 8⟩ else ⟨[ct1.1, ct1.2], 4⟩) 0 1 0 8 4 1 1
    rfl rfl (hsh 8) le_rfl
  obtain ⟨H'', r2, -, -, D0, D1, E, E', d0, d1, e, e', hdec⟩ := h5 0 1 hsh' le_rfl
  have t0 : encBound (2 ^ 4) (p.ringP.qs 0) (19 : UInt64).toNat < 20 := by rw [p0, h19]; norm_num [encBound]
  have t1 : ksErr p 4 18721 (19 : UInt64).toNat 1 < 80 := by
    have hpr : p.ringP.prodQ (2 - 1) = 90721 := by
      rw [Ring.prodQ, Finset.prod_range_succ, Finset.prod_range_one, b0, b1]
      decide
    rw [ksErr, h19, ha, hpr]
    norm_num
  refine ⟨k, ct1, st', hc1, H', H'', r1, r2, D0, D1, E, E', fun k hk => ⟨?_, ?_, ?_, ?_⟩,
    (hdec ⟨List.replicate 3 [7], false⟩ (by simp)).2.2⟩
  · exact_mod_cast (d0 k (by simpa using hk)).trans_lt t0
  · exact_mod_cast (d1 k (by simpa using hk)).trans_lt t0
  · exact_mod_cast (e k (by simpa using hk)).trans_lt t1
  · exact_mod_cast (e' k (by simpa using hk)).trans_lt t1

end FastKsw.Props
