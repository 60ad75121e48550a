import Verif.Lemmas.KeyGen
import Verif.Props.FKeySwitch

/-!
# C33: key generation
-/

namespace FastKsw.Props

open FastKsw Finset

/-- what the samplers give for the digits of one key: a reduced mask and a small error `E i` (the
error fits in every prime of `P` and below half of the first prime of `Q`) -/
structure TapeOK (n : ℕ) (rQ rP : Ring) (lQ lP : ℕ) (tape : ℕ → KeyTape) (E : ℕ → ℕ → ℤ) : Prop where
  mask : ∀ i, i * (lP + 1) ≤ lQ → ∃ v w, PolyIs rQ lQ rQ.qs (tape i).a.q v ∧ PolyIs rP lP rP.qs (tape i).a.p w
  err : ∀ i, i * (lP + 1) ≤ lQ → Sampled rQ lQ (tape i).e (E i)
  small : ∀ i, i * (lP + 1) ≤ lQ → ∀ k < 2 ^ n, ∀ u ≤ lP, |E i k| ≤ rP.qs u

/-- the rings of a parameter set (`NewParameters` checks the number of moduli) -/
structure KeyParams (n : ℕ) (rQ rP : Ring) : Prop where
  rings : KeyRings n rQ rP (rQ.subs.length - 1) (rP.subs.length - 1)
  q100 : rQ.subs.length ≤ 100
  p100 : rP.subs.length ≤ 100

theorem KeyParams.at {n : ℕ} {rQ rP : Ring} (K : KeyParams n rQ rP) {lQ lP : ℕ} (hQ : lQ < rQ.subs.length)
    (hP : lP < rP.subs.length) : KeyRings n rQ rP lQ lP :=
  ⟨K.rings.hQ, K.rings.sQ, K.rings.hP, K.rings.sP, K.rings.hd, hQ, hP⟩

section
variable {n : ℕ} {rQ rP : Ring} (K : KeyParams n rQ rP)
include K

/-- **C33 (secret key).** The secret key holds the sampled polynomial over all primes of `Q` and `P`, in NTT
and Montgomery form. -/
theorem C33_secretKey {s : Rows} {S : ℕ → ℤ} (hs : Sampled rQ (rQ.subs.length - 1) s S)
    (hS : ∀ k < 2 ^ n, ∀ u < rP.subs.length, |S k| ≤ rP.qs u) :
    (genSecretKey rQ rP s).IsMont n rQ rP (rQ.subs.length - 1) (rP.subs.length - 1) S := by
  have R := K.rings
  have hPl := R.lP
  have eP := extendBasisSmallNorm_is (lP := rP.subs.length - 1) R.hQ R.hP hs (fun k hk u hu => hS k hk u (by omega))
    (out := newPoly rP.n rP.subs.length) (by simp [newPoly]; omega)
  have q := nttLvl_is' R.hQ R.sQ R.lQ hs.is hs.is.lvl
  have p := nttLvl_is' R.hP R.sP R.lP eP eP.lvl
  exact ⟨(C10_mform (R.hQ.arithLvl R.lQ) q.is q.is.lvl).is, (C10_mform (R.hP.arithLvl R.lP) p.is p.is.lvl).is⟩

/-- **C33 (public key).** The pair `(b, a)` satisfies `b + a s = e` over all primes of `Q` and `P`, where
`a` is the sampled mask, seen as a ring element over `Q` and over `P`. -/
theorem C33_publicKey {sk : PolyQP} {S : ℕ → ℤ}
    (hs : sk.IsMont n rQ rP (rQ.subs.length - 1) (rP.subs.length - 1) S) {e : Rows} {E : ℕ → ℤ}
    (he : Sampled rQ (rQ.subs.length - 1) e E) (hE : ∀ k < 2 ^ n, ∀ u < rP.subs.length, |E k| ≤ rP.qs u)
    {a : PolyQP} {v : ∀ u, ℕ → ZMod (rQ.sub u).q.toNat} {w : ∀ u, ℕ → ZMod (rP.sub u).q.toNat}
    (hq : PolyIs rQ (rQ.subs.length - 1) rQ.qs a.q v) (hp : PolyIs rP (rP.subs.length - 1) rP.qs a.p w) :
    (genPublicKey rQ rP sk e a).2 = a ∧ ∃ bq bp,
      PolyIs rQ (rQ.subs.length - 1) rQ.qs (genPublicKey rQ rP sk e a).1.q bq ∧
      PolyIs rP (rP.subs.length - 1) rP.qs (genPublicKey rQ rP sk e a).1.p bp ∧
      (∀ u < rQ.subs.length, ofNtt (rQ.sub u).psi n (bq u)
        + ofNtt (rQ.sub u).psi n (v u) * intR (2 ^ n) (rQ.qs u) S = intR (2 ^ n) (rQ.qs u) E) ∧
      ∀ u < rP.subs.length, ofNtt (rP.sub u).psi n (bp u)
        + ofNtt (rP.sub u).psi n (w u) * intR (2 ^ n) (rP.qs u) S = intR (2 ^ n) (rP.qs u) E := by
  have R := K.rings
  have hPl := R.lP
  have hQl := R.lQ
  have eP := extendBasisSmallNorm_is (lP := rP.subs.length - 1) R.hQ R.hP he (fun k hk u hu => hE k hk u (by omega))
    (out := newPoly rP.n rP.subs.length) (by simp [newPoly]; omega)
  have q := nttLvl_is' R.hQ R.sQ R.lQ he.is he.is.lvl
  have p := nttLvl_is' R.hP R.sP R.lP eP eP.lvl
  have bound : ∀ {r : Ring}, r.Valid n → ∀ {l : ℕ}, l < r.subs.length → ∀ u ≤ l,
      r.qs u * r.qs u ≤ r.qs u * 2 ^ 64 := by
    intro r hr l hl u hu
    have := (hr.arithLvl hl u hu).lt
    exact Nat.mul_le_mul_left _ (by unfold Ring.qs; omega)
  have dQ := (C10_mulCoeffsMontgomeryAndSub (R.hQ.arithLvl R.lQ) hs.q hq (bound R.hQ R.lQ) q.is).is
  have dP := (C10_mulCoeffsMontgomeryAndSub (R.hP.arithLvl R.lP) hs.p hp (bound R.hP R.lP) p.is).is
  have alg : ∀ {r : Ring} (hr : r.Valid n) {u : ℕ} (hu : u < r.subs.length) (b t : ℕ → ZMod (r.sub u).q.toNat),
      (∀ k < 2 ^ n, b k = r.nttVec n E u k - r.nttVec n S u k * 2 ^ 64 * t k * rinv _) →
      ofNtt (r.sub u).psi n b + ofNtt (r.sub u).psi n t * intR (2 ^ n) (r.qs u) S = intR (2 ^ n) (r.qs u) E := by
    intro r hr u hu b t h
    have h4 := hr.four_le
    have := (hr.subAt hu).fact
    have hp := (hr.subAt hu).psiOK (by omega)
    have hm := mul_rinv (hr.subAt hu).arith.odd
    rw [← ofNtt_nttVec hr hu, ← ofNtt_nttVec hr hu, ofNtt_mul hp, ofNtt_add hp]
    refine ofNtt_congr (fun k hk => ?_)
    rw [h k hk]
    linear_combination (- r.nttVec n S u k * t k) * hm
  exact ⟨rfl, _, _, dQ, dP, fun u hu => alg R.hQ hu _ _ (fun k _ => rfl), fun u hu => alg R.hP hu _ _ (fun k _ => rfl)⟩

omit K in
/-- **C33 (public key, no special primes).** With `P` empty the pair satisfies `b + a s = e` over all primes of `Q`. -/
theorem C33_publicKeyQ (hQ : rQ.Valid n) (sQ : rQ.Small) {sk : Rows} {S : ℕ → ℤ}
    (hs : PolyIs rQ (rQ.subs.length - 1) rQ.qs sk (fun u k => rQ.nttVec n S u k * 2 ^ 64)) {e : Rows} {E : ℕ → ℤ}
    (he : Sampled rQ (rQ.subs.length - 1) e E)
    {a : Rows} {v : ∀ u, ℕ → ZMod (rQ.sub u).q.toNat} (ha : PolyIs rQ (rQ.subs.length - 1) rQ.qs a v) :
    (genPublicKeyQ rQ sk e a).2 = a ∧ ∃ b, PolyIs rQ (rQ.subs.length - 1) rQ.qs (genPublicKeyQ rQ sk e a).1 b ∧
      ∀ u < rQ.subs.length, ofNtt (rQ.sub u).psi n (b u)
        + ofNtt (rQ.sub u).psi n (v u) * intR (2 ^ n) (rQ.qs u) S = intR (2 ^ n) (rQ.qs u) E := by
  have hpos := List.length_pos_of_ne_nil hQ.ne_nil
  have hl : rQ.subs.length - 1 < rQ.subs.length := by omega
  have q := nttLvl_is' hQ sQ hl he.is he.is.lvl
  have d := (C10_mulCoeffsMontgomeryAndSub (hQ.arithLvl hl) hs ha (fun u hu => by
    have := (hQ.arithLvl hl u hu).lt
    exact Nat.mul_le_mul_left _ (by unfold Ring.qs; omega)) q.is).is
  refine ⟨rfl, _, d, fun u hu => ?_⟩
  have h4 := hQ.four_le
  have := (hQ.subAt hu).fact
  have hp := (hQ.subAt hu).psiOK (by omega)
  have hm := mul_rinv (hQ.subAt hu).arith.odd
  rw [← ofNtt_nttVec hQ hu, ← ofNtt_nttVec hQ hu, ofNtt_mul hp, ofNtt_add hp]
  refine ofNtt_congr (fun k hk => ?_)
  linear_combination (- rQ.nttVec n S u k * v u k) * hm

/-- **C33 (switching key).** `genSwitchingKey` on a key of any levels: for every pair of secrets, masks and
errors the result is a switching key from `sIn` to `sOut`. -/
theorem C33_switchingKey {lQ lP : ℕ} (hlQ : lQ < rQ.subs.length) (hlP : lP < rP.subs.length)
    {skIn : Rows} {skOut : PolyQP} {sIn sOut : ℕ → ℤ} {E : ℕ → ℕ → ℤ} {tape : ℕ → KeyTape}
    (hi : PolyIs rQ lQ rQ.qs skIn (fun u k => rQ.nttVec n sIn u k * 2 ^ 64))
    (ho : skOut.IsMont n rQ rP lQ lP sOut) (ht : TapeOK n rQ rP lQ lP tape E) :
    IsSwitchKey n rQ rP lQ lP (genSwitchingKeyCore rQ rP lQ lP skIn skOut tape) sIn sOut E :=
  genSwitchingKeyCore_is (K.at hlQ hlP) (by have := K.q100; omega) (by have := K.p100; omega) hi ho
    ht.mask ht.err ht.small

omit K in
theorem intR_negPow (hN : 0 < (2 : ℕ) ^ n) (q : ℕ) (S : ℕ → ℤ) (m : ℕ) :
    intR (2 ^ n) q (negPow (2 ^ n) S m) = intR (2 ^ n) q S ^ m := by
  induction m with
  | zero =>
    rw [pow_zero]
    unfold intR toR
    rw [sum_eq_single_of_mem 0 (mem_range.2 hN)]
    · simp [negPow]
    · intro k _ hk
      simp [negPow, hk]
  | succ m ih => rw [pow_succ, ← ih, intR_mul]; rfl

theorem relinPower_is {sk : Rows} {S : ℕ → ℤ}
    (hs : PolyIs rQ (rQ.subs.length - 1) rQ.qs sk (fun u k => rQ.nttVec n S u k * 2 ^ 64)) (i : ℕ) :
    PolyIs rQ (rQ.subs.length - 1) rQ.qs (relinPower rQ sk i)
      (fun u k => rQ.nttVec n (negPow (2 ^ n) S (i + 1)) u k * 2 ^ 64) := by
  have R := K.rings
  have hQl := R.lQ
  induction i with
  | zero =>
    refine hs.congr (fun u hu k hk => ?_)
    rw [R.hQ.deg] at hk
    congr 1
    refine nttVec_of_intR R.hQ (by omega) ?_ hk
    rw [intR_negPow (by positivity), pow_one]
  | succ i ih =>
    have bound : ∀ u ≤ rQ.subs.length - 1, rQ.qs u * rQ.qs u ≤ rQ.qs u * 2 ^ 64 := by
      intro u hu
      have := (R.hQ.arithLvl R.lQ u hu).lt
      exact Nat.mul_le_mul_left _ (by unfold Ring.qs; omega)
    refine (C10_mulCoeffsMontgomery (R.hQ.arithLvl R.lQ) ih hs bound ih.lvl).is.congr (fun u hu k hk => ?_)
    rw [R.hQ.deg] at hk
    have e : rQ.nttVec n (negPow (2 ^ n) S (i + 1 + 1)) u k
      = rQ.nttVec n (negPow (2 ^ n) S (i + 1)) u k * rQ.nttVec n S u k := nttVec_mul R.hQ (by omega) _ _ hk
    have hm := mul_rinv (R.hQ.subAt (show u < rQ.subs.length by omega)).arith.odd
    rw [e]
    linear_combination (rQ.nttVec n (negPow (2 ^ n) S (i + 1)) u k * rQ.nttVec n S u k * 2 ^ 64) * hm

/-- **C33 (relinearization).** Key `i` of `GenRelinearizationKey` switches from `s^(i+2)` to `s`. -/
theorem C33_relinearization {sk : PolyQP} {S : ℕ → ℤ}
    (hs : sk.IsMont n rQ rP (rQ.subs.length - 1) (rP.subs.length - 1) S) {maxDegree i : ℕ} (hi : i < maxDegree)
    {tape : ℕ → ℕ → KeyTape} {E : ℕ → ℕ → ℤ}
    (ht : TapeOK n rQ rP (rQ.subs.length - 1) (rP.subs.length - 1) (tape i) E) :
    IsSwitchKey n rQ rP (rQ.subs.length - 1) (rP.subs.length - 1)
      ((genRelinearizationKey rQ rP sk maxDegree tape).getD i []) (negPow (2 ^ n) S (i + 2)) S E := by
  have R := K.rings
  unfold genRelinearizationKey
  rw [getD_map_range' _ _ _ hi]
  exact C33_switchingKey K R.lQ R.lP (relinPower_is K hs.q (i + 1)) hs ht

theorem genrotKey_is {sk : PolyQP} {S : ℕ → ℤ}
    (hs : sk.IsMont n rQ rP (rQ.subs.length - 1) (rP.subs.length - 1) S) {g : UInt64} (hg : g.toNat % 2 = 1)
    {tape : ℕ → KeyTape} {E : ℕ → ℕ → ℤ}
    (ht : TapeOK n rQ rP (rQ.subs.length - 1) (rP.subs.length - 1) tape E) :
    IsSwitchKey n rQ rP (rQ.subs.length - 1) (rP.subs.length - 1) (genrotKey rQ rP sk g tape) S
      (autInt (2 ^ n) g.toNat S) E := by
  have R := K.rings
  have hPl := R.lP
  have hQl := R.lQ
  refine C33_switchingKey K R.lQ R.lP hs.q ⟨?_, ?_⟩ ht
  · exact permuteMont_is R.hQ R.hQ R.lQ hs.q (by simp [newPoly]; omega) hg
  · exact permuteMont_is R.hQ R.hP R.lP hs.p (by simp [newPoly]; omega) hg

/-- **C33 (Galois key).** The key for the odd element `g` switches from `s` to `s(X^g')` with
`g g' = 1` modulo `2N`. -/
theorem C33_galois {sk : PolyQP} {S : ℕ → ℤ}
    (hs : sk.IsMont n rQ rP (rQ.subs.length - 1) (rP.subs.length - 1) S) {g : UInt64} (hg : g.toNat % 2 = 1)
    {tape : ℕ → KeyTape} {E : ℕ → ℕ → ℤ}
    (ht : TapeOK n rQ rP (rQ.subs.length - 1) (rP.subs.length - 1) tape E) :
    ∃ g', g' % 2 = 1 ∧ g' * g.toNat % (2 * 2 ^ n) = 1 ∧
      IsSwitchKey n rQ rP (rQ.subs.length - 1) (rP.subs.length - 1) (genSwitchingKeyForGalois rQ rP g sk tape) S
        (autInt (2 ^ n) g' S) E := by
  have R := K.rings
  have h1 := C25_inverse R.hQ g hg
  rw [R.hQ.deg] at h1
  have h2 : (rQ.inverseGaloisElement g).toNat % 2 = 1 := by
    have h3 : (rQ.inverseGaloisElement g).toNat * g.toNat % 2 = 1 := by
      have := congrArg (· % 2) h1
      simpa [Nat.mod_mul_right_mod] using this
    rw [Nat.mul_mod, hg, mul_one, Nat.mod_mod] at h3
    exact h3
  exact ⟨_, h2, h1, genrotKey_is K hs h2 ht⟩

/-- **C33 (rotation key).** The key for the rotation by `k` switches from `s` to `s(X^g')` where
`g'` is the inverse modulo `2N` of the Galois element `5^k` of that rotation. -/
theorem C33_rotation {sk : PolyQP} {S : ℕ → ℤ}
    (hs : sk.IsMont n rQ rP (rQ.subs.length - 1) (rP.subs.length - 1) S) (k : ℤ)
    {tape : ℕ → KeyTape} {E : ℕ → ℕ → ℤ}
    (ht : TapeOK n rQ rP (rQ.subs.length - 1) (rP.subs.length - 1) tape E) :
    ∃ g', g' % 2 = 1 ∧ g' * (rQ.galoisElementForColumnRotationBy k).toNat % (2 * 2 ^ n) = 1 ∧
      IsSwitchKey n rQ rP (rQ.subs.length - 1) (rP.subs.length - 1) (genSwitchingKeyForRotationBy rQ rP k sk tape) S
        (autInt (2 ^ n) g' S) E := by
  have R := K.rings
  refine ⟨_, (C25_rotation_odd R.hQ (-k)).1, ?_, genrotKey_is K hs (C25_rotation_odd R.hQ (-k)).1 ht⟩
  have h1 := C25_rotation_add R.hQ (-k) k
  have h2 := two_le_pow n
  rw [R.hQ.deg, neg_add_cancel] at h1
  rw [h1, galEl_eq R.hQ, Int.zero_emod, Int.toNat_zero, pow_zero, Nat.mod_eq_of_lt (by omega)]

/-- **C33 (row rotation key).** The key for the row rotation switches from `s` to `s(X^(2N-1))`. -/
theorem C33_rowRotation {sk : PolyQP} {S : ℕ → ℤ}
    (hs : sk.IsMont n rQ rP (rQ.subs.length - 1) (rP.subs.length - 1) S)
    {tape : ℕ → KeyTape} {E : ℕ → ℕ → ℤ}
    (ht : TapeOK n rQ rP (rQ.subs.length - 1) (rP.subs.length - 1) tape E) :
    ∃ key, genSwitchingKeyForRowRotation rQ rP sk tape = some key ∧
      IsSwitchKey n rQ rP (rQ.subs.length - 1) (rP.subs.length - 1) key S (autInt (2 ^ n) (2 * 2 ^ n - 1) S) E := by
  have R := K.rings
  obtain ⟨g, h1, h2, h3, h4⟩ := C25_row_rotation R.hQ
  have e := nthRoot_toNat R.hQ
  have h2' := two_le_pow n
  have hg : g.toNat = 2 * 2 ^ n - 1 := by
    rw [Ring.galoisElementForRowRotation, R.hQ.type, if_neg (by decide)] at h1
    rw [← Option.some.inj h1,
      UInt64.toNat_sub_of_le _ _ (UInt64.le_iff_toNat_le.2 (by rw [e]; show 1 ≤ _; omega)), e]
    show 2 ^ (n + 1) - 1 = _
    rw [show 2 * 2 ^ n = 2 ^ (n + 1) by ring]
  refine ⟨_, by unfold genSwitchingKeyForRowRotation; rw [h1]; rfl, ?_⟩
  rw [← hg]
  exact genrotKey_is K hs h3 ht

omit K in
theorem setFold (f : ℕ → Row) (z : Rows) (m : ℕ) (hm : m ≤ z.length) :
    ((List.range m).foldl (fun pool i => pool.set i (f i)) z).length = z.length ∧
    ∀ u, Rows.row ((List.range m).foldl (fun pool i => pool.set i (f i)) z) u = if u < m then f u else z.row u := by
  induction m with
  | zero => exact ⟨rfl, fun u => rfl⟩
  | succ m ih =>
    obtain ⟨i1, i2⟩ := ih (by omega)
    rw [List.range_succ, List.foldl_append]
    simp only [List.foldl_cons, List.foldl_nil]
    refine ⟨by rw [List.length_set, i1], fun u => ?_⟩
    rw [row_set _ _ (by rw [i1]; omega), i2]
    rcases lt_trichotomy u m with h | h | h
    · rw [if_neg (by omega), if_pos h, if_pos (by omega)]
    · rw [if_pos h, if_pos (by omega), h]
    · rw [if_neg (by omega), if_neg (by omega), if_neg (by omega)]

/-- the lift of a small secret to the primes above its level -/
theorem liftSecret_is {lIn lOut : ℕ} (hio : lIn < lOut) (hl : lOut < rQ.subs.length) {x : Rows} {S : ℕ → ℤ}
    (hx : PolyIs rQ lIn rQ.qs x (fun u k => rQ.nttVec n S u k * 2 ^ 64)) (hxl : lOut < x.length)
    (h0 : ∀ k < 2 ^ n, 2 * |S k| < rQ.qs 0) (hS : ∀ k < 2 ^ n, ∀ u ≤ lOut, |S k| ≤ rQ.qs u) :
    PolyIs rQ lOut rQ.qs (liftSecret rQ lIn lOut x) (fun u k => rQ.nttVec n S u k * 2 ^ 64) := by
  have R := K.rings
  have h4 := R.hQ.four_le
  have hp := List.length_pos_iff.2 R.hQ.ne_nil
  -- row 0 in coefficients
  have hc : PolyIs rQ 0 rQ.qs (rQ.invMformLvl 0 (rQ.invNttLvl 0 x (newPoly rQ.n rQ.subs.length))
      (rQ.invNttLvl 0 x (newPoly rQ.n rQ.subs.length))) (rQ.intVec S) := by
    have h1 : PolyIs rQ 0 (fun i => 2 * rQ.qs i) x (rQ.nttVec n (fun k => 2 ^ 64 * S k)) := by
      refine ⟨by omega, fun u hu => ?_⟩
      refine ((hx.row u (by omega)).mono (by unfold Ring.qs; omega)).congr (fun k _ => ?_)
      rw [nttVec_smul]
      push_cast
      ring
    have h2 := (invNttLvl_is R.hQ R.sQ hp h1 (p' := newPoly rQ.n rQ.subs.length) (by simp [newPoly]; omega)).is
    refine ⟨by rw [Ring.invMformLvl, length_writeLvl]; exact h2.lvl, fun u hu => ?_⟩
    rw [Ring.invMformLvl, row_writeLvl hu h2.lvl]
    have A := R.hQ.arithLvl hp u hu
    refine (invMformVec_is A (h2.row u hu)).congr (fun k _ => ?_)
    have := mul_rinv A.odd
    unfold Ring.intVec
    push_cast
    linear_combination (S k : ZMod (rQ.sub u).q.toNat) * this
  unfold liftSecret
  simp only
  set polQ := rQ.invMformLvl 0 (rQ.invNttLvl 0 x (newPoly rQ.n rQ.subs.length))
      (rQ.invNttLvl 0 x (newPoly rQ.n rQ.subs.length)) with hpq
  refine ⟨by simp; exact hxl, fun u hu => ?_⟩
  rw [row_mapIdx _ _ _ (by omega)]
  split
  · rename_i c
    have V := R.hQ.subAt (show u < rQ.subs.length by omega)
    have hlt := R.sQ _ (Ring.sub_mem (show u < rQ.subs.length by omega))
    have r0 := hc.row 0 le_rfl
    rw [R.hQ.deg] at r0 ⊢
    have key : ∀ k < 2 ^ n, (extendWord (rQ.sub 0).q (rQ.sub u).q ((polQ.row 0).at k)).toNat ≤ (rQ.sub u).q.toNat ∧
        ((extendWord (rQ.sub 0).q (rQ.sub u).q ((polQ.row 0).at k)).toNat : ZMod (rQ.sub u).q.toNat)
          = (S k : ZMod (rQ.sub u).q.toNat) := by
      intro k hk
      exact extendWord_is (R.hQ.subAt hp).odd (r0.lt k hk).le (r0.val k hk) (h0 k hk) (hS k hk u hu)
    have hy : RowIs (2 ^ n) (rQ.sub u).q.toNat ((rQ.sub u).q.toNat + 1)
        ((List.range (2 ^ n)).map fun j => extendWord (rQ.sub 0).q (rQ.sub u).q ((polQ.row 0).at j))
        (rQ.intVec S u) := by
      refine ⟨by simp, fun k hk => ?_, fun k hk => ?_⟩
      · rw [at_map_range _ _ hk]
        have := (key k hk).1
        omega
      · rw [zval, at_map_range _ _ hk]
        exact (key k hk).2
    exact mformVec_is V.arith (ntt_is V (by omega) hlt (by omega) hy)
  · exact hx.row u (by omega)

/-- **C33 (switching key between two secrets).** `GenSwitchingKey`, for secrets of the ring degree of the
parameters.  The output secret has levels `lOut`, `lP`; the input secret may have fewer primes (it is
then recovered from its first residue and must be small), as many or more. -/
theorem C33_genSwitchingKey {skIn skOut : PolyQP} {sIn sOut : ℕ → ℤ} {E : ℕ → ℕ → ℤ} {tape : ℕ → KeyTape}
    {lIn lOut lP : ℕ} (h1 : skIn.q.length = lIn + 1) (h2 : skOut.q.length = lOut + 1) (h3 : skOut.p.length = lP + 1)
    (hlI : lIn < rQ.subs.length) (hlO : lOut < rQ.subs.length) (hlP : lP < rP.subs.length)
    (hi : PolyIs rQ lIn rQ.qs skIn.q (fun u k => rQ.nttVec n sIn u k * 2 ^ 64))
    (hsm : lIn < lOut → ∀ k < 2 ^ n, 2 * |sIn k| < rQ.qs 0 ∧ ∀ u ≤ lOut, |sIn k| ≤ rQ.qs u)
    (ho : skOut.IsMont n rQ rP lOut lP sOut) (ht : TapeOK n rQ rP lOut lP tape E) :
    IsSwitchKey n rQ rP lOut lP (genSwitchingKey rQ rP skIn skOut tape) sIn sOut E := by
  unfold genSwitchingKey
  simp only [h1, h2, h3, Nat.add_sub_cancel]
  have hz : (newPoly rQ.n rQ.subs.length).length = rQ.subs.length := by simp [newPoly]
  obtain ⟨s1, s2⟩ := setFold (fun i => skIn.q.row i) (newPoly rQ.n rQ.subs.length) (lIn + 1) (by omega)
  have hpool : PolyIs rQ lIn rQ.qs ((List.range (lIn + 1)).foldl (fun pool i => pool.set i (skIn.q.row i))
      (newPoly rQ.n rQ.subs.length)) (fun u k => rQ.nttVec n sIn u k * 2 ^ 64) := by
    refine ⟨by rw [s1, hz]; exact hlI, fun u hu => ?_⟩
    rw [s2, if_pos (by omega)]
    exact hi.row u hu
  refine C33_switchingKey K hlO hlP ?_ ho ht
  split
  · rename_i c
    exact liftSecret_is K c hlO hpool (by rw [s1, hz]; exact hlO) (fun k hk => (hsm c k hk).1)
      (fun k hk => (hsm c k hk).2)
  · rename_i c
    exact ⟨by rw [s1, hz]; exact hlO, fun u hu => hpool.row u (by omega)⟩

end

end FastKsw.Props
