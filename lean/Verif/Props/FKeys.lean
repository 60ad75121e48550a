import Verif.Props.KeyGen
import Verif.Lemmas.KeySwitched

/-!
# C27 with generated keys

`C27_switchKey` (Props/FKeySwitch.lean) is about any key that meets the gadget relation; `C33` proves it
for generated keys.  Here the two are put together.
-/

namespace FastKsw.Props

open FastKsw Finset

theorem FParams.OK.keyParams {fuel n : ℕ} {p : FParams} (h : p.OK fuel n) : KeyParams n p.ringQ p.ringP := by
  have h1 := h.lenQ
  have h2 := h.lenP
  have h3 := h.alpha32
  exact ⟨⟨h.hQ, h.sQ, h.hP, h.sP, h.disjoint, by omega, by omega⟩, h.q100, by omega⟩

section
variable {fuel n : ℕ} {p : FParams} {ksw : FKeySwitcher} {kg : FKeyGenerator}

/-- **C27 (as a relation between ring elements).** The conclusion of `C27_switchKey` in the vocabulary
of `KeySwitched`; every output row is reduced and rows above the level are not touched. -/
theorem C27_keySwitched (h : p.OK fuel n) (hF : p.Fits)
    (hov : p.alpha ≤ 16 ∨ ∀ t ≤ p.levelT, 10 * p.ringT.qs t + 2 ^ 15 ≤ 2 ^ 64)
    (hk : newFKeySwitcher fuel p = some ksw) (hg : newFKeyGenerator fuel p = some kg) {levelQ : ℕ}
    (hl : levelQ < p.ringQ.subs.length) {key : SwitchingKey} {sIn sOut : ℕ → ℤ} {e : ℕ → ℕ → ℤ}
    (hkey : IsSwitchKey n p.ringQ p.ringP p.maxLevel (p.alpha - 1) key sIn sOut e)
    {a : Rows} {v : ∀ u, ℕ → ZMod (p.ringQ.sub u).q.toNat} (ha : PolyIs p.ringQ levelQ p.ringQ.qs a v)
    {c0 c1 : Rows} (hc0 : levelQ < c0.length) (hc1 : levelQ < c1.length) :
    ∃ d0 d1, ksw.switchKey levelQ false a (kg.convertKey key).1 (kg.convertKey key).2 c0 c1 = some (d0, d1) ∧
      ∃ w0 w1, PolyWritten p.ringQ levelQ p.ringQ.qs c0 d0 w0 ∧ PolyWritten p.ringQ levelQ p.ringQ.qs c1 d1 w1 ∧
      ∃ E, KeySwitched n p.ringQ p.ringP levelQ (p.alpha - 1) (fun u => toR _ _ (v u)) (fun u => toR _ _ (w0 u))
        (fun u => toR _ _ (w1 u)) sIn sOut e E := by
  have hlenP := h.lenP
  have haa : p.alpha - 1 + 1 = p.alpha := by unfold FParams.alpha; omega
  obtain ⟨d0, d1, h1, h2, h3, h4, A, Z0, Z1, E, hA, hZ0, hZ1, hE, hu⟩ :=
    C27_switchKey h hF hov hk hg hl hkey ha hc0 hc1
  refine ⟨d0, d1, h1, fun u => zval _ (d0.row u), fun u => zval _ (d1.row u), ?_, ?_, E, A, Z0, Z1, ?_, hZ0, hZ1, ?_, ?_⟩
  · refine ⟨⟨by omega, fun u hu' => ⟨?_, ?_, fun _ _ => rfl⟩⟩, h2, fun u hu' => (h4 u hu').1⟩
    · rw [h.hQ.deg]; exact (hu u hu').1
    · rw [h.hQ.deg]; exact fun k hk => ((hu u hu').2.2.1 k hk).1
  · refine ⟨⟨by omega, fun u hu' => ⟨?_, ?_, fun _ _ => rfl⟩⟩, h3, fun u hu' => (h4 u hu').2⟩
    · rw [h.hQ.deg]; exact (hu u hu').2.1
    · rw [h.hQ.deg]; exact fun k hk => ((hu u hu').2.2.1 k hk).2
  · intro i hi
    rw [haa] at hi ⊢
    have hib : i < (levelQ + p.alpha) / p.alpha := by
      rw [Nat.lt_div_iff_mul_lt (by omega)]
      have := Nat.mul_comm p.alpha i
      omega
    refine ⟨fun k hk => (hA i hib).near k (by rw [h.hQ.deg]; exact hk), fun u hu' hdiv => ?_⟩
    refine toR_congr (fun k hk => ?_)
    have hd := (Nat.div_eq_iff (by omega : 0 < p.alpha)).1 hdiv
    exact (hA i hib).cong k (by rw [h.hQ.deg]; exact hk) u (by omega) (by omega) (by omega)
  · rw [show levelQ + (p.alpha - 1) + 1 = levelQ + p.alpha by omega, haa]
    exact hE
  · intro u hu'
    have := (hu u hu').2.2.2
    have ea : rowR (2 ^ n) (p.ringQ.qs u) (a.row u) = toR (2 ^ n) (p.ringQ.qs u) (v u) := by
      have ra := ha.row u hu'
      rw [h.hQ.deg] at ra
      exact toR_congr ra.val
    rw [ea] at this
    exact this

/-- **C27 (relinearization).** `GenRelinKey` then `SwitchKey`: from `s^2` to `s`, for every secret key, mask,
error, level and input. -/
theorem C27_relin (h : p.OK fuel n) (hF : p.Fits)
    (hov : p.alpha ≤ 16 ∨ ∀ t ≤ p.levelT, 10 * p.ringT.qs t + 2 ^ 15 ≤ 2 ^ 64)
    (hk : newFKeySwitcher fuel p = some ksw) (hg : newFKeyGenerator fuel p = some kg) {levelQ : ℕ}
    (hl : levelQ < p.ringQ.subs.length) {sk : PolyQP} {S : ℕ → ℤ}
    (hs : sk.IsMont n p.ringQ p.ringP p.maxLevel (p.alpha - 1) S) {tape : ℕ → KeyTape} {e : ℕ → ℕ → ℤ}
    (ht : TapeOK n p.ringQ p.ringP p.maxLevel (p.alpha - 1) tape e)
    {a : Rows} {v : ∀ u, ℕ → ZMod (p.ringQ.sub u).q.toNat} (ha : PolyIs p.ringQ levelQ p.ringQ.qs a v)
    {c0 c1 : Rows} (hc0 : levelQ < c0.length) (hc1 : levelQ < c1.length) :
    ∃ d0 d1, ksw.switchKey levelQ false a (kg.genRelinKey sk tape).1 (kg.genRelinKey sk tape).2 c0 c1 = some (d0, d1) ∧
      ∃ w0 w1, PolyWritten p.ringQ levelQ p.ringQ.qs c0 d0 w0 ∧ PolyWritten p.ringQ levelQ p.ringQ.qs c1 d1 w1 ∧
      ∃ E, KeySwitched n p.ringQ p.ringP levelQ (p.alpha - 1) (fun u => toR _ _ (v u)) (fun u => toR _ _ (w0 u))
        (fun u => toR _ _ (w1 u)) (negPow (2 ^ n) S 2) S e E := by
  have hkey := C33_relinearization (FParams.OK.keyParams h) hs (maxDegree := 1) (i := 0) (by omega)
    (tape := fun _ => tape) ht
  unfold FKeyGenerator.genRelinKey
  rw [(kg_ok h hg).params]
  exact C27_keySwitched h hF hov hk hg hl hkey ha hc0 hc1

theorem galEl_tmod (h : p.OK fuel n) (rot : ℤ) :
    (p.ringQ.galoisElementForColumnRotationBy (rot.tmod ((2 ^ n / 2 : ℕ) : ℤ))).toNat
      = (p.ringQ.galoisElementForColumnRotationBy rot).toNat := by
  set N2 : ℤ := ((2 ^ n / 2 : ℕ) : ℤ) with hN2
  have h1 : rot = rot.tmod N2 + N2 * rot.tdiv N2 := (Int.tmod_add_mul_tdiv _ _).symm
  have h2 : (p.ringQ.galoisElementForColumnRotationBy (N2 * rot.tdiv N2)).toNat = 1 := by
    rw [C25_rotation_period h.hQ, h.hQ.deg]
    exact Int.dvd_mul_right _ _
  have h3 := C25_rotation_add h.hQ (rot.tmod N2) (N2 * rot.tdiv N2)
  rw [← h1, h2, mul_one, Nat.mod_eq_of_lt (C25_rotation_odd h.hQ _).2] at h3
  exact h3

theorem genRotKey_eq (h : p.OK fuel n) (hg : newFKeyGenerator fuel p = some kg) (rot : ℤ) (sk : PolyQP)
    (tape : ℕ → KeyTape) : kg.genRotKey rot sk tape = (UInt64.ofInt (rot.tmod ((2 ^ n / 2 : ℕ) : ℤ)),
      kg.convertKey (genSwitchingKeyForRotationBy p.ringQ p.ringP (rot.tmod ((2 ^ n / 2 : ℕ) : ℤ)) sk tape)) := by
  unfold FKeyGenerator.genRotKey
  rw [(kg_ok h hg).params, h.hQ.deg]

/-- **C27 (rotation).** `GenRotKey` then `SwitchKey`: from `s` to `s(X^g')` with `g'` the inverse modulo `2N` of
the Galois element of the rotation; the index is first reduced modulo `N/2`, which does not change that
element. -/
theorem C27_rotation (h : p.OK fuel n) (hF : p.Fits)
    (hov : p.alpha ≤ 16 ∨ ∀ t ≤ p.levelT, 10 * p.ringT.qs t + 2 ^ 15 ≤ 2 ^ 64)
    (hk : newFKeySwitcher fuel p = some ksw) (hg : newFKeyGenerator fuel p = some kg) {levelQ : ℕ}
    (hl : levelQ < p.ringQ.subs.length) {sk : PolyQP} {S : ℕ → ℤ}
    (hs : sk.IsMont n p.ringQ p.ringP p.maxLevel (p.alpha - 1) S) {tape : ℕ → KeyTape} {e : ℕ → ℕ → ℤ}
    (ht : TapeOK n p.ringQ p.ringP p.maxLevel (p.alpha - 1) tape e) (rot : ℤ)
    {a : Rows} {v : ∀ u, ℕ → ZMod (p.ringQ.sub u).q.toNat} (ha : PolyIs p.ringQ levelQ p.ringQ.qs a v)
    {c0 c1 : Rows} (hc0 : levelQ < c0.length) (hc1 : levelQ < c1.length) :
    ∃ g', g' % 2 = 1 ∧ g' * (p.ringQ.galoisElementForColumnRotationBy rot).toNat % (2 * 2 ^ n) = 1 ∧
    ∃ d0 d1, ksw.switchKey levelQ false a (kg.genRotKey rot sk tape).2.1 (kg.genRotKey rot sk tape).2.2 c0 c1
        = some (d0, d1) ∧
      ∃ w0 w1, PolyWritten p.ringQ levelQ p.ringQ.qs c0 d0 w0 ∧ PolyWritten p.ringQ levelQ p.ringQ.qs c1 d1 w1 ∧
      ∃ E, KeySwitched n p.ringQ p.ringP levelQ (p.alpha - 1) (fun u => toR _ _ (v u)) (fun u => toR _ _ (w0 u))
        (fun u => toR _ _ (w1 u)) S (autInt (2 ^ n) g' S) e E := by
  obtain ⟨g', hg1, hg2, hkey⟩ := C33_rotation (FParams.OK.keyParams h) hs (rot.tmod ((2 ^ n / 2 : ℕ) : ℤ)) ht
  rw [galEl_tmod h] at hg2
  refine ⟨g', hg1, hg2, ?_⟩
  rw [genRotKey_eq h hg]
  exact C27_keySwitched h hF hov hk hg hl hkey ha hc0 hc1

/-- **C27 (size of the error).** The error of a key switch, classical or fast: if the digit blocks have product
at most `M`, the key errors are at most `Be` and the target secret at most `Bs`, then
`P |E| ≤ (1 + 2^-42) (beta N M Be + P (1 + N Bs))`. -/
theorem C27_noise {n : ℕ} {rQ rP : Ring} {lQ lP : ℕ} {a d0 d1 : ∀ u, Rq (2 ^ n) (rQ.qs u)}
    {sIn sOut : ℕ → ℤ} {e : ℕ → ℕ → ℤ} {E : ℕ → ℤ} (h : KeySwitched n rQ rP lQ lP a d0 d1 sIn sOut e E)
    {M : ℕ} {Be Bs : ℤ} (hM : ∀ i, i * (lP + 1) ≤ lQ → rQ.blockQ (lP + 1) (lQ + 1) i ≤ M)
    (he : ∀ i, i * (lP + 1) ≤ lQ → ∀ k < 2 ^ n, |e i k| ≤ Be) (hs : ∀ k < 2 ^ n, |sOut k| ≤ Bs) {k : ℕ}
    (hk : k < 2 ^ n) :
    2 ^ 42 * (rP.prodQ lP * |E k|) ≤ (2 ^ 42 + 1) *
      (((lQ + lP + 1) / (lP + 1) : ℕ) * (2 ^ n * (M * Be)) + rP.prodQ lP * (1 + 2 ^ n * Bs)) :=
  h.noise hM he hs hk

end

/-! ## A concrete parameter set -/

set_option maxRecDepth 1000000 in
theorem exampleF_isSome : (newFParams 100 4 [97, 193, 641] [257, 353] [449, 577, 673, 769, 1153] 5
    0x4009999999999999 2).isSome = true := by decide +kernel

theorem sub_of_moduli {r : Ring} {l : List UInt64} (h : r.moduli = l) (u : ℕ) (x : UInt64) (hx : l[u]? = some x) :
    (r.sub u).q = x := by
  have h1 : u < r.subs.length := by
    have := (List.getElem?_eq_some_iff.1 hx).1
    rw [← h, Ring.moduli, List.length_map] at this
    exact this
  rw [← h, Ring.moduli, List.getElem?_map] at hx
  simp only [Ring.sub, List.getD]
  cases hs : r.subs[u]? with
  | none => rw [hs] at hx; cases hx
  | some s => rw [hs] at hx; cases hx; rfl

/-- the parameter set `N = 16`, `Q = 97·193·641`, `P = 257·353`, `T = 449·577·673·769·1153`, `gamma = 2` is
accepted, `T` is large enough, and the constructors succeed -/
theorem exampleF : ∃ fp ksw kg, newFParams 100 4 [97, 193, 641] [257, 353] [449, 577, 673, 769, 1153] 5
      0x4009999999999999 2 = some fp ∧ fp.OK 100 4 ∧ fp.Fits ∧ fp.alpha ≤ 16 ∧
    newFKeySwitcher 100 fp = some ksw ∧ newFKeyGenerator 100 fp = some kg ∧
    fp.ringQ.moduli = [97, 193, 641] ∧ fp.ringP.moduli = [257, 353] := by
  obtain ⟨fp, hfp⟩ := Option.isSome_iff_exists.1 exampleF_isSome
  obtain ⟨h, hQ, hP, hT, hR, hg⟩ := C26_params hfp (by decide) (by decide) (by decide) (by decide) (by decide)
    (by decide) (by decide)
  obtain ⟨⟨ksw, hk, -⟩, ⟨kg, hkg, -⟩⟩ := C26_constructors h
  have lQ : fp.ringQ.subs.length = 3 := by simpa [Ring.moduli] using congrArg List.length hQ
  have lP : fp.ringP.subs.length = 2 := by simpa [Ring.moduli] using congrArg List.length hP
  have lT : fp.ringT.subs.length = 5 := by simpa [Ring.moduli] using congrArg List.length hT
  have lR : fp.ringR.subs.length = 5 := by simpa [Ring.moduli] using congrArg List.length hR
  have ha : fp.alpha = 2 := lP
  have hn : fp.ringQ.n = 16 := h.hQ.deg
  refine ⟨fp, ksw, kg, hfp, h, ?_, by omega, hk, hkg, hQ, hP⟩
  intro i j hi hj
  rw [ha, lQ] at hi
  rw [hg, lR] at hj
  have q0 := sub_of_moduli hQ 0 97 rfl
  have q1 := sub_of_moduli hQ 1 193 rfl
  have q2 := sub_of_moduli hQ 2 641 rfl
  have r0 := sub_of_moduli hR 0 257 rfl
  have r1 := sub_of_moduli hR 1 353 rfl
  have r2 := sub_of_moduli hR 2 97 rfl
  have r3 := sub_of_moduli hR 3 193 rfl
  have r4 := sub_of_moduli hR 4 641 rfl
  have t0 := sub_of_moduli hT 0 449 rfl
  have t1 := sub_of_moduli hT 1 577 rfl
  have t2 := sub_of_moduli hT 2 673 rfl
  have t3 := sub_of_moduli hT 3 769 rfl
  have t4 := sub_of_moduli hT 4 1153 rfl
  have hi' : i < 2 := by omega
  have hj' : j < 3 := by omega
  unfold FParams.levelT
  rw [ha, hg, lQ, lR, lT, hn]
  unfold Ring.blockQ Ring.prodQ
  interval_cases i <;> interval_cases j <;> simp [prod_range_succ, q0, q1, q2, r0, r1, r2, r3, r4, t0, t1, t2, t3, t4]

/-- a tape: masks zero, all errors `1 - 3 X + 2 X^2` -/
theorem exists_tape {n : ℕ} {rQ rP : Ring} (K : KeyParams n rQ rP) {lQ lP : ℕ} (hQ : lQ < rQ.subs.length)
    (hP : lP < rP.subs.length) {E : ℕ → ℤ} (h0 : ∀ k < 2 ^ n, 2 * |E k| < rQ.qs 0)
    (hE : ∀ k < 2 ^ n, ∀ u ≤ lP, |E k| ≤ rP.qs u) :
    ∃ tape, TapeOK n rQ rP lQ lP tape (fun _ => E) := by
  have R := K.rings
  obtain ⟨e, he⟩ := exists_poly R.hQ hQ E
  obtain ⟨aq, haq⟩ := exists_poly R.hQ hQ (fun k => k)
  obtain ⟨ap, hap⟩ := exists_poly R.hP hP (fun k => k)
  refine ⟨fun _ => ⟨e, ⟨aq, ap⟩⟩, fun i _ => ⟨_, _, haq, hap⟩, fun i _ => ⟨he.mono (fun u _ => by omega), ?_⟩,
    fun i _ => hE⟩
  rw [R.hQ.deg]
  exact h0

/-- ternary secret of the example -/
def exampleS (k : ℕ) : ℤ := if k % 3 = 0 then 1 else if k % 3 = 1 then -1 else 0

/-- keys for the parameter set of `exampleF`: the secret `exampleS`, and errors `2 - k % 5` -/
theorem exampleKeys : ∃ (fp : FParams) (ksw : FKeySwitcher) (kg : FKeyGenerator) (s : Rows) (tape : ℕ → KeyTape),
    newFParams 100 4 [97, 193, 641] [257, 353] [449, 577, 673, 769, 1153] 5 0x4009999999999999 2 = some fp ∧
    fp.OK 100 4 ∧ fp.Fits ∧ fp.alpha = 2 ∧ fp.ringQ.subs.length = 3 ∧
    newFKeySwitcher 100 fp = some ksw ∧ newFKeyGenerator 100 fp = some kg ∧
    fp.ringQ.moduli = [97, 193, 641] ∧ fp.ringP.moduli = [257, 353] ∧
    Sampled fp.ringQ fp.maxLevel s exampleS ∧
    (genSecretKey fp.ringQ fp.ringP s).IsMont 4 fp.ringQ fp.ringP fp.maxLevel (fp.alpha - 1) exampleS ∧
    TapeOK 4 fp.ringQ fp.ringP fp.maxLevel (fp.alpha - 1) tape (fun _ k => 2 - k % 5) := by
  obtain ⟨fp, ksw, kg, h1, h, hF, hal, hk, hg, hQ, hP⟩ := exampleF
  have K := FParams.OK.keyParams h
  have lQ : fp.ringQ.subs.length = 3 := by simpa [Ring.moduli] using congrArg List.length hQ
  have lP : fp.ringP.subs.length = 2 := by simpa [Ring.moduli] using congrArg List.length hP
  have ha : fp.alpha = 2 := lP
  have q0 := sub_of_moduli hQ 0 97 rfl
  have p0 := sub_of_moduli hP 0 257 rfl
  have p1 := sub_of_moduli hP 1 353 rfl
  have bS : ∀ k, |exampleS k| ≤ 1 := by
    intro k
    simp only [exampleS]
    split
    · norm_num
    · split <;> norm_num
  have bE : ∀ k : ℕ, |(2 - (k : ℤ) % 5)| ≤ 2 := by
    intro k
    rw [abs_le]
    omega
  have hpu : ∀ u < fp.ringP.subs.length, 200 < fp.ringP.qs u := by
    intro u hu
    rcases (by omega : u = 0 ∨ u = 1) with rfl | rfl
    · show 200 < (fp.ringP.sub 0).q.toNat
      rw [p0]; decide
    · show 200 < (fp.ringP.sub 1).q.toNat
      rw [p1]; decide
  have hq0 : fp.ringQ.qs 0 = 97 := by unfold Ring.qs; rw [q0]; rfl
  obtain ⟨s, hs⟩ := exists_poly h.hQ (level := fp.maxLevel) (by unfold FParams.maxLevel; omega) exampleS
  have hsam : Sampled fp.ringQ fp.maxLevel s exampleS := by
    refine ⟨hs.mono (fun u _ => by omega), fun k _ => ?_⟩
    have := bS k
    rw [hq0]
    omega
  have hsk := C33_secretKey K hsam (fun k _ u hu => by
    have := bS k
    have := hpu u hu
    omega)
  obtain ⟨tape, ht⟩ := exists_tape K (lQ := fp.maxLevel) (lP := fp.alpha - 1) (E := fun k => 2 - k % 5)
    (by unfold FParams.maxLevel; omega) (by omega)
    (fun k _ => by have := bE k; rw [hq0]; omega)
    (fun k _ u hu => by have := bE k; have := hpu u (by omega); omega)
  exact ⟨fp, ksw, kg, s, tape, h1, h, hF, ha, lQ, hk, hg, hQ, hP, hsam, hsk, ht⟩

/-- the hypotheses of C26, C27, C29 and C33 are met: a secret key and a relinearization key are generated
for that parameter set and an input with non-zero coefficients at level 1 is switched -/
example : ∃ (fp : FParams) (ksw : FKeySwitcher) (kg : FKeyGenerator) (s : Rows) (tape : ℕ → KeyTape) (a d0 d1 : Rows)
    (w0 w1 : ∀ u, ℕ → ZMod (fp.ringQ.sub u).q.toNat) (E : ℕ → ℤ),
    newFParams 100 4 [97, 193, 641] [257, 353] [449, 577, 673, 769, 1153] 5 0x4009999999999999 2 = some fp ∧
    newFKeySwitcher 100 fp = some ksw ∧ newFKeyGenerator 100 fp = some kg ∧
    Sampled fp.ringQ fp.maxLevel s exampleS ∧
    (let rlk := kg.genRelinKey (genSecretKey fp.ringQ fp.ringP s) tape
     ksw.switchKey 1 false a rlk.1 rlk.2 (newPoly 16 3) (newPoly 16 3) = some (d0, d1)) ∧
    KeySwitched 4 fp.ringQ fp.ringP 1 1 (fun u => toR _ _ (fp.ringQ.intVec (fun k => 7 * k + 5) u))
      (fun u => toR _ _ (w0 u)) (fun u => toR _ _ (w1 u)) (negPow 16 exampleS 2) exampleS (fun _ k => 2 - k % 5) E := by
  obtain ⟨fp, ksw, kg, s, tape, h1, h, hF, ha, lQ, hk, hg, hQ, hP, hsam, hsk, ht⟩ := exampleKeys
  obtain ⟨a, hAA⟩ := exists_poly h.hQ (level := 1) (by omega) (fun k => 7 * k + 5)
  obtain ⟨d0, d1, e1, w0, w1, -, -, E, hE⟩ := C27_relin h hF (Or.inl (by omega)) hk hg (levelQ := 1) (by omega) hsk ht hAA
    (c0 := newPoly 16 3) (c1 := newPoly 16 3) (by simp [newPoly]) (by simp [newPoly])
  refine ⟨fp, ksw, kg, s, tape, a, d0, d1, w0, w1, E, h1, hk, hg, hsam, e1, ?_⟩
  rw [ha] at hE
  exact hE

end FastKsw.Props
