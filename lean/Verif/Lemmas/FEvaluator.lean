import Verif.Lemmas.CtEnc
import Verif.Model.FEvaluator
import Verif.Props.FKeys

/-!
# The fast evaluator: key-switching a component in the NTT domain
-/

namespace FastKsw

open Props Finset

/-- The key `bg` switches from `sIn` to `sOut` at level `levelQ`, with errors `e`: what `C27_keySwitched` gives. -/
def FSwitches (n : ℕ) (p : FParams) (ksw : FKeySwitcher) (levelQ : ℕ) (bg : FSwitchingKey × FSwitchingKey)
    (sIn sOut : ℕ → ℤ) (e : ℕ → ℕ → ℤ) : Prop :=
  ∀ (a : Rows) (x : ∀ u, Rq (2 ^ n) (p.ringQ.qs u)), EltIs n p.ringQ levelQ p.ringQ.qs false a x →
    ∀ c0 c1 : Rows, levelQ < c0.length → levelQ < c1.length →
    ∃ d0 d1, ksw.switchKey levelQ false a bg.1 bg.2 c0 c1 = some (d0, d1) ∧
      ∃ y0 y1, EltWritten n p.ringQ levelQ p.ringQ.qs false c0 d0 y0 ∧
        EltWritten n p.ringQ levelQ p.ringQ.qs false c1 d1 y1 ∧
        ∃ E, KeySwitched n p.ringQ p.ringP levelQ (p.alpha - 1) x y0 y1 sIn sOut e E

section
variable {fuel n : ℕ} {p : FParams} {ksw : FKeySwitcher} {kg : FKeyGenerator}

theorem fswitches_of_key (h : p.OK fuel n) (hF : p.Fits)
    (hov : p.alpha ≤ 16 ∨ ∀ t ≤ p.levelT, 10 * p.ringT.qs t + 2 ^ 15 ≤ 2 ^ 64)
    (hk : newFKeySwitcher fuel p = some ksw) (hg : newFKeyGenerator fuel p = some kg) {levelQ : ℕ}
    (hl : levelQ < p.ringQ.subs.length) {key : SwitchingKey} {sIn sOut : ℕ → ℤ} {e : ℕ → ℕ → ℤ}
    (hkey : IsSwitchKey n p.ringQ p.ringP p.maxLevel (p.alpha - 1) key sIn sOut e) :
    FSwitches n p ksw levelQ (kg.convertKey key) sIn sOut e := by
  intro a x ha c0 c1 hc0 hc1
  obtain ⟨d0, d1, h1, w0, w1, h2, h3, E, hE⟩ := C27_keySwitched h hF hov hk hg hl hkey (ha.polyIs h.hQ) hc0 hc1
  exact ⟨d0, d1, h1, _, _, h2.eltWritten h.hQ fun _ _ => rfl, h3.eltWritten h.hQ fun _ _ => rfl, E,
    hE.congr fun u hu => ha.eltOf h.hQ hu⟩

theorem fswitches_relin (h : p.OK fuel n) (hF : p.Fits)
    (hov : p.alpha ≤ 16 ∨ ∀ t ≤ p.levelT, 10 * p.ringT.qs t + 2 ^ 15 ≤ 2 ^ 64)
    (hk : newFKeySwitcher fuel p = some ksw) (hg : newFKeyGenerator fuel p = some kg) {levelQ : ℕ}
    (hl : levelQ < p.ringQ.subs.length) {sk : PolyQP} {S : ℕ → ℤ}
    (hs : sk.IsMont n p.ringQ p.ringP p.maxLevel (p.alpha - 1) S) {tape : ℕ → KeyTape} {e : ℕ → ℕ → ℤ}
    (ht : TapeOK n p.ringQ p.ringP p.maxLevel (p.alpha - 1) tape e) :
    FSwitches n p ksw levelQ (kg.genRelinKey sk tape) (negPow (2 ^ n) S 2) S e := by
  intro a x ha c0 c1 hc0 hc1
  obtain ⟨d0, d1, h1, w0, w1, h2, h3, E, hE⟩ := C27_relin h hF hov hk hg hl hs ht (ha.polyIs h.hQ) hc0 hc1
  exact ⟨d0, d1, h1, _, _, h2.eltWritten h.hQ fun _ _ => rfl, h3.eltWritten h.hQ fun _ _ => rfl, E,
    hE.congr fun u hu => ha.eltOf h.hQ hu⟩

theorem fswitches_rot (h : p.OK fuel n) (hF : p.Fits)
    (hov : p.alpha ≤ 16 ∨ ∀ t ≤ p.levelT, 10 * p.ringT.qs t + 2 ^ 15 ≤ 2 ^ 64)
    (hk : newFKeySwitcher fuel p = some ksw) (hg : newFKeyGenerator fuel p = some kg) {levelQ : ℕ}
    (hl : levelQ < p.ringQ.subs.length) {sk : PolyQP} {S : ℕ → ℤ}
    (hs : sk.IsMont n p.ringQ p.ringP p.maxLevel (p.alpha - 1) S) {tape : ℕ → KeyTape} {e : ℕ → ℕ → ℤ}
    (ht : TapeOK n p.ringQ p.ringP p.maxLevel (p.alpha - 1) tape e) (rot : ℤ) :
    ∃ g', g' % 2 = 1 ∧ g' * (p.ringQ.galoisElementForColumnRotationBy rot).toNat % (2 * 2 ^ n) = 1 ∧
    FSwitches n p ksw levelQ (kg.genRotKey rot sk tape).2 S (autInt (2 ^ n) g' S) e := by
  obtain ⟨g', hg1, hg2, hkey⟩ := C33_rotation (FParams.OK.keyParams h) hs (rot.tmod ((2 ^ n / 2 : ℕ) : ℤ)) ht
  rw [galEl_tmod h] at hg2
  rw [genRotKey_eq h hg]
  exact ⟨g', hg1, hg2, fswitches_of_key h hF hov hk hg hl hkey⟩

theorem ofInt_toInt64 {x : ℤ} (h1 : -2 ^ 63 ≤ x) (h2 : x < 2 ^ 63) : (UInt64.ofInt x).toInt64.toInt = x := by
  unfold UInt64.ofInt
  rw [UInt64.toInt64_ofNat', Int64.toInt_ofNat', Int.toNat_of_nonneg (by omega)]
  unfold Int64.size
  rw [Int.bmod_def]
  split <;> omega

/-- `Rotate` recovers the Galois element from the index stored in the key -/
theorem galEl_genRotKey (h : p.OK fuel n) (hg : newFKeyGenerator fuel p = some kg) (rot : ℤ) (sk : PolyQP)
    (tape : ℕ → KeyTape) :
    p.ringQ.galoisElementForColumnRotationBy (kg.genRotKey rot sk tape).1.toInt64.toInt
      = p.ringQ.galoisElementForColumnRotationBy rot := by
  rw [genRotKey_eq h hg]
  have h4 := h.hQ.four_le
  have hn := h.n_lt
  have h2 : (2 : ℕ) ^ n ≤ 2 ^ 61 := Nat.pow_le_pow_right (by norm_num) (by omega)
  have h3 : (2 : ℕ) ^ 4 ≤ 2 ^ n := Nat.pow_le_pow_right (by norm_num) h4
  have hpos : (0 : ℤ) < ((2 ^ n / 2 : ℕ) : ℤ) := by omega
  have b1 := Int.tmod_lt_of_pos rot hpos
  have b2 := Int.lt_tmod_of_pos rot hpos
  dsimp only
  rw [ofInt_toInt64 (by omega) (by omega)]
  exact UInt64.toNat_inj.1 (galEl_tmod h rot)

/-- a component in the NTT domain, switched and brought back to it -/
theorem switchNtt_elt (h : p.OK fuel n) {levelQ : ℕ} (hl : levelQ < p.ringQ.subs.length)
    {bg : FSwitchingKey × FSwitchingKey} {sIn sOut : ℕ → ℤ} {e : ℕ → ℕ → ℤ}
    (hsw : FSwitches n p ksw levelQ bg sIn sOut e) {A : ℕ → ℕ} (hA : ∀ u ≤ levelQ, A u ≤ 2 * p.ringQ.qs u) {c : Rows}
    {x : ∀ u, Rq (2 ^ n) (p.ringQ.qs u)} (hc : EltIs n p.ringQ levelQ A true c x) {pool : Rows}
    (hp : levelQ < pool.length) :
    ∃ d, ksw.switchKey levelQ false (p.ringQ.invNttLvl levelQ c pool) bg.1 bg.2 pool pool = some d ∧
      ∃ y0 y1, EltIs n p.ringQ levelQ p.ringQ.qs true (p.ringQ.nttLvl levelQ d.1 d.1) y0 ∧
        EltIs n p.ringQ levelQ p.ringQ.qs true (p.ringQ.nttLvl levelQ d.2 d.2) y1 ∧
        levelQ < (p.ringQ.nttLvl levelQ d.1 d.1).length ∧
        ∃ E, KeySwitched n p.ringQ p.ringP levelQ (p.alpha - 1) x y0 y1 sIn sOut e E := by
  obtain ⟨d0, d1, e1, y0, y1, w0, w1, E, hE⟩ := hsw _ _ (invNttLvl_elt h.hQ hl h.sQ hA hc hp).is pool pool hp hp
  have g0 := nttLvl_elt h.hQ hl h.sQ (fun u _ => by omega) w0.is (p' := d0) w0.is.lvl
  have g1 := nttLvl_elt h.hQ hl h.sQ (fun u _ => by omega) w1.is (p' := d1) w1.is.lvl
  exact ⟨(d0, d1), e1, y0, y1, g0.is, g1.is, g0.is.lvl, E, hE⟩

end

theorem permuteNTTLvl_elt {n : ℕ} {r : Ring} (hr : r.Valid n) {level : ℕ} (hl : level < r.subs.length) {p out : Rows}
    (ho : level < out.length) {gen : UInt64} (hg : gen.toNat % 2 = 1) {A : ℕ → ℕ} {x}
    (hp : EltIs n r level A true p x) :
    EltWritten n r level A true out (r.permuteNTTLvl level p gen out) (fun u => aut (2 ^ n) (r.qs u) hg (x u)) := by
  obtain ⟨w, h1, h2⟩ := C24_permuteNTT hr level hl p out ho gen hg A _ (hp.polyIs hr)
  exact h1.eltWritten hr fun u hu => (h2 u hu).trans (congrArg _ (hp.eltOf hr hu))

end FastKsw
