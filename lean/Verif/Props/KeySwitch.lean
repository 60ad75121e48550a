import Verif.Lemmas.Classic
import Verif.Props.FKeys

/-!
# C23, C28: gadget decomposition and the classical key-switch of `rlwe`
-/

namespace FastKsw.Props

open Finset

/-- Sizes for which a digit cannot overflow a word: at most 16 special primes, or moduli below
`(2^64 - 2^15)/10`. -/
def DigitRoom (rQ rP : Ring) (lQ lP : ℕ) : Prop :=
  lP < 16 ∨ (∀ u ≤ lQ, 10 * rQ.qs u + 2 ^ 15 ≤ 2 ^ 64) ∧ ∀ u ≤ lP, 10 * rP.qs u + 2 ^ 15 ≤ 2 ^ 64

section
variable {n : ℕ} {rQ rP : Ring} {lQ lP : ℕ} (K : KeyRings n rQ rP lQ lP) (hq : rQ.subs.length ≤ 2 ^ 20)
  (hp : rP.subs.length ≤ 2 ^ 20) (h32 : lP < 32)
include K hq hp h32

/-- **C23.** `DecomposeAndSplit` at level `lQ`, block `i` of `lP + 1` primes: the digit is one integer
polynomial `Z`, within `2^-42` of `[0, ∏ block)`, congruent to the input modulo every prime of the block, and
the rows written over `Q` and `P` are the residues of `Z` modulo all those primes; rows above the levels
are unchanged. -/
theorem C23_decomposeAndSplit {i : ℕ} (hi : i * (lP + 1) ≤ lQ) {p0 : Rows}
    {v : ∀ u, ℕ → ZMod (rQ.sub u).q.toNat} (h0 : PolyIs rQ lQ rQ.qs p0 v) {p1 : PolyQP}
    (h1 : lQ < p1.q.length) (h2 : lP < p1.p.length) :
    ∃ Z : ℕ → ℤ, (∀ k < rQ.n, NearRep (rQ.blockQ (lP + 1) (lQ + 1) i) (Z k)) ∧
      (∀ k < rQ.n, ∀ u ≤ lQ, u / (lP + 1) = i → ((Z k : ℤ) : ZMod (rQ.sub u).q.toNat) = v u k) ∧
      PolyWritten rQ lQ (fun u => max (6 * rQ.qs u) (2 ^ 61)) p1.q
        ((newDecomposer rQ rP).decomposeAndSplit lQ lP (lP + 1) i p0 p1).q
        (fun u k => ((Z k : ℤ) : ZMod (rQ.sub u).q.toNat)) ∧
      PolyWritten rP lP (fun u => max (6 * rP.qs u) (2 ^ 61)) p1.p
        ((newDecomposer rQ rP).decomposeAndSplit lQ lP (lP + 1) i p0 p1).p
        (fun u k => ((Z k : ℤ) : ZMod (rP.sub u).q.toNat)) := by
  have hlQ := K.lQ
  obtain ⟨Z, hZ, hw⟩ := decomposeAndSplit_is K hq hp h32 hi h0
  obtain ⟨w1, w2⟩ := hw p1 h1 h2
  have hq0 : rQ.qs (i * (lP + 1)) < 2 ^ 61 := K.sQ _ (Ring.sub_mem (by omega))
  have hb : ∀ q, splitBound (lP + 1) lQ i (rQ.qs (i * (lP + 1))) q ≤ max (6 * q) (2 ^ 61) := by
    intro q
    unfold splitBound
    split
    · omega
    · have : ((blockLen (lP + 1) (lQ + 1) i + 7) / 8 + 2) * q ≤ 6 * q :=
        Nat.mul_le_mul_right _ (by unfold blockLen; omega)
      omega
  refine ⟨Z, hZ.near, fun k hk u hu hui => ?_, ⟨w1.is.mono (fun u _ => hb _), w1.len, w1.above⟩,
    ⟨w2.is.mono (fun u _ => hb _), w2.len, w2.above⟩⟩
  have h1 := Nat.div_add_mod u (lP + 1)
  have h2 := Nat.mod_lt u (show 0 < lP + 1 by omega)
  rw [hui, Nat.mul_comm] at h1
  exact hZ.cong k hk u (by omega) (by omega) (by omega)

/-- **C23, in NTT form.** All digits of `DecomposeNTT`, for an input in either form: each is the lazy
transform of an integer polynomial as above, and with the gadget `g_i` (`P` modulo the primes of block `i`, `0`
modulo the others), `∑_i digit_i g_i = P a`. -/
theorem C23_decomposeNTT (hov : DigitRoom rQ rP lQ lP) (isNTT : Bool) {c2 : Rows}
    {w : ∀ u, ℕ → ZMod (rQ.sub u).q.toNat} (hc : PolyIs rQ lQ rQ.qs c2 w) :
    let dig := (newKeySwitcher rQ rP).decomposeNTT lQ lP (lP + 1) isNTT c2
    dig.length = (lQ + lP + 1) / (lP + 1) ∧
    ∃ A : ℕ → ℕ → ℤ,
      (∀ i < dig.length,
        (∀ k < 2 ^ n, NearRep (rQ.blockQ (lP + 1) (lQ + 1) i) (A i k)) ∧
        PolyIs rQ lQ (fun u => digitBound (lP + 1) (rQ.qs u)) (dig.getD i default).q (rQ.nttVec n (A i)) ∧
        PolyIs rP lP (fun u => digitBound (lP + 1) (rP.qs u)) (dig.getD i default).p (rP.nttVec n (A i)) ∧
        ∀ u ≤ lQ, u / (lP + 1) = i → intR (2 ^ n) (rQ.qs u) (A i) = rQ.elt n isNTT c2 u) ∧
      ∀ u ≤ lQ, ∑ i ∈ range dig.length, intR (2 ^ n) (rQ.qs u) (A i)
          * (if u / (lP + 1) = i then (rP.prodQ lP : Rq (2 ^ n) (rQ.qs u)) else 0)
        = (rP.prodQ lP : Rq (2 ^ n) (rQ.qs u)) * rQ.elt n isNTT c2 u := by
  intro dig
  have hlQ := K.lQ
  have hce := ceil_lvl K hq hp
  have hlen : dig.length = (lQ + lP + 1) / (lP + 1) := by
    show ((List.range _).map _).length = _
    rw [List.length_map, List.length_range, hce]
  have hbl : ∀ i, i < dig.length ↔ i * (lP + 1) ≤ lQ := fun i => by
    rw [hlen, show lQ + lP + 1 = (lQ + 1) + (lP + 1) - 1 by omega, ceil_block (by omega)]
    omega
  obtain ⟨v, A, b3, hA⟩ := digits_is K hq hp h32 hov isNTT hc
  refine ⟨hlen, A, fun i hi => ?_, fun u hu => ?_⟩
  · obtain ⟨h1, h2, h3⟩ := hA i ((hbl i).1 hi)
    exact ⟨fun k hk => h1.near k (by rw [K.hQ.deg]; exact hk), h2, h3,
      fun u hu hui => (blockRep_intR K.hQ h1 hu hui).trans (b3 u hu)⟩
  have hi : u / (lP + 1) < dig.length := by
    rw [hbl]
    have := Nat.div_mul_le_self u (lP + 1)
    omega
  simp only [mul_ite, mul_zero]
  rw [sum_ite_eq, if_pos (mem_range.2 hi), blockRep_intR K.hQ (hA _ ((hbl _).1 hi)).1 hu rfl, b3 u hu, mul_comm]

variable {evk : SwitchingKey} {sIn sOut : ℕ → ℤ} {e : ℕ → ℕ → ℤ} {lK : ℕ} (hal : evk.alpha = lP + 1)
  (hkey : IsSwitchKey n rQ rP lK lP evk sIn sOut e) (hlK : lQ ≤ lK) (hov : DigitRoom rQ rP lQ lP)
include hal hkey hlK hov

/-- **C28, before the division by `P`.** `SwitchKeysInPlaceNoModDown`: the outputs hold integer polynomials
`X0`, `X1` in NTT form, reduced, with `X0 + X1 sOut = P a sIn + ∑ digit_i e_i` modulo the primes of `Q` and
`X0 + X1 sOut = ∑ digit_i e_i` modulo those of `P`. -/
theorem C28_noModDown (isNTT : Bool) {cx : Rows} {w : ∀ u, ℕ → ZMod (rQ.sub u).q.toNat}
    (hc : PolyIs rQ lQ rQ.qs cx w) {c0 c1 : PolyQP} (h0q : lQ < c0.q.length) (h0p : lP < c0.p.length)
    (h1q : lQ < c1.q.length) (h1p : lP < c1.p.length) :
    let d := (newKeySwitcher rQ rP).switchKeysNoModDown lQ isNTT cx evk c0 c1
    ∃ (A : ℕ → ℕ → ℤ) (X0 X1 : ℕ → ℤ),
      (∀ i, i * (lP + 1) ≤ lQ → (∀ k < 2 ^ n, NearRep (rQ.blockQ (lP + 1) (lQ + 1) i) (A i k)) ∧
        ∀ u ≤ lQ, u / (lP + 1) = i → intR (2 ^ n) (rQ.qs u) (A i) = rQ.elt n isNTT cx u) ∧
      PolyWritten rQ lQ rQ.qs c0.q d.1.q (rQ.nttVec n X0) ∧ PolyWritten rP lP rP.qs c0.p d.1.p (rP.nttVec n X0) ∧
      PolyWritten rQ lQ rQ.qs c1.q d.2.q (rQ.nttVec n X1) ∧ PolyWritten rP lP rP.qs c1.p d.2.p (rP.nttVec n X1) ∧
      (∀ u ≤ lQ, intR (2 ^ n) (rQ.qs u) X0 + intR (2 ^ n) (rQ.qs u) X1 * intR (2 ^ n) (rQ.qs u) sOut
        = (rP.prodQ lP : Rq (2 ^ n) (rQ.qs u)) * rQ.elt n isNTT cx u * intR (2 ^ n) (rQ.qs u) sIn
          + intR (2 ^ n) (rQ.qs u) (convSum (2 ^ n) ((lQ + lP + 1) / (lP + 1)) A e)) ∧
      ∀ u ≤ lP, intR (2 ^ n) (rP.qs u) X0 + intR (2 ^ n) (rP.qs u) X1 * intR (2 ^ n) (rP.qs u) sOut
        = intR (2 ^ n) (rP.qs u) (convSum (2 ^ n) ((lQ + lP + 1) / (lP + 1)) A e) := by
  intro d
  have hb := ceil_lvl K hq hp
  obtain ⟨v, A, b3, hA⟩ := digits_is K hq hp h32 hov isNTT hc
  obtain ⟨⟨X0, X1, w1, w2, w3, w4, g1, g2⟩, -⟩ := classic_core K h32 hov rfl (hkey.mono hlK) hA h0q h0p h1q h1p
  have e1 : d = _ := (switchKeysNoModDown_eq hal hb isNTT cx c0 c1).trans (hoistedNoModDown_eq hal hb _ c0 c1)
  rw [e1]
  refine ⟨A, X0, X1, fun i hi => ⟨fun k hk => (hA i hi).1.near k (by rw [K.hQ.deg]; exact hk),
    fun u hu hui => (blockRep_intR K.hQ (hA i hi).1 hu hui).trans (b3 u hu)⟩, w1, w2, w3, w4,
    fun u hu => ?_, g2⟩
  rw [← b3 u hu]
  exact g1 u hu

/-- **C28.** `SwitchKeysInPlace` at any level not above that of the key, for an input in NTT or in coefficient
form: the outputs, in the same form and reduced, satisfy the key-switching relation
`p0 + p1 sOut = cx sIn + E` with `P E = ∑ digit_i e_i - rounding`, and rows above the level are
unchanged. -/
theorem C28_switchKeys (isNTT : Bool) {cx p0 p1 : Rows} {w : ∀ u, ℕ → ZMod (rQ.sub u).q.toNat}
    (hc : PolyIs rQ lQ rQ.qs cx w) (h0 : lQ < p0.length) (h1 : lQ < p1.length) :
    let d := (newKeySwitcher rQ rP).switchKeysInPlace lQ isNTT cx evk p0 p1
    (∃ E, KeySwitched n rQ rP lQ lP (rQ.elt n isNTT cx) (rQ.elt n isNTT d.1) (rQ.elt n isNTT d.2) sIn sOut e E) ∧
    ∃ y0 y1, PolyWritten rQ lQ rQ.qs p0 d.1 y0 ∧ PolyWritten rQ lQ rQ.qs p1 d.2 y1 := by
  intro d
  have hb := ceil_lvl K hq hp
  have hnp : lP < (newPoly rP.n rP.subs.length).length := by rw [length_newPoly]; exact K.lP
  obtain ⟨v, A, b3, hA⟩ := digits_is K hq hp h32 hov isNTT hc
  obtain ⟨-, hcore⟩ := classic_core K h32 hov rfl (hkey.mono hlK) hA
    (c0 := ⟨p0, newPoly rP.n rP.subs.length⟩) (c1 := ⟨p1, newPoly rP.n rP.subs.length⟩) h0 hnp h1 hnp
  obtain ⟨Y0, Y1, E, w0, w1, hE⟩ := hcore isNTT
  have e1 : d = _ := switchKeysInPlace_eq hal hb isNTT cx p0 p1
  rw [switchKeysNoModDown_eq hal hb, hoistedNoModDown_eq hal hb] at e1
  rw [e1]
  exact ⟨⟨E, hE.congr b3⟩, _, _, w0, w1⟩

/-- **C28, hoisted.** `KeyswitchHoisted` on the digits of `DecomposeNTT` of a polynomial in either form: the
outputs, in NTT form, satisfy the same relation. -/
theorem C28_hoisted (isNTT : Bool) {cx : Rows} {w : ∀ u, ℕ → ZMod (rQ.sub u).q.toNat}
    (hc : PolyIs rQ lQ rQ.qs cx w) {c0 c1 : PolyQP} (h0q : lQ < c0.q.length) (h0p : lP < c0.p.length)
    (h1q : lQ < c1.q.length) (h1p : lP < c1.p.length) :
    let d := (newKeySwitcher rQ rP).hoisted lQ ((newKeySwitcher rQ rP).decomposeNTT lQ lP (lP + 1) isNTT cx) evk c0 c1
    (∃ E, KeySwitched n rQ rP lQ lP (rQ.elt n isNTT cx) (rQ.elt n true d.1) (rQ.elt n true d.2) sIn sOut e E) ∧
    ∃ y0 y1, PolyWritten rQ lQ rQ.qs c0.q d.1 y0 ∧ PolyWritten rQ lQ rQ.qs c1.q d.2 y1 := by
  intro d
  have hb := ceil_lvl K hq hp
  obtain ⟨v, A, b3, hA⟩ := digits_is K hq hp h32 hov isNTT hc
  obtain ⟨-, hcore⟩ := classic_core K h32 hov rfl (hkey.mono hlK) hA h0q h0p h1q h1p
  obtain ⟨Y0, Y1, E, w0, w1, hE⟩ := hcore true
  have e1 : d = _ := hoisted_eq hal hb _ c0 c1
  rw [hoistedNoModDown_eq hal hb] at e1
  rw [e1]
  exact ⟨⟨E, hE.congr b3⟩, _, _, w0, w1⟩

end

/-! ## With generated keys -/

theorem genSwitchingKeyCore_alpha {rQ rP : Ring} {lQ lP : ℕ} (hq : lQ < 2 ^ 20) (hp : lP < 2 ^ 20) (skIn : Rows)
    (skOut : PolyQP) (tape : ℕ → KeyTape) : (genSwitchingKeyCore rQ rP lQ lP skIn skOut tape).alpha = lP + 1 := by
  unfold SwitchingKey.alpha genSwitchingKeyCore
  simp only
  rw [getD_map_range' _ _ _ (by
    rw [ceilDivF_eq (by omega) (by omega) (by omega)]
    exact Nat.div_pos (by omega) (by omega))]
  unfold genSwitchingDigit extendBasisSmallNorm
  simp [Ring.mulCoeffsMontgomeryAndSubLvl, Ring.mformLvl, Ring.nttLazyLvl, length_writeLvl, newPoly]

section
variable {n : ℕ} {rQ rP : Ring} (K : KeyParams n rQ rP) (h32 : rP.subs.length ≤ 32) {lQ : ℕ}
  (hl : lQ < rQ.subs.length) (hov : DigitRoom rQ rP lQ (rP.subs.length - 1))
include K h32 hl hov

/-- **C28 (relinearization).** Key `i` of `GenRelinearizationKey` then `SwitchKeysInPlace`: from `s^(i+2)` to
`s`, at every level and for every secret, mask, error and input. -/
theorem C28_relin {sk : PolyQP} {S : ℕ → ℤ}
    (hs : sk.IsMont n rQ rP (rQ.subs.length - 1) (rP.subs.length - 1) S) {maxDegree i : ℕ} (hi : i < maxDegree)
    {tape : ℕ → ℕ → KeyTape} {E : ℕ → ℕ → ℤ}
    (ht : TapeOK n rQ rP (rQ.subs.length - 1) (rP.subs.length - 1) (tape i) E) (isNTT : Bool) {cx p0 p1 : Rows}
    {w : ∀ u, ℕ → ZMod (rQ.sub u).q.toNat} (hc : PolyIs rQ lQ rQ.qs cx w) (h0 : lQ < p0.length)
    (h1 : lQ < p1.length) :
    let d := (newKeySwitcher rQ rP).switchKeysInPlace lQ isNTT cx
      ((genRelinearizationKey rQ rP sk maxDegree tape).getD i []) p0 p1
    ∃ e, KeySwitched n rQ rP lQ (rP.subs.length - 1) (rQ.elt n isNTT cx) (rQ.elt n isNTT d.1)
      (rQ.elt n isNTT d.2) (negPow (2 ^ n) S (i + 2)) S E e := by
  have hlP := K.rings.lP
  have h1q := K.q100
  have h1p := K.p100
  refine (C28_switchKeys (K.at hl hlP) (by omega) (by omega) (by omega) ?_
    (C33_relinearization K hs hi ht) (by omega) hov isNTT hc h0 h1).1
  unfold genRelinearizationKey
  rw [getD_map_range' _ _ _ hi]
  exact genSwitchingKeyCore_alpha (by omega) (by omega) _ _ _

/-- **C28 (Galois keys).** The key of `GenSwitchingKeyForGalois` then `SwitchKeysInPlace`: from `s` to
`s(X^g')` with `g'` the inverse of `g` modulo `2N`. -/
theorem C28_galois {sk : PolyQP} {S : ℕ → ℤ}
    (hs : sk.IsMont n rQ rP (rQ.subs.length - 1) (rP.subs.length - 1) S) {g : UInt64} (hg : g.toNat % 2 = 1)
    {tape : ℕ → KeyTape} {E : ℕ → ℕ → ℤ}
    (ht : TapeOK n rQ rP (rQ.subs.length - 1) (rP.subs.length - 1) tape E) (isNTT : Bool) {cx p0 p1 : Rows}
    {w : ∀ u, ℕ → ZMod (rQ.sub u).q.toNat} (hc : PolyIs rQ lQ rQ.qs cx w) (h0 : lQ < p0.length)
    (h1 : lQ < p1.length) :
    let d := (newKeySwitcher rQ rP).switchKeysInPlace lQ isNTT cx (genSwitchingKeyForGalois rQ rP g sk tape) p0 p1
    ∃ g' e, g' % 2 = 1 ∧ g' * g.toNat % (2 * 2 ^ n) = 1 ∧
      KeySwitched n rQ rP lQ (rP.subs.length - 1) (rQ.elt n isNTT cx) (rQ.elt n isNTT d.1)
        (rQ.elt n isNTT d.2) S (autInt (2 ^ n) g' S) E e := by
  have hlP := K.rings.lP
  have h1q := K.q100
  have h1p := K.p100
  obtain ⟨g', hg1, hg2, hkey⟩ := C33_galois K hs hg ht
  obtain ⟨⟨e, he⟩, -⟩ := C28_switchKeys (K.at hl hlP) (by omega) (by omega) (by omega)
    (genSwitchingKeyCore_alpha (by omega) (by omega) _ _ _) hkey (by omega) hov isNTT hc h0 h1
  exact ⟨g', e, hg1, hg2, he⟩

end

/-- the hypotheses are met: with the rings `N = 16`, `Q = 97·193·641`, `P = 257·353`, a relinearization key is
generated and inputs in NTT form at level 2 (a full block and a block of one prime) are switched -/
example : ∃ (rQ rP : Ring) (S : ℕ → ℤ) (sk : PolyQP) (tape : ℕ → ℕ → KeyTape) (cx : Rows) (e : ℕ → ℤ),
    rQ.moduli = [97, 193, 641] ∧ rP.moduli = [257, 353] ∧ S 1 = -1 ∧
    let d := (newKeySwitcher rQ rP).switchKeysInPlace 2 true cx
      ((genRelinearizationKey rQ rP sk 1 tape).getD 0 []) (newPoly 16 3) (newPoly 16 3)
    KeySwitched 4 rQ rP 2 1 (fun u => intR (2 ^ 4) (rQ.qs u) (fun k => 7 * k + 5)) (rQ.elt 4 true d.1)
      (rQ.elt 4 true d.2) (negPow 16 S 2) S (fun _ k => 2 - k % 5) e := by
  obtain ⟨fp, ksw, kg, h1, h, hF, hal, hk, hg, hQ, hP⟩ := exampleF
  have K := FParams.OK.keyParams h
  have lQ : fp.ringQ.subs.length = 3 := by simpa [Ring.moduli] using congrArg List.length hQ
  have lP : fp.ringP.subs.length = 2 := by simpa [Ring.moduli] using congrArg List.length hP
  have q0 := sub_of_moduli hQ 0 97 rfl
  have p0 := sub_of_moduli hP 0 257 rfl
  have p1 := sub_of_moduli hP 1 353 rfl
  set S : ℕ → ℤ := fun k => if k % 3 = 0 then 1 else if k % 3 = 1 then -1 else 0 with hS
  have bS : ∀ k, |S k| ≤ 1 := by
    intro k
    simp only [hS]
    split
    · norm_num
    · split <;> norm_num
  have bE : ∀ k : ℕ, |(2 - (k : ℤ) % 5)| ≤ 2 := by
    intro k
    rw [abs_le]
    omega
  have hpu : ∀ u < fp.ringP.subs.length, 200 < fp.ringP.qs u := by
    intro u hu
    rcases (by omega : u = 0 ∨ u = 1) with rfl | rfl
    · show 200 < (fp.ringP.sub 0).q.toNat
      rw [p0]; decide
    · show 200 < (fp.ringP.sub 1).q.toNat
      rw [p1]; decide
  have hq0 : fp.ringQ.qs 0 = 97 := by unfold Ring.qs; rw [q0]; rfl
  obtain ⟨s, hs⟩ := exists_poly h.hQ (level := fp.ringQ.subs.length - 1) (by omega) S
  have hsam : Sampled fp.ringQ (fp.ringQ.subs.length - 1) s S := by
    refine ⟨hs.mono (fun u _ => by omega), fun k _ => ?_⟩
    have := bS k
    rw [hq0]
    omega
  have hsk := C33_secretKey K hsam (fun k _ u hu => by
    have := bS k
    have := hpu u hu
    omega)
  obtain ⟨tape, ht⟩ := exists_tape K (lQ := fp.ringQ.subs.length - 1) (lP := fp.ringP.subs.length - 1)
    (E := fun k => 2 - k % 5) (by omega) (by omega)
    (fun k _ => by have := bE k; rw [hq0]; omega)
    (fun k _ u hu => by have := bE k; have := hpu u (by omega); omega)
  obtain ⟨a, hAA⟩ := exists_nttPoly h.hQ K.rings.sQ (level := 2) (by omega) (fun k => 7 * k + 5)
  obtain ⟨e, he⟩ := C28_relin K (by omega) (lQ := 2) (by omega) (Or.inl (by omega)) hsk (maxDegree := 1) (i := 0)
    (by omega) (tape := fun _ => tape) ht true hAA
    (p0 := newPoly 16 3) (p1 := newPoly 16 3) (by simp [newPoly]) (by simp [newPoly])
  refine ⟨fp.ringQ, fp.ringP, S, genSecretKey fp.ringQ fp.ringP s, fun _ => tape, a, e, hQ, hP, by simp [hS], ?_⟩
  rw [lP] at he
  refine he.congr (fun u hu => ?_)
  exact elt_of_is (K.at (lQ := 2) (lP := 1) (by omega) (by omega)) (isNTT := true) hAA hu

end FastKsw.Props
