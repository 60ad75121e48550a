import Verif.Model.SwitchMem
import Verif.Props.FSwitchMem
import Verif.Props.KeySwitch

/-!
# C126: which keys make the classical key-switch panic

`NewParameters` of `rlwe` accepts up to 100 primes in `P`.  With keys over more than 32 of them every call of `SwitchKeysInPlace` panics; with at
most 32 no index of it is out of range.
-/

namespace FastKsw.Props
open Finset

theorem invNttLoop_length (tab : Row) (q qInv : UInt64) (fuel m t : ℕ) (x : Row) : (invNttLoop tab q qInv fuel m t x).length = x.length := by
  induction fuel generalizing m t x with
  | zero => rfl
  | succ fuel ih =>
    rw [invNttLoop]
    split
    · dsimp only
      rw [ih, nttLayer_length]
    · rfl

theorem invNtt_length (s : SubRing) (N : ℕ) (x : Row) : (s.invNtt N x).length = x.length := by
  unfold SubRing.invNtt invNtt mulScalarMontgomeryVec invNttCore
  rw [List.length_map, invNttLoop_length, nttLayer_length]

theorem nttLoop_length (N : ℕ) (tab : Row) (q qInv : UInt64) (fuel m t : ℕ) (x : Row) : (nttLoop N tab q qInv fuel m t x).length = x.length := by
  induction fuel generalizing m t x with
  | zero => rfl
  | succ fuel ih =>
    rw [nttLoop]
    split
    · dsimp only
      rw [ih]
      split <;> rw [nttLayer_length]
    · rfl

theorem nttLazy_length (s : SubRing) (N : ℕ) (x : Row) : (s.nttLazy N x).length = x.length := by
  unfold SubRing.nttLazy nttLazy
  rw [nttLoop_length, nttLayer_length]

theorem ntt_length (s : SubRing) (N : ℕ) (x : Row) : (s.ntt N x).length = x.length := by
  unfold SubRing.ntt ntt reduceVec
  rw [List.length_map]
  exact nttLazy_length s N x

theorem rowsInRange_iff {level N : ℕ} {x : Rows} : rowsInRange level N x = true ↔ level < x.length ∧ ∀ i ≤ level, (x.row i).length = N := by
  unfold rowsInRange
  rw [decide_eq_true_eq]
  exact and_congr_right fun _ => forall_congr' fun i => by rw [Nat.lt_succ_iff]

section
variable {n : ℕ} {rQ rP : Ring} {lQ lP : ℕ} (K : KeyRings n rQ rP lQ lP) (hq : rQ.subs.length ≤ 2 ^ 20) (hp : rP.subs.length ≤ 2 ^ 20) (h32 : lP < 32)
include K hq hp h32

theorem split_inRange {i : ℕ} (hi : i * (lP + 1) ≤ lQ) {p0 : Rows} {N : ℕ} (h0 : rowsInRange lQ N p0 = true) :
    (newDecomposer rQ rP).splitInRange lQ lP (lP + 1) i rQ.subs.length rP.subs.length p0 = true := by
  obtain ⟨hl0, hr0⟩ := rowsInRange_iff.1 h0
  have hl1 := K.lQ
  have hl2 := K.lP
  have hdl := decompLvl_eq (levelQ := lQ) (alpha := lP + 1) (by omega) hi
  obtain ⟨m, hm⟩ : ∃ m, m = blockLen (lP + 1) (lQ + 1) i := ⟨_, rfl⟩
  rw [← hm] at hdl
  have hm1 : 1 ≤ m := by unfold blockLen at hm; omega
  unfold Decomposer.splitInRange
  dsimp only
  rw [hdl]
  refine decide_eq_true ⟨hl1, hl2, by omega, ?_⟩
  rcases Nat.lt_or_ge m 2 with h | hm2
  · exact Or.inl (by omega)
  right
  have hma : m ≤ lP + 1 := by unfold blockLen at hm; omega
  have hmq : i * (lP + 1) + m ≤ lQ + 1 := by unfold blockLen at hm; omega
  have hpar := modUpParams_at (rQ := rQ) (rP := rP) (alpha := lP + 1) (i := i) (m := m) (by omega) (by omega) hq hp hm2 hma (by omega)
  have src := blockSrcOK K.hQ K.sQ (s := i * (lP + 1)) (m := m) (by omega) (by omega) (by omega)
  have e1 : ((m : ℤ) - 2).toNat = m - 2 := by omega
  have e2 : ((m : ℤ) - 2 + 2).toNat = m := by omega
  have hc : ceilDivF rQ.subs.length (lP + 1) = (rQ.subs.length + (lP + 1) - 1) / (lP + 1) := ceilDivF_eq (by omega) hq (by omega)
  have hib : i < ceilDivF rQ.subs.length (lP + 1) := by rw [hc]; exact (ceil_block (by omega)).2 (by omega)
  have hmod : (newDecomposer rQ rP).modUpParams.getD (lP + 1 - 2) [] = (List.range (ceilDivF rQ.subs.length (lP + 1))).map fun i =>
      (List.range ((if i = ceilDivF rQ.subs.length (lP + 1) - 1 ∧ rQ.subs.length % (lP + 1) ≠ 0 then rQ.subs.length % (lP + 1) else lP + 1) - 1)).map
        fun j => basisExtenderParameters ((List.range (j + 2)).map fun k => Row.at rQ.moduli (i * (lP + 1) + k))
          (rQ.moduli ++ rP.moduli.take (lP + 1)) := by
    unfold newDecomposer
    dsimp only
    rw [getD_map_range' _ _ _ (show lP + 1 - 2 < rP.subs.length - 1 by omega)]
    simp only [show lP + 1 - 2 + 2 = lP + 1 by omega]
  rw [e1, e2, hpar]
  set Q := (List.range m).map fun k => Row.at rQ.moduli (i * (lP + 1) + k) with hQd
  have hlen : Q.length = m := by rw [hQd]; simp
  have hat : ∀ j < m, Row.at Q j = (rQ.sub (i * (lP + 1) + j)).q := by
    intro j hj
    rw [hQd, FastKsw.at_map_range _ _ hj, at_moduli rQ (by omega)]
  have hlP : (rQ.moduli ++ rP.moduli.take (lP + 1)).length = rQ.subs.length + (lP + 1) := by
    rw [List.length_append, length_take_moduli rP hl2, Ring.moduli, List.length_map]
  refine ⟨by omega, ?_, ?_, by omega, ?_, by omega, ?_, ?_, by omega, by omega, fun j hj => ?_, hl1, hl2, fun j hj _ => ⟨?_, ?_, ?_, fun x _ => ?_⟩⟩
  · show _ < ((List.range _).map _).length
    rw [List.length_map, List.length_range]
    omega
  · rw [hmod, List.length_map, List.length_range]
    exact hib
  · rw [hmod, getD_map_range' _ _ _ hib, List.length_map, List.length_range]
    split
    · rename_i h
      obtain ⟨h1, h2⟩ := h
      have h3 : rQ.subs.length < (i + 1) * (lP + 1) := by
        by_contra hcon
        push Not at hcon
        rcases Nat.lt_or_ge ((i + 1) * (lP + 1)) rQ.subs.length with h5 | h5
        · have := (ceil_block (a := rQ.subs.length) (b := lP + 1) (i := i + 1) (by omega)).2 h5
          omega
        · have : rQ.subs.length = (i + 1) * (lP + 1) := by omega
          rw [this] at h2
          simp at h2
      rw [add_mul, one_mul] at h3
      have h4 : rQ.subs.length % (lP + 1) = rQ.subs.length - i * (lP + 1) := by
        have h1 : rQ.subs.length = (rQ.subs.length - i * (lP + 1)) + (lP + 1) * i := by rw [mul_comm (lP + 1)]; omega
        conv_lhs => rw [h1]
        rw [Nat.add_mul_mod_self_left]
        exact Nat.mod_eq_of_lt (by omega)
      omega
    · omega
  · show m ≤ ((List.range _).map _).length
    rw [List.length_map, List.length_range, hlen]
  · show i * (lP + 1) + m ≤ rQ.subs.length
    omega
  · rw [hr0 _ (by omega), hr0 0 (by omega)]
  · show j < ((rQ.moduli ++ rP.moduli.take (lP + 1)).map _).length
    rw [List.length_map, hlP]
    exact hj
  · show j < ((rQ.moduli ++ rP.moduli.take (lP + 1)).map _).length
    rw [List.length_map, hlP]
    exact hj
  · show m ≤ (Rows.row ((rQ.moduli ++ rP.moduli.take (lP + 1)).map _) j).length
    rw [row_params (by rw [hlP]; exact hj), List.length_map, List.length_range, hlen]
  · show _ < (Rows.row ((rQ.moduli ++ rP.moduli.take (lP + 1)).map _) j).length
    rw [row_params (by rw [hlP]; exact hj), vtimesqmodp, List.length_map, List.length_range, hlen]
    refine Nat.lt_succ_of_le (reconV_le (by omega) fun k hk => ?_)
    obtain ⟨g1, -⟩ := qoverqiinvqi_spec src (i := k) (by omega)
    have e : (basisExtenderParameters Q (rQ.moduli ++ rP.moduli.take (lP + 1))).qoverqiinvqi.at k = qoverqiinvqi Q k := by
      show Row.at ((List.range _).map _) k = _
      rw [FastKsw.at_map_range _ _ (by omega)]
    have hat := hat k hk
    unfold reconY
    rw [e]
    rw [hat] at g1
    exact (mred_spec (K.hQ.subAt (by omega)).mred
      (by have := K.sQ _ (Ring.sub_mem (show i * (lP + 1) + k < rQ.subs.length by omega)); omega) _ _ (mul_lt_of_lt_right _ g1)).1

end

/-- the memory of a switching key for the primes of `Q` up to the level and the first `lP + 1` primes of `P` -/
structure KeyShape (N lQ lP : ℕ) (evk : SwitchingKey) : Prop where
  alpha : evk.alpha = lP + 1
  digits : ∀ i, i * (lP + 1) ≤ lQ → i < evk.length
  bq : ∀ i, i * (lP + 1) ≤ lQ → rowsInRange lQ N (evk.getD i default).1.q = true
  bp : ∀ i, i * (lP + 1) ≤ lQ → rowsInRange lP N (evk.getD i default).1.p = true
  aq : ∀ i, i * (lP + 1) ≤ lQ → rowsInRange lQ N (evk.getD i default).2.q = true
  ap : ∀ i, i * (lP + 1) ≤ lQ → rowsInRange lP N (evk.getD i default).2.p = true

section
variable {n : ℕ} {rQ rP : Ring} {lQ lP : ℕ} (K : KeyRings n rQ rP lQ lP) (hq : rQ.subs.length ≤ 2 ^ 20) (hp : rP.subs.length ≤ 2 ^ 20) (h32 : lP < 32)
include K hq hp h32

theorem div_inRange (src : Rows) : (newKeySwitcher rQ rP).divInRange lQ lP src = true := by
  have hl1 := K.lQ
  have hl2 := K.lP
  obtain ⟨g1, g2⟩ := paramsPtoQ_getD (rQ := rQ) (rP := rP) hl2
  unfold KeySwitcher.divInRange
  rw [Bool.and_eq_true]
  refine ⟨modUp_inRange (rQ := rP) (rP := rQ) K.hP K.sP hl2 h32 hl1 hl2 hl1 g1 g2 _ _, decide_eq_true ⟨?_, ?_⟩⟩
  · show _ < ((List.range _).map _).length
    rw [List.length_map, List.length_range]
    omega
  · show _ < (Rows.row ((List.range _).map _) _).length
    unfold Rows.row
    rw [getD_map_range' _ _ _ (by omega), List.length_map, List.length_range]
    exact hl1

theorem bothForms_inRange (isNTT : Bool) {cx : Rows} (hc : rowsInRange lQ rQ.n cx = true) :
    rowsInRange lQ rQ.n ((newKeySwitcher rQ rP).bothForms lQ isNTT cx).1 = true ∧
    rowsInRange lQ rQ.n ((newKeySwitcher rQ rP).bothForms lQ isNTT cx).2 = true := by
  unfold KeySwitcher.bothForms
  obtain ⟨a1, a2⟩ := rowsInRange_iff.1 hc
  have hlen : lQ < (newPoly rQ.n rQ.subs.length).length := by rw [length_newPoly]; exact K.lQ
  cases isNTT with
  | false =>
    refine ⟨rowsInRange_iff.2 ⟨?_, fun i hi => ?_⟩, hc⟩
    · show lQ < (writeLvl _ _ _).length
      rw [length_writeLvl]
      exact hlen
    · show (Rows.row (writeLvl lQ (fun i => (rQ.sub i).ntt rQ.n (cx.row i)) (newPoly rQ.n rQ.subs.length)) i).length = _
      rw [row_writeLvl hi hlen, ntt_length, a2 i hi]
  | true =>
    refine ⟨hc, rowsInRange_iff.2 ⟨?_, fun i hi => ?_⟩⟩
    · show lQ < (writeLvl _ _ _).length
      rw [length_writeLvl]
      exact hlen
    · show (Rows.row (writeLvl lQ (fun i => (rQ.sub i).invNtt rQ.n (cx.row i)) (newPoly rQ.n rQ.subs.length)) i).length = _
      rw [row_writeLvl hi hlen, invNtt_length, a2 i hi]

theorem digit_le {i : ℕ} (hi : i < ceilDivF (lQ + 1) (lP + 1)) : i * (lP + 1) ≤ lQ := by
  have hl1 := K.lQ
  have hl2 := K.lP
  rw [ceilDivF_eq (by omega) (by omega) (by omega)] at hi
  have := (ceil_block (by omega)).1 hi
  omega

/-- **C126 (no panic).** `SwitchKeysInPlace` with a key over at most 32 primes of `P`: no index is out of range, at any level, in both representations,
for any words in the input, the key and the receivers, and the result is that of C28.  Partial: more primes are accepted. -/
theorem C126_no_panic_partial (isNTT : Bool) {cx p0 p1 : Rows} {evk : SwitchingKey} (hk : KeyShape rQ.n lQ lP evk)
    (hc : rowsInRange lQ rQ.n cx = true) (h0 : rowsInRange lQ rQ.n p0 = true) (h1 : rowsInRange lQ rQ.n p1 = true) :
    (newKeySwitcher rQ rP).switchKeysMem lQ isNTT cx evk p0 p1 = some ((newKeySwitcher rQ rP).switchKeysInPlace lQ isNTT cx evk p0 p1) := by
  have hl1 := K.lQ
  have hl2 := K.lP
  have hal := hk.alpha
  have eal : evk.alpha - 1 = lP := by omega
  have hdiv := div_inRange K hq hp h32
  have hinv := (bothForms_inRange K hq hp h32 isNTT hc).2
  unfold KeySwitcher.switchKeysMem
  dsimp only
  rw [eal, if_pos]
  obtain ⟨_, hmQ, -⟩ := overflowMargin_ok K.hQ K.sQ hl1
  obtain ⟨_, hmP, -⟩ := overflowMargin_ok K.hP K.sP hl2
  refine ⟨by omega, hl1, hl2, hc, h0, h1, hmQ.pos, hmP.pos, fun i hi => ?_, hdiv _, hdiv _⟩
  have hi' := digit_le K hq hp h32 hi
  unfold KeySwitcher.digitInRange
  simp only [Bool.and_eq_true, decide_eq_true_eq]
  exact ⟨⟨⟨⟨⟨split_inRange K hq hp h32 hi' hinv, hk.digits i hi'⟩, hk.bq i hi'⟩, hk.bp i hi'⟩, hk.aq i hi'⟩, hk.ap i hi'⟩

end

section
variable {n : ℕ} {rQ rP : Ring} {lQ lP : ℕ} (K : KeyRings n rQ rP lQ lP) (hq : rQ.subs.length ≤ 2 ^ 20) (hp : rP.subs.length ≤ 2 ^ 20) (h32 : lP < 32)
include K hq hp h32

/-- the rows of a digit of `DecomposeNTT` -/
theorem digit_rows {i : ℕ} (hi : i * (lP + 1) ≤ lQ) {f1 f2 : Rows} {N : ℕ} (h1 : rowsInRange lQ N f1 = true) (h2 : rowsInRange lQ N f2 = true)
    {c : PolyQP} (hcq : lQ < c.q.length) (hcp : lP < c.p.length) :
    rowsInRange lQ N ((newDecomposer rQ rP).decomposeSingleNTT lQ lP (lP + 1) i f1 f2 c).q = true ∧
    rowsInRange lP N ((newDecomposer rQ rP).decomposeSingleNTT lQ lP (lP + 1) i f1 f2 c).p = true := by
  obtain ⟨a1, a2⟩ := rowsInRange_iff.1 h1
  obtain ⟨b1, b2⟩ := rowsInRange_iff.1 h2
  have key : rowsInRange lQ N ((newDecomposer rQ rP).decomposeAndSplit lQ lP (lP + 1) i f2 c).q = true ∧
      rowsInRange lP N ((newDecomposer rQ rP).decomposeAndSplit lQ lP (lP + 1) i f2 c).p = true := by
    unfold Decomposer.decomposeAndSplit
    dsimp only
    split
    · refine ⟨rowsInRange_iff.2 ⟨by rw [length_writeLvl]; exact hcq, fun u hu => ?_⟩, rowsInRange_iff.2 ⟨by rw [length_writeLvl]; exact hcp, fun u hu => ?_⟩⟩
      · rw [row_writeLvl hu hcq, b2 _ hi]
      · rw [row_writeLvl hu hcp, b2 _ hi]
    · refine ⟨rowsInRange_iff.2 ⟨by rw [length_writeLvl]; exact hcq, fun u hu => ?_⟩, rowsInRange_iff.2 ⟨by rw [length_writeLvl]; exact hcp, fun u hu => ?_⟩⟩
      · rw [row_writeLvl hu hcq, List.length_map, List.length_range, b2 _ (by omega)]
      · rw [row_writeLvl hu hcp, List.length_map, List.length_range, b2 _ (by omega)]
  obtain ⟨⟨k1, k2⟩, k3, k4⟩ := And.intro (rowsInRange_iff.1 key.1) (rowsInRange_iff.1 key.2)
  unfold Decomposer.decomposeSingleNTT Ring.nttLazyLvl
  dsimp only
  refine ⟨rowsInRange_iff.2 ⟨by rw [length_writeLvl]; exact k1, fun u hu => ?_⟩, rowsInRange_iff.2 ⟨by rw [length_writeLvl]; exact k3, fun u hu => ?_⟩⟩
  · rw [row_writeLvl hu k1]
    split
    · exact a2 u hu
    · rw [nttLazy_length, k2 u hu]
  · rw [row_writeLvl hu k3, nttLazy_length, k4 u hu]

/-- **C126 (hoisted, no panic).** `DecomposeNTT` and then `KeyswitchHoisted` with a key over all of at most 32 primes of `P`: no index is out of range, and
the result is that of C28.  Partial: more primes are accepted. -/
theorem C126_hoisted_partial (hall : rP.subs.length = lP + 1) (isNTT : Bool) {cx : Rows} {evk : SwitchingKey} (hk : KeyShape rQ.n lQ lP evk)
    (hc : rowsInRange lQ rQ.n cx = true) {c0 c1 : PolyQP} (h0q : rowsInRange lQ rQ.n c0.q = true) (h0p : rowsInRange lP rQ.n c0.p = true)
    (h1q : rowsInRange lQ rQ.n c1.q = true) (h1p : rowsInRange lP rQ.n c1.p = true) :
    ∃ dig, (newKeySwitcher rQ rP).decomposeMem lQ lP isNTT cx = some dig ∧ dig = (newKeySwitcher rQ rP).decomposeNTT lQ lP (lP + 1) isNTT cx ∧
      (newKeySwitcher rQ rP).hoistedMem lQ dig evk c0 c1 = some ((newKeySwitcher rQ rP).hoisted lQ dig evk c0 c1) := by
  have hl1 := K.lQ
  have hl2 := K.lP
  have hal := hk.alpha
  have eal : evk.alpha - 1 = lP := by omega
  obtain ⟨hf1, hf2⟩ := bothForms_inRange K hq hp h32 isNTT hc
  refine ⟨_, ?_, rfl, ?_⟩
  · unfold KeySwitcher.decomposeMem
    rw [if_pos]
    refine ⟨hl1, hc, fun i hi => ⟨?_, split_inRange K hq hp h32 (digit_le K hq hp h32 hi) hf2⟩⟩
    have := digit_le K hq hp h32 hi
    show i < ceilDivF rQ.subs.length rP.subs.length
    rw [hall, ceilDivF_eq (by omega) (by omega) (by omega)]
    exact (ceil_block (by omega)).2 (by omega)
  · obtain ⟨_, hmQ, -⟩ := overflowMargin_ok K.hQ K.sQ hl1
    obtain ⟨_, hmP, -⟩ := overflowMargin_ok K.hP K.sP hl2
    have hdiv := div_inRange K hq hp h32
    unfold KeySwitcher.hoistedMem
    dsimp only
    rw [eal, hal, if_pos]
    refine ⟨by omega, hl1, hl2, ?_, ?_, hmQ.pos, hmP.pos, fun i hi => ?_, hdiv _, hdiv _⟩
    · exact Bool.and_eq_true_iff.2 ⟨h0q, h0p⟩
    · exact Bool.and_eq_true_iff.2 ⟨h1q, h1p⟩
    · have hi' := digit_le K hq hp h32 hi
      have hd := digit_rows K hq hp h32 hi' hf1 hf2 (c := (newKeySwitcher rQ rP).newPolyQP)
        (by show lQ < (newPoly rQ.n rQ.subs.length).length; rw [length_newPoly]; exact hl1)
        (by show lP < (newPoly rP.n rP.subs.length).length; rw [length_newPoly]; exact hl2)
      unfold KeySwitcher.decomposeNTT
      dsimp only
      refine ⟨by rw [List.length_map, List.length_range]; exact hi, hk.digits i hi', ?_, Bool.and_eq_true_iff.2 ⟨hk.bq i hi', hk.bp i hi'⟩,
        Bool.and_eq_true_iff.2 ⟨hk.aq i hi', hk.ap i hi'⟩⟩
      rw [getD_map_range' _ _ _ hi]
      exact Bool.and_eq_true_iff.2 hd

end

/-- **C126 (hoisted, panic).** With a key over more than 32 primes of `P` every call of `KeyswitchHoisted` panics. -/
theorem C126_hoisted_panic (ks : KeySwitcher) (levelQ : ℕ) (dig : List PolyQP) (evk : SwitchingKey) (h : 32 < evk.alpha) (c0 c1 : PolyQP) :
    ks.hoistedMem levelQ dig evk c0 c1 = none := by
  unfold KeySwitcher.hoistedMem
  dsimp only
  rw [if_neg]
  rintro ⟨-, -, -, -, -, -, -, -, hd, -⟩
  unfold KeySwitcher.divInRange at hd
  rw [not_inRange (by omega)] at hd
  cases hd

/-- **C126 (panic).** With a key over more than 32 primes of `P` every call of `SwitchKeysInPlace` panics. -/
theorem C126_panic (ks : KeySwitcher) (levelQ : ℕ) (isNTT : Bool) (cx : Rows) (evk : SwitchingKey) (h : 32 < evk.alpha) (p0 p1 : Rows) :
    ks.switchKeysMem levelQ isNTT cx evk p0 p1 = none := by
  unfold KeySwitcher.switchKeysMem
  dsimp only
  rw [if_neg]
  rintro ⟨-, -, -, -, -, -, -, -, -, hd, -⟩
  unfold KeySwitcher.divInRange at hd
  rw [not_inRange (by omega)] at hd
  cases hd

/-- the shape of a switching key that encodes the gadget -/
theorem isSwitchKey_shape {n : ℕ} {rQ rP : Ring} {LQ lQ lP : ℕ} (hQ : rQ.Valid n) (hP : rP.Valid n) {k : SwitchingKey} {sIn sOut : ℕ → ℤ} {e : ℕ → ℕ → ℤ}
    (hk : IsSwitchKey n rQ rP LQ lP k sIn sOut e) (hl : lQ ≤ LQ) (ha : k.alpha = lP + 1) : KeyShape rQ.n lQ lP k := by
  obtain ⟨B, A, hBA, -⟩ := hk.ex
  have hn : rP.n = rQ.n := by rw [hQ.deg, hP.deg]
  refine ⟨ha, fun i hi => ?_, fun i hi => ?_, fun i hi => ?_, fun i hi => ?_, fun i hi => ?_⟩ <;> obtain ⟨b, a⟩ := hBA i (by omega)
  · by_contra hc
    have hd : k.getD i default = default := List.getD_eq_default _ _ (by omega)
    have := b.q.lvl
    rw [hd] at this
    exact absurd this (Nat.not_lt_zero _)
  · exact rowsInRange_iff.2 ⟨by have := b.q.lvl; omega, fun u hu => (b.q.row u (by omega)).len⟩
  · exact rowsInRange_iff.2 ⟨b.p.lvl, fun u hu => by rw [(b.p.row u hu).len, hn]⟩
  · exact rowsInRange_iff.2 ⟨by have := a.q.lvl; omega, fun u hu => (a.q.row u (by omega)).len⟩
  · exact rowsInRange_iff.2 ⟨a.p.lvl, fun u hu => by rw [(a.p.row u hu).len, hn]⟩

section
variable {n : ℕ} {rQ rP : Ring} (K : KeyParams n rQ rP) {sk : PolyQP} {S : ℕ → ℤ}
  (hs : sk.IsMont n rQ rP (rQ.subs.length - 1) (rP.subs.length - 1) S)
include K hs

/-- **C126 (with generated keys).** `GenRelinearizationKey` or `GenSwitchingKeyForRotationBy`, then `SwitchKeysInPlace` at any level, in both
representations, on any words: with at most 32 primes in `P` there is no panic, with more every call panics. -/
theorem C126_keys {maxDegree i : ℕ} (hi : i < maxDegree) {tape : ℕ → ℕ → KeyTape} {E : ℕ → ℕ → ℤ}
    (ht : TapeOK n rQ rP (rQ.subs.length - 1) (rP.subs.length - 1) (tape i) E) (rot : ℤ) {evk : SwitchingKey}
    (hevk : evk = (genRelinearizationKey rQ rP sk maxDegree tape).getD i [] ∨ evk = genSwitchingKeyForRotationBy rQ rP rot sk (tape i))
    {lQ : ℕ} (hl : lQ < rQ.subs.length) (isNTT : Bool) {cx p0 p1 : Rows}
    (hc : rowsInRange lQ rQ.n cx = true) (h0 : rowsInRange lQ rQ.n p0 = true) (h1 : rowsInRange lQ rQ.n p1 = true) :
    (newKeySwitcher rQ rP).switchKeysMem lQ isNTT cx evk p0 p1 =
      if rP.subs.length ≤ 32 then some ((newKeySwitcher rQ rP).switchKeysInPlace lQ isNTT cx evk p0 p1) else none := by
  have hlP := K.rings.lP
  have h1q := K.q100
  have h1p := K.p100
  have hsh : KeyShape rQ.n lQ (rP.subs.length - 1) evk := by
    rcases hevk with rfl | rfl
    · refine isSwitchKey_shape K.rings.hQ K.rings.hP (C33_relinearization K hs hi ht) (by omega) ?_
      unfold genRelinearizationKey
      rw [getD_map_range' _ _ _ hi]
      exact genSwitchingKeyCore_alpha (by omega) (by omega) _ _ _
    · obtain ⟨g', -, -, hkey⟩ := C33_rotation K hs rot ht
      refine isSwitchKey_shape K.rings.hQ K.rings.hP hkey (by omega) ?_
      exact genSwitchingKeyCore_alpha (by omega) (by omega) _ _ _
  split
  · exact C126_no_panic_partial (K.at hl hlP) (by omega) (by omega) (by omega) isNTT hsh hc h0 h1
  · exact C126_panic _ _ _ _ _ (by rw [hsh.alpha]; omega) _ _

end

/-- **C126 (refutation).** Parameters with `Q = 97·193·257` and 33 primes in `P` are accepted, and with every relinearization key and every rotation key
generated for them every call of `SwitchKeysInPlace` panics. -/
theorem C126_not (fuel : ℕ) (hf : 5000 ≤ fuel) : ∃ P rP, newParameters fuel 4 [97, 193, 257] primes33 5 0x4009999999999999 .standard = .ok P ∧
    P.ringP = some rP ∧ ∀ (sk : PolyQP) (tape : ℕ → ℕ → KeyTape) (maxDegree : ℕ), ∀ i < maxDegree, ∀ (rot : ℤ) (evk : SwitchingKey),
      evk = (genRelinearizationKey P.ringQ rP sk maxDegree tape).getD i [] ∨ evk = genSwitchingKeyForRotationBy P.ringQ rP rot sk (tape i) →
      ∀ levelQ isNTT cx p0 p1, (newKeySwitcher P.ringQ rP).switchKeysMem levelQ isNTT cx evk p0 p1 = none := by
  have s1 : SmallPrimes [97, 193, 257] := small_primes [97, 193, 257] (by decide +kernel) (by norm_num)
  have l33 : primes33.length = 33 := by decide +kernel
  have d1 : ([97, 193, 257] : List UInt64).Nodup := by decide +kernel
  have d2 : primes33.Nodup := by decide +kernel
  have lq : ([97, 193, 257] : List UInt64).length = 3 := rfl
  generalize ([97, 193, 257] : List UInt64) = q at s1 d1 lq ⊢
  have s2 := primes33_prime
  generalize primes33 = p at s2 l33 d2 ⊢
  have hs : SmallPrimes (q ++ p) := fun x hx => (List.mem_append.1 hx).elim (s1 x) (s2 x)
  obtain ⟨P, hP⟩ := (C103_newParameters 4 .standard q p 5 0x4009999999999999).1
    ⟨by omega, by omega, by omega, fun x hx => lt_of_le_of_lt (s1 x hx).2.2 (by norm_num), fun x hx => lt_of_le_of_lt (s2 x hx).2.2 (by norm_num),
      ⟨d1, d2⟩, fun x hx => (hs x hx).1, fun x hx => by have := (hs x hx).2.1; rwa [show rootOrder (2 ^ 4) .standard = 32 by rfl]⟩
  have hP' := hP fuel fun x hx => le_trans (hs x hx).2.2 hf
  obtain ⟨hrQ, hrP⟩ := newParameters_rings hP'
  rcases hrP with ⟨hc, -⟩ | ⟨-, rP, hrP, hnP⟩
  · rw [hc] at l33
    cases l33
  have hnP : newRing fuel (2 ^ 4) p = .ok rP := hnP
  have hnQ : newRing fuel (2 ^ 4) q = .ok P.ringQ := hrQ
  have len : ∀ {l : List UInt64} {r : Ring}, SmallPrimes l → newRing fuel (2 ^ 4) l = .ok r → r.subs.length = l.length := by
    intro l r hl hr
    have := (newRing_valid' (n := 4) (by norm_num) (by norm_num) (fun q hq => lt_of_le_of_lt (hl q hq).2.2 (by norm_num)) hr).2.2
    simpa [Ring.moduli] using congrArg List.length this
  have lP := len s2 hnP
  have lQ := len s1 hnQ
  refine ⟨P, rP, hP', hrP, fun sk tape maxDegree i hi rot evk hevk levelQ isNTT cx p0 p1 => C126_panic _ _ _ _ _ ?_ _ _⟩
  have ha : evk.alpha = rP.subs.length - 1 + 1 := by
    rcases hevk with rfl | rfl
    · unfold genRelinearizationKey
      rw [getD_map_range' _ _ _ hi]
      exact genSwitchingKeyCore_alpha (by omega) (by omega) _ _ _
    · exact genSwitchingKeyCore_alpha (by omega) (by omega) _ _ _
  omega

/-- the parameters of `exampleKeys`, with two primes in `P`: rows of the largest words are switched at level 1 without a panic -/
example : ∃ (rQ rP : Ring) (evk : SwitchingKey) (d : Rows × Rows), rQ.moduli = [97, 193, 641] ∧ rP.subs.length = 2 ∧
    (newKeySwitcher rQ rP).switchKeysMem 1 true (List.replicate 3 (List.replicate 16 (0 - 1))) evk (newPoly 16 2) (newPoly 16 3) = some d := by
  obtain ⟨p, ksw, kg, s, tape, h1, h, hF, ha, lQ, hk, hg, hQ, hP, hsam, hsk, ht⟩ := exampleKeys
  have hn : p.ringQ.n = 16 := h.hQ.deg
  have ha' : p.ringP.subs.length = 2 := ha
  have hnew : ∀ m, 1 < m → rowsInRange 1 p.ringQ.n (newPoly 16 m) = true := fun m hm => rowsInRange_iff.2
    ⟨by rw [length_newPoly]; omega, fun i hi => by rw [row_newPoly (by omega), List.length_replicate, hn]⟩
  have e := C126_keys (FParams.OK.keyParams h) hsk (maxDegree := 1) (i := 0) (by omega) (tape := fun _ => tape) ht (-3) (Or.inr rfl) (lQ := 1) (by omega)
    true (cx := List.replicate 3 (List.replicate 16 (0 - 1))) (rowsInRange_iff.2 ⟨by simp, fun i hi => by
      rw [Rows.row, List.getD_eq_getElem _ _ (by simp; omega), List.getElem_replicate, List.length_replicate, hn]⟩) (hnew 2 (by omega)) (hnew 3 (by omega))
  rw [if_pos (by omega)] at e
  exact ⟨p.ringQ, p.ringP, _, _, hQ, ha', e⟩

end FastKsw.Props
