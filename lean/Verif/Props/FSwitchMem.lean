import Verif.Model.FSwitchMem
import Verif.Lemmas.FloatMono
import Verif.Props.Accept
import Verif.Props.FKeyMem

/-!
# C125: which parameters make the fast key-switch panic

`NewParametersFromLiteral` of `frlwe` does not check how many primes `T` has, nor `gamma`.  With more than 32 primes in `T` every call
of `SwitchKey` panics; within the limits no index of it is out of range.
-/

namespace FastKsw.Props
open Finset

/-- the index of the correction is at most the number of source primes, for all words -/
theorem reconV_le {m : ℕ} (hm : m ≤ 2 ^ 52) {y q : ℕ → UInt64} (h : ∀ i < m, (y i).toNat < (q i).toNat) : reconV m y q ≤ m := by
  have key : ∀ k ≤ m, 0 ≤ (List.range k).foldl (fun vi i => f64Add vi (f64Div (f64OfNat (y i).toNat) (f64OfNat (q i).toNat))) 0 ∧
      (List.range k).foldl (fun vi i => f64Add vi (f64Div (f64OfNat (y i).toNat) (f64OfNat (q i).toNat))) 0 ≤ (k : ℚ) := by
    intro k hk
    induction k with
    | zero => simp
    | succ k ih =>
      obtain ⟨i1, i2⟩ := ih (by omega)
      rw [List.range_succ, List.foldl_append, List.foldl_cons, List.foldl_nil]
      generalize (List.range k).foldl _ (0 : ℚ) = s at i1 i2
      have hlt := h k (by omega)
      have hq : (0 : ℚ) < ((q k).toNat : ℚ) := by exact_mod_cast (by omega : 0 < (q k).toNat)
      have hfq := f64_pos hq
      have d0 : 0 ≤ f64Div (f64OfNat (y k).toNat) (f64OfNat (q k).toNat) :=
        f64_nonneg (div_nonneg (f64_nonneg (Nat.cast_nonneg _)) hfq.le)
      have d1 : f64Div (f64OfNat (y k).toNat) (f64OfNat (q k).toNat) ≤ 1 := by
        unfold f64Div f64OfNat
        rcases Nat.eq_zero_or_pos (y k).toNat with h0 | h0
        · rw [h0, Nat.cast_zero, f64_eq_zero.2 rfl, zero_div, f64_eq_zero.2 rfl]
          norm_num
        · have hy : (0 : ℚ) < ((y k).toNat : ℚ) := by exact_mod_cast h0
          have h1 : f64 ((y k).toNat : ℚ) / f64 ((q k).toNat : ℚ) ≤ ((1 : ℕ) : ℚ) := by
            rw [div_le_iff₀ hfq, Nat.cast_one, one_mul]
            exact f64_mono hy (by exact_mod_cast hlt.le)
          have h2 := f64_mono (div_pos (f64_pos hy) hfq) h1
          rw [f64_nat (m := 1) (by norm_num), Nat.cast_one] at h2
          exact h2
      generalize f64Div _ _ = d at d0 d1
      refine ⟨f64_nonneg (add_nonneg i1 d0), ?_⟩
      show f64 (s + d) ≤ _
      rcases (add_nonneg i1 d0).eq_or_lt with h0 | h0
      · rw [← h0, f64_eq_zero.2 rfl]
        positivity
      · have := f64_mono h0 (show s + d ≤ ((k + 1 : ℕ) : ℚ) by push_cast; linarith)
        rwa [f64_nat (by omega)] at this
  obtain ⟨h1, h2⟩ := key m le_rfl
  unfold reconV f64ToNat
  have : ⌊(List.range m).foldl (fun vi i => f64Add vi (f64Div (f64OfNat (y i).toNat) (f64OfNat (q i).toNat))) 0⌋ ≤ (m : ℤ) := by
    have := Int.floor_le_floor h2
    rwa [Int.floor_natCast] at this
  omega

theorem modUp_inRange {n : ℕ} {rQ rP : Ring} (hQ : rQ.Valid n) (sQ : rQ.Small) {levelQ levelP rowsSrc rowsDst : ℕ}
    (lQ : levelQ < rQ.subs.length) (l32 : levelQ < 32) (lP : levelP < rP.subs.length) (h1 : levelQ < rowsSrc) (h2 : levelP < rowsDst)
    {params : List ModupParams} (h3 : levelQ < params.length)
    (h4 : params.getD levelQ default = basisExtenderParameters (rQ.moduli.take (levelQ + 1)) rP.moduli) (N : ℕ) (src : Rows) :
    modUpInRange levelQ levelP rowsSrc rowsDst N src rQ rP params = true := by
  have hlen : (rQ.moduli.take (levelQ + 1)).length = levelQ + 1 := length_take_moduli rQ lQ
  have lP' : rP.moduli.length = rP.subs.length := by simp [Ring.moduli]
  have hsrc : SrcOK (rQ.moduli.take (levelQ + 1)) := hQ.srcOK sQ lQ l32
  unfold modUpInRange
  rw [h4]
  refine decide_eq_true ⟨h1, h2, h3, l32, lQ, ?_, lP, ?_, ?_, fun j hj => ⟨?_, fun x _ => ?_⟩⟩
  · show levelQ < ((List.range _).map _).length
    rw [List.length_map, List.length_range, hlen]
    omega
  · show levelP < (rP.moduli.map _).length
    rw [List.length_map]
    omega
  · show levelP < (rP.moduli.map _).length
    rw [List.length_map]
    omega
  · show levelQ < (Rows.row (rP.moduli.map _) j).length
    rw [row_params (by omega), List.length_map, List.length_range, hlen]
    omega
  · show _ < (Rows.row (rP.moduli.map _) j).length
    rw [row_params (by omega), vtimesqmodp, List.length_map, List.length_range, hlen]
    refine Nat.lt_succ_of_le (reconV_le (by omega) fun i hi => ?_)
    obtain ⟨g1, -⟩ := qoverqiinvqi_spec hsrc (i := i) (by omega)
    have e : (basisExtenderParameters (rQ.moduli.take (levelQ + 1)) rP.moduli).qoverqiinvqi.at i
        = qoverqiinvqi (rQ.moduli.take (levelQ + 1)) i := by
      show Row.at ((List.range _).map _) i = _
      rw [at_map_range _ _ (by omega)]
    have hat := at_take_moduli rQ (show i ≤ levelQ by omega) lQ
    unfold reconY
    rw [e]
    rw [hat] at g1
    exact (mred_spec (hQ.subAt (by omega)).mred (by have := sQ _ (Ring.sub_mem (show i < rQ.subs.length by omega)); omega) _ _
      (mul_lt_of_lt_right _ g1)).1

theorem paramsQtoP_getD {rQ rP : Ring} {l : ℕ} (hl : l < rQ.subs.length) : l < (newBasisExtender rQ rP).paramsQtoP.length ∧
    (newBasisExtender rQ rP).paramsQtoP.getD l default = basisExtenderParameters (rQ.moduli.take (l + 1)) rP.moduli := by
  refine ⟨?_, ?_⟩
  · show _ < ((List.range _).map _).length
    simpa using hl
  · show ((List.range _).map _).getD l default = _
    rw [getD_map_range' _ _ _ hl]

theorem paramsPtoQ_getD {rQ rP : Ring} {l : ℕ} (hl : l < rP.subs.length) : l < (newBasisExtender rQ rP).paramsPtoQ.length ∧
    (newBasisExtender rQ rP).paramsPtoQ.getD l default = basisExtenderParameters (rP.moduli.take (l + 1)) rQ.moduli := by
  refine ⟨?_, ?_⟩
  · show _ < ((List.range _).map _).length
    simpa using hl
  · show ((List.range _).map _).getD l default = _
    rw [getD_map_range' _ _ _ hl]

/-- the memory of a fast key, as `NewSwitchingKey` allocates it: as many digits and blocks as the largest level needs -/
structure FKeyShape (p : FParams) (bg : FSwitchingKey) : Prop where
  digits : p.beta ≤ bg.length
  blocks : ∀ i < p.beta, ceilDivF (p.maxLevel + p.alpha + 1) p.gamma ≤ (bg.getD i []).length
  lvl : ∀ i < p.beta, ∀ j < ceilDivF (p.maxLevel + p.alpha + 1) p.gamma, p.levelT < (bg.at i j).length
  row : ∀ i < p.beta, ∀ j < ceilDivF (p.maxLevel + p.alpha + 1) p.gamma, ∀ t ≤ p.levelT, ((bg.at i j).row t).length = p.ringQ.n

section
variable {fuel n : ℕ} {p : FParams} {ksw : FKeySwitcher} (h : p.OK fuel n) (hk : newFKeySwitcher fuel p = some ksw)
include h hk

theorem conv_lengths : ksw.convTRi.length = ksw.ringRi.length ∧ ksw.convQjT.length = p.beta := by
  have hg := h.gamma_pos
  have hg2 := h.gamma32
  have ha := h.lenP
  have ha2 := h.alpha32
  have hq := h.q100
  have hR := h.lenR
  have hal : p.alpha = p.ringP.subs.length := rfl
  have e1 : ceilDivF p.ringR.subs.length p.gamma = (p.ringR.subs.length + p.gamma - 1) / p.gamma :=
    ceilDivF_small hg (by omega) (by omega)
  have e2 : p.beta = (p.ringQ.subs.length + p.alpha - 1) / p.alpha := by
    unfold FParams.beta
    rw [if_pos (by omega), ceilDivF_small (by omega) (by omega) (by omega)]
  obtain ⟨gR, r1, r2⟩ := blockRings_ok (len := (p.ringR.subs.length + p.gamma - 1) / p.gamma)
    h.n_lt h.sR h.bR hg (fun i hi => (ceil_block hg).1 hi)
  obtain ⟨gQ, q1, q2⟩ := blockRings_ok (len := (p.ringQ.subs.length + p.alpha - 1) / p.alpha)
    h.n_lt h.sQ h.bQ (size := p.alpha) (by omega) (fun i hi => (ceil_block (by omega)).1 hi)
  have hN : p.ringQ.n = 2 ^ n := h.hQ.deg
  unfold newFKeySwitcher at hk
  simp only at hk
  rw [h.cntR, h.cntQ, e1, e2, hN, r1, q1] at hk
  rw [← Option.some.inj hk, e2]
  simp

variable {levelQ : ℕ} (hl : levelQ < p.ringQ.subs.length)
include hl

theorem digitMem_eq {a : Rows} (ha : levelQ < a.length) {j : ℕ} (hj : j < ceilDivF (levelQ + 1) p.alpha) :
    ksw.digitMem levelQ a j = some (ksw.digit levelQ a j) := by
  have K := ksw_ok h hk
  have h1 := h.lenP
  have h2 := h.alpha32
  have h3 := h.q100
  have h5 := h.lenT
  have h4 : p.alpha = p.ringP.subs.length := rfl
  rw [ceilDivF_small (by omega) (by omega) (by omega)] at hj
  have hj' := (ceil_block (by omega)).1 hj
  have hjb : j < p.beta := by
    unfold FParams.beta
    rw [if_pos (by omega), ceilDivF_small (by omega) (by omega) (by omega)]
    exact (ceil_block (by omega)).2 (by omega)
  obtain ⟨b, hb, hconv⟩ := K.ringQj j (by omega)
  have hbl := hb.len
  have hlT : p.levelT < p.ringT.subs.length := by unfold FParams.levelT; omega
  unfold FKeySwitcher.digitMem
  dsimp only
  rw [K.params, hconv, if_pos]
  rw [(conv_lengths h hk).2]
  refine ⟨fun i hi hlt => ⟨?_, by omega⟩, hjb, by omega, Or.inr ⟨hjb, ?_⟩⟩
  · have : i ≤ j * p.alpha + i := by omega
    omega
  · have hc := blockCount_eq p.alpha (levelQ + 1) j
    obtain ⟨g1, g2⟩ := paramsQtoP_getD (rQ := b) (rP := p.ringT) (l := blockCount p.alpha (levelQ + 1) j - 1) (by omega)
    exact modUp_inRange (rQ := b) (rP := p.ringT) hb.valid hb.small (by omega) (by omega) hlT (by omega) hlT g1 g2 _ _

theorem externalProductMem_eq {dig : List Rows} (hd : ceilDivF (levelQ + 1) p.alpha ≤ dig.length) {bg : FSwitchingKey}
    (hbg : FKeyShape p bg) {c : Rows} (hc : levelQ < c.length) (hcr : ∀ i ≤ levelQ, (c.row i).length = p.ringQ.n) :
    ksw.externalProductMem levelQ dig bg c = some (ksw.externalProduct levelQ dig bg c) := by
  have K := ksw_ok h hk
  have h1 := h.lenP
  have h2 := h.alpha32
  have h3 := h.q100
  have h5 := h.lenT
  have h6 := h.t32
  have h7 := h.gamma_pos
  have h8 := h.gamma32
  have hR := h.lenR
  have hcR := h.cntR
  have h4 : p.alpha = p.ringP.subs.length := rfl
  have hlT : p.levelT < p.ringT.subs.length := by unfold FParams.levelT; omega
  have hlT' : p.levelT < 32 := by omega
  have hbeta : ∀ i < ceilDivF (levelQ + 1) p.alpha, i < p.beta := by
    intro i hi
    rw [ceilDivF_small (by omega) (by omega) (by omega)] at hi
    have := (ceil_block (by omega)).1 hi
    unfold FParams.beta
    rw [if_pos (by omega), ceilDivF_small (by omega) (by omega) (by omega)]
    exact (ceil_block (by omega)).2 (by omega)
  have hblk : ∀ j < ceilDivF (levelQ + p.alpha + 1) p.gamma, j * p.gamma < levelQ + p.alpha + 1 := by
    intro j hj
    rw [ceilDivF_small (by omega) (by omega) (by omega)] at hj
    exact (ceil_block (by omega)).1 hj
  have hblk' : ∀ j < ceilDivF (levelQ + p.alpha + 1) p.gamma, j < ceilDivF (p.maxLevel + p.alpha + 1) p.gamma := by
    intro j hj
    have := hblk j hj
    rw [hcR, ceilDivF_small (by omega) (by omega) (by omega)]
    exact (ceil_block (by omega)).2 (by omega)
  unfold FKeySwitcher.externalProductMem
  dsimp only
  rw [if_pos]
  rw [K.params]
  refine ⟨?_, fun i hi => ?_, ?_⟩
  · unfold FKeySwitcher.productsInRange
    dsimp only
    rw [K.params]
    obtain ⟨Q, hm, -⟩ := overflowMargin_ok h.hT h.sT hlT
    refine decide_eq_true ⟨hm.pos, fun i hi => ⟨by omega, ?_, fun j hj => ⟨?_, ?_, ?_, fun t ht => ?_⟩⟩⟩
    · have := hbg.digits
      have := hbeta i hi
      omega
    · have := hbg.blocks i (hbeta i hi)
      have := hblk' j hj
      omega
    · have := hblk j hj
      exact (K.lenRi j).2 (by omega)
    · exact hbg.lvl i (hbeta i hi) j (hblk' j hj)
    · exact hbg.row i (hbeta i hi) j (hblk' j hj) t (by omega)
  · have hi' := hblk i hi
    obtain ⟨hb, hconv⟩ := K.ringRi i (by omega)
    have hbl := hb.len
    have hcnt := blockCount_eq p.gamma (levelQ + p.alpha + 1) i
    have hRi := (K.lenRi i).2 (by omega)
    have hhalf := K.halfT.lvl
    unfold FKeySwitcher.blockInRange
    dsimp only
    rw [K.params, hconv, (conv_lengths h hk).1]
    obtain ⟨g1, g2⟩ := paramsQtoP_getD (rQ := p.ringT) (rP := ksw.ringRi.getD i p.ringR) hlT
    refine decide_eq_true ⟨hRi, hRi, hhalf, ?_, by omega, fun j hj => ?_⟩
    · exact modUp_inRange (rQ := p.ringT) (rP := ksw.ringRi.getD i p.ringR) h.hT h.sT hlT hlT' (by omega) hlT (by omega) g1 g2 _ _
    · split <;> omega
  · unfold FKeySwitcher.divInRange
    dsimp only
    rw [K.params, K.convQP]
    have e : p.alpha - 1 = p.ringP.subs.length - 1 := rfl
    have q1 := K.halfQ.lvl
    have q2 := K.halfP.lvl
    obtain ⟨g1, g2⟩ := paramsPtoQ_getD (rQ := p.ringQ) (rP := p.ringP) (l := p.alpha - 1) (by omega)
    refine decide_eq_true ⟨hl, by omega, by omega, by omega, ?_, ?_, ?_, hc, fun i hi => hcr i (by omega)⟩
    · exact modUp_inRange (rQ := p.ringP) (rP := p.ringQ) h.hP h.sP (by omega) (by omega) hl (by omega) hl g1 g2 _ _
    · show _ < ((List.range _).map _).length
      rw [List.length_map, List.length_range]
      omega
    · show _ < (Rows.row ((List.range _).map _) _).length
      unfold Rows.row
      rw [getD_map_range' _ _ _ (by omega), List.length_map, List.length_range]
      exact hl

/-- **C125 (no panic).** `SwitchKey` with `gamma`, `alpha` and the number of primes of `T` between 1 and 32: no index is out of range, at any level, for
any words in the input and in the key, and the result is that of C26 and C27.  Partial: the parameters accepted are more. -/
theorem C125_no_panic_partial {a : Rows} (ha : levelQ < a.length) {bg0 bg1 : FSwitchingKey} (hb0 : FKeyShape p bg0) (hb1 : FKeyShape p bg1)
    {c0 c1 : Rows} (hc0 : levelQ < c0.length) (hr0 : ∀ i ≤ levelQ, (c0.row i).length = p.ringQ.n) (hc1 : levelQ < c1.length)
    (hr1 : ∀ i ≤ levelQ, (c1.row i).length = p.ringQ.n) :
    ∃ d, ksw.switchKeyMem levelQ false a bg0 bg1 c0 c1 = some d ∧ ksw.switchKey levelQ false a bg0 bg1 c0 c1 = some d := by
  refine ⟨_, ?_, rfl⟩
  unfold FKeySwitcher.switchKeyMem
  rw [(ksw_ok h hk).params, mapM_range fun j hj => digitMem_eq h hk hl ha hj]
  simp only [Bool.false_eq_true, if_false, Option.bind_some]
  rw [externalProductMem_eq h hk hl (by simp) hb0 hc0 hr0, externalProductMem_eq h hk hl (by simp) hb1 hc1 hr1]
  rfl

end

theorem not_inRange {levelQ levelP rowsSrc rowsDst N : ℕ} {src : Rows} {rQ rP : Ring} {params : List ModupParams} (h : 32 ≤ levelQ) :
    modUpInRange levelQ levelP rowsSrc rowsDst N src rQ rP params = false := by
  unfold modUpInRange
  exact decide_eq_false fun hc => by
    have := hc.2.2.2.1
    omega

/-- **C125 (panic).** With more than 32 primes in `T` every call of `SwitchKey` panics, and so with more than 32 primes in `P`. -/
theorem C125_panic (ksw : FKeySwitcher) (levelQ : ℕ) (h0 : 0 < ceilDivF (levelQ + ksw.params.alpha + 1) ksw.params.gamma)
    (h : 32 < ksw.params.ringT.subs.length ∨ 32 < ksw.params.ringP.subs.length) (isNTT : Bool) (a : Rows) (bg0 bg1 : FSwitchingKey)
    (c0 c1 : Rows) : ksw.switchKeyMem levelQ isNTT a bg0 bg1 c0 c1 = none := by
  have key : ∀ dig, ksw.externalProductMem levelQ dig bg0 c0 = none := by
    intro dig
    unfold FKeySwitcher.externalProductMem
    dsimp only
    rw [if_neg]
    rintro ⟨-, h1, h2⟩
    rcases h with h | h
    · have := h1 0 h0
      unfold FKeySwitcher.blockInRange at this
      have := (of_decide_eq_true this).2.2.2.1
      rw [not_inRange (by unfold FParams.levelT; omega)] at this
      cases this
    · unfold FKeySwitcher.divInRange at h2
      have := (of_decide_eq_true h2).2.2.2.2.1
      rw [not_inRange (by unfold FParams.alpha; omega)] at this
      cases this
  unfold FKeySwitcher.switchKeyMem
  split
  · rfl
  · cases (List.range (ceilDivF (levelQ + 1) ksw.params.alpha)).mapM (ksw.digitMem levelQ a) with
    | none => rfl
    | some dig => rw [Option.bind_some, key]; rfl

/-- 33 primes that are 1 modulo 32 -/
def primes33 : List UInt64 :=
    [353, 449, 577, 641, 673, 769, 929, 1153, 1217, 1249, 1409, 1601, 1697, 1889, 2017, 2081, 2113, 2273, 2593, 2657, 2689,
      2753, 3041, 3137, 3169, 3329, 3361, 3457, 3617, 4001, 4129, 4289, 4481]

/-- primes that are 1 modulo 32 and at most 5000 -/
def SmallPrimes (l : List UInt64) : Prop := ∀ q ∈ l, q.toNat.Prime ∧ q.toNat % 32 = 1 ∧ q.toNat ≤ 5000

theorem small_primes {l : List UInt64} (l' : List ℕ) (e : l.map UInt64.toNat = l') (h : ∀ m ∈ l', m.Prime ∧ m % 32 = 1 ∧ m ≤ 5000) :
    SmallPrimes l := fun q hq => h _ (e ▸ List.mem_map_of_mem hq)

theorem ring_small {l : List UInt64} (hp : SmallPrimes l) (h0 : l ≠ []) (hd : l.Nodup) {fuel : ℕ} (hf : 5000 ≤ fuel) :
    ∃ r, newRing fuel (2 ^ 4) l = .ok r ∧ r.subs.length = l.length := by
  have hs : ∀ q ∈ l, q.toNat < 2 ^ 63 := fun q hq => lt_of_le_of_lt (hp q hq).2.2 (by norm_num)
  obtain ⟨r, hr⟩ := (C103_newRing (2 ^ 4) (by norm_num) .standard l hs).1
    ⟨⟨4, le_rfl, by norm_num⟩, h0, hd, fun q hq => (hp q hq).1, fun q hq => by have := (hp q hq).2.1; rwa [show rootOrder (2 ^ 4) .standard = 32 by rfl]⟩
  have h : newRing fuel (2 ^ 4) l = .ok r := hr fuel fun q hq => le_trans (hp q hq).2.2 hf
  refine ⟨r, h, ?_⟩
  have := (newRing_valid' (n := 4) (by norm_num) (by norm_num) (fun q hq => lt_of_le_of_lt (hp q hq).2.2 (by norm_num)) h).2.2
  simpa [Ring.moduli] using congrArg List.length this

theorem params_small {q p t : List UInt64} (hq : SmallPrimes (q ++ p)) (ht : SmallPrimes t) (hq0 : 0 < q.length ∧ q.length ≤ 100)
    (hp0 : p ≠ []) (hp1 : p.length ≤ 100) (ht0 : t ≠ []) (hdq : (p ++ q).Nodup) (hdt : t.Nodup) (h : ℕ) (sigma : UInt64) (gamma : ℕ) {fuel : ℕ}
    (hf : 5000 ≤ fuel) : ∃ fp, newFParams fuel 4 q p t h sigma gamma = some fp := by
  obtain ⟨P, hP⟩ := (C103_newParameters 4 .standard q p h sigma).1
    ⟨by omega, hq0, hp1, fun x hx => lt_of_le_of_lt (hq x (List.mem_append_left _ hx)).2.2 (by norm_num),
      fun x hx => lt_of_le_of_lt (hq x (List.mem_append_right _ hx)).2.2 (by norm_num),
      ⟨(List.nodup_append.1 hdq).2.1, (List.nodup_append.1 hdq).1⟩, fun x hx => (hq x hx).1, fun x hx => by have := (hq x hx).2.1; rwa [show rootOrder (2 ^ 4) .standard = 32 by rfl]⟩
  have hP' := hP fuel fun x hx => le_trans (hq x hx).2.2 hf
  obtain ⟨-, hrP⟩ := newParameters_rings hP'
  rcases hrP with ⟨hc, -⟩ | ⟨-, rP, hrP, -⟩
  · exact absurd hc hp0
  obtain ⟨rT, hT, -⟩ := ring_small ht ht0 hdt hf
  obtain ⟨rR, hR, -⟩ := ring_small (l := p ++ q) (fun x hx => hq x (List.mem_append.2 (List.mem_append.1 hx).symm)) (by simp [hp0]) hdq hf
  refine ⟨⟨P.ringQ, rP, rR, rT, gamma⟩, ?_⟩
  unfold newFParams
  rw [hP']
  simp only [hT, hR, hrP]

theorem primes33_prime : SmallPrimes primes33 :=
  small_primes [353, 449, 577, 641, 673, 769, 929, 1153, 1217, 1249, 1409, 1601, 1697, 1889, 2017, 2081, 2113, 2273, 2593, 2657, 2689, 2753, 3041,
    3137, 3169, 3329, 3361, 3457, 3617, 4001, 4129, 4289, 4481] (by decide +kernel) (by norm_num)

theorem newFParams_swapT {fuel logN : ℕ} {q p t t' : List UInt64} {h : ℕ} {sigma : UInt64} {gamma : ℕ} {fp : FParams}
    (hf : newFParams fuel logN q p t h sigma gamma = some fp) {r : Ring} (hr : newRing fuel (2 ^ logN) t' = .ok r) :
    newFParams fuel logN q p t' h sigma gamma = some { fp with ringT := r } := by
  unfold newFParams at hf ⊢
  split at hf
  · cases hf
  split at hf
  · cases hf
  split at hf
  · cases hf
  split at hf
  · cases hf
  rw [← Option.some.inj hf]
  simp only [*]

theorem constructors_swapT {fuel : ℕ} {fp : FParams} {ksw : FKeySwitcher} {kg : FKeyGenerator} (hk : newFKeySwitcher fuel fp = some ksw)
    (hg : newFKeyGenerator fuel fp = some kg) (r : Ring) : ∃ ksw' kg', newFKeySwitcher fuel { fp with ringT := r } = some ksw' ∧
      newFKeyGenerator fuel { fp with ringT := r } = some kg' ∧ ksw'.params = { fp with ringT := r } := by
  unfold newFKeySwitcher at hk ⊢
  unfold newFKeyGenerator at hg ⊢
  simp only [Option.bind_eq_some_iff] at hk hg
  obtain ⟨l, h1, l', h2, -⟩ := hk
  obtain ⟨l3, h3, -⟩ := hg
  exact ⟨_, _, Option.bind_eq_some_iff.2 ⟨l, h1, Option.bind_eq_some_iff.2 ⟨l', h2, rfl⟩⟩, Option.bind_eq_some_iff.2 ⟨l3, h3, rfl⟩, rfl⟩

theorem panic_of_33 {fuel : ℕ} {q p t t' : List UInt64} {h : ℕ} {sigma : UInt64} {gamma : ℕ} (hq : SmallPrimes (q ++ p)) (ht : SmallPrimes t)
    (ht' : SmallPrimes t') (hq0 : 0 < q.length ∧ q.length ≤ 100) (hp0 : p ≠ []) (hp1 : p.length ≤ 32) (ht0 : t ≠ []) (ht1 : t.length ≤ 32)
    (hdq : (p ++ q).Nodup) (hdt : t.Nodup) (hdt' : t'.Nodup) (hg0 : 0 < gamma) (hg1 : gamma ≤ 32) (h33 : 32 < t'.length) (hf : 5000 ≤ fuel) :
    ∃ fp ksw kg, newFParams fuel 4 q p t' h sigma gamma = some fp ∧ newFKeySwitcher fuel fp = some ksw ∧ newFKeyGenerator fuel fp = some kg ∧
      ∀ levelQ < q.length, ∀ isNTT a bg0 bg1 c0 c1, ksw.switchKeyMem levelQ isNTT a bg0 bg1 c0 c1 = none := by
  obtain ⟨fp, hfp⟩ := params_small hq ht hq0 hp0 (by omega) ht0 hdq hdt h sigma gamma hf
  obtain ⟨hok, -, hP, -, -, hg⟩ := C26_params hfp (fun x hx => lt_of_le_of_lt (hq x (List.mem_append_left _ hx)).2.2 (by norm_num))
    (fun x hx => lt_of_le_of_lt (hq x (List.mem_append_right _ hx)).2.2 (by norm_num))
    (fun x hx => lt_of_le_of_lt (ht x hx).2.2 (by norm_num)) hp1 ht1 hg0 hg1
  obtain ⟨⟨ksw, hk, -⟩, ⟨kg, hkg, -⟩⟩ := C26_constructors hok
  obtain ⟨r, hr, hlen⟩ := ring_small ht' (by rintro rfl; simp at h33) hdt' hf
  obtain ⟨ksw', kg', k1, k2, k3⟩ := constructors_swapT hk hkg r
  refine ⟨_, ksw', kg', newFParams_swapT hfp hr, k1, k2, fun levelQ hl isNTT a bg0 bg1 c0 c1 => C125_panic ksw' levelQ ?_ (Or.inl ?_)
    isNTT a bg0 bg1 c0 c1⟩
  · have e1 : ksw'.params.gamma = gamma := by rw [k3]; exact hg
    have e2 : ksw'.params.alpha = p.length := by
      rw [k3]
      show fp.ringP.subs.length = p.length
      simpa [Ring.moduli] using congrArg List.length hP
    rw [e1, e2, ceilDivF_small (by omega) (by omega) (by omega)]
    exact (ceil_block (by omega)).2 (by omega)
  · rw [k3]
    show 32 < r.subs.length
    omega

/-- **C125 (refutation).** Parameters with `Q = 97·193·641`, `P = 257·353` and 33 primes in `T` are accepted, key switcher and key generator are
built, and every call of `SwitchKey` panics. -/
theorem C125_not (fuel : ℕ) (hf : 5000 ≤ fuel) :
    ∃ p ksw kg, newFParams fuel 4 [97, 193, 641] [257, 353] primes33 5 0x4009999999999999 2 = some p ∧
    newFKeySwitcher fuel p = some ksw ∧ newFKeyGenerator fuel p = some kg ∧
    ∀ levelQ < 3, ∀ isNTT a bg0 bg1 c0 c1, ksw.switchKeyMem levelQ isNTT a bg0 bg1 c0 c1 = none :=
  panic_of_33 (t := [449]) (small_primes [97, 193, 641, 257, 353] (by decide +kernel) (by norm_num))
    (small_primes [449] (by decide +kernel) (by norm_num)) primes33_prime ⟨by simp, by simp⟩ (by simp) (by simp) (by simp) (by simp) (by decide +kernel)
    (by decide +kernel) (by decide +kernel) (by omega) (by omega) (by decide +kernel) hf

section
variable {fuel n : ℕ} {p : FParams} {kg : FKeyGenerator} (h : p.OK fuel n) (hg : newFKeyGenerator fuel p = some kg)
include h hg

theorem convertKey_shape {k : SwitchingKey} {sIn sOut : ℕ → ℤ} {e : ℕ → ℕ → ℤ}
    (hs : IsSwitchKey n p.ringQ p.ringP p.maxLevel (p.alpha - 1) k sIn sOut e) :
    FKeyShape p (kg.convertKey k).1 ∧ FKeyShape p (kg.convertKey k).2 := by
  have K := kg_ok h hg
  have h2 := h.alpha32
  have h3 := h.q100
  have h7 := h.gamma_pos
  have h8 := h.gamma32
  have hR := h.lenR
  obtain ⟨B, A, hBA, -⟩ := hs.ex
  have key : ∀ {x : ℕ → PolyQP} {X : ℕ → ℕ → ℤ}, (∀ i < p.beta, (x i).IsMont n p.ringQ p.ringP p.maxLevel (p.alpha - 1) (X i)) →
      FKeyShape p ((List.range p.beta).map fun i => kg.polyQPToPolyTs (p.plain (x i))) := by
    intro x X hx
    have hblk : ∀ j < ceilDivF (p.maxLevel + p.alpha + 1) p.gamma, j * p.gamma < p.ringR.subs.length := by
      intro j hj
      rw [h.cntR, ceilDivF_small (by omega) (by omega) (by omega)] at hj
      exact (ceil_block (by omega)).1 hj
    refine ⟨by simp, fun i hi => ?_, fun i hi j hj => ?_, fun i hi j hj t ht => ?_⟩
    · rw [getD_map_range' _ _ _ hi]
      unfold FKeyGenerator.polyQPToPolyTs
      simp [K.params]
    · obtain ⟨Z, -, hZ⟩ := convertKey_is h K (hx i hi) hi (hblk j hj)
      exact hZ.lvl
    · obtain ⟨Z, -, hZ⟩ := convertKey_is h K (hx i hi) hi (hblk j hj)
      rw [(hZ.row t ht).len, h.hT.deg, h.hQ.deg]
  have e1 : (kg.convertKey k).1 = (List.range p.beta).map fun i => kg.polyQPToPolyTs (p.plain (k.getD i default).1) := by
    unfold FKeyGenerator.convertKey
    rw [K.params]
    rfl
  have e2 : (kg.convertKey k).2 = (List.range p.beta).map fun i => kg.polyQPToPolyTs (p.plain (k.getD i default).2) := by
    unfold FKeyGenerator.convertKey
    rw [K.params]
    rfl
  rw [e1, e2]
  exact ⟨key fun i hi => (hBA i (beta_digit h hi)).1, key fun i hi => (hBA i (beta_digit h hi)).2⟩

end

/-- **C125 (with generated keys).** `GenRelinKey` and then `SwitchKey` at any level, on any words: no panic. -/
theorem C125_relin_partial {fuel n : ℕ} {p : FParams} {kg : FKeyGenerator} {ksw : FKeySwitcher} (h : p.OK fuel n)
    (hk : newFKeySwitcher fuel p = some ksw) (hg : newFKeyGenerator fuel p = some kg) {sk : PolyQP} {S : ℕ → ℤ}
    (hs : sk.IsMont n p.ringQ p.ringP p.maxLevel (p.alpha - 1) S) {tape : ℕ → KeyTape} {e : ℕ → ℕ → ℤ}
    (ht : TapeOK n p.ringQ p.ringP p.maxLevel (p.alpha - 1) tape e) {pool : Rows} (hp : GenPool p pool) {levelQ : ℕ}
    (hl : levelQ < p.ringQ.subs.length) {a c0 c1 : Rows} (ha : levelQ < a.length)
    (hc0 : levelQ < c0.length) (hr0 : ∀ i ≤ levelQ, (c0.row i).length = p.ringQ.n) (hc1 : levelQ < c1.length)
    (hr1 : ∀ i ≤ levelQ, (c1.row i).length = p.ringQ.n) :
    ∃ pool' key d, kg.genRelinKeyMem pool sk tape = some (pool', key) ∧ ksw.switchKeyMem levelQ false a key.1 key.2 c0 c1 = some d ∧
      key = kg.genRelinKey sk tape ∧ ksw.switchKey levelQ false a key.1 key.2 c0 c1 = some d := by
  obtain ⟨pool', e1, -⟩ := C124_relin h hg hs ht hp
  have hkey := C33_relinearization (FParams.OK.keyParams h) hs (maxDegree := 1) (i := 0) (by omega) (tape := fun _ => tape) ht
  obtain ⟨s1, s2⟩ := convertKey_shape h hg hkey
  have e2 : kg.genRelinKey sk tape = kg.convertKey ((genRelinearizationKey p.ringQ p.ringP sk 1 fun _ => tape).getD 0 []) := by
    unfold FKeyGenerator.genRelinKey
    rw [(kg_ok h hg).params]
  rw [← e2] at s1 s2
  obtain ⟨d, d1, d2⟩ := C125_no_panic_partial h hk hl ha s1 s2 hc0 hr0 hc1 hr1
  exact ⟨pool', _, d, e1, d1, rfl, d2⟩

/-- the parameters of `exampleKeys` at level 1: rows of the largest words are switched without a panic -/
example : ∃ (p : FParams) (ksw : FKeySwitcher) (key : FSwitchingKey × FSwitchingKey) (d : Rows × Rows),
    p.ringQ.moduli = [97, 193, 641] ∧ newFKeySwitcher 100 p = some ksw ∧
    ksw.switchKeyMem 1 false (List.replicate 3 (List.replicate 16 (0 - 1))) key.1 key.2 (newPoly 16 2) (newPoly 16 3) = some d := by
  obtain ⟨p, ksw, kg, s, tape, h1, h, hF, ha, lQ, hk, hg, hQ, hP, hsam, hsk, ht⟩ := exampleKeys
  have hn : p.ringQ.n = 16 := h.hQ.deg
  obtain ⟨pool', key, d, -, e, -⟩ := C125_relin_partial h hk hg hsk ht (newPool_ok h) (levelQ := 1) (by omega)
    (a := List.replicate 3 (List.replicate 16 (0 - 1))) (c0 := newPoly 16 2) (c1 := newPoly 16 3) (by simp)
    (by rw [length_newPoly]; omega) (fun i hi => by rw [row_newPoly (by omega), List.length_replicate, hn])
    (by rw [length_newPoly]; omega) (fun i hi => by rw [row_newPoly (by omega), List.length_replicate, hn])
  exact ⟨p, ksw, key, d, hQ, hk, e⟩

end FastKsw.Props
