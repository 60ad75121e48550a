import Verif.Lemmas.RandomKeys

/-!
# C115: the law of generated keys and of random ciphertexts
-/

namespace FastKsw.Props

open MeasureTheory Finset
open scoped ENNReal

/-- a mask: one row per modulus of `Q` and of `P`, with coefficients below the modulus -/
structure MaskOK (rQ rP : Ring) (m : PolyQP) : Prop where
  lq : m.q.length = rQ.subs.length
  lp : m.p.length = rP.subs.length
  q : ∀ j < rQ.subs.length, (m.q.row j).length = rQ.n ∧ ∀ x ∈ m.q.row j, x < (rQ.sub j).q
  p : ∀ j < rP.subs.length, (m.p.row j).length = rP.n ∧ ∀ x ∈ m.p.row j, x < (rP.sub j).q

/-- the inverse of the number of polynomials with reduced coefficients -/
noncomputable def polyMass (r : Ring) : ℝ≥0∞ := ∏ j ∈ range r.subs.length, ((r.sub j).q.toNat : ℝ≥0∞)⁻¹ ^ r.n

/-- a polynomial written over another one of `level + 1` rows -/
theorem written_full {r : Ring} {level : ℕ} {A : ℕ → ℕ} {p x : Rows} {v : ∀ i, ℕ → ZMod (r.sub i).q.toNat} (hp : p.length = level + 1) :
    PolyWritten r level A p x v ↔ PolyIs r level A x v ∧ x.length = level + 1 := by
  constructor
  · rintro ⟨h1, h2, -⟩
    exact ⟨h1, h2.trans hp⟩
  · rintro ⟨h1, h2⟩
    refine ⟨h1, h2.trans hp.symm, fun i hi => ?_⟩
    rw [Rows.row, Rows.row, List.getD_eq_default _ _ (by omega), List.getD_eq_default _ _ (by omega)]

theorem polyIs_of_reduced {r : Ring} {level : ℕ} {m : Rows} (hl : m.length = level + 1)
    (h : ∀ j ≤ level, (m.row j).length = r.n ∧ ∀ x ∈ m.row j, x < (r.sub j).q) :
    PolyIs r level r.qs m (fun u k => zval (r.sub u).q.toNat (m.row u) k) := by
  refine ⟨by omega, fun i hi => ⟨(h i hi).1, fun k hk => ?_, fun k _ => rfl⟩⟩
  have := (h i hi).2 ((m.row i).at k) (by
    rw [Row.at, getD_lt _ _ (by rw [(h i hi).1]; exact hk)]
    exact List.getElem_mem _)
  exact UInt64.lt_iff_toNat_lt.1 this

section
variable {n : ℕ} {rQ rP : Ring}

theorem isMont_unique (hQ : rQ.Valid n) {lQ lP : ℕ} (hl : lQ < rQ.subs.length) {x : PolyQP} {X Y : ℕ → ℤ} (hX : x.IsMont n rQ rP lQ lP X)
    (hY : x.IsMont n rQ rP lQ lP Y) {u : ℕ} (hu : u ≤ lQ) : intR (2 ^ n) (rQ.qs u) X = intR (2 ^ n) (rQ.qs u) Y := by
  have hv := hQ.subAt (i := u) (by omega)
  have := hv.fact
  rw [← ofNtt_nttVec hQ (by omega), ← ofNtt_nttVec hQ (by omega)]
  refine ofNtt_congr fun k hk => ?_
  rw [← hQ.deg] at hk
  have h1 := (hX.q.row u hu).val k hk
  have h2 := (hY.q.row u hu).val k hk
  rw [h1] at h2
  have hm := mul_rinv hv.arith.odd
  linear_combination (rinv (rQ.sub u).q.toNat) * h2 - (rQ.nttVec n X u k - rQ.nttVec n Y u k) * hm

/-- the errors of a switching key are determined by the key and the secrets -/
theorem isSwitchKey_unique (hQ : rQ.Valid n) {lQ lP : ℕ} (hl : lQ < rQ.subs.length) {k : SwitchingKey} {sIn sOut : ℕ → ℤ}
    {e e' : ℕ → ℕ → ℤ} (h : IsSwitchKey n rQ rP lQ lP k sIn sOut e) (h' : IsSwitchKey n rQ rP lQ lP k sIn sOut e') {b : ℕ}
    (hb : 2 * b < rQ.qs 0) {i : ℕ} (hi : i * (lP + 1) ≤ lQ) (he : ∀ t < 2 ^ n, |e i t| ≤ b) (he' : ∀ t < 2 ^ n, |e' i t| ≤ b) :
    ∀ t < 2 ^ n, e i t = e' i t := by
  obtain ⟨B, A, h1, h2, -⟩ := h.ex
  obtain ⟨B', A', h1', h2', -⟩ := h'.ex
  have hB := isMont_unique hQ hl (h1 i hi).1 (h1' i hi).1 (Nat.zero_le _)
  have hA := isMont_unique hQ hl (h1 i hi).2 (h1' i hi).2 (Nat.zero_le _)
  have h3 := h2 i hi 0 (Nat.zero_le _)
  have h4 := h2' i hi 0 (Nat.zero_le _)
  rw [hB, hA, h4] at h3
  have h5 := add_right_cancel h3
  intro t ht
  have := (hQ.subAt (i := 0) (by omega)).fact
  exact (eq_of_residue hb (he' t ht) (he t ht) (toR_inj (by positivity) h5 t ht)).symm

variable (K : KeyParams n rQ rP) {F : Type} (O : FloatOps F) (sigma : F) {bound : UInt64} (hb0 : 2 * bound.toNat < rQ.qs 0)
  (hb : ∀ j < rQ.subs.length, bound.toNat ≤ rQ.qs j) (hb' : ∀ j < rP.subs.length, bound.toNat ≤ rP.qs j)
include K hb0 hb

/-- the draws of one digit: every outcome is a mask and a bounded error -/
theorem readDigit_outcome {old : PolyQP × PolyQP} (ho : DigitShape (rQ.subs.length - 1) (rP.subs.length - 1) old) {k : ℕ}
    {st st' : GaussState} {t : KeyTape} (hst : st.Ok)
    (h : readDigit O k rQ rP sigma bound (rQ.subs.length - 1) (rP.subs.length - 1) old st = some (t, st')) :
    MaskOK rQ rP t.a ∧ t.e.length = rQ.subs.length ∧ ∃ T : ℕ → ℤ, (∀ k < rQ.n, |T k| ≤ bound.toNat) ∧
      PolyIs rQ (rQ.subs.length - 1) (fun u => rQ.qs u + 1) t.e (rQ.intVec T) := by
  have lq := K.rings.lQ
  have lp := K.rings.lP
  rw [readDigit, Option.bind_eq_some_iff] at h
  obtain ⟨⟨e, st1⟩, h1, h⟩ := h
  rw [Option.bind_eq_some_iff] at h
  obtain ⟨⟨aq, p1⟩, h2, h⟩ := h
  rw [Option.map_eq_some_iff] at h
  obtain ⟨⟨ap, p2⟩, h3, h⟩ := h
  cases h
  obtain ⟨-, v, hv⟩ := C42_uniform K.rings.hQ lq (by rw [ho.aq]; omega) h2
  obtain ⟨-, w, hw⟩ := C42_uniform K.rings.hP lp (by rw [ho.ap]; omega) h3
  have red : ∀ {r : Ring} {l : ℕ} {x : Rows} {v}, PolyIs r l r.qs x v → ∀ j ≤ l, (x.row j).length = r.n ∧ ∀ y ∈ x.row j, y < (r.sub j).q := by
    intro r l x v hx j hj
    have hR := hx.row j hj
    refine ⟨hR.len, fun y hy => ?_⟩
    obtain ⟨i, hi, rfl⟩ := List.getElem_of_mem hy
    have := hR.lt i (by rw [← hR.len]; exact hi)
    rw [Row.at, getD_lt _ _ hi] at this
    exact UInt64.lt_iff_toNat_lt.2 this
  rw [gaussianReadLvl, Option.map_eq_some_iff] at h1
  obtain ⟨⟨gs, st2⟩, h4, h5⟩ := h1
  cases h5
  obtain ⟨⟨s, pos, clk⟩, buf, ptr⟩ := st
  obtain ⟨l1, b1, -⟩ := gaussCoeffs_runs O sigma bound _ (gaussAt_clock s pos clk hst) h4
  have hg := gaussWrite_is bound (level := rQ.subs.length - 1) (fun j hj => hb j (by omega)) l1 b1 (pol := old.1.q) (by rw [ho.bq]; omega)
  refine ⟨⟨?_, ?_, fun j hj => red hv.is j (by omega), fun j hj => red hw.is j (by omega)⟩, ?_, fun t => drawInt (gs.getD t default),
    fun t ht => drawInt_abs bound (b1 _ ?_), hg.is⟩
  · rw [hv.len, ho.aq]; omega
  · rw [hw.len, ho.ap]; omega
  · rw [hg.len, ho.bq]; omega
  · rw [getD_lt _ _ (by omega)]
    exact List.getElem_mem _

/-- the draws of all digits -/
theorem readDigits_outcome (swk : SwitchingKey) : ∀ (_ : ∀ i < swk.length, DigitShape (rQ.subs.length - 1) (rP.subs.length - 1)
      (swk.getD i default)) {k : ℕ} {st st' : GaussState} {ts : List KeyTape} (_ : st.Ok)
    (_ : readDigits O k rQ rP sigma bound (rQ.subs.length - 1) (rP.subs.length - 1) swk st = some (ts, st')), ts.length = swk.length ∧
      ∀ i < swk.length, MaskOK rQ rP (ts.getD i ⟨[], ⟨[], []⟩⟩).a ∧ (ts.getD i ⟨[], ⟨[], []⟩⟩).e.length = rQ.subs.length ∧
      ∃ T : ℕ → ℤ, (∀ k < rQ.n, |T k| ≤ bound.toNat) ∧
        PolyIs rQ (rQ.subs.length - 1) (fun u => rQ.qs u + 1) (ts.getD i ⟨[], ⟨[], []⟩⟩).e (rQ.intVec T) := by
  have lq := K.rings.lQ
  have lp := K.rings.lP
  induction swk with
  | nil =>
    intro _ k st st' ts _ h
    cases h
    exact ⟨rfl, fun i hi => absurd hi (by simp)⟩
  | cons old swk ih =>
    intro ho k st st' ts hst h
    rw [readDigits, Option.bind_eq_some_iff] at h
    obtain ⟨⟨t, st1⟩, h1, h⟩ := h
    rw [Option.map_eq_some_iff] at h
    obtain ⟨⟨ts', st2⟩, h2, h⟩ := h
    cases h
    have o0 : DigitShape (rQ.subs.length - 1) (rP.subs.length - 1) old := ho 0 (by simp)
    have hstep := readDigit_step O sigma bound (old := old)
      (gaussStep_step O sigma bound K.rings.hQ K.rings.lQ hb0 (fun j hj => hb j (by omega)) (pol := old.1.q) (by rw [o0.bq]; omega)
        (T := fun _ => 0) (by simp))
      (uniStep_top K.rings.hQ K.rings.lQ (pol := old.2.q) (by rw [o0.aq]; omega))
      (uniStep_top K.rings.hP K.rings.lP (pol := old.2.p) (by rw [o0.ap]; omega))
    have k1 := readDigit_outcome K O sigma hb0 hb o0 hst h1
    obtain ⟨k2, k3⟩ := ih (fun i hi => ho (i + 1) (by simpa using hi)) (hstep.keeps hst h1).1 h2
    refine ⟨by simp [k2], fun i hi => ?_⟩
    cases i with
    | zero => exact k1
    | succ i => exact k3 i (by simpa using hi)

include hb'

variable {swk : SwitchingKey} (hk : SwkShape (rQ.subs.length - 1) (rP.subs.length - 1) swk)
include hk

/-- there is a digit exactly for the `i` of the definition of a switching key -/
theorem digit_iff (i : ℕ) : i * (rP.subs.length - 1 + 1) ≤ rQ.subs.length - 1 ↔ i < swk.length := by
  have lq := K.rings.lQ
  have lp := K.rings.lP
  have := K.q100
  have := K.p100
  rw [hk.len, ceilDivF_eq (by omega) (by omega) (by omega), Nat.lt_iff_add_one_le, Nat.le_div_iff_mul_le (by omega), Nat.add_mul]
  omega

variable {poolQ skIn : Rows} (hpool : poolQ.length = rQ.subs.length) {skOut : PolyQP} {sIn sOut : ℕ → ℤ}
  (hi : PolyIs rQ (rQ.subs.length - 1) rQ.qs skIn (fun u k => rQ.nttVec n sIn u k * 2 ^ 64))
  (ho : skOut.IsMont n rQ rP (rQ.subs.length - 1) (rP.subs.length - 1) sOut)
include hpool

omit hb' in
theorem genInto_eq {k : ℕ} {st st' : GaussState} {ts : List KeyTape} (hst : st.Ok) (skOut : PolyQP)
    (h : readDigits O k rQ rP sigma bound (rQ.subs.length - 1) (rP.subs.length - 1) swk st = some (ts, st')) :
    (genSwitchingKeyInto rQ rP poolQ skIn skOut (fun i => ts.getD i ⟨[], ⟨[], []⟩⟩) swk).2
      = genSwitchingKeyCore rQ rP (rQ.subs.length - 1) (rP.subs.length - 1) skIn skOut (fun i => ts.getD i ⟨[], ⟨[], []⟩⟩) := by
  have lq := K.rings.lQ
  have lp := K.rings.lP
  have h0 := swkShape_zero K hk
  have e1 : rQ.subs.length - 1 + 1 = rQ.subs.length := by omega
  have hpq : rQ.mulScalarBigintLvl (rQ.subs.length - 1) (keyPBig rP (rP.subs.length - 1)) skIn poolQ
      = rQ.mulScalarBigintLvl (rQ.subs.length - 1) (keyPBig rP (rP.subs.length - 1)) skIn (newPoly rQ.n rQ.subs.length) :=
    writeLvl_full (by rw [hpool, e1]) (by rw [length_newPoly, e1])
  unfold genSwitchingKeyInto genSwitchingKeyCore
  dsimp only
  rw [h0.bq, h0.bp, Nat.add_sub_cancel, Nat.add_sub_cancel, hpq, ← hk.len]
  refine digits_foldl fun i hi => (digitInto_eq ?_ (hk.digit i hi)).1
  obtain ⟨m, l, -⟩ := (readDigits_outcome K O sigma hb0 hb swk hk.digit hst h).2 i hi
  exact ⟨by omega, by rw [m.lq]; omega, by rw [m.lp]; omega⟩

omit hb0 hb hb' hpool in
theorem core_mask {tape : ℕ → KeyTape} {i : ℕ} (hi : i < swk.length) :
    ((genSwitchingKeyCore rQ rP (rQ.subs.length - 1) (rP.subs.length - 1) skIn skOut tape).getD i default).2 = (tape i).a := by
  rw [hk.len] at hi
  unfold genSwitchingKeyCore
  rw [List.getD_eq_getElem _ _ (by simpa using hi), List.getElem_map, List.getElem_range]
  rfl

include hi ho

/-- a key whose draws have the value `T`, `masks` -/
theorem switchingKey_step {T : ℕ → ℕ → ℤ} (hT : ∀ i < swk.length, ∀ t < rQ.n, |T i t| ≤ bound.toNat) {masks : ℕ → PolyQP}
    (hm : ∀ i < swk.length, MaskOK rQ rP (masks i)) :
    Step (fun k st => genSwitchingKeyBytes O k rQ rP sigma bound poolQ skIn skOut swk st)
      (fun key => IsSwitchKey n rQ rP (rQ.subs.length - 1) (rP.subs.length - 1) key sIn sOut T ∧
        ∀ i < swk.length, (key.getD i default).2 = masks i)
      (∏ i ∈ range swk.length, (∏ t ∈ range rQ.n, gaussLaw O sigma bound (T i t)) * polyMass rQ * polyMass rP) := by
  have lq := K.rings.lQ
  have lp := K.rings.lP
  have hdeg := K.rings.hQ.deg
  have h0 := swkShape_zero K hk
  have e1 : rQ.subs.length - 1 + 1 = rQ.subs.length := by omega
  have e2 : rP.subs.length - 1 + 1 = rP.subs.length := by omega
  have hs := readDigits_step O sigma bound swk (rQ := rQ) (rP := rP) (lQ := rQ.subs.length - 1) (lP := rP.subs.length - 1)
    (fun i hi => gaussStep_step O sigma bound K.rings.hQ lq hb0 (fun j hj => hb j (by omega)) (pol := (swk.getD i default).1.q)
      (by rw [(hk.digit i hi).bq]; omega) (hT i hi))
    (fun i hi => uniStep_step K.rings.hQ lq (pol := (swk.getD i default).2.q) (by rw [(hk.digit i hi).aq]; omega)
      (vs := (masks i).q) (by rw [(hm i hi).lq]; omega) (fun j hj => (hm i hi).q j (by omega)))
    (fun i hi => uniStep_step K.rings.hP lp (pol := (swk.getD i default).2.p) (by rw [(hk.digit i hi).ap]; omega)
      (vs := (masks i).p) (by rw [(hm i hi).lp]; omega) (fun j hj => (hm i hi).p j (by omega)))
  rw [e1, e2] at hs
  unfold genSwitchingKeyBytes
  dsimp only
  rw [h0.bq, h0.bp, Nat.add_sub_cancel, Nat.add_sub_cancel]
  refine hs.map (fun ts => (genSwitchingKeyInto rQ rP poolQ skIn skOut (fun i => ts.getD i ⟨[], ⟨[], []⟩⟩) swk).2) ?_
  intro k st ts st' hst h
  rw [genInto_eq K O sigma hb0 hb hk hpool hst skOut h]
  obtain ⟨o1, o2⟩ := readDigits_outcome K O sigma hb0 hb swk hk.digit hst h
  have hdrop : ∀ i (hi : i < swk.length), (masks i).q ++ (swk.getD i default).2.q.drop rQ.subs.length = (masks i).q ∧
      (masks i).p ++ (swk.getD i default).2.p.drop rP.subs.length = (masks i).p := fun i hi => by
    rw [List.drop_eq_nil_of_le (by rw [(hk.digit i hi).aq]; omega), List.drop_eq_nil_of_le (by rw [(hk.digit i hi).ap]; omega)]
    simp
  have hmk : ∀ i < swk.length, (genSwitchingKeyCore rQ rP (rQ.subs.length - 1) (rP.subs.length - 1) skIn skOut
      (fun i => ts.getD i ⟨[], ⟨[], []⟩⟩) |>.getD i default).2 = (ts.getD i ⟨[], ⟨[], []⟩⟩).a := fun i hi => core_mask K hk hi
  have tapeOK : ∀ T' : ℕ → ℕ → ℤ, (∀ i < swk.length, (∀ k < rQ.n, |T' i k| ≤ bound.toNat) ∧
      PolyIs rQ (rQ.subs.length - 1) (fun u => rQ.qs u + 1) (ts.getD i ⟨[], ⟨[], []⟩⟩).e (rQ.intVec (T' i))) →
      TapeOK n rQ rP (rQ.subs.length - 1) (rP.subs.length - 1) (fun i => ts.getD i ⟨[], ⟨[], []⟩⟩) T' := by
    intro T' h'
    have hd := digit_iff K hb0 hb hb' hk
    refine ⟨fun i hi => ?_, fun i hi => ?_, fun i hi t ht u hu => ?_⟩
    · have m := (o2 i ((hd i).1 hi)).1
      exact ⟨_, _, polyIs_of_reduced (by rw [m.lq]; omega) (fun j hj => m.q j (by omega)),
        polyIs_of_reduced (by rw [m.lp]; omega) (fun j hj => m.p j (by omega))⟩
    · obtain ⟨a, b⟩ := h' i ((hd i).1 hi)
      refine ⟨b, fun t ht => ?_⟩
      have := a t ht
      omega
    · have a := (h' i ((hd i).1 hi)).1 t (by rw [hdeg]; exact ht)
      have := hb' u (by omega)
      omega
  constructor
  · rintro ⟨k1, k2⟩
    refine ⟨o1, fun i hi' => ?_⟩
    have ha := (hmk i hi').symm.trans (k2 i hi')
    refine ⟨(written_full (hk.digit i hi').bq).2 ⟨?_, ?_⟩, ?_, ?_⟩
    · choose! T' h1' h2' using fun i hi => (o2 i hi).2.2
      have K2 := C33_switchingKey K lq lp hi ho (tapeOK T' fun i hi => ⟨h1' i hi, h2' i hi⟩)
      have hu := isSwitchKey_unique K.rings.hQ lq K2 k1 hb0 ((digit_iff K hb0 hb hb' hk i).2 hi')
        (fun t ht => h1' i hi' t (by rw [hdeg]; exact ht)) (fun t ht => hT i hi' t (by rw [hdeg]; exact ht))
      refine (h2' i hi').congr fun j hj t ht => ?_
      rw [hdeg] at ht
      simp only [Ring.intVec]
      rw [hu t ht]
    · have := (o2 i hi').2.1
      omega
    · rw [ha, (hdrop i hi').1]
    · rw [ha, (hdrop i hi').2]
  · rintro ⟨-, k2⟩
    refine ⟨C33_switchingKey K lq lp hi ho (tapeOK T fun i hi => ⟨hT i hi, (k2 i hi).1.is⟩), fun i hi => ?_⟩
    rw [hmk i hi]
    obtain ⟨-, a, b⟩ := k2 i hi
    rw [(hdrop i hi).1] at a
    rw [(hdrop i hi).2] at b
    generalize (ts.getD i ⟨[], ⟨[], []⟩⟩).a = x at a b
    generalize masks i = y at a b
    cases x
    cases y
    dsimp only at a b
    rw [a, b]

/-- **C115 (switching keys).** `genSwitchingKey` on random bytes, whatever the buffers and the old key hold: for all error vectors `T`
within the bound and all masks, the probability that the result is the switching key with errors `T` and these masks is the product of
the probabilities of the errors and of the uniform probabilities of the masks — the draws are independent of each other, of the secrets
and of the bytes that follow. -/
theorem C115_switchingKey (pos : ℕ) (clk : UInt64) {buf : List UInt8} {ptr : ℕ} (hlen : buf.length = 1024) (hle : ptr ≤ 1024)
    (hw : ptr % 8 = 0) {T : ℕ → ℕ → ℤ} (hT : ∀ i < swk.length, ∀ t < rQ.n, |T i t| ≤ bound.toNat) {masks : ℕ → PolyQP}
    (hm : ∀ i < swk.length, MaskOK rQ rP (masks i)) {E : ℕ → Set (ℕ → UInt8)} {c : ℝ≥0∞} (hE : ∀ k, MeasurableSet (E k))
    (hc : ∀ k, randomBytes (E k) = c) :
    randomBytes {s | ∃ fuel key st', genSwitchingKeyBytes O fuel rQ rP sigma bound poolQ skIn skOut swk ⟨⟨s, pos, clk⟩, buf, ptr⟩
        = some (key, st') ∧ (IsSwitchKey n rQ rP (rQ.subs.length - 1) (rP.subs.length - 1) key sIn sOut T ∧
          ∀ i < swk.length, (key.getD i default).2 = masks i) ∧ (fun i => s (st'.prng.pos + i)) ∈ E st'.ptr}
      = (∏ i ∈ range swk.length, (∏ t ∈ range rQ.n, gaussLaw O sigma bound (T i t)) * polyMass rQ * polyMass rP) * c :=
  ((switchingKey_step K O sigma hb0 hb hb' hk hpool hi ho hT hm).law pos clk hlen hle hw hE hc).2

omit hi ho hb' in
theorem readKey_step (hO : O.Starts sigma bound) {Aq Ap : ℕ → Rows → Prop} {pq pp : ℕ → ℝ≥0∞} {B : SwitchingKey → Prop}
    (hq : ∀ i < swk.length, Step (uniStep rQ (rQ.subs.length - 1) (swk.getD i default).2.q) (Aq i) (pq i))
    (hp : ∀ i < swk.length, Step (uniStep rP (rP.subs.length - 1) (swk.getD i default).2.p) (Ap i) (pp i))
    (hB : ∀ {k st ts st'}, st.Ok →
      readDigits O k rQ rP sigma bound (rQ.subs.length - 1) (rP.subs.length - 1) swk st = some (ts, st') →
      (B (genSwitchingKeyCore rQ rP (rQ.subs.length - 1) (rP.subs.length - 1) skIn skOut (fun i => ts.getD i ⟨[], ⟨[], []⟩⟩)) ↔
        ∀ i < swk.length, Aq i (ts.getD i ⟨[], ⟨[], []⟩⟩).a.q ∧ Ap i (ts.getD i ⟨[], ⟨[], []⟩⟩).a.p)) :
    Step (fun k st => genSwitchingKeyBytes O k rQ rP sigma bound poolQ skIn skOut swk st) B (∏ i ∈ range swk.length, pq i * pp i) := by
  have lq := K.rings.lQ
  have lp := K.rings.lP
  have h0 := swkShape_zero K hk
  have hs := readDigits_step O sigma bound swk (rQ := rQ) (rP := rP) (lQ := rQ.subs.length - 1) (lP := rP.subs.length - 1)
    (Ae := fun _ _ => True) (pe := fun _ => 1)
    (fun i hi => gaussStep_top O sigma bound K.rings.hQ lq hO hb0 (fun j hj => hb j (by omega)) (pol := (swk.getD i default).1.q)
      (by rw [(hk.digit i hi).bq]; omega)) hq hp
  simp only [one_mul] at hs
  unfold genSwitchingKeyBytes
  dsimp only
  rw [h0.bq, h0.bp, Nat.add_sub_cancel, Nat.add_sub_cancel]
  refine hs.map (fun ts => (genSwitchingKeyInto rQ rP poolQ skIn skOut (fun i => ts.getD i ⟨[], ⟨[], []⟩⟩) swk).2) ?_
  intro k st ts st' hst h
  rw [genInto_eq K O sigma hb0 hb hk hpool hst skOut h, hB hst h]
  have o1 := (readDigits_outcome K O sigma hb0 hb swk hk.digit hst h).1
  exact ⟨fun a => ⟨o1, fun i hi => ⟨trivial, a i hi⟩⟩, fun a i hi => (a.2 i hi).2⟩

omit hi ho hb' in
theorem masks_step (hO : O.Starts sigma bound) {masks : ℕ → PolyQP} (hm : ∀ i < swk.length, MaskOK rQ rP (masks i)) :
    Step (fun k st => genSwitchingKeyBytes O k rQ rP sigma bound poolQ skIn skOut swk st)
      (fun key => ∀ i < swk.length, (key.getD i default).2 = masks i) ((polyMass rQ * polyMass rP) ^ swk.length) := by
  have lq := K.rings.lQ
  have lp := K.rings.lP
  have e1 : rQ.subs.length - 1 + 1 = rQ.subs.length := by omega
  have e2 : rP.subs.length - 1 + 1 = rP.subs.length := by omega
  have hs := readKey_step K O sigma hb0 hb hk hpool (skIn := skIn) (skOut := skOut) hO
    (B := fun key => ∀ i < swk.length, (key.getD i default).2 = masks i)
    (fun i hi => uniStep_step K.rings.hQ lq (pol := (swk.getD i default).2.q) (by rw [(hk.digit i hi).aq]; omega)
      (vs := (masks i).q) (by rw [(hm i hi).lq]; omega) (fun j hj => (hm i hi).q j (by omega)))
    (fun i hi => uniStep_step K.rings.hP lp (pol := (swk.getD i default).2.p) (by rw [(hk.digit i hi).ap]; omega)
      (vs := (masks i).p) (by rw [(hm i hi).lp]; omega) (fun j hj => (hm i hi).p j (by omega)))
    (fun {k st ts st'} hst h => by
      have key : ∀ i (hi : i < swk.length), ((genSwitchingKeyCore rQ rP (rQ.subs.length - 1) (rP.subs.length - 1) skIn skOut
          (fun i => ts.getD i ⟨[], ⟨[], []⟩⟩) |>.getD i default).2 = masks i ↔
          (ts.getD i ⟨[], ⟨[], []⟩⟩).a.q = (masks i).q ++ (swk.getD i default).2.q.drop (rQ.subs.length - 1 + 1) ∧
          (ts.getD i ⟨[], ⟨[], []⟩⟩).a.p = (masks i).p ++ (swk.getD i default).2.p.drop (rP.subs.length - 1 + 1)) := fun i hi => by
        rw [core_mask K hk hi, List.drop_eq_nil_of_le (by rw [(hk.digit i hi).aq]),
          List.drop_eq_nil_of_le (by rw [(hk.digit i hi).ap]), List.append_nil, List.append_nil]
        generalize (ts.getD i ⟨[], ⟨[], []⟩⟩).a = x
        generalize masks i = y
        cases x
        cases y
        simp
      exact ⟨fun a i hi => (key i hi).1 (a i hi), fun a i hi => (key i hi).2 (a i hi)⟩)
  rw [e1, e2, prod_const, card_range] at hs
  rw [polyMass, polyMass]
  exact hs

omit hi ho hb' in
/-- **C115 (masks of switching keys).** All families of masks are equally likely, whatever the secrets, which may be anything. -/
theorem C115_masks (hO : O.Starts sigma bound) (pos : ℕ) (clk : UInt64) {buf : List UInt8} {ptr : ℕ} (hlen : buf.length = 1024)
    (hle : ptr ≤ 1024) (hw : ptr % 8 = 0) {masks : ℕ → PolyQP} (hm : ∀ i < swk.length, MaskOK rQ rP (masks i)) :
    randomBytes {s | ∃ fuel key st', genSwitchingKeyBytes O fuel rQ rP sigma bound poolQ skIn skOut swk ⟨⟨s, pos, clk⟩, buf, ptr⟩
        = some (key, st') ∧ ∀ i < swk.length, (key.getD i default).2 = masks i}
      = (polyMass rQ * polyMass rP) ^ swk.length := by
  have := ((masks_step K O sigma hb0 hb hk hpool (skIn := skIn) (skOut := skOut) hO hm).law pos clk hlen hle hw
    (E := fun _ => Set.univ) (c := 1) (fun _ => MeasurableSet.univ) (fun _ => measure_univ)).2
  rw [mul_one] at this
  rw [← this, stepEvent]
  simp only [Set.mem_univ, and_true]

/-- **C115 (generation ends).** With probability one `genSwitchingKey` returns a switching key for the two secrets whose errors are
within the bound. -/
theorem C115_switchingKey_returns (hO : O.Starts sigma bound) (pos : ℕ) (clk : UInt64) {buf : List UInt8} {ptr : ℕ}
    (hlen : buf.length = 1024) (hle : ptr ≤ 1024) (hw : ptr % 8 = 0) :
    randomBytes {s | ∃ fuel key st', genSwitchingKeyBytes O fuel rQ rP sigma bound poolQ skIn skOut swk ⟨⟨s, pos, clk⟩, buf, ptr⟩
        = some (key, st') ∧ ∃ T : ℕ → ℕ → ℤ, (∀ i < swk.length, ∀ t < rQ.n, |T i t| ≤ bound.toNat) ∧
          IsSwitchKey n rQ rP (rQ.subs.length - 1) (rP.subs.length - 1) key sIn sOut T} = 1 := by
  have lq := K.rings.lQ
  have lp := K.rings.lP
  have hdeg := K.rings.hQ.deg
  have hs := readKey_step K O sigma hb0 hb hk hpool (skIn := skIn) (skOut := skOut) hO
    (B := fun key => ∃ T : ℕ → ℕ → ℤ, (∀ i < swk.length, ∀ t < rQ.n, |T i t| ≤ bound.toNat) ∧
          IsSwitchKey n rQ rP (rQ.subs.length - 1) (rP.subs.length - 1) key sIn sOut T)
    (fun i hi => uniStep_top K.rings.hQ lq (pol := (swk.getD i default).2.q) (by rw [(hk.digit i hi).aq]; omega))
    (fun i hi => uniStep_top K.rings.hP lp (pol := (swk.getD i default).2.p) (by rw [(hk.digit i hi).ap]; omega))
    (fun {k st ts st'} hst h => by
      obtain ⟨o1, o2⟩ := readDigits_outcome K O sigma hb0 hb swk hk.digit hst h
      choose! T h1 h2 using fun i hi => (o2 i hi).2.2
      have hd := digit_iff K hb0 hb hb' hk
      refine ⟨fun _ _ _ => ⟨trivial, trivial⟩, fun _ => ⟨T, h1, C33_switchingKey K lq lp hi ho
        ⟨fun i hi => ?_, fun i hi => ⟨h2 i ((hd i).1 hi), fun t ht => ?_⟩, fun i hi t ht u hu => ?_⟩⟩⟩
      · have m := (o2 i ((hd i).1 hi)).1
        exact ⟨_, _, polyIs_of_reduced (by rw [m.lq]; omega) (fun j hj => m.q j (by omega)),
          polyIs_of_reduced (by rw [m.lp]; omega) (fun j hj => m.p j (by omega))⟩
      · have := h1 i ((hd i).1 hi) t ht
        omega
      · have a := h1 i ((hd i).1 hi) t (by rw [hdeg]; exact ht)
        have := hb' u (by omega)
        omega)
  have := (hs.law pos clk hlen hle hw (E := fun _ => Set.univ) (c := 1) (fun _ => MeasurableSet.univ) (fun _ => measure_univ)).2
  rw [prod_const, card_range, mul_one, mul_one, one_pow] at this
  rw [← this, stepEvent]
  simp only [Set.mem_univ, and_true]

end

/-! ## Public keys -/

/-- `pk` is a public key for the secret `S` with the error `X`: reduced coefficients, and `b + a S = X` modulo every modulus -/
def PublicKeyFor (n : ℕ) (rQ rP : Ring) (pk : PolyQP × PolyQP) (S X : ℕ → ℤ) : Prop :=
  ∃ bq bp v w, PolyIs rQ (rQ.subs.length - 1) rQ.qs pk.1.q bq ∧ PolyIs rP (rP.subs.length - 1) rP.qs pk.1.p bp ∧
    PolyIs rQ (rQ.subs.length - 1) rQ.qs pk.2.q v ∧ PolyIs rP (rP.subs.length - 1) rP.qs pk.2.p w ∧
    (∀ u < rQ.subs.length, ofNtt (rQ.sub u).psi n (bq u)
      + ofNtt (rQ.sub u).psi n (v u) * intR (2 ^ n) (rQ.qs u) S = intR (2 ^ n) (rQ.qs u) X) ∧
    ∀ u < rP.subs.length, ofNtt (rP.sub u).psi n (bp u)
      + ofNtt (rP.sub u).psi n (w u) * intR (2 ^ n) (rP.qs u) S = intR (2 ^ n) (rP.qs u) X

section
variable {n : ℕ} {rQ rP : Ring}

theorem publicKeyFor_unique (K : KeyParams n rQ rP) {pk : PolyQP × PolyQP} {S X Y : ℕ → ℤ} (hX : PublicKeyFor n rQ rP pk S X)
    (hY : PublicKeyFor n rQ rP pk S Y) {b : ℕ} (hb : 2 * b < rQ.qs 0) (bX : ∀ t < 2 ^ n, |X t| ≤ b) (bY : ∀ t < 2 ^ n, |Y t| ≤ b) :
    ∀ t < 2 ^ n, X t = Y t := by
  have lq := K.rings.lQ
  have hdeg := K.rings.hQ.deg
  obtain ⟨bq, bp, v, w, h1, -, h2, -, h3, -⟩ := hX
  obtain ⟨bq', bp', v', w', h1', -, h2', -, h3', -⟩ := hY
  have e : ∀ {p : Rows} {x y : ∀ u, ℕ → ZMod (rQ.sub u).q.toNat}, PolyIs rQ (rQ.subs.length - 1) rQ.qs p x →
      PolyIs rQ (rQ.subs.length - 1) rQ.qs p y → ofNtt (rQ.sub 0).psi n (x 0) = ofNtt (rQ.sub 0).psi n (y 0) := fun hx hy =>
    ofNtt_congr fun k hk => by
      rw [← hdeg] at hk
      exact ((hx.row 0 (Nat.zero_le _)).val k hk).symm.trans ((hy.row 0 (Nat.zero_le _)).val k hk)
  have h4 := h3 0 (by omega)
  rw [e h1 h1', e h2 h2', h3' 0 (by omega)] at h4
  intro t ht
  have := (K.rings.hQ.subAt (i := 0) (by omega)).fact
  exact (eq_of_residue hb (bY t ht) (bX t ht) (toR_inj (by positivity) h4 t ht)).symm

variable (K : KeyParams n rQ rP) {F : Type} (O : FloatOps F) (sigma : F) {bound : UInt64} (hb0 : 2 * bound.toNat < rQ.qs 0)
  (hb : ∀ j < rQ.subs.length, bound.toNat ≤ rQ.qs j) (hb' : ∀ j < rP.subs.length, bound.toNat ≤ rP.qs j) {sk : PolyQP} {S : ℕ → ℤ}
  (hs : sk.IsMont n rQ rP (rQ.subs.length - 1) (rP.subs.length - 1) S)
include K hb0 hb hb' hs

/-- the draws for a public key have the values `T` and `mask` exactly if the key has -/
theorem publicKey_iff {old : PolyQP × PolyQP} (hz : DigitShape (rQ.subs.length - 1) (rP.subs.length - 1) old) {k : ℕ} {st st' : GaussState}
    {t : KeyTape} (hst : st.Ok) (h : readDigit O k rQ rP sigma bound (rQ.subs.length - 1) (rP.subs.length - 1) old st = some (t, st'))
    {T : ℕ → ℤ} (hT : ∀ t < rQ.n, |T t| ≤ bound.toNat) {mask : PolyQP} :
    (PublicKeyFor n rQ rP (genPublicKey rQ rP sk t.e t.a) S T ∧ (genPublicKey rQ rP sk t.e t.a).2 = mask) ↔
      PolyWritten rQ (rQ.subs.length - 1) (fun u => rQ.qs u + 1) old.1.q t.e (rQ.intVec T) ∧ t.a.q = mask.q ∧ t.a.p = mask.p := by
  have lq := K.rings.lQ
  have lp := K.rings.lP
  have hdeg := K.rings.hQ.deg
  obtain ⟨m, l, T', b', is'⟩ := readDigit_outcome K O sigma hb0 hb hz hst h
  have gen : ∀ X : ℕ → ℤ, (∀ k < rQ.n, |X k| ≤ bound.toNat) → PolyIs rQ (rQ.subs.length - 1) (fun u => rQ.qs u + 1) t.e (rQ.intVec X) →
      (genPublicKey rQ rP sk t.e t.a).2 = t.a ∧ PublicKeyFor n rQ rP (genPublicKey rQ rP sk t.e t.a) S X := by
    intro X hX hx
    have mq := polyIs_of_reduced (r := rQ) (level := rQ.subs.length - 1) (m := t.a.q) (by rw [m.lq]; omega) (fun j hj => m.q j (by omega))
    have mp := polyIs_of_reduced (r := rP) (level := rP.subs.length - 1) (m := t.a.p) (by rw [m.lp]; omega) (fun j hj => m.p j (by omega))
    obtain ⟨a1, bq, bp, a2, a3, a4, a5⟩ := C33_publicKey K hs (e := t.e) (E := X) ⟨hx, fun k hk => by have := hX k hk; omega⟩
      (fun k hk u hu => by
        have := hX k (by rw [hdeg]; exact hk)
        have := hb' u hu
        omega) mq mp
    exact ⟨a1, bq, bp, _, _, a2, a3, by rw [a1]; exact mq, by rw [a1]; exact mp, a4, a5⟩
  constructor
  · rintro ⟨k1, k2⟩
    obtain ⟨g1, g2⟩ := gen T' b' is'
    have hu := publicKeyFor_unique K g2 k1 hb0 (fun t ht => b' t (by rw [hdeg]; exact ht)) (fun t ht => hT t (by rw [hdeg]; exact ht))
    refine ⟨(written_full hz.bq).2 ⟨is'.congr fun j hj t ht => ?_, by omega⟩, ?_⟩
    · rw [hdeg] at ht
      simp only [Ring.intVec]
      rw [hu t ht]
    · rw [g1] at k2
      rw [k2]
      exact ⟨rfl, rfl⟩
  · rintro ⟨k1, k2, k3⟩
    obtain ⟨g1, g2⟩ := gen T hT k1.is
    refine ⟨g2, ?_⟩
    rw [g1]
    generalize t.a = x at k2 k3
    cases x
    cases mask
    dsimp only at k2 k3
    rw [k2, k3]

/-- **C115 (public keys).** `GenPublicKey` on random bytes: for every error within the bound and every mask, the probability that the
result is the public key with this error and this mask is the probability of the error times the uniform probability of the mask,
independently of the bytes that follow. -/
theorem C115_publicKey (pos : ℕ) (clk : UInt64) {buf : List UInt8} {ptr : ℕ} (hlen : buf.length = 1024) (hle : ptr ≤ 1024)
    (hw : ptr % 8 = 0) {T : ℕ → ℤ} (hT : ∀ t < rQ.n, |T t| ≤ bound.toNat) {mask : PolyQP} (hm : MaskOK rQ rP mask)
    {E : ℕ → Set (ℕ → UInt8)} {c : ℝ≥0∞} (hE : ∀ k, MeasurableSet (E k)) (hc : ∀ k, randomBytes (E k) = c) :
    randomBytes {s | ∃ fuel pk st', genPublicKeyBytes O fuel rQ rP sigma bound sk ⟨⟨s, pos, clk⟩, buf, ptr⟩ = some (pk, st') ∧
        (PublicKeyFor n rQ rP pk S T ∧ pk.2 = mask) ∧ (fun i => s (st'.prng.pos + i)) ∈ E st'.ptr}
      = (∏ t ∈ range rQ.n, gaussLaw O sigma bound (T t)) * polyMass rQ * polyMass rP * c := by
  have lq := K.rings.lQ
  have lp := K.rings.lP
  have hdeg := K.rings.hQ.deg
  have e1 : rQ.subs.length - 1 + 1 = rQ.subs.length := by omega
  have e2 : rP.subs.length - 1 + 1 = rP.subs.length := by omega
  have hz : DigitShape (rQ.subs.length - 1) (rP.subs.length - 1) ((⟨newPoly rQ.n rQ.subs.length, newPoly rP.n rP.subs.length⟩,
      ⟨newPoly rQ.n rQ.subs.length, newPoly rP.n rP.subs.length⟩) : PolyQP × PolyQP) := by
    constructor <;> simp only [length_newPoly] <;> omega
  have h1 := readDigit_step O sigma bound (rQ := rQ) (rP := rP) (lQ := rQ.subs.length - 1) (lP := rP.subs.length - 1)
    (old := (⟨newPoly rQ.n rQ.subs.length, newPoly rP.n rP.subs.length⟩, ⟨newPoly rQ.n rQ.subs.length, newPoly rP.n rP.subs.length⟩))
    (gaussStep_step O sigma bound K.rings.hQ lq hb0 (fun j hj => hb j (by omega)) (by rw [hz.bq]; omega) hT)
    (uniStep_step K.rings.hQ lq (by rw [hz.aq]; omega) (vs := mask.q) (by rw [hm.lq]; omega) (fun j hj => hm.q j (by omega)))
    (uniStep_step K.rings.hP lp (by rw [hz.ap]; omega) (vs := mask.p) (by rw [hm.lp]; omega) (fun j hj => hm.p j (by omega)))
  rw [e1, e2] at h1
  have h2 := h1.map (fun t => genPublicKey rQ rP sk t.e t.a) (B := fun pk => PublicKeyFor n rQ rP pk S T ∧ pk.2 = mask) (by
    intro k st t st' hst h
    have dq : (newPoly rQ.n rQ.subs.length).drop rQ.subs.length = [] := List.drop_eq_nil_of_le (by rw [length_newPoly])
    have dp : (newPoly rP.n rP.subs.length).drop rP.subs.length = [] := List.drop_eq_nil_of_le (by rw [length_newPoly])
    dsimp only
    rw [dq, dp, List.append_nil, List.append_nil]
    exact publicKey_iff K O sigma hb0 hb hb' hs hz hst h hT)
  exact (h2.law pos clk hlen hle hw hE hc).2

end

/-! ## Random ciphertexts -/

section
variable {n : ℕ} {r : Ring} (hr : r.Valid n) {level : ℕ} (hl : level < r.subs.length)
include hr hl

theorem populate_step : ∀ (ps : List Rows) (_ : ∀ p ∈ ps, p.length = level + 1) (vs : List Rows) (_ : vs.length = ps.length)
    (_ : ∀ v ∈ vs, v.length = level + 1 ∧ ∀ j ≤ level, (v.row j).length = r.n ∧ ∀ x ∈ v.row j, x < (r.sub j).q),
    Step (fun k st => (populateElementRandom k r ps st.prng).map fun a => (a.1, { st with prng := a.2 })) (fun x => x = vs)
      ((∏ j ∈ range (level + 1), ((r.sub j).q.toNat : ℝ≥0∞)⁻¹ ^ r.n) ^ ps.length)
  | [], _, vs, hv, _ => by
    obtain rfl := List.length_eq_zero_iff.1 hv
    rw [List.length_nil, pow_zero]
    exact step_nil ([] : List Rows)
  | p :: ps, hp, [], hv, _ => by simp at hv
  | p :: ps, hp, v :: vs, hv, h => by
    have hp0 := hp p (by simp)
    have h1 := uniStep_step hr hl (pol := p) (by omega) (vs := v) (h v (by simp)).1 (h v (by simp)).2
    rw [List.drop_eq_nil_of_le (by omega), List.append_nil] at h1
    have h2 := populate_step ps (fun p hp' => hp p (by simp [hp'])) vs (by simpa using hv) (fun v hv' => h v (by simp [hv']))
    have h3 := (h1.seq h2).map (fun a => a.1 :: a.2) (B := fun x => x = v :: vs) (fun {k st x st'} _ _ => by
      rw [List.cons.injEq])
    rw [List.length_cons, pow_succ, mul_comm]
    have e : (fun k (st : GaussState) => (populateElementRandom k r (p :: ps) st.prng).map fun a => (a.1, { st with prng := a.2 }))
        = fun k st => (seqStep (uniStep r level p) (fun k st => (populateElementRandom k r ps st.prng).map fun a =>
          (a.1, { st with prng := a.2 })) k st).map fun a => (a.1.1 :: a.1.2, a.2) := by
      funext k st
      rw [populateElementRandom, seqStep, uniStep, hp0, Nat.add_sub_cancel]
      cases h1 : uniformReadLvl k r level st.prng p with
      | none => simp
      | some a =>
        cases h2 : populateElementRandom k r ps a.2 with
        | none => simp [h2]
        | some b => simp [h2]
    rw [e]
    exact h3

/-- **C115 (random ciphertexts).** `NewCiphertextRandom` of a degree and a level, on random bytes: all tuples of `degree + 1` polynomials
with reduced coefficients are equally likely, independently of the bytes that follow. -/
theorem C115_ciphertext (degree : ℕ) (scale : ℚ) (pos : ℕ) (clk : UInt64) {vs : List Rows} (hv : vs.length = degree + 1)
    (h : ∀ v ∈ vs, v.length = level + 1 ∧ ∀ j ≤ level, (v.row j).length = r.n ∧ ∀ x ∈ v.row j, x < (r.sub j).q)
    {E : Set (ℕ → UInt8)} (hE : MeasurableSet E) :
    randomBytes {s | ∃ fuel ct prng, newCiphertextRandom fuel r degree level scale ⟨s, pos, clk⟩ = some (ct, prng) ∧
        ct.value.map (·.coeffs) = vs ∧ (fun i => s (prng.pos + i)) ∈ E}
      = (∏ j ∈ range (level + 1), ((r.sub j).q.toNat : ℝ≥0∞)⁻¹ ^ r.n) ^ (degree + 1) * randomBytes E := by
  have hs := populate_step hr hl (List.replicate (degree + 1) (newPoly r.n (level + 1))) (fun p hp => by
    rw [List.eq_of_mem_replicate hp, length_newPoly]) vs (by rw [hv, List.length_replicate]) h
  have := (hs.law pos clk (buf := List.replicate 1024 0) (ptr := 0) List.length_replicate (by norm_num) rfl (E := fun _ => E)
    (fun _ => hE) (fun _ => rfl)).2
  rw [List.length_replicate] at this
  rw [← this]
  congr 1
  ext s
  simp only [stepEvent, newCiphertextRandom, Set.mem_ofPred_eq, Option.map_eq_some_iff, Prod.mk.injEq]
  constructor
  · rintro ⟨k, ct, prng, ⟨a, h1, h2, rfl⟩, h3, h4⟩
    subst h2
    simp only [List.map_map, Function.comp_def, List.map_id'] at h3
    exact ⟨k, a.1, _, ⟨a, h1, rfl, rfl⟩, h3, h4⟩
  · rintro ⟨k, x, st', ⟨a, h1, rfl, rfl⟩, h3, h4⟩
    exact ⟨k, _, a.2, ⟨a, h1, rfl, rfl⟩, by simpa [Function.comp_def] using h3, h4⟩

omit hr hl in
theorem populate_length : ∀ (ps : List Rows) {k : ℕ} {prng prng' : Prng} {x : List Rows},
    populateElementRandom k r ps prng = some (x, prng') → x.length = ps.length
  | [], k, prng, prng', x, h => by cases h; rfl
  | p :: ps, k, prng, prng', x, h => by
    rw [populateElementRandom, Option.bind_eq_some_iff] at h
    obtain ⟨a, -, h⟩ := h
    rw [Option.map_eq_some_iff] at h
    obtain ⟨b, h1, h2⟩ := h
    cases h2
    rw [List.length_cons, List.length_cons, populate_length ps h1]

omit hr hl in
/-- **C115 (random ciphertexts and the evaluator).** The polynomials of a random ciphertext are not marked as transformed, so
the evaluator accepts none of them: `Add` panics, whatever the other operand. -/
theorem C115_ciphertext_rejected {fuel degree level : ℕ} {scale : ℚ} {prng prng' : Prng} {ct : Ct}
    (h : newCiphertextRandom fuel r degree level scale prng = some (ct, prng')) (ev : Evaluator) (H : Heap) (a b out : Ref) :
    ev.add (H.set a ct) a b out = none ∧ ev.add (H.set b ct) a b out = none := by
  rw [newCiphertextRandom, Option.map_eq_some_iff] at h
  obtain ⟨⟨x, p⟩, h1, h2⟩ := h
  cases h2
  have hx := populate_length _ h1
  rw [List.length_replicate] at hx
  obtain ⟨y, ys, rfl⟩ : ∃ y ys, x = y :: ys := by
    cases x with
    | nil => simp at hx
    | cons y ys => exact ⟨y, ys, rfl⟩
  constructor <;> simp [Evaluator.add, checkBinary, Heap.set]

end

/-- moduli 97, 193, 641 and 257, 353, degree 16, `sigma = 3.2`, bound 19, old memory full of sevens and a pool of ones: with probability one
generation ends, and the key with the errors `2 - t mod 5` and the masks that are constantly 5 has the probability of the errors
times the inverse of the number of masks; so does the public key.  The random ciphertext with all coefficients 3 at level 1 has
probability `(97·193)⁻¹ ^ 32`. -/
example : ∃ (rQ rP : Ring) (sk : PolyQP), rQ.moduli = [97, 193, 641] ∧ rP.moduli = [257, 353] ∧
    let swk : SwitchingKey := List.replicate 2 (⟨List.replicate 3 [7], List.replicate 2 [7]⟩, ⟨List.replicate 3 [7], List.replicate 2 [7]⟩)
    let mask : PolyQP := ⟨List.replicate 3 (List.replicate 16 5), List.replicate 2 (List.replicate 16 5)⟩
    let st : (ℕ → UInt8) → GaussState := fun s => ⟨⟨s, 7, 0⟩, List.replicate 1024 1, 1016⟩
    randomBytes {s | ∃ fuel key st', genSwitchingKeyBytes realOps fuel rQ rP 3.2 19 (List.replicate 3 [1]) sk.q sk swk (st s)
      = some (key, st') ∧ ∃ T : ℕ → ℕ → ℤ, (∀ i < 2, ∀ t < rQ.n, |T i t| ≤ 19) ∧ IsSwitchKey 4 rQ rP 2 1 key exampleS exampleS T} = 1 ∧
    randomBytes {s | ∃ fuel key st', genSwitchingKeyBytes realOps fuel rQ rP 3.2 19 (List.replicate 3 [1]) sk.q sk swk (st s)
      = some (key, st') ∧ (IsSwitchKey 4 rQ rP 2 1 key exampleS exampleS (fun _ t => 2 - t % 5) ∧
        ∀ i < 2, (key.getD i default).2 = mask) ∧ (fun i => s (st'.prng.pos + i)) ∈ (Set.univ : Set (ℕ → UInt8))}
      = ((∏ t ∈ range 16, gaussLaw realOps 3.2 19 (2 - t % 5)) * polyMass rQ * polyMass rP) ^ 2 ∧
    randomBytes {s | ∃ fuel pk st', genPublicKeyBytes realOps fuel rQ rP 3.2 19 sk (st s) = some (pk, st') ∧
      (PublicKeyFor 4 rQ rP pk exampleS (fun t => 2 - t % 5) ∧ pk.2 = mask) ∧
        (fun i => s (st'.prng.pos + i)) ∈ (Set.univ : Set (ℕ → UInt8))}
      = (∏ t ∈ range 16, gaussLaw realOps 3.2 19 (2 - t % 5)) * polyMass rQ * polyMass rP ∧
    polyMass rQ = (97⁻¹ ^ 16 * 193⁻¹ ^ 16 * 641⁻¹ ^ 16 : ℝ≥0∞) ∧
    randomBytes {s | ∃ fuel ct prng, newCiphertextRandom fuel rQ 1 1 4 ⟨s, 7, 0⟩ = some (ct, prng) ∧
      ct.value.map (·.coeffs) = List.replicate 2 (List.replicate 2 (List.replicate 16 3)) ∧
        (fun i => s (prng.pos + i)) ∈ (Set.univ : Set (ℕ → UInt8))} = ((97⁻¹ ^ 16 * 193⁻¹ ^ 16) ^ 2 : ℝ≥0∞) := by
  obtain ⟨rQ, rP, sr, tape, K, m1, m2, l3, l2, hq, q0, hsk, ht⟩ := exampleRings
  have hQ := K.rings.hQ
  have hP := K.rings.hP
  have a0 := sub_of_moduli m1 0 97 rfl
  have a1 := sub_of_moduli m1 1 193 rfl
  have a2 := sub_of_moduli m1 2 641 rfl
  have b0 := sub_of_moduli m2 0 257 rfl
  have b1 := sub_of_moduli m2 1 353 rfl
  have hn : rQ.n = 16 := hQ.deg
  have hn' : rP.n = 16 := hP.deg
  have hb0 : 2 * (19 : UInt64).toNat < rQ.qs 0 := by rw [q0]; decide
  have hb : ∀ j < rQ.subs.length, (19 : UInt64).toNat ≤ rQ.qs j := fun j hj => by
    have := hq j (by omega)
    have : (19 : UInt64).toNat = 19 := rfl
    omega
  have hb' : ∀ j < rP.subs.length, (19 : UInt64).toNat ≤ rP.qs j := fun j hj => by
    unfold Ring.qs
    obtain rfl | rfl : j = 0 ∨ j = 1 := by omega
    · rw [b0]; decide
    · rw [b1]; decide
  have rep : ∀ {k j : ℕ} {x : UInt64}, j < k → Rows.row (List.replicate k (List.replicate 16 x)) j = List.replicate 16 x := fun h => by
    rw [Rows.row, List.getD_eq_getElem _ _ (by simpa using h), List.getElem_replicate]
  have hlt : ∀ c : UInt64, c = 5 ∨ c = 3 → ∀ j < 3, c < (rQ.sub j).q := fun c hc j hj => by
    obtain rfl | rfl | rfl : j = 0 ∨ j = 1 ∨ j = 2 := by omega
    · rw [a0]; rcases hc with rfl | rfl <;> decide
    · rw [a1]; rcases hc with rfl | rfl <;> decide
    · rw [a2]; rcases hc with rfl | rfl <;> decide
  have hm : MaskOK rQ rP ⟨List.replicate 3 (List.replicate 16 5), List.replicate 2 (List.replicate 16 5)⟩ := by
    refine ⟨by simp [l3], by simp [l2], fun j hj => ?_, fun j hj => ?_⟩
    · rw [rep (by omega)]
      exact ⟨by rw [hn, List.length_replicate], fun x hx => by rw [List.eq_of_mem_replicate hx]; exact hlt 5 (Or.inl rfl) j (by omega)⟩
    · rw [rep (by omega)]
      refine ⟨by rw [hn', List.length_replicate], fun x hx => ?_⟩
      rw [List.eq_of_mem_replicate hx]
      obtain rfl | rfl : j = 0 ∨ j = 1 := by omega
      · rw [b0]; decide
      · rw [b1]; decide
  have hk : SwkShape (rQ.subs.length - 1) (rP.subs.length - 1) (List.replicate 2 (⟨List.replicate 3 [7], List.replicate 2 [7]⟩,
      ⟨List.replicate 3 [7], List.replicate 2 [7]⟩)) := by
    rw [l3, l2]
    refine ⟨?_, fun i hi => ?_⟩
    · rw [ceilDivF_eq (by norm_num) (by norm_num) (by norm_num)]; rfl
    · rw [List.length_replicate] at hi
      rw [List.getD_eq_getElem _ _ (by simpa using hi), List.getElem_replicate]
      exact ⟨rfl, rfl, rfl, rfl⟩
  have hT : ∀ t < rQ.n, |(2 : ℤ) - (t : ℤ) % 5| ≤ ((19 : UInt64).toNat : ℤ) := fun t _ => by
    have : ((19 : UInt64).toNat : ℤ) = 19 := rfl
    rw [this, abs_le]
    omega
  have hpool : List.length (List.replicate 3 [(1 : UInt64)]) = rQ.subs.length := by rw [l3]; rfl
  refine ⟨rQ, rP, genSecretKey rQ rP sr, m1, m2, ?_, ?_, ?_, ?_, ?_⟩
  · have := C115_switchingKey_returns K realOps 3.2 hb0 hb hb' hk hpool hsk.q hsk (realOps_starts _ _) 7 0 (buf := List.replicate 1024 1)
      (ptr := 1016) List.length_replicate (by norm_num) rfl
    rw [l3, l2] at this
    exact this
  · have := C115_switchingKey K realOps 3.2 hb0 hb hb' hk hpool hsk.q hsk 7 0 (buf := List.replicate 1024 1)
      (ptr := 1016) List.length_replicate (by norm_num) rfl (T := fun _ t => 2 - t % 5) (fun _ _ => hT) (masks := fun _ => _) (fun _ _ => hm)
      (E := fun _ => Set.univ) (fun _ => MeasurableSet.univ) (fun _ => measure_univ)
    rw [l3, l2, List.length_replicate, mul_one, prod_const, card_range, hn] at this
    exact this
  · have := C115_publicKey K realOps 3.2 hb0 hb hb' hsk 7 0 (buf := List.replicate 1024 1)
      (ptr := 1016) List.length_replicate (by norm_num) rfl (T := fun t => 2 - t % 5) hT hm
      (E := fun _ => Set.univ) (fun _ => MeasurableSet.univ) (fun _ => measure_univ)
    rw [mul_one, hn] at this
    exact this
  · rw [polyMass, l3, hn]
    simp only [prod_range_succ, prod_range_zero, one_mul, a0, a1, a2]
    rfl
  · have := C115_ciphertext hQ (level := 1) (by omega) 1 4 7 0 (vs := List.replicate 2 (List.replicate 2 (List.replicate 16 3))) rfl
      (fun v hv => by
        rw [List.eq_of_mem_replicate hv]
        refine ⟨rfl, fun j hj => ?_⟩
        rw [rep (by omega)]
        exact ⟨by rw [hn, List.length_replicate], fun x hx => by
          rw [List.eq_of_mem_replicate hx]; exact hlt 3 (Or.inr rfl) j (by omega)⟩) MeasurableSet.univ
    rw [this, measure_univ, mul_one, hn]
    simp only [prod_range_succ, prod_range_zero, one_mul, a0, a1]
    rfl

end FastKsw.Props
