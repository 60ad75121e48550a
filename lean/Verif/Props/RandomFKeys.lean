import Verif.Props.RandomKeys
import Verif.Lemmas.FEvaluator
import Verif.Model.RandomFKeys

/-!
# C121: the law of the keys of the fast key-switch
-/

namespace FastKsw.Props

open MeasureTheory Finset
open scoped ENNReal

/-- digit `i` of the fast key `k` holds the polynomial `X`: block `j` holds, in ring `T`, integers within `2^-42` of `[0, R_j)` that
are congruent to `X` modulo the primes of block `j` -/
def FDigitIs (n : ℕ) (p : FParams) (k : FSwitchingKey) (i : ℕ) (X : ℕ → ℤ) : Prop :=
  ∀ j, j * p.gamma < p.ringR.subs.length →
    ∃ Z : ℕ → ℤ, BlockRep p.ringR p.gamma p.ringR.subs.length j (p.ringR.intVec X) Z ∧
      PolyIs p.ringT p.levelT p.ringT.qs (k.at i j) (fun t k => p.ringT.nttVec n Z t k * 2 ^ 64)

/-- `fk` is a fast key from `sIn` to `sOut` with errors `e_i` and masks `a_i`, which are given in the form in which they are drawn:
with `P` the product of the special primes, `b_i + a_i sOut = e_i + P sIn` modulo the primes of block `i` of `Q` and
`b_i + a_i sOut = e_i` modulo the other primes of `Q` and those of `P` -/
def FastKeyFor (n : ℕ) (p : FParams) (fk : FSwitchingKey × FSwitchingKey) (sIn sOut : ℕ → ℤ) (e : ℕ → ℕ → ℤ) (masks : ℕ → PolyQP) :
    Prop :=
  ∃ B A : ℕ → ℕ → ℤ,
    (∀ i < p.beta, FDigitIs n p fk.1 i (B i) ∧ FDigitIs n p fk.2 i (A i) ∧
      (masks i).IsMont n p.ringQ p.ringP p.maxLevel (p.alpha - 1) (A i)) ∧
    (∀ i < p.beta, ∀ u < p.ringQ.subs.length,
      intR (2 ^ n) (p.ringQ.qs u) (B i) + intR (2 ^ n) (p.ringQ.qs u) (A i) * intR (2 ^ n) (p.ringQ.qs u) sOut
        = intR (2 ^ n) (p.ringQ.qs u) (e i)
          + if u / p.alpha = i then (p.ringP.prodQ (p.alpha - 1) : Rq (2 ^ n) (p.ringQ.qs u)) * intR (2 ^ n) (p.ringQ.qs u) sIn else 0) ∧
    ∀ i < p.beta, ∀ u < p.alpha,
      intR (2 ^ n) (p.ringP.qs u) (B i) + intR (2 ^ n) (p.ringP.qs u) (A i) * intR (2 ^ n) (p.ringP.qs u) sOut
        = intR (2 ^ n) (p.ringP.qs u) (e i)

theorem mont_unique {n : ℕ} {r : Ring} (hr : r.Valid n) {l : ℕ} (hl : l < r.subs.length) {x : Rows} {X Y : ℕ → ℤ}
    (hX : PolyIs r l r.qs x (fun u k => r.nttVec n X u k * 2 ^ 64)) (hY : PolyIs r l r.qs x (fun u k => r.nttVec n Y u k * 2 ^ 64))
    {u : ℕ} (hu : u ≤ l) : intR (2 ^ n) (r.qs u) X = intR (2 ^ n) (r.qs u) Y := by
  have hv := hr.subAt (i := u) (by omega)
  have := hv.fact
  rw [← ofNtt_nttVec hr (by omega), ← ofNtt_nttVec hr (by omega)]
  refine ofNtt_congr fun k hk => ?_
  rw [← hr.deg] at hk
  have h1 := (hX.row u hu).val k hk
  have h2 := (hY.row u hu).val k hk
  rw [h1] at h2
  have hm := mul_rinv hv.arith.odd
  linear_combination (rinv (r.sub u).q.toNat) * h2 - (r.nttVec n X u k - r.nttVec n Y u k) * hm

/-- reduced rows with the same residues are the same -/
theorem rows_ext {n : ℕ} {r : Ring} (hr : r.Valid n) {l : ℕ} {x y : Rows} (lx : x.length = l + 1) (ly : y.length = l + 1)
    {v w : ∀ u, ℕ → ZMod (r.sub u).q.toNat} (hx : PolyIs r l r.qs x v) (hy : PolyIs r l r.qs y w)
    (h : ∀ u ≤ l, ∀ k < r.n, v u k = w u k) (hl : l < r.subs.length) : x = y := by
  refine List.ext_getElem (by omega) fun u h1 h2 => ?_
  have hu : u ≤ l := by omega
  have rx := hx.row u hu
  have ry := hy.row u hu
  rw [Rows.row, getD_lt _ _ h1] at rx
  rw [Rows.row, getD_lt _ _ h2] at ry
  refine List.ext_getElem (by rw [rx.len, ry.len]) fun k h3 h4 => ?_
  have hk : k < r.n := by rw [← rx.len]; exact h3
  have e1 := rx.val k hk
  have e2 := ry.val k hk
  have l1 := rx.lt k hk
  have l2 := ry.lt k hk
  rw [h u hu k hk, ← e2] at e1
  unfold zval at e1
  rw [ZMod.natCast_eq_natCast_iff, Nat.ModEq, Nat.mod_eq_of_lt l1, Nat.mod_eq_of_lt l2] at e1
  rw [Row.at, Row.at, getD_lt _ _ h3, getD_lt _ _ h4] at e1
  exact UInt64.toNat_inj.1 e1

section
variable {fuel n : ℕ} {p : FParams} (h : p.OK fuel n) (hF : p.Fits)
include h

theorem beta_iff (i : ℕ) : i < p.beta ↔ i * (p.alpha - 1 + 1) ≤ p.maxLevel := by
  have hal : p.alpha = p.ringP.subs.length := rfl
  have hlenP := h.lenP
  have hlenQ := h.lenQ
  have ha2 := h.alpha32
  have hq := h.q100
  unfold FParams.beta
  rw [if_pos (by omega), ceilDivF_small (by omega) (by omega) (by omega), ceil_block (by omega), FParams.maxLevel,
    Nat.sub_add_cancel (by omega)]
  omega

include hF

theorem block_lt {j : ℕ} (hj : j * p.gamma < p.ringR.subs.length) :
    4 * p.ringR.blockQ p.gamma p.ringR.subs.length j ≤ 2 * p.ringT.prodQ p.levelT ∧
      0 < p.ringR.blockQ p.gamma p.ringR.subs.length j := by
  have hal : p.alpha = p.ringP.subs.length := rfl
  have hlenP := h.lenP
  have hlenQ := h.lenQ
  have b3 : 0 < p.ringR.blockQ p.gamma p.ringR.subs.length j := by
    refine prod_pos (fun i hi => ?_)
    have := mem_range.1 hi
    exact (h.hR.subAt (show j * p.gamma + i < p.ringR.subs.length by omega)).prime.pos
  have b2 : 0 < p.ringQ.blockQ p.alpha p.ringQ.subs.length 0 := by
    refine prod_pos (fun j hj => ?_)
    have := mem_range.1 hj
    exact (h.hQ.subAt (show 0 * p.alpha + j < p.ringQ.subs.length by omega)).prime.pos
  have b1 : 0 < (p.ringQ.subs.length + p.alpha - 1) / p.alpha := Nat.div_pos (by omega) (by omega)
  have b0 : 0 < p.ringQ.n := by rw [h.hQ.deg]; positivity
  have hf := hF 0 j (by omega) hj
  have hW : p.ringR.blockQ p.gamma p.ringR.subs.length j ≤ (p.ringQ.subs.length + p.alpha - 1) / p.alpha * p.ringQ.n *
      p.ringQ.blockQ p.alpha p.ringQ.subs.length 0 * p.ringR.blockQ p.gamma p.ringR.subs.length j :=
    Nat.le_mul_of_pos_left _ (by positivity)
  generalize (p.ringQ.subs.length + p.alpha - 1) / p.alpha * p.ringQ.n *
      p.ringQ.blockQ p.alpha p.ringQ.subs.length 0 * p.ringR.blockQ p.gamma p.ringR.subs.length j = W at *
  generalize p.ringT.prodQ p.levelT = T at *
  generalize p.ringR.blockQ p.gamma p.ringR.subs.length j = B at *
  refine ⟨?_, b3⟩
  omega

/-- the blocks of a digit determine the polynomial -/
theorem fdigit_unique {k : FSwitchingKey} {i : ℕ} {X Y : ℕ → ℤ} (hX : FDigitIs n p k i X) (hY : FDigitIs n p k i Y) {u : ℕ}
    (hu : u < p.ringR.subs.length) : intR (2 ^ n) (p.ringR.qs u) X = intR (2 ^ n) (p.ringR.qs u) Y := by
  have hg := h.gamma_pos
  have hT := h.lenT
  have hlT : p.levelT < p.ringT.subs.length := by unfold FParams.levelT; omega
  have hdm := Nat.div_add_mod u p.gamma
  rw [Nat.mul_comm] at hdm
  have hmod := Nat.mod_lt u hg
  obtain ⟨Z, hZ, z1⟩ := hX (u / p.gamma) (by omega)
  obtain ⟨Z', hZ', z2⟩ := hY (u / p.gamma) (by omega)
  obtain ⟨bt, bp⟩ := block_lt h hF (j := u / p.gamma) (by omega)
  have hdegT := h.hT.deg
  have hdegR := h.hR.deg
  refine toR_congr fun t ht => ?_
  have e : Z t = Z' t := by
    have hd := h.hT.dvd_of_cong hlT (a := Z t) (b := Z' t) fun v hv => by
      have := toR_inj (by positivity) (mont_unique h.hT hlT z1 z2 hv) t ht
      exact this
    have n1 := hZ.near t (by omega)
    have n2 := hZ'.near t (by omega)
    have l1 := n1.lo
    have l2 := n2.lo
    have u1 := n1.hi
    have u2 := n2.hi
    by_contra hne
    have := Int.le_of_dvd (abs_pos.2 (sub_ne_zero.2 hne)) ((dvd_abs _ _).2 hd)
    generalize p.ringT.prodQ p.levelT = T at *
    generalize p.ringR.blockQ p.gamma p.ringR.subs.length (u / p.gamma) = B at *
    rcases abs_cases (Z t - Z' t) with ⟨ha, -⟩ | ⟨ha, -⟩ <;> rw [ha] at this <;> omega
  have c1 := hZ.cong t (by omega) u (by omega) (by omega) hu
  have c2 := hZ'.cong t (by omega) u (by omega) (by omega) hu
  rw [← e, c1] at c2
  exact c2

/-- residues modulo the primes of `R` are residues modulo the primes of `Q` and of `P` -/
theorem fdigit_unique' {k : FSwitchingKey} {i : ℕ} {X Y : ℕ → ℤ} (hX : FDigitIs n p k i X) (hY : FDigitIs n p k i Y) :
    (∀ u < p.ringQ.subs.length, intR (2 ^ n) (p.ringQ.qs u) X = intR (2 ^ n) (p.ringQ.qs u) Y) ∧
      ∀ u < p.ringP.subs.length, intR (2 ^ n) (p.ringP.qs u) X = intR (2 ^ n) (p.ringP.qs u) Y := by
  have hR := h.lenR
  have hal : p.alpha = p.ringP.subs.length := rfl
  refine ⟨fun u hu => ?_, fun u hu => ?_⟩
  · have h1 := fdigit_unique h hF hX hY (u := u + p.alpha) (by omega)
    have e : p.ringR.qs (u + p.alpha) = p.ringQ.qs u := congrArg UInt64.toNat (h.qQ (by omega))
    rwa [e] at h1
  · have h1 := fdigit_unique h hF hX hY (u := u) (by omega)
    have e : p.ringR.qs u = p.ringP.qs u := congrArg UInt64.toNat (h.qP (by omega))
    rwa [e] at h1

/-- a converted switching key is the fast key with errors `T` and given masks exactly if the switching key has them -/
theorem fastKey_iff {kg : FKeyGenerator} (hg : newFKeyGenerator fuel p = some kg) {key : SwitchingKey} {sIn sOut : ℕ → ℤ}
    {T' : ℕ → ℕ → ℤ} (hk : IsSwitchKey n p.ringQ p.ringP p.maxLevel (p.alpha - 1) key sIn sOut T')
    (hm' : ∀ i < p.beta, MaskOK p.ringQ p.ringP (key.getD i default).2) {masks : ℕ → PolyQP}
    (hm : ∀ i < p.beta, MaskOK p.ringQ p.ringP (masks i)) {T : ℕ → ℕ → ℤ} :
    FastKeyFor n p (kg.convertKey key) sIn sOut T masks ↔
      IsSwitchKey n p.ringQ p.ringP p.maxLevel (p.alpha - 1) key sIn sOut T ∧ ∀ i < p.beta, (key.getD i default).2 = masks i := by
  have hal : p.alpha = p.ringP.subs.length := rfl
  have hml : p.maxLevel = p.ringQ.subs.length - 1 := rfl
  have hlenP := h.lenP
  have hlenQ := h.lenQ
  have hb := beta_iff h
  have e1 : p.alpha - 1 + 1 = p.alpha := by omega
  have hkg := kg_ok h hg
  have hconv : kg.convertKey key = ((List.range p.beta).map fun i =>
      kg.polyQPToPolyTs (p.plain (key.getD i default).1), (List.range p.beta).map fun i =>
      kg.polyQPToPolyTs (p.plain (key.getD i default).2)) := by
    unfold FKeyGenerator.convertKey
    simp only [hkg.params]
    rfl
  have blocks : ∀ {B A : ℕ → ℕ → ℤ}, (∀ i, i * (p.alpha - 1 + 1) ≤ p.maxLevel →
      (key.getD i default).1.IsMont n p.ringQ p.ringP p.maxLevel (p.alpha - 1) (B i) ∧
      (key.getD i default).2.IsMont n p.ringQ p.ringP p.maxLevel (p.alpha - 1) (A i)) → ∀ i < p.beta,
      FDigitIs n p (kg.convertKey key).1 i (B i) ∧ FDigitIs n p (kg.convertKey key).2 i (A i) := by
    intro B A h1 i hi
    rw [hconv]
    exact ⟨fun j hj => C26_keyBlocks h hg (x := fun i => (key.getD i default).1) (h1 i ((hb i).1 hi)).1 hi hj,
      fun j hj => C26_keyBlocks h hg (x := fun i => (key.getD i default).2) (h1 i ((hb i).1 hi)).2 hi hj⟩
  constructor
  · rintro ⟨B, A, k1, k2, k3⟩
    obtain ⟨B', A', h1, -, -⟩ := hk.ex
    have hbl := blocks h1
    have uB := fun i hi => fdigit_unique' h hF (hbl i hi).1 (k1 i hi).1
    have uA := fun i hi => fdigit_unique' h hF (hbl i hi).2 (k1 i hi).2.1
    refine ⟨⟨B', A', h1, fun i hi u hu => ?_, fun i hi u hu => ?_⟩, fun i hi => ?_⟩
    · rw [(uB i ((hb i).2 hi)).1 u (by omega), (uA i ((hb i).2 hi)).1 u (by omega), e1]
      exact k2 i ((hb i).2 hi) u (by omega)
    · rw [(uB i ((hb i).2 hi)).2 u (by omega), (uA i ((hb i).2 hi)).2 u (by omega)]
      exact k3 i ((hb i).2 hi) u (by omega)
    · have m1 := (h1 i ((hb i).1 hi)).2
      have m2 := (k1 i hi).2.2
      have eq : (key.getD i default).2.q = (masks i).q := by
        refine rows_ext h.hQ (l := p.maxLevel) (by rw [(hm' i hi).lq]; omega) (by rw [(hm i hi).lq]; omega) m1.q m2.q
          (fun u hu k hk' => ?_) (by omega)
        rw [h.hQ.deg] at hk'
        congr 1
        exact nttVec_of_intR h.hQ (by omega) ((uA i hi).1 u (by omega)) hk'
      have ep : (key.getD i default).2.p = (masks i).p := by
        refine rows_ext h.hP (l := p.alpha - 1) (by rw [(hm' i hi).lp]; omega) (by rw [(hm i hi).lp]; omega) m1.p m2.p
          (fun u hu k hk' => ?_) (by omega)
        rw [h.hP.deg] at hk'
        congr 1
        exact nttVec_of_intR h.hP (by omega) ((uA i hi).2 u (by omega)) hk'
      generalize (key.getD i default).2 = x at eq ep
      generalize masks i = y at eq ep
      cases x
      cases y
      dsimp only at eq ep
      rw [eq, ep]
  · rintro ⟨⟨B, A, k1, k2, k3⟩, k4⟩
    refine ⟨B, A, fun i hi => ⟨(blocks k1 i hi).1, (blocks k1 i hi).2, ?_⟩, fun i hi u hu => ?_, fun i hi u hu => ?_⟩
    · rw [← k4 i hi]
      exact (k1 i ((hb i).1 hi)).2
    · have := k2 i ((hb i).1 hi) u (by omega)
      rwa [e1] at this
    · exact k3 i ((hb i).1 hi) u (by omega)

end

section
variable {n : ℕ} {rQ rP : Ring} (K : KeyParams n rQ rP) {F : Type} (O : FloatOps F) (sigma : F) {bound : UInt64}
  (hb0 : 2 * bound.toNat < rQ.qs 0) (hb : ∀ j < rQ.subs.length, bound.toNat ≤ rQ.qs j)
  (hb' : ∀ j < rP.subs.length, bound.toNat ≤ rP.qs j) {swk : SwitchingKey}
  (hk : SwkShape (rQ.subs.length - 1) (rP.subs.length - 1) swk) {poolQ skIn : Rows} (hpool : poolQ.length = rQ.subs.length)
  {skOut : PolyQP} {sIn sOut : ℕ → ℤ} (hi : PolyIs rQ (rQ.subs.length - 1) rQ.qs skIn (fun u k => rQ.nttVec n sIn u k * 2 ^ 64))
  (ho : skOut.IsMont n rQ rP (rQ.subs.length - 1) (rP.subs.length - 1) sOut)
include K hb0 hb hb' hk hpool hi ho

/-- every outcome of the generation is a switching key with bounded errors and reduced masks -/
theorem switchingKey_outcome {k : ℕ} {st st' : GaussState} {key : SwitchingKey} (hst : st.Ok)
    (h : genSwitchingKeyBytes O k rQ rP sigma bound poolQ skIn skOut swk st = some (key, st')) :
    (∃ T : ℕ → ℕ → ℤ, (∀ i < swk.length, ∀ t < rQ.n, |T i t| ≤ bound.toNat) ∧
      IsSwitchKey n rQ rP (rQ.subs.length - 1) (rP.subs.length - 1) key sIn sOut T) ∧
      ∀ i < swk.length, MaskOK rQ rP (key.getD i default).2 := by
  have lq := K.rings.lQ
  have lp := K.rings.lP
  have hdeg := K.rings.hQ.deg
  have h0 := swkShape_zero K hk
  unfold genSwitchingKeyBytes at h
  dsimp only at h
  rw [h0.bq, h0.bp, Nat.add_sub_cancel, Nat.add_sub_cancel, Option.map_eq_some_iff] at h
  obtain ⟨⟨ts, st1⟩, h1, h2⟩ := h
  rw [genInto_eq K O sigma hb0 hb hk hpool hst skOut h1] at h2
  cases h2
  obtain ⟨o1, o2⟩ := readDigits_outcome K O sigma hb0 hb swk hk.digit hst h1
  choose! T t1 t2 using fun i hi => (o2 i hi).2.2
  have hd := digit_iff K hb0 hb hb' hk
  refine ⟨⟨T, t1, C33_switchingKey K lq lp hi ho
        ⟨fun i hi => ?_, fun i hi => ⟨t2 i ((hd i).1 hi), fun t ht => ?_⟩, fun i hi t ht u hu => ?_⟩⟩, fun i hi => ?_⟩
  · have m := (o2 i ((hd i).1 hi)).1
    exact ⟨_, _, polyIs_of_reduced (by rw [m.lq]; omega) (fun j hj => m.q j (by omega)),
      polyIs_of_reduced (by rw [m.lp]; omega) (fun j hj => m.p j (by omega))⟩
  · have := t1 i ((hd i).1 hi) t ht
    omega
  · have a := t1 i ((hd i).1 hi) t (by rw [hdeg]; exact ht)
    have := hb' u (by omega)
    omega
  · rw [core_mask K hk hi]
    exact (o2 i hi).1

end

/-! ## The law of the fast keys -/

/-- the second half of the fast key `fk` holds `masks` -/
def FastMasks (n : ℕ) (p : FParams) (fk : FSwitchingKey × FSwitchingKey) (masks : ℕ → PolyQP) : Prop :=
  ∀ i < p.beta, ∃ A : ℕ → ℤ, FDigitIs n p fk.2 i A ∧ (masks i).IsMont n p.ringQ p.ringP p.maxLevel (p.alpha - 1) A

section
variable {fuel n : ℕ} {p : FParams} {kg : FKeyGenerator} {ksw : FKeySwitcher} (h : p.OK fuel n) (hF : p.Fits)
  (hg : newFKeyGenerator fuel p = some kg) {F : Type} (O : FloatOps F) (sigma : F) {bound : UInt64}
  (hb0 : 2 * bound.toNat < p.ringQ.qs 0) (hb : ∀ j < p.ringQ.subs.length, bound.toNat ≤ p.ringQ.qs j)
  (hb' : ∀ j < p.ringP.subs.length, bound.toNat ≤ p.ringP.qs j)
include h

theorem newKey_beta : (newSwitchingKey p.ringQ p.ringP (p.ringQ.subs.length - 1) (p.ringP.subs.length - 1)).length = p.beta := by
  have h1 := h.lenQ
  have h2 := h.lenP
  unfold FParams.beta FParams.alpha newSwitchingKey
  rw [if_pos (by omega), List.length_replicate, Nat.sub_add_cancel (by omega), Nat.sub_add_cancel (by omega)]

include hF

omit hF in
theorem fastMasks_of {key : SwitchingKey} (hg : newFKeyGenerator fuel p = some kg) {sIn sOut : ℕ → ℤ} {T : ℕ → ℕ → ℤ}
    (hk : IsSwitchKey n p.ringQ p.ringP p.maxLevel (p.alpha - 1) key sIn sOut T) :
    FastMasks n p (kg.convertKey key) (fun i => (key.getD i default).2) := by
  have hb := beta_iff h
  have hkg := kg_ok h hg
  obtain ⟨B, A, h1, -, -⟩ := hk.ex
  have hconv : kg.convertKey key = ((List.range p.beta).map fun i =>
      kg.polyQPToPolyTs (p.plain (key.getD i default).1), (List.range p.beta).map fun i =>
      kg.polyQPToPolyTs (p.plain (key.getD i default).2)) := by
    unfold FKeyGenerator.convertKey
    simp only [hkg.params]
    rfl
  intro i hi
  refine ⟨A i, fun j hj => ?_, (h1 i ((hb i).1 hi)).2⟩
  rw [hconv]
  exact C26_keyBlocks h hg (x := fun i => (key.getD i default).2) (h1 i ((hb i).1 hi)).2 hi hj

/-- the masks of a fast key are determined by the key -/
theorem fastMasks_unique {fk : FSwitchingKey × FSwitchingKey} {m m' : ℕ → PolyQP} (hm : ∀ i < p.beta, MaskOK p.ringQ p.ringP (m i))
    (hm' : ∀ i < p.beta, MaskOK p.ringQ p.ringP (m' i)) (f : FastMasks n p fk m) (f' : FastMasks n p fk m') {i : ℕ} (hi : i < p.beta) :
    m i = m' i := by
  have hal : p.alpha = p.ringP.subs.length := rfl
  have hml : p.maxLevel = p.ringQ.subs.length - 1 := rfl
  have hlenP := h.lenP
  have hlenQ := h.lenQ
  obtain ⟨A, a1, m1⟩ := f i hi
  obtain ⟨A', a2, m2⟩ := f' i hi
  obtain ⟨uq, up⟩ := fdigit_unique' h hF a1 a2
  have eq : (m i).q = (m' i).q := by
    refine rows_ext h.hQ (l := p.maxLevel) (by rw [(hm i hi).lq]; omega) (by rw [(hm' i hi).lq]; omega) m1.q m2.q
      (fun u hu k hk' => ?_) (by omega)
    rw [h.hQ.deg] at hk'
    congr 1
    exact nttVec_of_intR h.hQ (by omega) (uq u (by omega)) hk'
  have ep : (m i).p = (m' i).p := by
    refine rows_ext h.hP (l := p.alpha - 1) (by rw [(hm i hi).lp]; omega) (by rw [(hm' i hi).lp]; omega) m1.p m2.p
      (fun u hu k hk' => ?_) (by omega)
    rw [h.hP.deg] at hk'
    congr 1
    exact nttVec_of_intR h.hP (by omega) (up u (by omega)) hk'
  generalize m i = x at eq ep
  generalize m' i = y at eq ep
  cases x
  cases y
  dsimp only at eq ep
  rw [eq, ep]

include hb0 hb hb'

variable {poolQ skIn : Rows} (hpool : poolQ.length = p.ringQ.subs.length) {skOut : PolyQP} {sIn sOut : ℕ → ℤ}
  (hi : PolyIs p.ringQ (p.ringQ.subs.length - 1) p.ringQ.qs skIn (fun u k => p.ringQ.nttVec n sIn u k * 2 ^ 64))
  (ho : skOut.IsMont n p.ringQ p.ringP (p.ringQ.subs.length - 1) (p.ringP.subs.length - 1) sOut)
include hpool hi ho hg

/-- the conversion of a generated key -/
theorem fastKey_step {T : ℕ → ℕ → ℤ} (hT : ∀ i < p.beta, ∀ t < p.ringQ.n, |T i t| ≤ bound.toNat) {masks : ℕ → PolyQP}
    (hm : ∀ i < p.beta, MaskOK p.ringQ p.ringP (masks i)) :
    Step (fun k st => (genSwitchingKeyBytes O k p.ringQ p.ringP sigma bound poolQ skIn skOut
        (newSwitchingKey p.ringQ p.ringP (p.ringQ.subs.length - 1) (p.ringP.subs.length - 1)) st).map fun a => (kg.convertKey a.1, a.2))
      (fun fk => FastKeyFor n p fk sIn sOut T masks)
      (∏ i ∈ range p.beta, (∏ t ∈ range p.ringQ.n, gaussLaw O sigma bound (T i t)) * polyMass p.ringQ * polyMass p.ringP) := by
  have K := FParams.OK.keyParams h
  have hl := newKey_beta h
  have hsh := newSwitchingKey_shape K p.ringQ p.ringP (p.ringQ.subs.length - 1) (p.ringP.subs.length - 1)
  have hs := switchingKey_step K O sigma hb0 hb hb' hsh hpool hi ho (T := T) (by rw [hl]; exact hT) (masks := masks) (by rw [hl]; exact hm)
  rw [hl] at hs
  refine hs.map (fun key => kg.convertKey key) fun {k st x st'} hst hx => ?_
  obtain ⟨⟨T', -, o1⟩, o2⟩ := switchingKey_outcome K O sigma hb0 hb hb' hsh hpool hi ho hst hx
  rw [hl] at o2
  exact fastKey_iff h hF hg o1 o2 hm

theorem fastMasks_step (hO : O.Starts sigma bound) {masks : ℕ → PolyQP} (hm : ∀ i < p.beta, MaskOK p.ringQ p.ringP (masks i)) :
    Step (fun k st => (genSwitchingKeyBytes O k p.ringQ p.ringP sigma bound poolQ skIn skOut
        (newSwitchingKey p.ringQ p.ringP (p.ringQ.subs.length - 1) (p.ringP.subs.length - 1)) st).map fun a => (kg.convertKey a.1, a.2))
      (fun fk => FastMasks n p fk masks) ((polyMass p.ringQ * polyMass p.ringP) ^ p.beta) := by
  have K := FParams.OK.keyParams h
  have hl := newKey_beta h
  have hsh := newSwitchingKey_shape K p.ringQ p.ringP (p.ringQ.subs.length - 1) (p.ringP.subs.length - 1)
  have hs := masks_step K O sigma hb0 hb hsh hpool (skIn := skIn) (skOut := skOut) hO (masks := masks) (by rw [hl]; exact hm)
  rw [hl] at hs
  refine hs.map (fun key => kg.convertKey key) fun {k st x st'} hst hx => ?_
  obtain ⟨⟨T', -, o1⟩, o2⟩ := switchingKey_outcome K O sigma hb0 hb hb' hsh hpool hi ho hst hx
  rw [hl] at o2
  have f := fastMasks_of h hg o1
  constructor
  · intro f' i hi'
    exact fastMasks_unique h hF o2 hm f f' hi'
  · intro e i hi'
    obtain ⟨A, a1, a2⟩ := f i hi'
    exact ⟨A, a1, by rw [← e i hi']; exact a2⟩

/-- with probability one the generation ends in a fast key that switches from `sIn` to `sOut` at every level -/
theorem fastKey_returns_step (hO : O.Starts sigma bound)
    (hov : p.alpha ≤ 16 ∨ ∀ t ≤ p.levelT, 10 * p.ringT.qs t + 2 ^ 15 ≤ 2 ^ 64) (hk : newFKeySwitcher fuel p = some ksw) :
    Step (fun k st => (genSwitchingKeyBytes O k p.ringQ p.ringP sigma bound poolQ skIn skOut
        (newSwitchingKey p.ringQ p.ringP (p.ringQ.subs.length - 1) (p.ringP.subs.length - 1)) st).map fun a => (kg.convertKey a.1, a.2))
      (fun fk => ∃ T : ℕ → ℕ → ℤ, (∀ i < p.beta, ∀ t < p.ringQ.n, |T i t| ≤ bound.toNat) ∧
        ∀ levelQ < p.ringQ.subs.length, FSwitches n p ksw levelQ fk sIn sOut T) 1 := by
  have K := FParams.OK.keyParams h
  have hl := newKey_beta h
  have lq := K.rings.lQ
  have lp := K.rings.lP
  have hsh := newSwitchingKey_shape K p.ringQ p.ringP (p.ringQ.subs.length - 1) (p.ringP.subs.length - 1)
  have hs := readKey_step K O sigma hb0 hb hsh hpool (skIn := skIn) (skOut := skOut) hO (B := fun _ => True)
    (fun i hi => uniStep_top K.rings.hQ lq (by rw [(hsh.digit i hi).aq]; omega))
    (fun i hi => uniStep_top K.rings.hP lp (by rw [(hsh.digit i hi).ap]; omega))
    (fun {k st ts st'} hst h => ⟨fun _ _ _ => ⟨trivial, trivial⟩, fun _ => trivial⟩)
  rw [prod_const, mul_one, one_pow] at hs
  refine hs.map (fun key => kg.convertKey key) fun {k st x st'} hst hx => ?_
  obtain ⟨⟨T', t1, o1⟩, -⟩ := switchingKey_outcome K O sigma hb0 hb hb' hsh hpool hi ho hst hx
  rw [hl] at t1
  exact ⟨fun _ => trivial, fun _ => ⟨T', t1, fun levelQ hlQ => fswitches_of_key h hF hov hk hg hlQ o1⟩⟩

end

section
variable {fuel n : ℕ} {p : FParams} {kg : FKeyGenerator} {ksw : FKeySwitcher} (h : p.OK fuel n) (hF : p.Fits)
  (hg : newFKeyGenerator fuel p = some kg) {F : Type} (O : FloatOps F) (sigma : F) {bound : UInt64}
  (hb0 : 2 * bound.toNat < p.ringQ.qs 0) (hb : ∀ j < p.ringQ.subs.length, bound.toNat ≤ p.ringQ.qs j)
  (hb' : ∀ j < p.ringP.subs.length, bound.toNat ≤ p.ringP.qs j) {pools : KgPools} (hpool : pools.poolQ.length = p.ringQ.subs.length)
  {sk : PolyQP} {S : ℕ → ℤ} (hs : sk.IsMont n p.ringQ p.ringP p.maxLevel (p.alpha - 1) S)
  (pos : ℕ) (clk : UInt64) {buf : List UInt8} {ptr : ℕ} (hlen : buf.length = 1024) (hle : ptr ≤ 1024) (hw : ptr % 8 = 0)
include h hF hg hb0 hb hb' hpool hs hlen hle hw

/-- **C121 (relinearization keys).** `GenRelinKey` of `frlwe` on random bytes, whatever the pools hold: for all error vectors `T` within
the bound and all masks, the probability that the result is the fast key from `s^2` to `s` with errors `T` and these masks is the
product of the probabilities of the errors and of the uniform probabilities of the masks — the draws are independent of each other, of
the secret and of the bytes that follow. -/
theorem C121_relin {T : ℕ → ℕ → ℤ} (hT : ∀ i < p.beta, ∀ t < p.ringQ.n, |T i t| ≤ bound.toNat) {masks : ℕ → PolyQP}
    (hm : ∀ i < p.beta, MaskOK p.ringQ p.ringP (masks i)) {E : ℕ → Set (ℕ → UInt8)} {c : ℝ≥0∞} (hE : ∀ k, MeasurableSet (E k))
    (hc : ∀ k, randomBytes (E k) = c) :
    randomBytes {s | ∃ k fk st', kg.genRelinKeyBytes O k sigma bound pools sk ⟨⟨s, pos, clk⟩, buf, ptr⟩ = some (fk, st') ∧
        FastKeyFor n p fk (negPow (2 ^ n) S 2) S T masks ∧ (fun i => s (st'.prng.pos + i)) ∈ E st'.ptr}
      = (∏ i ∈ range p.beta, (∏ t ∈ range p.ringQ.n, gaussLaw O sigma bound (T i t)) * polyMass p.ringQ * polyMass p.ringP) * c := by
  have := ((fastKey_step h hF hg O sigma hb0 hb hb' hpool (relinPower_is (FParams.OK.keyParams h) hs.q 1) hs hT hm).law pos clk hlen hle
    hw hE hc).2
  unfold FKeyGenerator.genRelinKeyBytes
  rw [(kg_ok h hg).params]
  exact this

/-- **C121 (masks).** All families of masks of a fast relinearization key are equally likely, whatever the secret. -/
theorem C121_relin_masks (hO : O.Starts sigma bound) {masks : ℕ → PolyQP} (hm : ∀ i < p.beta, MaskOK p.ringQ p.ringP (masks i)) :
    randomBytes {s | ∃ k fk st', kg.genRelinKeyBytes O k sigma bound pools sk ⟨⟨s, pos, clk⟩, buf, ptr⟩ = some (fk, st') ∧
        FastMasks n p fk masks} = (polyMass p.ringQ * polyMass p.ringP) ^ p.beta := by
  have := ((fastMasks_step h hF hg O sigma hb0 hb hb' hpool (relinPower_is (FParams.OK.keyParams h) hs.q 1) hs hO hm).law pos clk hlen hle
    hw (E := fun _ => Set.univ) (c := 1) (fun _ => MeasurableSet.univ) (fun _ => measure_univ)).2
  rw [mul_one] at this
  unfold FKeyGenerator.genRelinKeyBytes
  rw [(kg_ok h hg).params, ← this, stepEvent]
  simp only [Set.mem_univ, and_true]

/-- **C121 (relinearization keys work).** With probability one `GenRelinKey` returns, and with the key that it returns the fast
key-switch maps, at every level, every polynomial from `s^2` to `s`, with the errors of the key within the bound. -/
theorem C121_relin_switches (hO : O.Starts sigma bound)
    (hov : p.alpha ≤ 16 ∨ ∀ t ≤ p.levelT, 10 * p.ringT.qs t + 2 ^ 15 ≤ 2 ^ 64) (hk : newFKeySwitcher fuel p = some ksw) :
    randomBytes {s | ∃ k fk st', kg.genRelinKeyBytes O k sigma bound pools sk ⟨⟨s, pos, clk⟩, buf, ptr⟩ = some (fk, st') ∧
        ∃ T : ℕ → ℕ → ℤ, (∀ i < p.beta, ∀ t < p.ringQ.n, |T i t| ≤ bound.toNat) ∧
          ∀ levelQ < p.ringQ.subs.length, FSwitches n p ksw levelQ fk (negPow (2 ^ n) S 2) S T} = 1 := by
  have := ((fastKey_returns_step h hF hg O sigma hb0 hb hb' hpool (relinPower_is (FParams.OK.keyParams h) hs.q 1) hs hO hov hk).law pos
    clk hlen hle hw (E := fun _ => Set.univ) (c := 1) (fun _ => MeasurableSet.univ) (fun _ => measure_univ)).2
  rw [mul_one] at this
  unfold FKeyGenerator.genRelinKeyBytes
  rw [(kg_ok h hg).params, ← this, stepEvent]
  simp only [Set.mem_univ, and_true]

variable (hqp : pools.poolQP.q.length = p.ringQ.subs.length) (hpp : pools.poolQP.p.length = p.ringP.subs.length) (rot : ℤ)
include hqp hpp

omit hF hg hb0 hb hb' hpool hlen hle hw in
theorem rot_secret : ∃ g', g' % 2 = 1 ∧ g' * (p.ringQ.galoisElementForColumnRotationBy rot).toNat % (2 * 2 ^ n) = 1 ∧
    PolyQP.IsMont n p.ringQ p.ringP (p.ringQ.subs.length - 1) (p.ringP.subs.length - 1)
      ⟨p.ringQ.permuteNTTWithIndexLvl (p.ringQ.subs.length - 1) sk.q
        (p.ringQ.permuteNTTIndex (p.ringQ.galoisElementForColumnRotationBy (-(rot.tmod ((p.ringQ.n / 2 : ℕ) : ℤ))))) pools.poolQP.q,
       p.ringQ.permuteNTTWithIndexLvl (p.ringP.subs.length - 1) sk.p
        (p.ringQ.permuteNTTIndex (p.ringQ.galoisElementForColumnRotationBy (-(rot.tmod ((p.ringQ.n / 2 : ℕ) : ℤ))))) pools.poolQP.p⟩
      (autInt (2 ^ n) g' S) := by
  have R := (FParams.OK.keyParams h).rings
  have lQ := R.lQ
  have lP := R.lP
  have hgt := galEl_tmod h rot
  rw [h.hQ.deg]
  set k := rot.tmod ((2 ^ n / 2 : ℕ) : ℤ)
  have ho := (C25_rotation_odd R.hQ (-k)).1
  refine ⟨_, ho, ?_, permuteMont_is R.hQ R.hQ lQ hs.q (by omega) ho, permuteMont_is R.hQ R.hP lP hs.p (by omega) ho⟩
  have h1 := C25_rotation_add R.hQ (-k) k
  have h2 := two_le_pow n
  rw [← hgt]
  rw [R.hQ.deg, neg_add_cancel] at h1
  rw [h1, galEl_eq R.hQ, Int.zero_emod, Int.toNat_zero, pow_zero, Nat.mod_eq_of_lt (by omega)]

/-- **C121 (rotation keys).** `GenRotKey` of `frlwe` on random bytes: the same law for the fast key from `s` to `s(X^g')`, with `g'` the
inverse modulo `2N` of the Galois element of the rotation, and the stored index is the index reduced modulo `N/2`. -/
theorem C121_rotation : ∃ g', g' % 2 = 1 ∧ g' * (p.ringQ.galoisElementForColumnRotationBy rot).toNat % (2 * 2 ^ n) = 1 ∧
    ∀ {T : ℕ → ℕ → ℤ} (_ : ∀ i < p.beta, ∀ t < p.ringQ.n, |T i t| ≤ bound.toNat) {masks : ℕ → PolyQP}
      (_ : ∀ i < p.beta, MaskOK p.ringQ p.ringP (masks i)) {E : ℕ → Set (ℕ → UInt8)} {c : ℝ≥0∞} (_ : ∀ k, MeasurableSet (E k))
      (_ : ∀ k, randomBytes (E k) = c),
      randomBytes {s | ∃ k fk st', kg.genRotKeyBytes O k sigma bound pools rot sk ⟨⟨s, pos, clk⟩, buf, ptr⟩ = some (fk, st') ∧
          (fk.1 = UInt64.ofInt (rot.tmod ((2 ^ n / 2 : ℕ) : ℤ)) ∧ FastKeyFor n p fk.2 S (autInt (2 ^ n) g' S) T masks) ∧
          (fun i => s (st'.prng.pos + i)) ∈ E st'.ptr}
        = (∏ i ∈ range p.beta, (∏ t ∈ range p.ringQ.n, gaussLaw O sigma bound (T i t)) * polyMass p.ringQ * polyMass p.ringP) * c := by
  obtain ⟨g', g1, g2, ho⟩ := rot_secret h hs hqp hpp rot
  refine ⟨g', g1, g2, fun {T} hT {masks} hm {E c} hE hc => ?_⟩
  have := (((fastKey_step h hF hg O sigma hb0 hb hb' hpool hs.q ho hT hm).map
    (fun fk => (UInt64.ofInt (rot.tmod ((2 ^ n / 2 : ℕ) : ℤ)), fk))
    (B := fun fk => fk.1 = UInt64.ofInt (rot.tmod ((2 ^ n / 2 : ℕ) : ℤ)) ∧ FastKeyFor n p fk.2 S (autInt (2 ^ n) g' S) T masks)
    (fun _ _ => ⟨fun a => a.2, fun a => ⟨rfl, a⟩⟩)).law pos clk hlen hle hw hE hc).2
  rw [← this, stepEvent]
  unfold FKeyGenerator.genRotKeyBytes
  simp only [(kg_ok h hg).params, Option.map_map, Function.comp_def, h.hQ.deg]

/-- **C121 (rotation keys work).** With probability one `GenRotKey` returns a key with which the fast key-switch maps, at every level,
every polynomial from `s` to `s(X^g')`, with the errors of the key within the bound. -/
theorem C121_rotation_switches (hO : O.Starts sigma bound)
    (hov : p.alpha ≤ 16 ∨ ∀ t ≤ p.levelT, 10 * p.ringT.qs t + 2 ^ 15 ≤ 2 ^ 64) (hk : newFKeySwitcher fuel p = some ksw) :
    ∃ g', g' % 2 = 1 ∧ g' * (p.ringQ.galoisElementForColumnRotationBy rot).toNat % (2 * 2 ^ n) = 1 ∧
      randomBytes {s | ∃ k fk st', kg.genRotKeyBytes O k sigma bound pools rot sk ⟨⟨s, pos, clk⟩, buf, ptr⟩ = some (fk, st') ∧
        ∃ T : ℕ → ℕ → ℤ, (∀ i < p.beta, ∀ t < p.ringQ.n, |T i t| ≤ bound.toNat) ∧
          ∀ levelQ < p.ringQ.subs.length, FSwitches n p ksw levelQ fk.2 S (autInt (2 ^ n) g' S) T} = 1 := by
  obtain ⟨g', g1, g2, ho⟩ := rot_secret h hs hqp hpp rot
  refine ⟨g', g1, g2, ?_⟩
  have := (((fastKey_returns_step h hF hg O sigma hb0 hb hb' hpool hs.q ho hO hov hk).map
    (fun fk => (UInt64.ofInt (rot.tmod ((2 ^ n / 2 : ℕ) : ℤ)), fk))
    (B := fun fk => ∃ T : ℕ → ℕ → ℤ, (∀ i < p.beta, ∀ t < p.ringQ.n, |T i t| ≤ bound.toNat) ∧
          ∀ levelQ < p.ringQ.subs.length, FSwitches n p ksw levelQ fk.2 S (autInt (2 ^ n) g' S) T)
    (fun _ _ => Iff.rfl)).law pos clk hlen hle hw (E := fun _ => Set.univ) (c := 1) (fun _ => MeasurableSet.univ)
    (fun _ => measure_univ)).2
  rw [mul_one] at this
  rw [← this, stepEvent]
  unfold FKeyGenerator.genRotKeyBytes
  simp only [(kg_ok h hg).params, Option.map_map, Function.comp_def, h.hQ.deg, Set.mem_univ, and_true]

end

/-- moduli 97, 193, 641 and 257, 353, `T = 449·577·673·769·1153`, `gamma = 2`, degree 16, `sigma = 3.2`, bound 19, pools of ones: with
probability one the relinearization key and the key for the rotation by 3 switch keys at level 1, and the relinearization key with
the errors `2 - t mod 5` and the masks that are constantly 5 has the probability of the errors times the inverse of the number of masks. -/
example : ∃ (p : FParams) (ksw : FKeySwitcher) (kg : FKeyGenerator) (sk : PolyQP) (g' : ℕ),
    newFParams 100 4 [97, 193, 641] [257, 353] [449, 577, 673, 769, 1153] 5 0x4009999999999999 2 = some p ∧
    newFKeySwitcher 100 p = some ksw ∧ newFKeyGenerator 100 p = some kg ∧
    g' * (p.ringQ.galoisElementForColumnRotationBy 3).toNat % 32 = 1 ∧
    let pools : KgPools := ⟨List.replicate 3 [1], ⟨List.replicate 3 [1], List.replicate 2 [1]⟩⟩
    let mask : PolyQP := ⟨List.replicate 3 (List.replicate 16 5), List.replicate 2 (List.replicate 16 5)⟩
    let st : (ℕ → UInt8) → GaussState := fun s => ⟨⟨s, 7, 0⟩, List.replicate 1024 1, 1016⟩
    randomBytes {s | ∃ k fk st', kg.genRelinKeyBytes realOps k 3.2 19 pools sk (st s) = some (fk, st') ∧
      ∃ T : ℕ → ℕ → ℤ, (∀ i < p.beta, ∀ t < p.ringQ.n, |T i t| ≤ 19) ∧
        ∀ levelQ < p.ringQ.subs.length, FSwitches 4 p ksw levelQ fk (negPow 16 exampleS 2) exampleS T} = 1 ∧
    randomBytes {s | ∃ k fk st', kg.genRotKeyBytes realOps k 3.2 19 pools 3 sk (st s) = some (fk, st') ∧
      ∃ T : ℕ → ℕ → ℤ, (∀ i < p.beta, ∀ t < p.ringQ.n, |T i t| ≤ 19) ∧
        ∀ levelQ < p.ringQ.subs.length, FSwitches 4 p ksw levelQ fk.2 exampleS (autInt 16 g' exampleS) T} = 1 ∧
    randomBytes {s | ∃ k fk st', kg.genRelinKeyBytes realOps k 3.2 19 pools sk (st s) = some (fk, st') ∧
      FastKeyFor 4 p fk (negPow 16 exampleS 2) exampleS (fun _ t => 2 - t % 5) (fun _ => mask) ∧
        (fun i => s (st'.prng.pos + i)) ∈ (Set.univ : Set (ℕ → UInt8))}
      = (∏ _i ∈ range p.beta, (∏ t ∈ range p.ringQ.n, gaussLaw realOps 3.2 19 (2 - t % 5)) * polyMass p.ringQ * polyMass p.ringP) * 1 := by
  obtain ⟨p, ksw, kg, sr, tape, h1, h, hF, ha, lQ, hk, hg, hQ, hP, hsam, hsk, ht⟩ := exampleKeys
  have l2 : p.ringP.subs.length = 2 := ha
  have a0 := sub_of_moduli hQ 0 97 rfl
  have a1 := sub_of_moduli hQ 1 193 rfl
  have a2 := sub_of_moduli hQ 2 641 rfl
  have b0 := sub_of_moduli hP 0 257 rfl
  have b1 := sub_of_moduli hP 1 353 rfl
  have hn : p.ringQ.n = 16 := h.hQ.deg
  have hn' : p.ringP.n = 16 := h.hP.deg
  have hb : ∀ j < p.ringQ.subs.length, (19 : UInt64).toNat ≤ p.ringQ.qs j ∧ (5 : UInt64) < (p.ringQ.sub j).q := fun j hj => by
    unfold Ring.qs
    obtain rfl | rfl | rfl : j = 0 ∨ j = 1 ∨ j = 2 := by omega
    · rw [a0]; decide
    · rw [a1]; decide
    · rw [a2]; decide
  have hb' : ∀ j < p.ringP.subs.length, (19 : UInt64).toNat ≤ p.ringP.qs j ∧ (5 : UInt64) < (p.ringP.sub j).q := fun j hj => by
    unfold Ring.qs
    obtain rfl | rfl : j = 0 ∨ j = 1 := by omega
    · rw [b0]; decide
    · rw [b1]; decide
  have hb0 : 2 * (19 : UInt64).toNat < p.ringQ.qs 0 := by unfold Ring.qs; rw [a0]; decide
  have rep : ∀ {k j : ℕ} {x : UInt64}, j < k → Rows.row (List.replicate k (List.replicate 16 x)) j = List.replicate 16 x := fun h => by
    rw [Rows.row, List.getD_eq_getElem _ _ (by simpa using h), List.getElem_replicate]
  have hm : MaskOK p.ringQ p.ringP ⟨List.replicate 3 (List.replicate 16 5), List.replicate 2 (List.replicate 16 5)⟩ := by
    refine ⟨by simp [lQ], by simp [l2], fun j hj => ?_, fun j hj => ?_⟩
    · rw [rep (by omega)]
      exact ⟨by rw [hn, List.length_replicate], fun x hx => by rw [List.eq_of_mem_replicate hx]; exact (hb j hj).2⟩
    · rw [rep (by omega)]
      exact ⟨by rw [hn', List.length_replicate], fun x hx => by rw [List.eq_of_mem_replicate hx]; exact (hb' j hj).2⟩
  have hT : ∀ t < p.ringQ.n, |(2 : ℤ) - (t : ℤ) % 5| ≤ ((19 : UInt64).toNat : ℤ) := fun t _ => by
    have : ((19 : UInt64).toNat : ℤ) = 19 := rfl
    rw [this, abs_le]
    omega
  have hpool : (⟨List.replicate 3 [1], ⟨List.replicate 3 [1], List.replicate 2 [1]⟩⟩ : KgPools).poolQ.length = p.ringQ.subs.length := by
    rw [lQ]; rfl
  obtain ⟨g', g1, g2, e2⟩ := C121_rotation_switches h hF hg realOps 3.2 hb0 (fun j hj => (hb j hj).1) (fun j hj => (hb' j hj).1) hpool hsk 7 0
    (buf := List.replicate 1024 1) (ptr := 1016) List.length_replicate (by norm_num) rfl (by rw [lQ]; rfl) (by rw [l2]; rfl) 3
    (realOps_starts _ _) (Or.inl (by omega)) hk
  refine ⟨p, ksw, kg, _, g', h1, hk, hg, g2, ?_, e2, ?_⟩
  · exact C121_relin_switches h hF hg realOps 3.2 hb0 (fun j hj => (hb j hj).1) (fun j hj => (hb' j hj).1) hpool hsk 7 0
      (buf := List.replicate 1024 1) (ptr := 1016) List.length_replicate (by norm_num) rfl (realOps_starts _ _) (Or.inl (by omega)) hk
  · exact C121_relin h hF hg realOps 3.2 hb0 (fun j hj => (hb j hj).1) (fun j hj => (hb' j hj).1) hpool hsk 7 0
      (buf := List.replicate 1024 1) (ptr := 1016) List.length_replicate (by norm_num) rfl (T := fun _ t => 2 - t % 5)
      (fun _ _ => hT) (masks := fun _ => _) (fun _ _ => hm) (E := fun _ => Set.univ) (fun _ => MeasurableSet.univ) (fun _ => measure_univ)

end FastKsw.Props
