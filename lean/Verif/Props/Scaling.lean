import Verif.Lemmas.Scaling
import Verif.Props.BasisExt

/-!
# C22, C62: division by the last modulus, scaling by `t/Q`

`r.intVec X` are the residues of the integer coefficients `X`, `r.nttVec n X` the
evaluations of these residues at the points of the NTT.  The integers `X` are
arbitrary: a number in `[0,Q)` is the special case of the property.
-/

namespace FastKsw.Props

variable {n : ℕ} {r : Ring} {l level nb : ℕ} {p0 p1 pool : Rows} {X : ℕ → ℤ}

/-- **C22.** `DivFloorByLastModulusLvl` is the floored division by the last modulus, reduced; rows
above are not touched. -/
theorem C22_divFloor (hr : r.Valid n) (sr : r.Small) (hl : l + 1 < r.subs.length)
    (h0 : PolyIs r (l + 1) r.qs p0 (r.intVec X)) (h1 : l < p1.length) :
    PolyWritten r l r.qs p1 (r.divFloorByLastModulusLvl (l + 1) p0 p1)
      (r.intVec fun k => X k / (r.sub (l + 1)).q.toNat) := divFloorLvl_is hr sr hl h0 h1

/-- **C22.** `DivRoundByLastModulusLvl` is `⌊(x + ⌊q/2⌋)/q⌋` for the last modulus `q`. -/
theorem C22_divRound (hr : r.Valid n) (sr : r.Small) (hl : l + 1 < r.subs.length)
    (h0 : PolyIs r (l + 1) r.qs p0 (r.intVec X)) (h1 : l < p1.length) :
    PolyWritten r l r.qs p1 (r.divRoundByLastModulusLvl (l + 1) p0 p1).2
      (r.intVec fun k => (X k + (r.sub (l + 1)).q.toNat / 2) / (r.sub (l + 1)).q.toNat) :=
  divRoundLvl_is hr sr hl h0 h1

/-- **C22.** `DivRoundByLastModulusLvl` with receiver equal to operand. -/
theorem C22_divRound_inPlace (hr : r.Valid n) (sr : r.Small) (hl : l + 1 < r.subs.length)
    (h0 : PolyIs r (l + 1) r.qs p0 (r.intVec X)) :
    PolyIs r l r.qs (r.divRoundByLastModulusLvlInPlace (l + 1) p0)
      (r.intVec fun k => (X k + (r.sub (l + 1)).q.toNat / 2) / (r.sub (l + 1)).q.toNat) :=
  divRoundInPlace_is hr sr hl h0

/-- **C22.** The operand of `DivRoundByLastModulusLvl` is overwritten: its last row by `x + ⌊q/2⌋`, the rows below by
`-(x + ⌊q/2⌋)`, not reduced; rows above are not touched. -/
theorem C22_divRound_operand (hr : r.Valid n) (sr : r.Small) (hl : l + 1 < r.subs.length)
    (h0 : PolyIs r (l + 1) r.qs p0 (r.intVec X)) :
    (r.divRoundByLastModulusLvl (l + 1) p0 p1).1.length = p0.length ∧
    RowIs r.n (r.sub (l + 1)).q.toNat (r.sub (l + 1)).q.toNat ((r.divRoundByLastModulusLvl (l + 1) p0 p1).1.row (l + 1))
      (r.intVec (fun k => X k + (r.sub (l + 1)).q.toNat / 2) (l + 1)) ∧
    (∀ i ≤ l, RowIs r.n (r.sub i).q.toNat (2 ^ 64) ((r.divRoundByLastModulusLvl (l + 1) p0 p1).1.row i)
      (r.intVec (fun k => -(X k + (r.sub (l + 1)).q.toNat / 2)) i)) ∧
    ∀ i > l + 1, (r.divRoundByLastModulusLvl (l + 1) p0 p1).1.row i = p0.row i := by
  have hlen := h0.lvl
  have hw : (writeLt (l + 1) (r.divRoundNeg (l + 1) p0) p0).length = p0.length := length_writeLvl ..
  unfold Ring.divRoundByLastModulusLvl
  dsimp only
  refine ⟨by rw [List.length_set, hw], ?_, fun i hi => ?_, fun i hi => ?_⟩
  · have e : Rows.row ((writeLt (l + 1) (r.divRoundNeg (l + 1) p0) p0).set (l + 1) (r.divRoundTop (l + 1) p0)) (l + 1) =
        r.divRoundTop (l + 1) p0 := by
      simp [Rows.row, List.getD, hw, hlen]
    rw [e]
    exact (divRoundTop_is hr sr hl h0).congr fun k _ => by simp [Ring.intVec]
  · have V := hr.subAt (show i < r.subs.length by omega)
    have hlt := sr _ (Ring.sub_mem (show i < r.subs.length by omega))
    have hn := negHalf_spec hr sr hl hi
    have hp := pHalf_spec hr sr hl
    have hneg := addScalarNoModAndNegTwoQiNoModVec_is V.arith
      ((h0.row i (by omega)).mono (by unfold Ring.qs; omega)) _
      (show ((r.sub i).q - bredAdd (pHalf (r.sub (l + 1)).q) (r.sub i).q (r.sub i).bred).toNat
        + 2 * (r.sub i).q.toNat < 2 ^ 64 by omega)
    rw [row_set_ne _ _ (by omega)]
    have e : Rows.row (writeLt (l + 1) (r.divRoundNeg (l + 1) p0) p0) i = r.divRoundNeg (l + 1) p0 i :=
      row_writeLvl hi (by omega)
    rw [e]
    refine (hneg.mono (by omega)).congr fun k _ => ?_
    have hp' := congrArg (fun t : ℤ => (t : ZMod (r.sub i).q.toNat)) hp.1
    simp only [Int.cast_natCast] at hp'
    rw [hn.2, hp']
    simp only [Ring.intVec]
    push_cast
    ring
  · rw [row_set_ne _ _ (by omega)]
    exact row_writeLvl_above (show i > l by omega)

/-- **C22.** `DivRoundByLastModulusLvl` with receiver equal to operand leaves `x + ⌊q/2⌋` in the row it drops, and does not touch the
rows above. -/
theorem C22_divRound_inPlace_top (hr : r.Valid n) (sr : r.Small) (hl : l + 1 < r.subs.length)
    (h0 : PolyIs r (l + 1) r.qs p0 (r.intVec X)) :
    (r.divRoundByLastModulusLvlInPlace (l + 1) p0).length = p0.length ∧
    RowIs r.n (r.sub (l + 1)).q.toNat (r.sub (l + 1)).q.toNat ((r.divRoundByLastModulusLvlInPlace (l + 1) p0).row (l + 1))
      (r.intVec (fun k => X k + (r.sub (l + 1)).q.toNat / 2) (l + 1)) ∧
    ∀ i > l + 1, (r.divRoundByLastModulusLvlInPlace (l + 1) p0).row i = p0.row i := by
  have hlen := h0.lvl
  have hw : (writeLt (l + 1) (r.divRoundRow (l + 1) p0) p0).length = p0.length := length_writeLvl ..
  unfold Ring.divRoundByLastModulusLvlInPlace
  refine ⟨by rw [List.length_set, hw], ?_, fun i hi => ?_⟩
  · have e : Rows.row ((writeLt (l + 1) (r.divRoundRow (l + 1) p0) p0).set (l + 1) (r.divRoundTop (l + 1) p0)) (l + 1) =
        r.divRoundTop (l + 1) p0 := by
      simp [Rows.row, List.getD, hw, hlen]
    rw [e]
    exact (divRoundTop_is hr sr hl h0).congr fun k _ => by simp [Ring.intVec]
  · rw [row_set_ne _ _ (by omega)]
    exact row_writeLvl_above (show i > l by omega)

/-- **C22.** `DivFloorByLastModulusManyLvl` by `nb` moduli is the floored division by their product. -/
theorem C22_divFloorMany (hr : r.Valid n) (sr : r.Small) (hl : level < r.subs.length)
    (hnb : nb ≤ level) (h0 : PolyIs r level r.qs p0 (r.intVec X)) (hp : level < pool.length)
    (h1 : level - nb < p1.length) :
    PolyWritten r (level - nb) r.qs p1 (r.divFloorByLastModulusManyLvl level nb p0 pool p1)
      (r.intVec fun k => X k / ((∏ i ∈ Finset.range nb, (r.sub (level - i)).q.toNat : ℕ) : ℤ)) := by
  have h := divFloorMany_is hr sr hl hnb h0 hp h1
  rwa [show floorIter r level nb X = _ from funext fun k => floorIter_eq nb level X k hnb] at h

/-- **C22.** `DivFloorByLastModulusManyNTTLvl` -/
theorem C22_divFloorManyNTT (hr : r.Valid n) (sr : r.Small) (hl : level < r.subs.length)
    (hnb : nb ≤ level) (h0 : PolyIs r level r.qs p0 (r.nttVec n X)) (hp : level < pool.length)
    (h1 : level - nb < p1.length) :
    PolyWritten r (level - nb) r.qs p1 (r.divFloorByLastModulusManyNTTLvl level nb p0 pool p1)
      (r.nttVec n fun k => X k / ((∏ i ∈ Finset.range nb, (r.sub (level - i)).q.toNat : ℕ) : ℤ)) := by
  have h := divFloorManyNTT_is hr sr hl hnb h0 hp h1
  rwa [show floorIter r level nb X = _ from funext fun k => floorIter_eq nb level X k hnb] at h

/-- rounding modulus by modulus is rounding once by the product, since the moduli are odd -/
theorem roundIter_close (r : Ring) (h2 : ∀ i ≤ level, (r.sub i).q.toNat % 2 = 1) (hnb : nb ≤ level)
    (X : ℕ → ℤ) (k : ℕ) :
    2 * |((∏ i ∈ Finset.range nb, (r.sub (level - i)).q.toNat : ℕ) : ℤ) * roundIter r level nb X k - X k|
      ≤ (∏ i ∈ Finset.range nb, (r.sub (level - i)).q.toNat : ℕ) - 1 := by
  induction nb generalizing level X with
  | zero => simp [roundIter]
  | succ nb ih =>
    have h := ih (level := level - 1) (fun i hi => h2 i (by omega)) (by omega)
      (fun k => (X k + (r.sub level).q.toNat / 2) / (r.sub level).q.toNat)
    have hq := h2 level le_rfl
    rw [Finset.prod_range_succ', Nat.sub_zero]
    have e : ∏ i ∈ Finset.range nb, (r.sub (level - (i + 1))).q.toNat
        = ∏ i ∈ Finset.range nb, (r.sub (level - 1 - i)).q.toNat :=
      Finset.prod_congr rfl fun i _ => by rw [show level - (i + 1) = level - 1 - i by omega]
    rw [e]
    unfold roundIter
    generalize (∏ i ∈ Finset.range nb, (r.sub (level - 1 - i)).q.toNat) = M at *
    generalize (r.sub level).q.toNat = q at *
    generalize roundIter r (level - 1) nb (fun k => (X k + (q : ℤ) / 2) / q) k = Z at *
    have hd := Int.emod_add_mul_ediv (X k + (q : ℤ) / 2) q
    have hm0 := Int.emod_nonneg (X k + (q : ℤ) / 2) (b := (q : ℤ)) (by omega)
    have hm1 := Int.emod_lt_of_pos (X k + (q : ℤ) / 2) (b := (q : ℤ)) (by omega)
    generalize (X k + (q : ℤ) / 2) / q = y at *
    have h1 : 2 * |(q : ℤ) * y - X k| ≤ q - 1 := by
      have : |(q : ℤ) * y - X k| ≤ q / 2 := by rw [abs_le]; omega
      omega
    have h3 : |(q : ℤ) * (M * Z - y)| = q * |(M : ℤ) * Z - y| := by
      rw [abs_mul, abs_of_nonneg (by positivity : (0 : ℤ) ≤ q)]
    have h4 := abs_add_le ((q : ℤ) * (M * Z - y)) ((q : ℤ) * y - X k)
    rw [h3] at h4
    have h5 : (q : ℤ) * (2 * |(M : ℤ) * Z - y|) ≤ q * (M - 1) :=
      mul_le_mul_of_nonneg_left h (by positivity)
    have h6 : (q : ℤ) * (M * Z - y) + (q * y - X k) = (M * q : ℕ) * Z - X k := by push_cast; ring
    rw [h6] at h4
    push_cast at h4 ⊢
    linarith

theorem roundIter_eq (r : Ring) (h2 : ∀ i ≤ level, (r.sub i).q.toNat % 2 = 1) (hnb : nb ≤ level)
    (X : ℕ → ℤ) (k : ℕ) :
    roundIter r level nb X k = (X k + ((∏ i ∈ Finset.range nb, (r.sub (level - i)).q.toNat : ℕ) : ℤ) / 2)
      / ((∏ i ∈ Finset.range nb, (r.sub (level - i)).q.toNat : ℕ) : ℤ) := by
  have h := roundIter_close r h2 hnb X k
  generalize (∏ i ∈ Finset.range nb, (r.sub (level - i)).q.toNat) = M at *
  have h0 := abs_nonneg ((M : ℤ) * roundIter r level nb X k - X k)
  have h1 := abs_le.1 (show |(M : ℤ) * roundIter r level nb X k - X k| ≤ (M - 1) / 2 by omega)
  symm
  rw [Int.ediv_eq_iff_of_pos (by omega)]
  rw [mul_comm] at h1
  constructor
  · omega
  · omega

/-- **C22.** `DivRoundByLastModulusManyLvl` by `nb` moduli is `⌊(x + ⌊M/2⌋)/M⌋` for their product
`M`: the successive roundings do not accumulate. -/
theorem C22_divRoundMany (hr : r.Valid n) (sr : r.Small) (hl : level < r.subs.length)
    (hnb : nb ≤ level) (h0 : PolyIs r level r.qs p0 (r.intVec X)) (hp : level < pool.length)
    (h1 : level - nb < p1.length) :
    PolyWritten r (level - nb) r.qs p1 (r.divRoundByLastModulusManyLvl level nb p0 pool p1)
      (r.intVec fun k => (X k + ((∏ i ∈ Finset.range nb, (r.sub (level - i)).q.toNat : ℕ) : ℤ) / 2)
        / ((∏ i ∈ Finset.range nb, (r.sub (level - i)).q.toNat : ℕ) : ℤ)) := by
  have h := divRoundMany_is hr sr hl hnb h0 hp h1
  rwa [show roundIter r level nb X = _ from funext fun k =>
    roundIter_eq r (fun i hi => (hr.subAt (by omega)).odd) hnb X k] at h

/-- **C22.** `DivRoundByLastModulusNTTLvl`: although the inverse transform of the last row is lazy,
the result is exact. -/
theorem C22_divRoundNTT (hr : r.Valid n) (sr : r.Small) (hl : l + 1 < r.subs.length)
    (h0 : PolyIs r (l + 1) r.qs p0 (r.nttVec n X)) (h1 : l < p1.length) :
    PolyWritten r l r.qs p1 (r.divRoundByLastModulusNTTLvl (l + 1) p0 p1)
      (r.nttVec n fun k => (X k + (r.sub (l + 1)).q.toNat / 2) / (r.sub (l + 1)).q.toNat) :=
  divRoundNTT_is hr sr hl (h0.mono (fun i _ => by unfold Ring.qs; omega)) h1

/-- **C22.** `DivRoundByLastModulusManyNTTLvl` (used by the CKKS `Rescale`). -/
theorem C22_divRoundManyNTT (hr : r.Valid n) (sr : r.Small) (hl : level < r.subs.length)
    (hnb : nb ≤ level) (h0 : PolyIs r level r.qs p0 (r.nttVec n X)) (hp : level < pool.length)
    (h1 : level - nb < p1.length) :
    PolyWritten r (level - nb) r.qs p1 (r.divRoundByLastModulusManyNTTLvl level nb p0 pool p1)
      (r.nttVec n fun k => (X k + ((∏ i ∈ Finset.range nb, (r.sub (level - i)).q.toNat : ℕ) : ℤ) / 2)
        / ((∏ i ∈ Finset.range nb, (r.sub (level - i)).q.toNat : ℕ) : ℤ)) := by
  have h := divRoundManyNTT_is hr sr hl hnb h0 hp h1
  rwa [show roundIter r level nb X = _ from funext fun k =>
    roundIter_eq r (fun i hi => (hr.subAt (by omega)).odd) hnb X k] at h

/-- **C22.** The same for entries below `2 q`, when at least one modulus is divided out. -/
theorem C22_divRoundManyNTT_lazy (hr : r.Valid n) (sr : r.Small) (hl : level < r.subs.length)
    (hnb : nb ≤ level) (h0' : 0 < nb) (h0 : PolyIs r level (fun u => 2 * r.qs u) p0 (r.nttVec n X))
    (hp : level < pool.length) (h1 : level - nb < p1.length) :
    PolyWritten r (level - nb) r.qs p1 (r.divRoundByLastModulusManyNTTLvl level nb p0 pool p1)
      (r.nttVec n fun k => (X k + ((∏ i ∈ Finset.range nb, (r.sub (level - i)).q.toNat : ℕ) : ℤ) / 2)
        / ((∏ i ∈ Finset.range nb, (r.sub (level - i)).q.toNat : ℕ) : ℤ)) := by
  have h := divRoundManyNTT_is2 hr sr hl hnb h0' h0 hp h1
  rwa [show roundIter r level nb X = _ from funext fun k =>
    roundIter_eq r (fun i hi => (hr.subAt (by omega)).odd) hnb X k] at h

/-- the claim of C22 for `DivFloorByLastModulusNTTLvl`, with inputs in `[0,Q)` -/
def DivFloorNTTExact (n : ℕ) (r : Ring) (l : ℕ) : Prop := ∀ (p0 p1 : Rows) (X : ℕ → ℤ),
  (∀ k, 0 ≤ X k ∧ X k < r.prodQ (l + 1)) → PolyIs r (l + 1) r.qs p0 (r.nttVec n X) → l < p1.length →
  PolyWritten r l r.qs p1 (r.divFloorByLastModulusNTTLvl (l + 1) p0 p1)
    (r.nttVec n fun k => X k / (r.sub (l + 1)).q.toNat)

/-- every integer vector has a reduced RNS representation in the NTT domain -/
theorem exists_nttPoly (hr : r.Valid n) (sr : r.Small) (hl : level < r.subs.length)
    (X : ℕ → ℤ) : ∃ p, PolyIs r level r.qs p (r.nttVec n X) := by
  obtain ⟨p, hp⟩ := exists_poly hr hl X
  exact ⟨_, (nttLvl_is hr sr hl hp hp.lvl).is⟩

/-- the transform loses nothing: equal evaluations have equal residues -/
theorem nttVec_inj (hr : r.Valid n) {i : ℕ} (hi : i < r.subs.length) {X Y : ℕ → ℤ}
    (h : ∀ k < 2 ^ n, r.nttVec n X i k = r.nttVec n Y i k) {k : ℕ} (hk : k < 2 ^ n) :
    r.intVec X i k = r.intVec Y i k := by
  have h4 := hr.four_le
  have V := hr.subAt hi
  rw [← coeffsOf_evals V (by omega) (r.intVec X i) k hk]
  exact (coeffsOf_unique V (by omega) (fun j hj => (h j hj).symm) k hk).symm

/-- **C22 is violated** by `DivFloorByLastModulusNTTLvl`, in every ring and at every level: the lazy
inverse transform represents a zero coefficient as `q_L`, so `0` is divided to `-1`. -/
theorem C22_divFloorNTT_violated (hr : r.Valid n) (sr : r.Small) (hl : l + 1 < r.subs.length) :
    ¬ DivFloorNTTExact n r l := by
  intro hc
  obtain ⟨p0, hp0⟩ := exists_nttPoly hr sr hl (fun _ => 0)
  have hpos := prodQ_pos hr hl
  have h1 := hc p0 p0 _ (fun k => ⟨le_rfl, by exact_mod_cast hpos⟩) hp0 (by have := hp0.lvl; omega)
  obtain ⟨D, hD, h2⟩ := divFloorNTT_is hr sr hl hp0 (p1 := p0) (by have := hp0.lvl; omega)
  have hdeg := hr.deg
  have e1 := h1.is.row 0 (by omega)
  have e2 := h2.is.row 0 (by omega)
  have h := nttVec_inj hr (i := 0) (by omega) (fun k hk =>
    (e1.val k (by rw [hdeg]; exact hk)).symm.trans (e2.val k (by rw [hdeg]; exact hk)))
    (k := 0) (by positivity)
  have hD0 := (hD 0 (by rw [hdeg]; positivity)).2.1 (by simp)
  have := (hr.subAt (show 0 < r.subs.length by omega)).fact
  simp [Ring.intVec, hD0] at h

/-- **C22, what holds for `DivFloorByLastModulusNTTLvl`.**  The result is the floored quotient or one
less; it is one less when `q_L` divides the coefficient and exact when the remainder exceeds `q_L/4`.
Missing: exactness for small remainders, which fails. -/
theorem C22_divFloorNTT_partial (hr : r.Valid n) (sr : r.Small) (hl : l + 1 < r.subs.length)
    (h0 : PolyIs r (l + 1) r.qs p0 (r.nttVec n X)) (h1 : l < p1.length) :
    ∃ D : ℕ → ℤ, (∀ k < r.n, (D k = 0 ∨ D k = 1) ∧
        (X k % (r.sub (l + 1)).q.toNat = 0 → D k = 1) ∧
        ((r.sub (l + 1)).q.toNat / 4 < X k % (r.sub (l + 1)).q.toNat → D k = 0)) ∧
      PolyWritten r l r.qs p1 (r.divFloorByLastModulusNTTLvl (l + 1) p0 p1)
        (r.nttVec n fun k => X k / (r.sub (l + 1)).q.toNat - D k) := divFloorNTT_is hr sr hl h0 h1

/-- hypotheses of C22 on a ring returned by `NewRing`, with coefficients across `[0,Q)` -/
example : ∃ r : Ring, newRing 100 16 [97, 193] = .ok r ∧ r.Valid 4 ∧ r.Small ∧ 0 + 1 < r.subs.length ∧
    (∃ p, PolyIs r 1 r.qs p (r.intVec fun k => 1247 * k)) ∧
    ∃ p, PolyIs r 1 r.qs p (r.nttVec 4 fun k => 1247 * k) := by
  obtain ⟨rQ, rP, e1, e2, hQ, sQ, hP, sP, lQ, -⟩ := exists_rings
  exact ⟨rQ, e1, hQ, sQ, by omega, exists_poly hQ (by omega) _, exists_nttPoly hQ sQ (by omega) _⟩

/-! ### C62 -/

variable {rQ rT : Ring}

/-- **C62.** `(*RNSScaler).DivByQOverTRounded` of the residues of `x` gives, reduced modulo `t`, the
integer `y = (t x + ⌊Q/2⌋ - z)/Q` where `z` lies in `[-2^-42 Q, (1 + 2^-42) Q)`.  So `y` is the rounded
value `⌊(t x + ⌊Q/2⌋)/Q⌋` unless `t x + ⌊Q/2⌋` is within `2^-42 Q` of a multiple of `Q`, where it may
be off by one. -/
theorem C62_rnsScaler (hQ : rQ.Valid n) (sQ : rQ.Small) (hT : rT.Valid n) (sT : rT.Small)
    (hT1 : rT.subs.length = 1) (hd : ∀ i < rQ.subs.length, (rQ.sub i).q ≠ (rT.sub 0).q)
    (hL : rQ.subs.length = level + 1) (l32 : level < 32)
    (h0 : PolyIs rQ level rQ.qs p0 (rQ.intVec X)) (h1 : 0 < p1.length) :
    ∃ Y : ℕ → ℤ, (∀ k < rQ.n,
        NearRep (rQ.prodQ level) ((rT.sub 0).q.toNat * X k + rQ.prodQ level / 2 - rQ.prodQ level * Y k)) ∧
      PolyWritten rT 0 rT.qs p1 ((newRNSScaler rQ rT).divByQOverTRounded p0 p1) (rT.intVec Y) := by
  have lQ : level < rQ.subs.length := by omega
  have V := hT.subAt (show 0 < rT.subs.length by omega)
  have hfact := V.fact
  have hlt := sT _ (Ring.sub_mem (show 0 < rT.subs.length by omega))
  have hmod : rQ.modulusBigint = (rQ.prodQ level : ℕ) := by
    rw [modulusBigint_eq, hL]; unfold Ring.prodQ; push_cast; rfl
  have hmodT : rT.moduli = [(rT.sub 0).q] := by
    rw [moduli_eq_map, hT1]; rfl
  have hpar : basisExtenderParameters rQ.moduli [(rT.sub 0).q]
      = basisExtenderParameters (rQ.moduli.take (level + 1)) rT.moduli := by
    rw [hmodT, List.take_of_length_le]
    rw [moduli_eq_map, List.length_map, List.length_range]; omega
  -- the product of the source moduli is invertible modulo t
  have hQ0 : ((rQ.prodQ level : ℕ) : ZMod (rT.sub 0).q.toNat) ≠ 0 := by
    unfold Ring.prodQ
    rw [Nat.cast_prod, Finset.prod_ne_zero_iff]
    intro i hi hc
    have hi' : i < rQ.subs.length := by have := Finset.mem_range.1 hi; omega
    rw [ZMod.natCast_eq_zero_iff] at hc
    have := (Nat.prime_dvd_prime_iff_eq V.prime (hQ.subAt hi').prime).1 hc
    exact hd i hi' (UInt64.toNat_inj.1 this.symm)
  -- t x + Q/2
  have m1 := (C10_mulScalar (hQ.arithLvl lQ) h0 (rT.sub 0).q (p2 := newPoly rQ.n rQ.subs.length)
    (by rw [length_newPoly]; exact lQ)).is
  have m2 := (C11_inPlace_partial (hQ.arithLvl lQ) m1 0
    (fun i hi => (hQ.subAt (show i < rQ.subs.length by omega)).prime.pos)
    (rQ.modulusBigint / 2)).2.2.1.is
  obtain ⟨Z, hZ, hw⟩ := modUpExact_is hQ sQ hT sT lQ l32 m2
  have hdvd : ∀ k, ∃ y : ℤ, k < rQ.n →
      (rT.sub 0).q.toNat * X k + rQ.prodQ level / 2 - Z k = rQ.prodQ level * y := by
    intro k
    by_cases hk : k < rQ.n
    · obtain ⟨y, hy⟩ := hQ.dvd_of_cong lQ (a := (rT.sub 0).q.toNat * X k + rQ.prodQ level / 2)
        (b := Z k) (fun i hi => by
          rw [hZ.cong k hk i hi, hmod]
          simp only [Ring.intVec]
          push_cast
          ring)
      exact ⟨y, fun _ => hy⟩
    · exact ⟨0, fun h => absurd h hk⟩
  choose Y hY using hdvd
  refine ⟨Y, fun k hk => ?_, ?_⟩
  · have := hY k hk
    rw [show ((rT.sub 0).q.toNat : ℤ) * X k + rQ.prodQ level / 2 - rQ.prodQ level * Y k = Z k by
      linarith]
    exact hZ.near k hk
  · have hp := (hw 0 (by omega) (newPoly rT.n rT.subs.length) (by rw [length_newPoly]; omega)).is.row 0
      le_rfl
    -- constants
    have hh := bigModU64_spec (rQ.modulusBigint / 2) (q := (rT.sub 0).q) V.prime.pos
    have hb := bigModU64_spec rQ.modulusBigint (q := (rT.sub 0).q) V.prime.pos
    set c := modExp (bigModU64 rQ.modulusBigint (rT.sub 0).q) ((rT.sub 0).q - 2) (rT.sub 0).q with hc
    have hci : (c.toNat : ZMod (rT.sub 0).q.toNat) * (rQ.prodQ level : ℕ) = 1 := by
      have h2 := V.prime.two_le
      have e : ((bigModU64 rQ.modulusBigint (rT.sub 0).q).toNat : ZMod (rT.sub 0).q.toNat)
          = (rQ.prodQ level : ℕ) := by rw [hb.2, hmod]; push_cast; rfl
      rw [hc, modExp_toNat V.prime.one_lt V.lt.le, ZMod.natCast_mod, Nat.cast_pow, e, ← pow_succ,
        UInt64.toNat_sub_of_le (rT.sub 0).q 2 (UInt64.le_iff_toNat_le.2 h2),
        show (rT.sub 0).q.toNat - (2 : UInt64).toNat + 1 = (rT.sub 0).q.toNat - 1 by
          change (rT.sub 0).q.toNat - 2 + 1 = _; omega]
      exact ZMod.pow_card_sub_one_eq_one hQ0
    have hf := word_mform V.arith c
    rw [V.bred] at hf
    have w1 : PolyWritten rT 0 rT.qs p1 (writeLvl 0 (fun _ =>
        ((modUpExact level 0 ((rQ.addScalarBigintLvl level
          (rQ.mulScalarLvl level (rT.sub 0).q p0 (newPoly rQ.n rQ.subs.length)) (rQ.modulusBigint / 2)
          (rQ.mulScalarLvl level (rT.sub 0).q p0 (newPoly rQ.n rQ.subs.length))).1)
          (newPoly rT.n rT.subs.length) rQ rT
          (basisExtenderParameters (rQ.moduli.take (level + 1)) rT.moduli)).row 0).map fun x =>
          mred ((rT.sub 0).q - bigModU64 (rQ.modulusBigint / 2) (rT.sub 0).q + x)
            ((rT.sub 0).q - mform c (rT.sub 0).q (bredParams (rT.sub 0).q)) (rT.sub 0).q
            (rT.sub 0).mred) p1) (rT.intVec Y) := by
      refine writeLvl_is h1 (fun i hi => ?_)
      obtain rfl : i = 0 := by omega
      refine (RowIs.map (F := fun a => (-((rQ.modulusBigint / 2 : ℤ) : ZMod (rT.sub 0).q.toNat) + a)
        * (-(c.toNat : ZMod (rT.sub 0).q.toNat))) hp (fun u hu => ?_)).congr (fun k hk => ?_)
      · have e1 : ((rT.sub 0).q - bigModU64 (rQ.modulusBigint / 2) (rT.sub 0).q).toNat
            = (rT.sub 0).q.toNat - (bigModU64 (rQ.modulusBigint / 2) (rT.sub 0).q).toNat :=
          UInt64.toNat_sub_of_le _ _ (UInt64.le_iff_toNat_le.2 hh.1.le)
        have e2 : ((rT.sub 0).q - bigModU64 (rQ.modulusBigint / 2) (rT.sub 0).q + u).toNat
            = (rT.sub 0).q.toNat - (bigModU64 (rQ.modulusBigint / 2) (rT.sub 0).q).toNat + u.toNat := by
          rw [UInt64.toNat_add, e1]
          have hb6 : ((level + 8) / 8 + 2) * (rT.sub 0).q.toNat ≤ 6 * (rT.sub 0).q.toNat :=
            Nat.mul_le_mul_right _ (by omega)
          unfold Ring.qs at hu
          omega
        have e3 : ((rT.sub 0).q - mform c (rT.sub 0).q (bredParams (rT.sub 0).q)).toNat
            = (rT.sub 0).q.toNat - (mform c (rT.sub 0).q (bredParams (rT.sub 0).q)).toNat :=
          UInt64.toNat_sub_of_le _ _ (UInt64.le_iff_toNat_le.2 hf.1.le)
        have hm := word_mred V.arith
          ((rT.sub 0).q - bigModU64 (rQ.modulusBigint / 2) (rT.sub 0).q + u)
          ((rT.sub 0).q - mform c (rT.sub 0).q (bredParams (rT.sub 0).q))
          (by
            calc _ ≤ ((rT.sub 0).q - bigModU64 (rQ.modulusBigint / 2) (rT.sub 0).q + u).toNat
                  * (rT.sub 0).q.toNat := Nat.mul_le_mul_left _ (by rw [e3]; omega)
              _ < 2 ^ 64 * (rT.sub 0).q.toNat :=
                Nat.mul_lt_mul_of_pos_right (UInt64.toNat_lt _) V.prime.pos
              _ = _ := Nat.mul_comm _ _)
        refine ⟨hm.1, ?_⟩
        rw [hm.2, e2, e3, Nat.cast_add, Nat.cast_sub hh.1.le, Nat.cast_sub hf.1.le, ZMod.natCast_self,
          hh.2, hf.2]
        have := mul_rinv V.odd
        linear_combination (-(-((rQ.modulusBigint / 2 : ℤ) : ZMod (rT.sub 0).q.toNat) + u.toNat)
          * c.toNat) * this
      · have e := congrArg (fun t : ℤ => (t : ZMod (rT.sub 0).q.toNat))
          (hY k (by rw [hQ.deg, ← hT.deg]; exact hk))
        simp only [Ring.intVec]
        rw [hmod]
        push_cast at e ⊢
        rw [ZMod.natCast_self, zero_mul, zero_add] at e
        linear_combination (c.toNat : ZMod (rT.sub 0).q.toNat) * e
          + (Y k : ZMod (rT.sub 0).q.toNat) * hci
    rw [← hpar] at w1
    have hlev : rQ.subs.length - 1 = level := by omega
    have hset : ∀ f : ℕ → Row, writeLvl 0 f p1 = p1.set 0 (f 0) := by
      intro f
      apply List.ext_getElem
      · simp [writeLvl]
      · intro i h1 h2
        rcases Nat.eq_zero_or_pos i with rfl | hi
        · simp [writeLvl]
        · have : 0 ≠ i := by omega
          have h' : i ≠ 0 := by omega
          simp [writeLvl, this, h']
    rw [hset] at w1
    unfold RNSScaler.divByQOverTRounded newRNSScaler
    simp only [hlev]
    exact w1

/-- **C62.** With a remainder that is not within `2^-42 Q` of `0` or `Q` the RNS scaler's value is the
rounded quotient. -/
theorem C62_rnsScaler_exact {M : ℕ} {a y : ℤ} (h : NearRep M (a - M * y))
    (h1 : (M : ℤ) ≤ 2 ^ 42 * (a % M)) (h2 : 2 ^ 42 * (a % M) < (2 ^ 42 - 1) * M) : y = a / M := by
  have hM : (0 : ℤ) < M := by
    rcases Nat.eq_zero_or_pos M with rfl | h0
    · simp at h2; omega
    · exact_mod_cast h0
  have hd : (M : ℤ) ∣ (a - M * y) - a % M :=
    ⟨a / M - y, by have := Int.emod_add_mul_ediv a M; rw [mul_sub]; linarith⟩
  have e := h.dvd_eq hd h1 h2
  have e2 := Int.emod_add_mul_ediv a M
  have : (M : ℤ) * (a / M - y) = 0 := by rw [mul_sub]; linarith
  rcases mul_eq_zero.1 this with h | h <;> omega

/-- the scaling step of the `SimpleScaler` is the rounded quotient -/
theorem scaleCoeff_eq {t q x : ℤ} (ht : 0 ≤ t) (hx : 0 ≤ x) (hq : 0 < q) (hodd : q % 2 = 1) :
    scaleCoeff t q x = (t * x + q / 2) / q := by
  unfold scaleCoeff
  have h0 : 0 ≤ x * t := mul_nonneg hx ht
  rw [Int.tdiv_eq_ediv_of_nonneg h0, Int.tmod_eq_emod_of_nonneg h0, mul_comm t x]
  simp only
  have hd := Int.emod_add_mul_ediv (x * t) q
  have hm0 := Int.emod_nonneg (x * t) hq.ne'
  have hm1 := Int.emod_lt_of_pos (x * t) hq
  rw [abs_of_nonneg (by omega : (0 : ℤ) ≤ x * t % q * 2), abs_of_nonneg hq.le]
  generalize x * t = a at *
  have e : a + q / 2 = a % q + q / 2 + q * (a / q) := by linarith
  rw [e, Int.add_mul_ediv_left _ _ hq.ne']
  generalize a % q = m at *
  generalize a / q = d at *
  split
  · have : (m + q / 2) / q = 1 := by rw [Int.ediv_eq_iff_of_pos hq]; omega
    omega
  · have : (m + q / 2) / q = 0 := by rw [Int.ediv_eq_iff_of_pos hq]; omega
    omega

/-- **C62, `SimpleScaler`.**  Every row of the receiver gets the words `⌊(t x + ⌊Q/2⌋)/Q⌋` where `x` is
the coefficient in `[0,Q)`.  Missing: the reduction modulo `t` (the value `t` occurs). -/
theorem C62_simpleScaler_partial (hr : r.Valid n) (hL : r.subs.length = level + 1) (t : UInt64)
    (hX : ∀ k < r.n, 0 ≤ X k ∧ X k < r.prodQ level) (h0 : PolyIs r level r.qs p0 (r.intVec X))
    (hlen : p0.length = level + 1) (p1 : Rows) (j : ℕ) (hj : j < p1.length) :
    ((simpleScale t r p0 p1).row j).length = r.n ∧ ∀ k < r.n,
      ((((simpleScale t r p0 p1).row j).at k).toNat : ℤ)
        = (t.toNat * X k + r.prodQ level / 2) / r.prodQ level := by
  have hl : level < r.subs.length := by omega
  have hmod : r.modulusBigint = (r.prodQ level : ℕ) := by
    rw [modulusBigint_eq, hL]; unfold Ring.prodQ; push_cast; rfl
  have hpos := prodQ_pos hr hl
  have hodd := prodQ_odd hr hl
  have erow : (simpleScale t r p0 p1).row j = (r.polyToBigintLvl level p0 1).map fun x =>
      UInt64.ofNat (scaleCoeff t.toNat r.modulusBigint x).toNat := by
    unfold simpleScale
    rw [show p0.length - 1 = level by omega]
    simp [Rows.row, List.getD, hj]
  have elen : (r.polyToBigintLvl level p0 1).length = r.n := by simp [Ring.polyToBigintLvl]
  rw [erow]
  refine ⟨by rw [List.length_map, elen], fun k hk => ?_⟩
  have hc := coeffBigint_spec hr hl p0 k
  have hxk : r.coeffBigint level p0 k = X k := by
    rw [eq_emod_of_cong hr hl hc.1 hc.2.1 (x := X k) (fun i hi => ?_),
      Int.emod_eq_of_lt (hX k hk).1 (hX k hk).2]
    rw [hc.2.2 i hi]
    exact (h0.row i hi).val k hk
  have e : Row.at ((r.polyToBigintLvl level p0 1).map fun x =>
      UInt64.ofNat (scaleCoeff t.toNat r.modulusBigint x).toNat) k
      = UInt64.ofNat (scaleCoeff t.toNat r.modulusBigint (X k)).toNat := by
    rw [← hxk]
    simp [Row.at, List.getD, Ring.polyToBigintLvl, hk]
  rw [e, hmod, scaleCoeff_eq (by omega) (hX k hk).1 (by omega) (by omega)]
  have b0 : 0 ≤ ((t.toNat : ℤ) * X k + r.prodQ level / 2) / r.prodQ level :=
    Int.ediv_nonneg (by have := mul_nonneg (Int.natCast_nonneg t.toNat) (hX k hk).1; omega) (by omega)
  have b1 : ((t.toNat : ℤ) * X k + r.prodQ level / 2) / r.prodQ level < 2 ^ 64 := by
    rw [Int.ediv_lt_iff_lt_mul (by omega)]
    have ht := t.toNat_lt
    have : (t.toNat : ℤ) * X k ≤ (2 ^ 64 - 1) * (r.prodQ level - 1) :=
      mul_le_mul (by omega) (by have := (hX k hk).2; omega) (hX k hk).1 (by norm_num)
    have h2 : (0 : ℤ) < r.prodQ level := by omega
    nlinarith [Int.ediv_mul_le (r.prodQ level : ℤ) (b := 2) (by norm_num)]
  rw [UInt64.toNat_ofNat', Nat.mod_eq_of_lt (by omega)]
  omega

/-- **C62 is violated by the `SimpleScaler`**: for every ring and every `t ≥ 2` with `t < Q`, the
polynomial with all coefficients `Q - 1` is scaled to the unreduced word `t`. -/
theorem C62_simpleScaler_violated (hr : r.Valid n) (hL : r.subs.length = level + 1) (t : UInt64)
    (ht : 2 * t.toNat < r.prodQ level)
    (h0 : PolyIs r level r.qs p0 (r.intVec fun _ => (r.prodQ level : ℤ) - 1))
    (hlen : p0.length = level + 1) (p1 : Rows) (j : ℕ) (hj : j < p1.length) :
    ∀ k < r.n, ((simpleScale t r p0 p1).row j).at k = t := by
  intro k hk
  have hpos := prodQ_pos hr (show level < r.subs.length by omega)
  have h := (C62_simpleScaler_partial hr hL t (fun k _ => by omega) h0 hlen p1 j hj).2 k hk
  apply UInt64.toNat_inj.1
  zify
  rw [h, Int.ediv_eq_iff_of_pos (by omega)]
  have e : (t.toNat : ℤ) * (r.prodQ level - 1) = t.toNat * r.prodQ level - t.toNat := by ring
  rw [e]
  omega

/-- rings of degree 16 returned by `NewRing` -/
theorem exists_ringOf (Q : List UInt64) (h : (newRing 100 16 Q).toOption.isSome = true)
    (hq : ∀ q ∈ Q, q.toNat < 2 ^ 61) : ∃ r, newRing 100 16 Q = .ok r ∧ r.Valid 4 ∧ r.Small ∧
    r.moduli = Q ∧ r.n = 16 := by
  cases hr : newRing 100 16 Q with
  | error e => rw [hr] at h; cases h
  | ok r =>
    obtain ⟨n, h1, h2, h3, -⟩ := C17_newRing_valid 100 16 (by omega) Q
      (fun q h => by have := hq q h; omega) r hr
    have h4 : n = 4 := Nat.pow_right_injective (le_refl 2) (by simpa using h1.symm)
    subst h4
    refine ⟨r, rfl, h2, fun s hs => ?_, h3, by rw [h2.deg]; rfl⟩
    exact hq _ (h3 ▸ List.mem_map_of_mem hs)

set_option maxRecDepth 1000000 in
theorem newRing_exampleT : (newRing 100 16 [257]).toOption.isSome = true := by
  decide +kernel

/-- hypotheses of `C62_rnsScaler` -/
example : ∃ rQ rT : Ring, rQ.Valid 4 ∧ rQ.Small ∧ rT.Valid 4 ∧ rT.Small ∧ rT.subs.length = 1 ∧
    (∀ i < rQ.subs.length, (rQ.sub i).q ≠ (rT.sub 0).q) ∧ rQ.subs.length = 1 + 1 ∧
    ∃ p, PolyIs rQ 1 rQ.qs p (rQ.intVec fun k => 1000 * k) := by
  obtain ⟨rQ, rP, e1, e2, hQ, sQ, hP, sP, lQ, lP, nQ, nP, q0, q1, -⟩ := exists_rings
  obtain ⟨rT, t1, t2, t3, t4, t5⟩ := exists_ringOf [257] newRing_exampleT (by decide)
  have hl : rT.subs.length = 1 := by simpa [Ring.moduli] using congrArg List.length t4
  have hq : (rT.sub 0).q = 257 := by rw [← at_moduli rT (by omega), t4]; rfl
  refine ⟨rQ, rT, hQ, sQ, t2, t3, hl, ?_, lQ, exists_poly hQ (by omega) _⟩
  intro i hi
  rcases (by omega : i = 0 ∨ i = 1) with rfl | rfl <;> simp only [q0, q1, hq] <;> decide

end FastKsw.Props
