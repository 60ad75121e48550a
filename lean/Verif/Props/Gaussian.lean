import Verif.Lemmas.GaussianLaw
import Verif.Props.DistributionRand

/-!
# C107: the Gaussian sampler on random bytes

For every interpretation of the floating-point operations the coefficients of a polynomial drawn by the sampler are
independent and have one law, which is symmetric and bounded, and what the generator yields afterwards is fresh.  With
two facts about floating-point numbers that hold for every implementation, the sampler returns with probability one.
-/

namespace FastKsw.Props

open MeasureTheory Finset
open scoped ENNReal

variable {F : Type} (O : FloatOps F) (sigma : F) (bound : UInt64)

/-- **C107, the law.** It is symmetric and has no mass beyond the bound. -/
theorem C107_symmetric (v : ℤ) : gaussLaw O sigma bound (-v) = gaussLaw O sigma bound v := by
  rw [gaussLaw_eq, gaussLaw_eq, machineLaw_neg]

theorem C107_bounded {v : ℤ} (hv : (bound.toNat : ℤ) < |v|) : gaussLaw O sigma bound v = 0 := by
  rw [gaussLaw_eq, machineLaw_eq_zero O sigma bound hv]

/-- **C107, the law.** Its total mass is one: a coefficient is found with probability one. -/
theorem C107_total (h : O.Starts sigma bound) :
    ∑ v ∈ Finset.Icc (-(bound.toNat : ℤ)) bound.toNat, gaussLaw O sigma bound v = 1 := by
  simp only [gaussLaw_eq]
  exact machineLaw_sum h

/-- **C107, states.** A new sampler is in a good state, and calls lead from good states to good states. -/
theorem C107_new (prng : Prng) : (newGaussState prng).Ok := ⟨List.length_replicate, Nat.zero_le _, rfl⟩

theorem C107_state {fuel : ℕ} {r : Ring} {level : ℕ} {st st' : GaussState} (hst : st.Ok) {pol out : Rows}
    (h : gaussianReadLvl O fuel r sigma bound level st pol = some (out, st') ∨
      gaussianReadAndAddLvl O fuel r sigma bound level st pol = some (out, st')) : st'.Ok ∧ st.prng.pos + 1024 ≤ st'.prng.pos := by
  obtain ⟨⟨s, pos, clk⟩, buf, ptr⟩ := st
  have hat := gaussAt_clock s pos clk hst
  obtain ⟨gs, hgs⟩ : ∃ gs, gaussCoeffs O sigma bound fuel r.n (GaussState.clock ⟨⟨s, pos, clk⟩, buf, ptr⟩) = some (gs, st') := by
    rcases h with h | h
    · rw [gaussianReadLvl, Option.map_eq_some_iff] at h
      obtain ⟨⟨x, st1⟩, h1, h2⟩ := h
      simp only [Prod.mk.injEq] at h2
      obtain ⟨-, rfl⟩ := h2
      exact ⟨x, h1⟩
    · rw [gaussianReadAndAddLvl, Option.map_eq_some_iff] at h
      obtain ⟨⟨x, st1⟩, h1, h2⟩ := h
      simp only [Prod.mk.injEq] at h2
      obtain ⟨-, rfl⟩ := h2
      exact ⟨x, h1⟩
  obtain ⟨-, -, L, h1, -⟩ := gaussCoeffs_runs O sigma bound _ hat hgs
  refine ⟨h1.ok, ?_⟩
  obtain ⟨h2, -⟩ := h1.pos_eq
  simp only
  omega

/-- two integers up to the bound with the same residue are equal -/
theorem eq_of_residue {q b : ℕ} (hq : 2 * b < q) {x y : ℤ} (hx : |x| ≤ b) (hy : |y| ≤ b) (h : (x : ZMod q) = (y : ZMod q)) :
    x = y := by
  rw [ZMod.intCast_eq_intCast_iff_dvd_sub] at h
  rw [abs_le] at hx hy
  have := Int.eq_zero_of_abs_lt_dvd h (abs_lt.2 ⟨by omega, by omega⟩)
  omega

theorem drawInt_abs {g : UInt64 × Bool} (h : g.1 ≤ bound) : |drawInt g| ≤ bound.toNat := by
  have := UInt64.le_iff_toNat_le.1 h
  unfold drawInt
  split
  · rw [abs_of_nonneg (by positivity)]; exact_mod_cast this
  · rw [abs_neg, abs_of_nonneg (by positivity)]; exact_mod_cast this

section
variable {n : ℕ} {r : Ring} (hr : r.Valid n) {level : ℕ} (hl : level < r.subs.length)
include hr hl

omit hr hl in
/-- the writes of `readLvl` -/
theorem gaussWrite_is (hb : ∀ j ≤ level, bound.toNat ≤ r.qs j) {gs : List (UInt64 × Bool)} (hlen : gs.length = r.n)
    (hle : ∀ g ∈ gs, g.1 ≤ bound) {pol : Rows} (hp : level < pol.length) :
    PolyWritten r level (fun u => r.qs u + 1) pol (gaussWrite r level gs pol) (r.intVec fun t => drawInt (gs.getD t default)) := by
  have hle' : ∀ t < r.n, (gs.getD t default).1 ≤ bound := fun t ht => by
    rw [getD_lt _ _ (by omega)]
    exact hle _ (List.getElem_mem _)
  refine writeLvl_is hp fun j hj => ⟨by simp [hlen], fun t ht => ?_, fun t ht => ?_⟩
  · have := (gaussWord_is (q := (r.sub j).q) (c := gs.getD t default)
      ((UInt64.le_iff_toNat_le.1 (hle' t ht)).trans (hb j hj))).1
    simp only [Row.at, List.getD, List.getElem?_map, List.getElem?_eq_getElem (show t < gs.length by omega),
      Option.map_some, Option.getD_some] at this ⊢
    unfold Ring.qs
    omega
  · have := (gaussWord_is (q := (r.sub j).q) (c := gs.getD t default)
      ((UInt64.le_iff_toNat_le.1 (hle' t ht)).trans (hb j hj))).2
    simp only [zval, Ring.intVec, Row.at, List.getD, List.getElem?_map,
      List.getElem?_eq_getElem (show t < gs.length by omega), Option.map_some, Option.getD_some] at this ⊢
    exact this

/-- the writes of `ReadAndAddFromDistLvl` -/
theorem gaussAdd_is (hb : ∀ j ≤ level, bound.toNat ≤ r.qs j) {gs : List (UInt64 × Bool)} (hlen : gs.length = r.n)
    (hle : ∀ g ∈ gs, g.1 ≤ bound) {pol : Rows} {v : ∀ u, ℕ → ZMod (r.sub u).q.toNat} (hp : PolyIs r level r.qs pol v) :
    PolyWritten r level r.qs pol (gaussAdd r level gs pol)
      (fun u t => v u t + r.intVec (fun t => drawInt (gs.getD t default)) u t) := by
  have hle' : ∀ t < r.n, (gs.getD t default).1 ≤ bound := fun t ht => by
    rw [getD_lt _ _ (by omega)]
    exact hle _ (List.getElem_mem _)
  have hword : ∀ j ≤ level, ∀ t < r.n, Row.at (List.zipWith (fun x c => cred (x + gaussWord (r.sub j).q c)
      (r.sub j).q) (pol.row j) gs) t = cred ((pol.row j).at t + gaussWord (r.sub j).q (gs.getD t default)) (r.sub j).q := by
    intro j hj t ht
    have h1 := (hp.row j hj).len
    simp only [Row.at, List.getD, List.getElem?_zipWith, List.getElem?_eq_getElem (show t < gs.length by omega),
      List.getElem?_eq_getElem (show t < (pol.row j).length by omega), Option.getD_some]
  have hsum : ∀ j ≤ level, ∀ t < r.n,
      (cred ((pol.row j).at t + gaussWord (r.sub j).q (gs.getD t default)) (r.sub j).q).toNat < (r.sub j).q.toNat ∧
      (((cred ((pol.row j).at t + gaussWord (r.sub j).q (gs.getD t default)) (r.sub j).q).toNat : ℕ)
        : ZMod (r.sub j).q.toNat) = v j t + (drawInt (gs.getD t default) : ℤ) := by
    intro j hj t ht
    obtain ⟨g1, g2⟩ := gaussWord_is (q := (r.sub j).q) (c := gs.getD t default)
      ((UInt64.le_iff_toNat_le.1 (hle' t ht)).trans (hb j hj))
    have h1 := (hp.row j hj).lt t ht
    have h2 := (hp.row j hj).val t ht
    have h3 := (hr.subAt (show j < r.subs.length by omega)).lt
    unfold zval at h2
    unfold Ring.qs at h1
    have h4 : ((pol.row j).at t + gaussWord (r.sub j).q (gs.getD t default)).toNat
        = ((pol.row j).at t).toNat + (gaussWord (r.sub j).q (gs.getD t default)).toNat := by
      rw [UInt64.toNat_add, Nat.mod_eq_of_lt (by omega)]
    refine ⟨toNat_cred_lt (by omega), ?_⟩
    rw [(ZMod.natCast_eq_natCast_iff _ _ _).2 (toNat_cred_modEq _ _), h4, Nat.cast_add, h2, g2]
    rfl
  refine writeLvl_is hp.lvl fun j hj => ⟨by simp [hlen, (hp.row j hj).len], fun t ht => ?_, fun t ht => ?_⟩
  · rw [hword j hj t ht]
    exact (hsum j hj t ht).1
  · unfold zval
    rw [hword j hj t ht]
    exact (hsum j hj t ht).2

omit hl in
/-- the values of a polynomial determine the draws -/
theorem draws_of_values {bound : UInt64} (hb0 : 2 * bound.toNat < r.qs 0) {gs : List (UInt64 × Bool)} (hlen : gs.length = r.n)
    (hle : ∀ g ∈ gs, g.1 ≤ bound) {T : ℕ → ℤ} (hT : ∀ t < r.n, |T t| ≤ bound.toNat)
    (h : ∀ t < r.n, (drawInt (gs.getD t default) : ZMod (r.sub 0).q.toNat) = (T t : ZMod (r.sub 0).q.toNat)) :
    gs.map drawInt = (List.range r.n).map T := by
  apply List.ext_getElem
  · simp [hlen]
  · intro t h1 h2
    have ht : t < r.n := by simpa [hlen] using h1
    have hg : t < gs.length := by omega
    have := eq_of_residue hb0 (drawInt_abs bound (hle gs[t] (List.getElem_mem hg))) (hT t ht)
      (by rw [← h t ht, getD_lt gs default hg])
    simpa using this

omit hr hl in
theorem prod_map_range (f : ℕ → ℝ≥0∞) (k : ℕ) : ((List.range k).map f).prod = ∏ t ∈ range k, f t := by
  induction k with
  | zero => rfl
  | succ k ih => rw [List.range_succ, List.map_append, List.prod_append, ih, prod_range_succ]; simp

/-- **C107, `Read` / `ReadLvl` / `ReadFromDistLvl`.** From random bytes, whatever the position of the generator and of
the pointer in the buffer: the polynomial read holds the integers `T 0, …, T (N-1)` modulo every prime, and the bytes
that the generator yields afterwards are in `E`, with probability `∏ₖ law (T k)` times that of `E`.  Coefficients are
independent with the same law, and so is whatever is drawn later (`E` may depend on the pointer that the call leaves). -/
theorem C107_read (hb0 : 2 * bound.toNat < r.qs 0) (hb : ∀ j ≤ level, bound.toNat ≤ r.qs j) (pos : ℕ) (clk : UInt64)
    {buf : List UInt8} {ptr : ℕ} (hlen : buf.length = 1024) (hle : ptr ≤ 1024) (hw : ptr % 8 = 0) {pol : Rows}
    (hp : level < pol.length) {T : ℕ → ℤ} (hT : ∀ t < r.n, |T t| ≤ bound.toNat) {E : ℕ → Set (ℕ → UInt8)}
    (hE : ∀ k, MeasurableSet (E k)) {c : ℝ≥0∞} (hc : ∀ k, randomBytes (E k) = c) :
    MeasurableSet {s | ∃ fuel out st', gaussianReadLvl O fuel r sigma bound level ⟨⟨s, pos, clk⟩, buf, ptr⟩ pol = some (out, st') ∧
      PolyWritten r level (fun u => r.qs u + 1) pol out (r.intVec T) ∧ (fun i => s (st'.prng.pos + i)) ∈ E st'.ptr} ∧
    randomBytes {s | ∃ fuel out st', gaussianReadLvl O fuel r sigma bound level ⟨⟨s, pos, clk⟩, buf, ptr⟩ pol = some (out, st') ∧
      PolyWritten r level (fun u => r.qs u + 1) pol out (r.intVec T) ∧ (fun i => s (st'.prng.pos + i)) ∈ E st'.ptr}
      = (∏ t ∈ range r.n, gaussLaw O sigma bound (T t)) * c := by
  have h := gaussCoeffs_event O sigma bound pos clk hlen hle hw ((List.range r.n).map T) hE hc
  rw [List.length_map, List.length_range] at h
  have hset : {s | ∃ fuel out st', gaussianReadLvl O fuel r sigma bound level ⟨⟨s, pos, clk⟩, buf, ptr⟩ pol = some (out, st') ∧
      PolyWritten r level (fun u => r.qs u + 1) pol out (r.intVec T) ∧ (fun i => s (st'.prng.pos + i)) ∈ E st'.ptr}
      = {s | ∃ fuel gs st', gaussCoeffs O sigma bound fuel r.n (GaussState.clock ⟨⟨s, pos, clk⟩, buf, ptr⟩)
        = some (gs, st') ∧ gs.map drawInt = (List.range r.n).map T ∧ (fun i => s (st'.prng.pos + i)) ∈ E st'.ptr} := by
    ext s
    simp only [Set.mem_ofPred_eq]
    constructor
    · rintro ⟨fuel, out, st', h1, h2, h3⟩
      rw [gaussianReadLvl, Option.map_eq_some_iff] at h1
      obtain ⟨⟨gs, st1⟩, h4, h5⟩ := h1
      simp only [Prod.mk.injEq] at h5
      obtain ⟨rfl, rfl⟩ := h5
      obtain ⟨e1, e2, -⟩ := gaussCoeffs_runs O sigma bound _ (gaussAt_clock s pos clk ⟨hlen, hle, hw⟩) h4
      refine ⟨fuel, gs, st1, h4, draws_of_values hr hb0 e1 e2 hT fun t ht => ?_, h3⟩
      have e3 := ((gaussWrite_is bound hb e1 e2 hp).is.row 0 (Nat.zero_le _)).val t ht
      have e4 := (h2.is.row 0 (Nat.zero_le _)).val t ht
      exact e3.symm.trans e4
    · rintro ⟨fuel, gs, st', h1, h2, h3⟩
      refine ⟨fuel, gaussWrite r level gs pol, st', by rw [gaussianReadLvl, h1]; rfl, ?_, h3⟩
      obtain ⟨e1, e2, -⟩ := gaussCoeffs_runs O sigma bound _ (gaussAt_clock s pos clk ⟨hlen, hle, hw⟩) h1
      obtain ⟨e3, e4, e5⟩ := gaussWrite_is bound hb e1 e2 hp
      refine ⟨e3.congr fun j hj t ht => ?_, e4, e5⟩
      have := congrArg (fun l => l.getD t 0) h2
      simp only [List.getD, List.getElem?_map, List.getElem?_range ht, Option.map_some, Option.getD_some,
        List.getElem?_eq_getElem (show t < gs.length by omega)] at this
      simp only [Ring.intVec, List.getD, List.getElem?_eq_getElem (show t < gs.length by omega), Option.getD_some, this]
  rw [hset]
  refine ⟨h.1, h.2.trans ?_⟩
  congr 1
  rw [List.map_map, prod_map_range]
  exact prod_congr rfl fun t _ => (gaussLaw_eq O sigma bound (T t)).symm

/-- **C107, `ReadAndAddLvl` / `ReadAndAddFromDistLvl`.** The same for what is added to the polynomial. -/
theorem C107_readAndAdd (hb0 : 2 * bound.toNat < r.qs 0) (hb : ∀ j ≤ level, bound.toNat ≤ r.qs j) (pos : ℕ) (clk : UInt64)
    {buf : List UInt8} {ptr : ℕ} (hlen : buf.length = 1024) (hle : ptr ≤ 1024) (hw : ptr % 8 = 0) {pol : Rows}
    {v : ∀ u, ℕ → ZMod (r.sub u).q.toNat} (hp : PolyIs r level r.qs pol v) {T : ℕ → ℤ} (hT : ∀ t < r.n, |T t| ≤ bound.toNat) {E : ℕ → Set (ℕ → UInt8)}
    (hE : ∀ k, MeasurableSet (E k)) {c : ℝ≥0∞} (hc : ∀ k, randomBytes (E k) = c) :
    MeasurableSet {s | ∃ fuel out st', gaussianReadAndAddLvl O fuel r sigma bound level ⟨⟨s, pos, clk⟩, buf, ptr⟩ pol = some (out, st') ∧
      PolyWritten r level r.qs pol out (fun u t => v u t + r.intVec T u t) ∧ (fun i => s (st'.prng.pos + i)) ∈ E st'.ptr} ∧
    randomBytes {s | ∃ fuel out st', gaussianReadAndAddLvl O fuel r sigma bound level ⟨⟨s, pos, clk⟩, buf, ptr⟩ pol = some (out, st') ∧
      PolyWritten r level r.qs pol out (fun u t => v u t + r.intVec T u t) ∧ (fun i => s (st'.prng.pos + i)) ∈ E st'.ptr}
      = (∏ t ∈ range r.n, gaussLaw O sigma bound (T t)) * c := by
  have h := gaussCoeffs_event O sigma bound pos clk hlen hle hw ((List.range r.n).map T) hE hc
  rw [List.length_map, List.length_range] at h
  have hset : {s | ∃ fuel out st', gaussianReadAndAddLvl O fuel r sigma bound level ⟨⟨s, pos, clk⟩, buf, ptr⟩ pol = some (out, st') ∧
      PolyWritten r level r.qs pol out (fun u t => v u t + r.intVec T u t) ∧ (fun i => s (st'.prng.pos + i)) ∈ E st'.ptr}
      = {s | ∃ fuel gs st', gaussCoeffs O sigma bound fuel r.n (GaussState.clock ⟨⟨s, pos, clk⟩, buf, ptr⟩)
        = some (gs, st') ∧ gs.map drawInt = (List.range r.n).map T ∧ (fun i => s (st'.prng.pos + i)) ∈ E st'.ptr} := by
    ext s
    simp only [Set.mem_ofPred_eq]
    constructor
    · rintro ⟨fuel, out, st', h1, h2, h3⟩
      rw [gaussianReadAndAddLvl, Option.map_eq_some_iff] at h1
      obtain ⟨⟨gs, st1⟩, h4, h5⟩ := h1
      simp only [Prod.mk.injEq] at h5
      obtain ⟨rfl, rfl⟩ := h5
      obtain ⟨e1, e2, -⟩ := gaussCoeffs_runs O sigma bound _ (gaussAt_clock s pos clk ⟨hlen, hle, hw⟩) h4
      refine ⟨fuel, gs, st1, h4, draws_of_values hr hb0 e1 e2 hT fun t ht => ?_, h3⟩
      have e3 := ((gaussAdd_is bound hr hl hb e1 e2 hp).is.row 0 (Nat.zero_le _)).val t ht
      have e4 := (h2.is.row 0 (Nat.zero_le _)).val t ht
      exact add_left_cancel (e3.symm.trans e4)
    · rintro ⟨fuel, gs, st', h1, h2, h3⟩
      refine ⟨fuel, gaussAdd r level gs pol, st', by rw [gaussianReadAndAddLvl, h1]; rfl, ?_, h3⟩
      obtain ⟨e1, e2, -⟩ := gaussCoeffs_runs O sigma bound _ (gaussAt_clock s pos clk ⟨hlen, hle, hw⟩) h1
      obtain ⟨e3, e4, e5⟩ := gaussAdd_is bound hr hl hb e1 e2 hp
      refine ⟨e3.congr fun j hj t ht => ?_, e4, e5⟩
      have := congrArg (fun l => l.getD t 0) h2
      simp only [List.getD, List.getElem?_map, List.getElem?_range ht, Option.map_some, Option.getD_some,
        List.getElem?_eq_getElem (show t < gs.length by omega)] at this
      simp only [Ring.intVec, List.getD, List.getElem?_eq_getElem (show t < gs.length by omega), Option.getD_some, this]
  rw [hset]
  refine ⟨h.1, h.2.trans ?_⟩
  congr 1
  rw [List.map_map, prod_map_range]
  exact prod_congr rfl fun t _ => (gaussLaw_eq O sigma bound (T t)).symm

end

/-- all draws of a call are found with probability one -/
theorem gaussCoeffs_returns (h : O.Starts sigma bound) (cnt pos : ℕ) (clk : UInt64) {buf : List UInt8} {ptr : ℕ}
    (hlen : buf.length = 1024) (hle : ptr ≤ 1024) (hw : ptr % 8 = 0) :
    randomBytes {s | ∃ fuel gs st', gaussCoeffs O sigma bound fuel cnt (GaussState.clock ⟨⟨s, pos, clk⟩, buf, ptr⟩)
      = some (gs, st')} = 1 := by
  set A : (Fin cnt → ℤ) → Set (ℕ → UInt8) := fun T => {s | ∃ fuel gs st', gaussCoeffs O sigma bound fuel cnt
    (GaussState.clock ⟨⟨s, pos, clk⟩, buf, ptr⟩) = some (gs, st') ∧ gs.map drawInt = List.ofFn T} with hA
  have hev : ∀ T, MeasurableSet (A T) ∧ randomBytes (A T) = ∏ i, machineLaw O sigma bound (T i) := by
    intro T
    have := gaussCoeffs_event O sigma bound pos clk hlen hle hw (List.ofFn T) (E := fun _ => Set.univ)
      (fun _ => MeasurableSet.univ) (c := 1) (fun _ => measure_univ)
    simp only [List.length_ofFn, Set.mem_univ, and_true, mul_one, List.map_ofFn, List.prod_ofFn] at this
    exact this
  refine le_antisymm prob_le_one ?_
  calc (1 : ℝ≥0∞) = ∏ _i : Fin cnt, ∑ v ∈ gaussRange bound, machineLaw O sigma bound v := by simp [machineLaw_sum h]
    _ = ∑ T ∈ Fintype.piFinset fun _ : Fin cnt => gaussRange bound, ∏ i, machineLaw O sigma bound (T i) := prod_univ_sum _ _
    _ = randomBytes (⋃ T ∈ Fintype.piFinset fun _ : Fin cnt => gaussRange bound, A T) := by
      rw [measure_biUnion_finset _ fun T _ => (hev T).1]
      · exact sum_congr rfl fun T _ => (hev T).2.symm
      · intro T _ T' _ hT
        rw [Function.onFun, Set.disjoint_left]
        rintro s ⟨f, gs, st, h1, h2⟩ ⟨f', gs', st', h1', h2'⟩
        have e1 := gaussCoeffs_mono O sigma bound (le_max_left f f') _ h1
        rw [gaussCoeffs_mono O sigma bound (le_max_right f f') _ h1'] at e1
        simp only [Option.some.injEq, Prod.mk.injEq] at e1
        rw [e1.1, h2] at h2'
        exact hT (List.ofFn_injective h2')
    _ ≤ _ := by
      refine measure_mono (Set.iUnion₂_subset fun T _ => ?_)
      rintro s ⟨f, gs, st, h1, -⟩
      exact ⟨f, gs, st, h1⟩

/-- **C107, termination.** The calls return with probability one. -/
theorem C107_returns (h : O.Starts sigma bound) (r : Ring) (level pos : ℕ) (clk : UInt64) {buf : List UInt8} {ptr : ℕ}
    (hlen : buf.length = 1024) (hle : ptr ≤ 1024) (hw : ptr % 8 = 0) (pol : Rows) :
    randomBytes {s | ∃ fuel out, gaussianReadLvl O fuel r sigma bound level ⟨⟨s, pos, clk⟩, buf, ptr⟩ pol = some out} = 1 ∧
    randomBytes {s | ∃ fuel out, gaussianReadAndAddLvl O fuel r sigma bound level ⟨⟨s, pos, clk⟩, buf, ptr⟩ pol = some out} = 1 := by
  have h1 := gaussCoeffs_returns O sigma bound h r.n pos clk hlen hle hw
  refine ⟨le_antisymm prob_le_one (h1.symm.le.trans (measure_mono ?_)), le_antisymm prob_le_one (h1.symm.le.trans (measure_mono ?_))⟩
  · rintro s ⟨f, gs, st, h2⟩
    exact ⟨f, _, by rw [gaussianReadLvl, h2]; rfl⟩
  · rintro s ⟨f, gs, st, h2⟩
    exact ⟨f, _, by rw [gaussianReadAndAddLvl, h2]; rfl⟩

/-! ## Two calls -/

/-- a call only depends on the bytes that the generator still has to yield and on the pointer -/
theorem gaussCoeffs_shift {fuel cnt : ℕ} {s : ℕ → UInt8} {pos ptr : ℕ} {clk : UInt64} {buf : List UInt8} (hlen : buf.length = 1024)
    (hle : ptr ≤ 1024) (hw : ptr % 8 = 0) {gs : List (UInt64 × Bool)} {st' : GaussState}
    (h : gaussCoeffs O sigma bound fuel cnt (GaussState.clock ⟨⟨s, pos, clk⟩, buf, ptr⟩) = some (gs, st')) {clk' : UInt64}
    {pos' : ℕ} {s' : ℕ → UInt8} {buf' : List UInt8} (hlen' : buf'.length = 1024) (hs : dropBytes pos' s' = dropBytes pos s) :
    ∃ fuel gs' st'', gaussCoeffs O sigma bound fuel cnt (GaussState.clock ⟨⟨s', pos', clk'⟩, buf', ptr⟩) = some (gs', st'') ∧
      gs'.map drawInt = gs.map drawInt ∧ st''.ptr = st'.ptr ∧
      (fun i => s' (st''.prng.pos + i)) = fun i => s (st'.prng.pos + i) := by
  obtain ⟨e1, -, L, e2, e3⟩ := gaussCoeffs_runs O sigma bound _ (gaussAt_clock s pos clk ⟨hlen, hle, hw⟩) h
  have hd : dropBytes (pos + ptr) s = dropBytes (pos' + ptr) s' := by
    rw [← dropBytes_dropBytes, ← dropBytes_dropBytes, hs]
  rw [hd] at e3
  obtain ⟨fuel', gs', st'', e4, e5, e6⟩ := gaussRuns_coeffs O sigma bound _ (gaussAt_clock s' pos' clk' ⟨hlen', hle, hw⟩) e3
  rw [List.length_map, e1] at e4
  refine ⟨fuel', gs', st'', e4, e5, ?_, ?_⟩
  · rw [e2.ptr_eq, e6.ptr_eq]
    omega
  · have h1 := e2.pos_eq.1
    have h2 := e6.pos_eq.1
    obtain ⟨d, h3, h4⟩ : ∃ d, st'.prng.pos = pos + d ∧ st''.prng.pos = pos' + d :=
      ⟨_, h1, by rw [h2]; congr 3; omega⟩
    funext i
    have := congrFun hs (d + i)
    simp only [dropBytes] at this
    rw [h3, h4, add_assoc, add_assoc, this]

/-- **C107, two calls.** Polynomials drawn one after the other from the same sampler, in possibly different rings and with
different parameters, are independent. -/
theorem C107_twice {F' : Type} (O' : FloatOps F') (sigma' : F') (bound' : UInt64) {n n' : ℕ} {r r' : Ring} (hr : r.Valid n)
    (hr' : r'.Valid n') {level level' : ℕ} (hl : level < r.subs.length) (hl' : level' < r'.subs.length)
    (hb0 : 2 * bound.toNat < r.qs 0) (hb : ∀ j ≤ level, bound.toNat ≤ r.qs j)
    (hb0' : 2 * bound'.toNat < r'.qs 0) (hb' : ∀ j ≤ level', bound'.toNat ≤ r'.qs j) (pos : ℕ) (clk : UInt64)
    {buf : List UInt8} {ptr : ℕ} (hlen : buf.length = 1024) (hle : ptr ≤ 1024) (hw : ptr % 8 = 0) {pol pol' : Rows}
    (hp : level < pol.length) (hp' : level' < pol'.length) {T T' : ℕ → ℤ} (hT : ∀ t < r.n, |T t| ≤ bound.toNat)
    (hT' : ∀ t < r'.n, |T' t| ≤ bound'.toNat) :
    randomBytes {s | ∃ fuel out st' out' st'',
      gaussianReadLvl O fuel r sigma bound level ⟨⟨s, pos, clk⟩, buf, ptr⟩ pol = some (out, st') ∧
      PolyWritten r level (fun u => r.qs u + 1) pol out (r.intVec T) ∧
      gaussianReadLvl O' fuel r' sigma' bound' level' st' pol' = some (out', st'') ∧
      PolyWritten r' level' (fun u => r'.qs u + 1) pol' out' (r'.intVec T')}
      = (∏ t ∈ range r.n, gaussLaw O sigma bound (T t)) * ∏ t ∈ range r'.n, gaussLaw O' sigma' bound' (T' t) := by
  -- the second call as an event for the bytes that follow the first one
  set E0 : ℕ → Set (ℕ → UInt8) := fun p => {u | ∃ fuel out st',
    gaussianReadLvl O' fuel r' sigma' bound' level' ⟨⟨u, 0, 0⟩, List.replicate 1024 0, p⟩ pol' = some (out, st') ∧
    PolyWritten r' level' (fun u => r'.qs u + 1) pol' out (r'.intVec T') ∧ (fun i => u (st'.prng.pos + i)) ∈ Set.univ} with hE0
  set E : ℕ → Set (ℕ → UInt8) := fun p => if p ≤ 1024 ∧ p % 8 = 0 then E0 p else E0 0 with hEdef
  have h0 : ∀ p, p ≤ 1024 → p % 8 = 0 → MeasurableSet (E0 p) ∧ randomBytes (E0 p)
      = (∏ t ∈ range r'.n, gaussLaw O' sigma' bound' (T' t)) * 1 := fun p h1 h2 =>
    C107_read O' sigma' bound' hr' hl' hb0' hb' 0 0 List.length_replicate h1 h2 hp' hT' (E := fun _ => Set.univ)
      (fun _ => MeasurableSet.univ) (fun _ => measure_univ)
  have hE : ∀ p, MeasurableSet (E p) ∧ randomBytes (E p) = ∏ t ∈ range r'.n, gaussLaw O' sigma' bound' (T' t) := by
    intro p
    simp only [hEdef]
    split
    · rename_i h; rw [← mul_one (∏ t ∈ range r'.n, _)]; exact h0 p h.1 h.2
    · rw [← mul_one (∏ t ∈ range r'.n, _)]; exact h0 0 (Nat.zero_le _) rfl
  rw [← (C107_read O sigma bound hr hl hb0 hb pos clk hlen hle hw hp hT (E := E) (fun p => (hE p).1) (fun p => (hE p).2)).2]
  congr 1
  ext s
  simp only [Set.mem_ofPred_eq]
  -- both descriptions of the second call
  have hlink : ∀ st' : GaussState, st'.Ok → st'.prng.stream = s →
      ((∃ fuel out' st'', gaussianReadLvl O' fuel r' sigma' bound' level' st' pol' = some (out', st'') ∧
        PolyWritten r' level' (fun u => r'.qs u + 1) pol' out' (r'.intVec T')) ↔ (fun i => s (st'.prng.pos + i)) ∈ E st'.ptr) := by
    rintro ⟨⟨s1, pos1, clk1⟩, buf1, ptr1⟩ ⟨g1, g2, g3⟩ rfl
    simp only at g1 g2 g3 ⊢
    rw [hEdef]
    simp only [if_pos (And.intro g2 g3), hE0, Set.mem_ofPred_eq, Set.mem_univ, and_true]
    have hshift : dropBytes 0 (fun i => s1 (pos1 + i)) = dropBytes pos1 s1 := by funext i; simp [dropBytes]
    have hword : ∀ gs gs' : List (UInt64 × Bool), gs.length = r'.n → gs'.length = r'.n → (∀ g ∈ gs, g.1 ≤ bound') →
        (∀ g ∈ gs', g.1 ≤ bound') → gs'.map drawInt = gs.map drawInt →
        PolyWritten r' level' (fun u => r'.qs u + 1) pol' (gaussWrite r' level' gs pol') (r'.intVec T') →
        PolyWritten r' level' (fun u => r'.qs u + 1) pol' (gaussWrite r' level' gs' pol') (r'.intVec T') := by
      intro gs gs' l1 l2 b1 b2 he hP
      obtain ⟨w1, w2, w3⟩ := gaussWrite_is bound' hb' l2 b2 hp'
      have w4 := gaussWrite_is bound' hb' l1 b1 hp'
      refine ⟨w1.congr fun j hj t ht => ?_, w2, w3⟩
      have e1 := (w4.is.row j hj).val t ht
      have e2 := (hP.is.row j hj).val t ht
      rw [← e2, e1]
      have := congrArg (fun l => l.getD t 0) he
      simp only [List.getD, List.getElem?_map, Option.map_some, Option.getD_some,
        List.getElem?_eq_getElem (show t < gs.length by omega), List.getElem?_eq_getElem (show t < gs'.length by omega)] at this
      simp only [Ring.intVec, List.getD, List.getElem?_eq_getElem (show t < gs.length by omega),
        List.getElem?_eq_getElem (show t < gs'.length by omega), Option.getD_some, this]
    constructor
    · rintro ⟨fuel, out', st'', h1, h2⟩
      rw [gaussianReadLvl, Option.map_eq_some_iff] at h1
      obtain ⟨⟨gs, st2⟩, h3, h4⟩ := h1
      simp only [Prod.mk.injEq] at h4
      obtain ⟨rfl, rfl⟩ := h4
      obtain ⟨f, gs', st3, k1, k2, -, -⟩ := gaussCoeffs_shift O' sigma' bound' g1 g2 g3 h3 (clk' := 0) (pos' := 0)
        (s' := fun i => s1 (pos1 + i)) (buf' := List.replicate 1024 0) List.length_replicate hshift
      obtain ⟨l1, b1, -⟩ := gaussCoeffs_runs O' sigma' bound' _ (gaussAt_clock s1 pos1 clk1 ⟨g1, g2, g3⟩) h3
      obtain ⟨l2, b2, -⟩ := gaussCoeffs_runs O' sigma' bound' _
        (gaussAt_clock (fun i => s1 (pos1 + i)) 0 0 ⟨List.length_replicate, g2, g3⟩) k1
      exact ⟨f, gaussWrite r' level' gs' pol', st3, by rw [gaussianReadLvl, k1]; rfl, hword gs gs' l1 l2 b1 b2 k2 h2⟩
    · rintro ⟨fuel, out', st'', h1, h2⟩
      rw [gaussianReadLvl, Option.map_eq_some_iff] at h1
      obtain ⟨⟨gs, st2⟩, h3, h4⟩ := h1
      simp only [Prod.mk.injEq] at h4
      obtain ⟨rfl, rfl⟩ := h4
      obtain ⟨f, gs', st3, k1, k2, -, -⟩ := gaussCoeffs_shift O' sigma' bound' List.length_replicate g2 g3 h3 (clk' := clk1)
        (pos' := pos1) (s' := s1) (buf' := buf1) g1 hshift.symm
      obtain ⟨l1, b1, -⟩ := gaussCoeffs_runs O' sigma' bound' _
        (gaussAt_clock (fun i => s1 (pos1 + i)) 0 0 ⟨List.length_replicate, g2, g3⟩) h3
      obtain ⟨l2, b2, -⟩ := gaussCoeffs_runs O' sigma' bound' _ (gaussAt_clock s1 pos1 clk1 ⟨g1, g2, g3⟩) k1
      exact ⟨f, gaussWrite r' level' gs' pol', st3, by rw [gaussianReadLvl, k1]; rfl, hword gs gs' l1 l2 b1 b2 k2 h2⟩
  have hstate : ∀ fuel out st', gaussianReadLvl O fuel r sigma bound level ⟨⟨s, pos, clk⟩, buf, ptr⟩ pol = some (out, st') →
      st'.Ok ∧ st'.prng.stream = s := by
    intro fuel out st' h
    refine ⟨(C107_state O sigma bound (st := ⟨⟨s, pos, clk⟩, buf, ptr⟩) ⟨hlen, hle, hw⟩ (Or.inl h)).1, ?_⟩
    rw [gaussianReadLvl, Option.map_eq_some_iff] at h
    obtain ⟨⟨gs, st2⟩, h3, h4⟩ := h
    simp only [Prod.mk.injEq] at h4
    obtain ⟨-, rfl⟩ := h4
    obtain ⟨-, -, L, h5, -⟩ := gaussCoeffs_runs O sigma bound _ (gaussAt_clock s pos clk ⟨hlen, hle, hw⟩) h3
    exact h5.stream
  have hmono : ∀ {G : Type} (P : FloatOps G) (sg : G) (bd : UInt64) (R : Ring) (lv : ℕ) (st : GaussState) (pl : Rows) {f f' : ℕ}
      {x : Rows × GaussState}, f ≤ f' → gaussianReadLvl P f R sg bd lv st pl = some x →
      gaussianReadLvl P f' R sg bd lv st pl = some x := by
    intro G P sg bd R lv st pl f f' x hf h
    rw [gaussianReadLvl, Option.map_eq_some_iff] at h ⊢
    obtain ⟨a, h1, h2⟩ := h
    exact ⟨a, gaussCoeffs_mono P sg bd hf _ h1, h2⟩
  constructor
  · rintro ⟨fuel, out, st', out', st'', h1, h2, h3, h4⟩
    obtain ⟨k1, k2⟩ := hstate _ _ _ h1
    exact ⟨fuel, out, st', h1, h2, (hlink st' k1 k2).1 ⟨fuel, out', st'', h3, h4⟩⟩
  · rintro ⟨fuel, out, st', h1, h2, h3⟩
    obtain ⟨k1, k2⟩ := hstate _ _ _ h1
    obtain ⟨f, out', st'', h4, h5⟩ := (hlink st' k1 k2).2 h3
    exact ⟨max fuel f, out, st', out', st'', hmono _ _ _ _ _ _ _ (le_max_left _ _) h1, h2,
      hmono _ _ _ _ _ _ _ (le_max_right _ _) h4, h5⟩

set_option maxRecDepth 1000000 in
/-- with exact arithmetic, deviation 3.2 and bound 19: the masses add up to one, and in the ring of degree 16 modulo 97 and
193 a sampler in the middle of its buffer returns with probability one and gives `1, -2, 0, …, 0` the probability
`law 1 · law 2 · law 0 ^ 14` -/
example : ∑ v ∈ Finset.Icc (-19 : ℤ) 19, gaussLaw realOps 3.2 19 v = 1 ∧ gaussLaw realOps 3.2 19 20 = 0 ∧
    ∃ r : Ring, newRing 100 16 [97, 193] = .ok r ∧
    randomBytes {s | ∃ fuel out, gaussianReadLvl realOps fuel r 3.2 19 1 ⟨⟨s, 7, 0⟩, List.replicate 1024 1, 1016⟩ (newPoly 16 2)
      = some out} = 1 ∧
    randomBytes {s | ∃ fuel out st', gaussianReadLvl realOps fuel r 3.2 19 1 ⟨⟨s, 7, 0⟩, List.replicate 1024 1, 1016⟩ (newPoly 16 2)
      = some (out, st') ∧ PolyWritten r 1 (fun u => r.qs u + 1) (newPoly 16 2) out
        (r.intVec fun t => if t = 0 then 1 else if t = 1 then -2 else 0)}
      = gaussLaw realOps 3.2 19 1 * gaussLaw realOps 3.2 19 2 * gaussLaw realOps 3.2 19 0 ^ 14 := by
  refine ⟨C107_total realOps 3.2 19 (realOps_starts _ _), C107_bounded realOps 3.2 19 (by decide), ?_⟩
  obtain ⟨r, hr⟩ : ∃ r, newRing 100 16 [97, 193] = .ok r := by
    cases h : newRing 100 16 [97, 193] with
    | ok r => exact ⟨r, rfl⟩
    | error e =>
      have : (match newRing 100 16 [97, 193] with | .ok _ => true | .error _ => false) = true := by decide +kernel
      rw [h] at this; cases this
  obtain ⟨hv, -, hm⟩ := newRing_valid' (n := 4) rfl (by norm_num) (by
    intro q hq
    simp only [List.mem_cons, List.not_mem_nil, or_false] at hq
    rcases hq with rfl | rfl <;> decide) hr
  have hlen : r.subs.length = 2 := by
    have := congrArg List.length hm
    simpa [Ring.moduli] using this
  have hn : r.n = 16 := hv.deg
  have hq0 : (r.sub 0).q = 97 := by
    have := congrArg (fun l => l.getD 0 0) hm
    simpa [Ring.moduli, Ring.sub, List.getD, hlen, show 0 < r.subs.length by omega] using this
  have hq1 : (r.sub 1).q = 193 := by
    have := congrArg (fun l => l.getD 1 0) hm
    simpa [Ring.moduli, Ring.sub, List.getD, hlen, show 1 < r.subs.length by omega] using this
  refine ⟨r, hr, (C107_returns realOps 3.2 19 (realOps_starts _ _) r 1 7 0 List.length_replicate (by norm_num) rfl _).1, ?_⟩
  have := (C107_read realOps 3.2 19 hv (level := 1) (by omega) (by unfold Ring.qs; rw [hq0]; decide) (by
    intro j hj
    unfold Ring.qs
    obtain rfl | rfl : j = 0 ∨ j = 1 := by omega
    · rw [hq0]; decide
    · rw [hq1]; decide) 7 0 (buf := List.replicate 1024 1) (ptr := 1016) List.length_replicate (by norm_num) rfl
    (pol := newPoly 16 2) (by decide) (T := fun t => if t = 0 then 1 else if t = 1 then -2 else 0) (by
      intro t _
      split
      · decide
      · split <;> decide) (E := fun _ => Set.univ) (fun _ => MeasurableSet.univ) (fun _ => measure_univ)).2
  simp only [Set.mem_univ, and_true, mul_one, hn] at this
  rw [this]
  simp only [prod_range_succ, prod_range_zero, one_mul]
  simp only [if_true, if_false, show (1 : ℕ) ≠ 0 by decide, C107_symmetric]
  norm_num
  ring

end FastKsw.Props
