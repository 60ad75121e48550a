import Verif.Lemmas.RandomStep
import Verif.Props.Samplers

/-!
# The uniform and the Gaussian sampler as steps
-/

namespace FastKsw.Props

open MeasureTheory Finset
open scoped ENNReal

/-- `UniformSampler.ReadLvl` on the shared generator -/
def uniStep (r : Ring) (level : ℕ) (pol : Rows) (k : ℕ) (st : GaussState) : Option (Rows × GaussState) :=
  (uniformReadLvl k r level st.prng pol).map fun a => (a.1, { st with prng := a.2 })

section
variable {n : ℕ} {r : Ring} (hr : r.Valid n) {level : ℕ} (hl : level < r.subs.length)
include hr hl

omit hl in
theorem degree_mod : r.n % 8 = 0 ∧ 0 < r.n := by
  have h4 := hr.four_le
  rw [hr.deg]
  exact ⟨by rw [show n = 3 + (n - 3) by omega, pow_add]; omega, by positivity⟩

omit hl in
theorem uniformReadLvl_pos (k : ℕ) (s : ℕ → UInt8) (pos : ℕ) (clk : UInt64) (pol : Rows) :
    uniformReadLvl k r level ⟨s, pos, clk⟩ pol = none ∧ specRows k r.n (r.subs.take (level + 1)) 0 (dropBytes pos s) = none ∨
    ∃ x m s' prng', specRows k r.n (r.subs.take (level + 1)) 0 (dropBytes pos s) = some (x, m, s') ∧
      uniformReadLvl k r level ⟨s, pos, clk⟩ pol = some (writeLvl level (fun j => x.getD j []) pol, prng') ∧
      prng'.stream = s ∧ prng'.pos = pos + r.n * ((8 * m - 1) / r.n + 1) := by
  obtain ⟨hN, hN0⟩ := degree_mod hr
  have hlink := uniRows_linked (s := s) (pos := pos) hN hN0 (fuel := k) (r.subs.take (level + 1)) (k := 0)
    (st := ⟨(Prng.read ⟨s, pos, clk⟩ r.n).2, (Prng.read ⟨s, pos, clk⟩ r.n).1, 0⟩)
    ⟨⟨rfl, 0, by simp [Prng.read], by simp [Prng.read], by simp, by simp⟩, by simp⟩
  simp only [mul_zero, add_zero] at hlink
  rcases hlink with ⟨h1, h2⟩ | ⟨x, st, m, h1, h2, h3⟩
  · exact Or.inl ⟨by rw [uniformReadLvl, h1]; rfl, h2⟩
  · exact Or.inr ⟨x, m, _, st.prng, h2, by rw [uniformReadLvl, h1]; rfl, h3.inv.1, (h3.pos_eq hN0).1⟩

/-- the uniform sampler as a step -/
theorem uniStep_step {pol : Rows} (hp : level < pol.length) {vs : Rows} (hlen : vs.length = level + 1)
    (hvs : ∀ j ≤ level, (vs.row j).length = r.n ∧ ∀ x ∈ vs.row j, x < (r.sub j).q) :
    Step (uniStep r level pol) (fun x => x = vs ++ pol.drop (level + 1))
      (∏ j ∈ range (level + 1), ((r.sub j).q.toNat : ℝ≥0∞)⁻¹ ^ r.n) := by
  have key : ∀ {k st x st'}, uniStep r level pol k st = some (x, st') ↔
      ∃ prng', uniformReadLvl k r level st.prng pol = some (x, prng') ∧ st' = { st with prng := prng' } := by
    intro k st x st'
    rw [uniStep, Option.map_eq_some_iff]
    constructor
    · rintro ⟨⟨y, prng'⟩, h1, h2⟩
      cases h2
      exact ⟨prng', h1, rfl⟩
    · rintro ⟨prng', h1, rfl⟩
      exact ⟨(x, prng'), h1, rfl⟩
  constructor
  · rintro k k' st ⟨x, st'⟩ hk h
    obtain ⟨prng', h1, h2⟩ := key.1 h
    exact key.2 ⟨prng', uniformReadLvl_mono hk h1, h2⟩
  · rintro k ⟨⟨s, pos, clk⟩, buf, ptr⟩ x st' hst h
    obtain ⟨prng', h1, rfl⟩ := key.1 h
    refine ⟨⟨hst.1, hst.2, hst.3⟩, ?_⟩
    rcases uniformReadLvl_pos hr (level := level) k s pos clk pol with ⟨h2, -⟩ | ⟨y, m, s', prng2, -, h2, h3, -⟩
    · rw [h2] at h1; cases h1
    · rw [h2] at h1; cases h1
      exact h3
  · rintro k ⟨⟨s, pos, clk⟩, buf, ptr⟩ ⟨⟨s2, pos2, clk2⟩, buf2, ptr2⟩ x st' ⟨o1, o2, hptr, hb⟩ h hx
    obtain ⟨prng', h1, rfl⟩ := key.1 h
    simp only at hptr hb h1
    subst hptr
    rcases uniformReadLvl_pos hr (level := level) k s pos clk pol with ⟨h2, -⟩ | ⟨y, m, s', prng2, e1, h2, h3, h4⟩
    · rw [h2] at h1; cases h1
    · rw [h2] at h1
      cases h1
      rcases uniformReadLvl_pos hr (level := level) k s2 pos2 clk2 pol with ⟨-, g2⟩ | ⟨y', m', s'', prng3, e1', g2, g3, g4⟩
      · rw [← hb, e1] at g2; cases g2
      · rw [← hb, e1] at e1'
        cases e1'
        refine ⟨k, _, _, key.2 ⟨prng3, g2, rfl⟩, hx, ⟨⟨o1.1, o1.2, o1.3⟩, ⟨o2.1, o2.2, o2.3⟩, rfl, ?_⟩⟩
        simp only
        rw [h3, g3, h4, g4, ← dropBytes_dropBytes, ← dropBytes_dropBytes, hb]
  · intro pos clk buf ptr _ _ _ E c hE hc
    have e : stepEvent (uniStep r level pol) (fun x => x = vs ++ pol.drop (level + 1)) E pos clk buf ptr
        = {s | ∃ fuel prng', uniformReadLvl fuel r level ⟨s, pos, clk⟩ pol
          = some (vs ++ pol.drop (level + 1), prng') ∧ (fun i => s (prng'.pos + i)) ∈ E ptr} := by
      ext s
      simp only [stepEvent, Set.mem_ofPred_eq]
      constructor
      · rintro ⟨k, x, st', h, rfl, he⟩
        obtain ⟨prng', h1, rfl⟩ := key.1 h
        exact ⟨k, prng', h1, he⟩
      · rintro ⟨k, prng', h, he⟩
        exact ⟨k, _, _, key.2 ⟨prng', h, rfl⟩, rfl, he⟩
    have := uniform_event hr hl pos clk hp hlen hvs (hE ptr)
    rw [e, ← hc ptr]
    exact this

/-- the uniform sampler returns with probability one, independently of the bytes that follow -/
theorem uniStep_top {pol : Rows} (hp : level < pol.length) : Step (uniStep r level pol) (fun _ => True) 1 := by
  let q : Fin (level + 1) → ℕ := fun j => (r.sub j).q.toNat
  let vs : ((j : Fin (level + 1)) → Fin r.n → Fin (q j)) → Rows := fun f =>
    List.ofFn fun j => List.ofFn fun i => UInt64.ofNat (f j i)
  have hq : ∀ j, 0 < q j := fun j => (hr.subAt (i := j) (by omega)).prime.pos
  have hrow : ∀ f (j : Fin (level + 1)), (vs f).row j = List.ofFn fun i => UInt64.ofNat (f j i) := by
    intro f j
    rw [Rows.row, getD_lt _ _ (by simp [vs]; omega)]
    exact List.getElem_ofFn _
  have hval : ∀ (f : (j : Fin (level + 1)) → Fin r.n → Fin (q j)) (j : Fin (level + 1)) (i : Fin r.n), (UInt64.ofNat (f j i)).toNat = f j i := by
    intro f j i
    have h1 := (f j i).2
    have h2 := (r.sub j).q.toNat_lt
    simp only [q] at h1
    rw [UInt64.toNat_ofNat', Nat.mod_eq_of_lt (by omega)]
  haveI : Nonempty ((j : Fin (level + 1)) → Fin r.n → Fin (q j)) := ⟨fun j _ => ⟨0, hq j⟩⟩
  have h1 := Step.sum (f := uniStep r level pol) (A := fun f x => x = vs f ++ pol.drop (level + 1))
    (fun f => uniStep_step hr hl hp (vs := vs f) (by simp [vs]) (fun j hj => by
      rw [show j = ((⟨j, by omega⟩ : Fin (level + 1)) : ℕ) from rfl, hrow]
      refine ⟨by simp, fun x hx => ?_⟩
      obtain ⟨i, rfl⟩ := List.mem_ofFn.1 hx
      rw [UInt64.lt_iff_toNat_lt, hval]
      exact (f ⟨j, by omega⟩ i).2))
    (by
      rintro k st x st' f g - - h1 h2
      have h4 := List.append_cancel_right (h1.symm.trans h2)
      refine funext fun j => funext fun i => Fin.ext ?_
      have h5 : (List.ofFn fun i => UInt64.ofNat (f j i)) = List.ofFn fun i => UInt64.ofNat (g j i) := by
        rw [← hrow f j, ← hrow g j, h4]
      have h6 := congrArg UInt64.toNat (congrFun (List.ofFn_injective h5) i)
      rwa [hval, hval] at h6)
  have h2 : (∑ f : ((j : Fin (level + 1)) → Fin r.n → Fin (q j)), ∏ j ∈ range (level + 1), ((r.sub j).q.toNat : ℝ≥0∞)⁻¹ ^ r.n) = 1 := by
    rw [sum_const, card_univ, nsmul_eq_mul, ← Fin.prod_univ_eq_prod_range (fun j => ((r.sub j).q.toNat : ℝ≥0∞)⁻¹ ^ r.n)]
    simp only [Fintype.card_pi, Fintype.card_fin, prod_const, card_univ]
    push_cast
    rw [← prod_mul_distrib]
    refine prod_eq_one fun j _ => ?_
    have h0 : (q j : ℝ≥0∞) ≠ 0 := by exact_mod_cast (hq j).ne'
    rw [← mul_pow, ENNReal.mul_inv_cancel h0 (ENNReal.natCast_ne_top _), one_pow]
  rw [h2] at h1
  refine h1.congr fun {k st x st'} _ h => ?_
  rw [true_iff]
  rw [uniStep, Option.map_eq_some_iff] at h
  obtain ⟨⟨y, prng'⟩, h3, h4⟩ := h
  cases h4
  obtain ⟨-, v, hv⟩ := C42_uniform hr hl hp h3
  have hlt : ∀ (j : Fin (level + 1)) (i : Fin r.n), ((Rows.row y j).at i).toNat < q j := fun j i =>
    (hv.is.row j (by omega)).lt i i.2
  refine ⟨fun j i => ⟨((Rows.row y j).at i).toNat, hlt j i⟩, List.ext_getElem ?_ fun i g1 g2 => ?_⟩
  · rw [hv.len]; simp [vs]; omega
  · have e1 : y[i] = Rows.row y i := (getD_lt _ _ g1).symm
    rw [List.getElem_append]
    by_cases hi : i < level + 1
    · rw [dif_pos (by simpa [vs] using hi)]
      have hrl := (hv.is.row i (by omega)).len
      rw [List.getElem_ofFn, e1]
      refine List.ext_getElem (by simp [hrl]) fun t g3 g4 => ?_
      simp only [List.getElem_ofFn, UInt64.ofNat_toNat]
      rw [Row.at, getD_lt _ _ g3]
    · rw [dif_neg (by simpa [vs] using hi), e1, hv.above i (by omega), List.getElem_drop]
      rw [Rows.row, getD_lt _ _ (by rw [← hv.len]; exact g1)]
      congr 1
      simp [vs]
      omega

end

section
variable {F : Type} (O : FloatOps F) (sigma : F) (bound : UInt64)
variable {n : ℕ} {r : Ring} (hr : r.Valid n) {level : ℕ} (hl : level < r.subs.length)
include hr hl

/-- the Gaussian sampler as a step -/
theorem gaussStep_step (hb0 : 2 * bound.toNat < r.qs 0) (hb : ∀ j ≤ level, bound.toNat ≤ r.qs j) {pol : Rows} (hp : level < pol.length)
    {T : ℕ → ℤ} (hT : ∀ t < r.n, |T t| ≤ bound.toNat) :
    Step (fun k st => gaussianReadLvl O k r sigma bound level st pol)
      (fun x => PolyWritten r level (fun u => r.qs u + 1) pol x (r.intVec T)) (∏ t ∈ range r.n, gaussLaw O sigma bound (T t)) := by
  have key : ∀ {k st x st'}, gaussianReadLvl O k r sigma bound level st pol = some (x, st') ↔
      ∃ gs, gaussCoeffs O sigma bound k r.n st.clock = some (gs, st') ∧ x = gaussWrite r level gs pol := by
    intro k st x st'
    rw [gaussianReadLvl, Option.map_eq_some_iff]
    constructor
    · rintro ⟨⟨gs, st1⟩, h1, h2⟩
      cases h2
      exact ⟨gs, h1, rfl⟩
    · rintro ⟨gs, h1, rfl⟩
      exact ⟨(gs, st'), h1, rfl⟩
  constructor
  · rintro k k' st ⟨x, st'⟩ hk h
    obtain ⟨gs, h1, h2⟩ := key.1 h
    exact key.2 ⟨gs, gaussCoeffs_mono O sigma bound hk _ h1, h2⟩
  · rintro k ⟨⟨s, pos, clk⟩, buf, ptr⟩ x st' hst h
    obtain ⟨gs, h1, rfl⟩ := key.1 h
    obtain ⟨-, -, L, h2, -⟩ := gaussCoeffs_runs O sigma bound _ (gaussAt_clock s pos clk hst) h1
    exact ⟨h2.ok, h2.stream⟩
  · rintro k ⟨⟨s, pos, clk⟩, buf, ptr⟩ ⟨⟨s2, pos2, clk2⟩, buf2, ptr2⟩ x st' ⟨o1, o2, hptr, hbt⟩ h hx
    obtain ⟨gs, h1, rfl⟩ := key.1 h
    simp only at hptr hbt
    subst hptr
    obtain ⟨k', gs', st2', c1, c2, c3, c4⟩ := gaussCoeffs_shift O sigma bound o1.1 o1.2 o1.3 h1 (clk' := clk2) o2.1 hbt.symm
    obtain ⟨l1, b1, L, h2, -⟩ := gaussCoeffs_runs O sigma bound _ (gaussAt_clock s pos clk o1) h1
    obtain ⟨l2, b2, L', h3, -⟩ := gaussCoeffs_runs O sigma bound _ (gaussAt_clock s2 pos2 clk2 o2) c1
    refine ⟨k', _, st2', key.2 ⟨gs', c1, rfl⟩, ?_, ⟨h2.ok, h3.ok, c3.symm, ?_⟩⟩
    · obtain ⟨w1, w2, w3⟩ := gaussWrite_is bound hb l2 b2 hp
      have w4 := gaussWrite_is bound hb l1 b1 hp
      refine ⟨w1.congr fun j hj t ht => ?_, w2, w3⟩
      have e1 := (w4.is.row j hj).val t ht
      have e2 := (hx.is.row j hj).val t ht
      rw [← e2, e1]
      have := congrArg (fun l => l.getD t 0) c2
      simp only [List.getD, List.getElem?_map, Option.map_some, Option.getD_some,
        List.getElem?_eq_getElem (show t < gs.length by omega), List.getElem?_eq_getElem (show t < gs'.length by omega)] at this
      simp only [Ring.intVec, List.getD, List.getElem?_eq_getElem (show t < gs.length by omega),
        List.getElem?_eq_getElem (show t < gs'.length by omega), Option.getD_some, this]
    · rw [h2.stream, h3.stream]
      exact c4.symm
  · intro pos clk buf ptr hlen hle hw E c hE hc
    exact C107_read O sigma bound hr hl hb0 hb pos clk hlen hle hw hp hT hE hc

/-- the Gaussian sampler returns with probability one, independently of the bytes that follow -/
theorem gaussStep_top (hO : O.Starts sigma bound) (hb0 : 2 * bound.toNat < r.qs 0) (hb : ∀ j ≤ level, bound.toNat ≤ r.qs j) {pol : Rows}
    (hp : level < pol.length) : Step (fun k st => gaussianReadLvl O k r sigma bound level st pol) (fun _ => True) 1 := by
  let D := Finset.Icc (-(bound.toNat : ℤ)) bound.toNat
  let val : (Fin r.n → D) → ℕ → ℤ := fun T t => if h : t < r.n then (T ⟨t, h⟩ : ℤ) else 0
  have hv : ∀ T (t : Fin r.n), val T t = (T t : ℤ) := fun T t => by simp [val]
  haveI : Nonempty (Fin r.n → D) := ⟨fun _ => ⟨0, by simp [D]⟩⟩
  have hab : ∀ T, ∀ t < r.n, |val T t| ≤ bound.toNat := fun T t ht => by
    rw [hv T ⟨t, ht⟩, abs_le]
    exact Finset.mem_Icc.1 (T ⟨t, ht⟩).2
  have h1 := Step.sum (f := fun k st => gaussianReadLvl O k r sigma bound level st pol)
    (A := fun T x => PolyWritten r level (fun u => r.qs u + 1) pol x (r.intVec (val T)))
    (fun T => gaussStep_step O sigma bound hr hl hb0 hb hp (T := val T) (hab T))
    (by
      rintro k st x st' T T' - - h1 h2
      refine funext fun t => Subtype.ext ?_
      have e1 := (h1.is.row 0 (Nat.zero_le _)).val t t.2
      have e2 := (h2.is.row 0 (Nat.zero_le _)).val t t.2
      rw [e1] at e2
      rw [← hv T t, ← hv T' t]
      exact eq_of_residue hb0 (hab T t t.2) (hab T' t t.2) e2)
  have h2 : (∑ T : (Fin r.n → D), ∏ t ∈ range r.n, gaussLaw O sigma bound (val T t)) = 1 := by
    have h3 : ∀ T : (Fin r.n → D), ∏ t ∈ range r.n, gaussLaw O sigma bound (val T t) = ∏ t, gaussLaw O sigma bound (T t) := fun T => by
      rw [← Fin.prod_univ_eq_prod_range (fun t => gaussLaw O sigma bound (val T t))]
      exact prod_congr rfl fun t _ => by rw [hv]
    have h4 : ∑ v : D, gaussLaw O sigma bound v = 1 := by
      rw [Finset.sum_coe_sort D fun v => gaussLaw O sigma bound v]
      exact C107_total O sigma bound hO
    rw [sum_congr rfl fun T _ => h3 T]
    have h5 := Finset.prod_univ_sum (fun _ : Fin r.n => (Finset.univ : Finset D)) (fun _ v => gaussLaw O sigma bound (v : ℤ))
    rw [Fintype.piFinset_univ] at h5
    rw [← h5, prod_eq_one fun t _ => h4]
  rw [h2] at h1
  refine h1.congr fun {k st x st'} hst h => ?_
  rw [true_iff]
  rw [gaussianReadLvl, Option.map_eq_some_iff] at h
  obtain ⟨⟨gs, st1⟩, h3, h4⟩ := h
  cases h4
  obtain ⟨⟨s, pos, clk⟩, buf, ptr⟩ := st
  obtain ⟨l1, b1, -⟩ := gaussCoeffs_runs O sigma bound _ (gaussAt_clock s pos clk hst) h3
  obtain ⟨w1, w2, w3⟩ := gaussWrite_is bound hb l1 b1 hp
  refine ⟨fun t => ⟨drawInt (gs.getD t default), Finset.mem_Icc.2 (abs_le.1 (drawInt_abs bound (b1 _ ?_)))⟩,
    w1.congr fun j hj t ht => ?_, w2, w3⟩
  · rw [getD_lt _ _ (by omega)]
    exact List.getElem_mem _
  · simp only [Ring.intVec, val, dif_pos ht]

end

end FastKsw.Props
