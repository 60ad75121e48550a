import Verif.Lemmas.RandomUniform
import Verif.Lemmas.RandomBits

/-!
# C105: distributions of the samplers
-/

namespace FastKsw.Props

open MeasureTheory Finset
open scoped ENNReal

theorem rowsBelow_of {N : ℕ} (ss : List SubRing) : ∀ {vs : Rows} (_ : vs.length = ss.length)
    (_ : ∀ j < ss.length, (vs.row j).length = N ∧ ∀ x ∈ vs.row j, x < (ss.getD j default).q), RowsBelow N ss vs := by
  induction ss with
  | nil => intro vs h _; exact List.length_eq_zero_iff.1 h
  | cons a ss ih =>
    intro vs h1 h2
    obtain ⟨v, vs, rfl⟩ : ∃ v vs', vs = v :: vs' := by
      cases vs with
      | nil => simp at h1
      | cons v vs => exact ⟨v, vs, rfl⟩
    obtain ⟨h3, h4⟩ := h2 0 (by simp)
    refine ⟨v, vs, rfl, by simpa [Rows.row] using h3, by simpa [Rows.row] using h4, ih (by simpa using h1) fun j hj => ?_⟩
    have := h2 (j + 1) (by simpa using hj)
    simpa [Rows.row] using this

theorem getD_lt {α : Type*} (l : List α) (d : α) {i : ℕ} (h : i < l.length) : l.getD i d = l[i] := by simp [List.getD, h]

theorem prod_map_getD {α : Type*} (f : α → ℝ≥0∞) (d : α) (l : List α) :
    (l.map f).prod = ∏ j ∈ range l.length, f (l.getD j d) := by
  induction l with
  | nil => rfl
  | cons a l ih =>
    rw [List.map_cons, List.prod_cons, ih, List.length_cons, prod_range_succ']
    simp [mul_comm]

theorem writeLvl_eq {level : ℕ} {vs pol : Rows} (hvs : vs.length = level + 1) (hp : level < pol.length) :
    writeLvl level (fun j => vs.getD j []) pol = vs ++ pol.drop (level + 1) := by
  unfold writeLvl
  apply List.ext_getElem
  · simp [hvs]; omega
  · intro i h1 h2
    rw [List.getElem_mapIdx, List.getElem_append]
    by_cases hi : i ≤ level
    · rw [if_pos hi, dif_pos (by omega)]
      exact getD_lt _ _ (by omega)
    · rw [if_neg hi, dif_neg (by omega), List.getElem_drop]
      congr 1
      omega

theorem specRows_length {fuel N : ℕ} (ss : List SubRing) : ∀ {k : ℕ} {s : ℕ → UInt8} {x : Rows} {y : ℕ × (ℕ → UInt8)},
    specRows fuel N ss k s = some (x, y) → x.length = ss.length := by
  induction ss with
  | nil => intro k s x y h; cases h; rfl
  | cons a ss ih =>
    intro k s x y h
    rw [specRows, Option.bind_eq_some_iff] at h
    obtain ⟨a, ha, h⟩ := h
    rw [Option.bind_eq_some_iff] at h
    obtain ⟨⟨b, c⟩, hb, h⟩ := h
    cases h
    simp [ih hb]

theorem uniWord_mono {N : ℕ} {q mask : UInt64} {fuel : ℕ} : ∀ {fuel' : ℕ} {st : UniState} {x : UInt64 × UniState},
    fuel ≤ fuel' → uniWord N q mask fuel st = some x → uniWord N q mask fuel' st = some x := by
  induction fuel with
  | zero => intro f st x _ h; simp [uniWord] at h
  | succ fuel ih =>
    intro f st x hf h
    obtain ⟨f, rfl⟩ : ∃ g, f = g + 1 := ⟨f - 1, by omega⟩
    rw [uniWord] at h ⊢
    generalize (if st.ptr = N then (⟨(st.prng.read N).2, (st.prng.read N).1, 0⟩ : UniState) else st) = st1 at h ⊢
    by_cases hc : beUint ((st1.buf.drop st1.ptr).take 8) &&& mask < q
    · rw [if_pos hc] at h ⊢
      exact h
    · rw [if_neg hc] at h ⊢
      exact ih (by omega) h

theorem uniRow_mono {N : ℕ} {q mask : UInt64} {fuel fuel' : ℕ} (hf : fuel ≤ fuel') (cnt : ℕ) : ∀ {st : UniState}
    {x : Row × UniState}, uniRow fuel N q mask cnt st = some x → uniRow fuel' N q mask cnt st = some x := by
  induction cnt with
  | zero => intro st x h; exact h
  | succ cnt ih =>
    intro st x h
    rw [uniRow, Option.bind_eq_some_iff] at h
    obtain ⟨a, ha, h⟩ := h
    rw [Option.bind_eq_some_iff] at h
    obtain ⟨b, hb, h⟩ := h
    rw [uniRow, uniWord_mono hf ha, Option.bind_some, ih hb, Option.bind_some, h]

theorem uniRows_mono {N : ℕ} {fuel fuel' : ℕ} (hf : fuel ≤ fuel') (ss : List SubRing) : ∀ {st : UniState}
    {x : Rows × UniState}, uniRows fuel N ss st = some x → uniRows fuel' N ss st = some x := by
  induction ss with
  | nil => intro st x h; exact h
  | cons a ss ih =>
    intro st x h
    rw [uniRows, Option.bind_eq_some_iff] at h
    obtain ⟨a, ha, h⟩ := h
    rw [Option.bind_eq_some_iff] at h
    obtain ⟨b, hb, h⟩ := h
    rw [uniRows, uniRow_mono hf _ ha, Option.bind_some, ih hb, Option.bind_some, h]

/-- a larger allowance for the rejection loops does not change the result -/
theorem uniformReadLvl_mono {fuel fuel' : ℕ} (hf : fuel ≤ fuel') {r : Ring} {level : ℕ} {prng : Prng} {pol : Rows}
    {x : Rows × Prng} (h : uniformReadLvl fuel r level prng pol = some x) :
    uniformReadLvl fuel' r level prng pol = some x := by
  unfold uniformReadLvl at h ⊢
  simp only at h ⊢
  rw [Option.map_eq_some_iff] at h
  obtain ⟨a, ha, h⟩ := h
  rw [uniRows_mono hf _ ha, Option.map_some, h]

theorem uniform_event {n : ℕ} {r : Ring} (hr : r.Valid n) {level : ℕ} (hl : level < r.subs.length) (pos : ℕ) (clk : UInt64)
    {pol : Rows} (hp : level < pol.length) {vs : Rows} (hlen : vs.length = level + 1)
    (hvs : ∀ j ≤ level, (vs.row j).length = r.n ∧ ∀ x ∈ vs.row j, x < (r.sub j).q)
    {E : Set (ℕ → UInt8)} (hE : MeasurableSet E) :
    MeasurableSet {s | ∃ fuel prng', uniformReadLvl fuel r level ⟨s, pos, clk⟩ pol
        = some (vs ++ pol.drop (level + 1), prng') ∧ (fun i => s (prng'.pos + i)) ∈ E} ∧
    randomBytes {s | ∃ fuel prng', uniformReadLvl fuel r level ⟨s, pos, clk⟩ pol
        = some (vs ++ pol.drop (level + 1), prng') ∧ (fun i => s (prng'.pos + i)) ∈ E}
      = (∏ j ∈ range (level + 1), ((r.sub j).q.toNat : ℝ≥0∞)⁻¹ ^ r.n) * randomBytes E := by
  have h4 := hr.four_le
  have hN : r.n % 8 = 0 := by
    rw [hr.deg, show n = 3 + (n - 3) by omega, pow_add]
    omega
  have hN0 : 0 < r.n := by rw [hr.deg]; positivity
  have hss : (r.subs.take (level + 1)).length = level + 1 := by simp; omega
  have hsub : ∀ j < level + 1, (r.subs.take (level + 1)).getD j default = r.sub j := by
    intro j hj
    simp [Ring.sub, List.getD, hj]
  set skip : ℕ → ℕ := fun k => r.n * ((8 * k - 1) / r.n + 1) - 8 * k with hskip
  have hset : {s | ∃ fuel prng', uniformReadLvl fuel r level ⟨s, pos, clk⟩ pol
        = some (vs ++ pol.drop (level + 1), prng') ∧ (fun i => s (prng'.pos + i)) ∈ E}
      = {s | dropBytes pos s ∈ {s0 | ∃ fuel k' s', specRows fuel r.n (r.subs.take (level + 1)) 0 s0 = some (vs, k', s') ∧
          s' ∈ {s' | dropBytes (skip k') s' ∈ E}}} := by
    ext s
    have hlink := fun fuel => uniRows_linked (s := s) (pos := pos) hN hN0 (fuel := fuel) (r.subs.take (level + 1)) (k := 0)
      (st := ⟨(Prng.read ⟨s, pos, clk⟩ r.n).2, (Prng.read ⟨s, pos, clk⟩ r.n).1, 0⟩)
      ⟨⟨rfl, 0, by simp [Prng.read], by simp [Prng.read], by simp, by simp⟩, by simp⟩
    simp only [mul_zero, add_zero] at hlink
    have hdrop : ∀ (k : ℕ) (st : UniState), UniAt s pos r.n k st →
        dropBytes (skip k) (dropBytes (pos + 8 * k) s) = fun i => s (st.prng.pos + i) := by
      intro k st hst
      obtain ⟨h1, h2⟩ := hst.pos_eq hN0
      rw [dropBytes_dropBytes, h1]
      simp only [hskip, dropBytes]
      funext i
      congr 1
      omega
    simp only [Set.mem_ofPred_eq, uniformReadLvl]
    constructor
    · rintro ⟨fuel, prng', h, hs⟩
      rcases hlink fuel with ⟨h1, -⟩ | ⟨x, st, k, h1, h2, h3⟩
      · rw [h1] at h; cases h
      · rw [h1] at h
        simp only [Option.map_some, Option.some.injEq, Prod.mk.injEq] at h
        obtain ⟨h, rfl⟩ := h
        rw [writeLvl_eq ((specRows_length _ h2).trans hss) hp] at h
        refine ⟨fuel, k, _, List.append_cancel_right h ▸ h2, ?_⟩
        rwa [hdrop k st h3]
    · rintro ⟨fuel, k, s', h, hs⟩
      rcases hlink fuel with ⟨-, h2⟩ | ⟨x, st, k', h1, h2, h3⟩
      · rw [h2] at h; cases h
      · rw [h2] at h
        cases h
        refine ⟨fuel, st.prng, ?_, ?_⟩
        · rw [h1, Option.map_some, writeLvl_eq hlen hp]
        · rwa [← hdrop k st h3]
  have hm : ∀ a ∈ r.subs.take (level + 1), ∃ m, a.mask.toNat = 2 ^ m - 1 ∧ a.q.toNat ≤ 2 ^ m ∧ m ≤ 64 := by
    intro a ha
    obtain ⟨j, hj, rfl⟩ := List.getElem_of_mem ha
    have h1 := hr.subAt (i := j) (by rw [hss] at hj; omega)
    rw [← getD_lt _ default hj, hsub j (by omega)]
    refine ⟨len64 (r.sub j).q.toNat, h1.mask, ?_, ?_⟩
    · unfold len64
      rw [if_neg h1.prime.pos.ne']
      exact Nat.lt_log2_self.le
    · unfold len64
      split
      · omega
      · have := (r.sub j).q.toNat_lt
        have := (Nat.log2_lt (n := (r.sub j).q.toNat) (k := 64) (by assumption)).2 this
        omega
  have hE' : ∀ k, MeasurableSet {s' | dropBytes (skip k) s' ∈ E} := fun k => measurable_dropBytes _ hE
  obtain ⟨h1, h2⟩ := specRows_uniform hE' (fun k => dropBytes_apply (skip k) hE) (r.subs.take (level + 1)) hm
    (rowsBelow_of (N := r.n) (vs := vs) _ (hlen.trans hss.symm) fun j hj => by
      rw [hsub j (by omega)]; exact hvs j (by omega)) 0
  rw [hset, dropBytes_apply pos h1, h2]
  refine ⟨measurable_dropBytes pos h1, ?_⟩
  congr 1
  rw [prod_map_getD _ default, hss]
  exact prod_congr rfl fun j hj => by rw [hsub j (mem_range.1 hj)]

/-- **C105, uniform sampler.** On a random byte stream, read from any position: every choice `vs` of coefficients
below the moduli is returned by `Read` / `ReadLvl` with the same probability, the inverse of the number of
choices, and the bytes that the generator yields afterwards are independent of the result and random again. -/
theorem C105_uniform {n : ℕ} {r : Ring} (hr : r.Valid n) {level : ℕ} (hl : level < r.subs.length) (pos : ℕ) (clk : UInt64)
    {pol : Rows} (hp : level < pol.length) {vs : Rows} (hlen : vs.length = level + 1)
    (hvs : ∀ j ≤ level, (vs.row j).length = r.n ∧ ∀ x ∈ vs.row j, x < (r.sub j).q)
    {E : Set (ℕ → UInt8)} (hE : MeasurableSet E) :
    randomBytes {s | ∃ fuel prng', uniformReadLvl fuel r level ⟨s, pos, clk⟩ pol
        = some (vs ++ pol.drop (level + 1), prng') ∧ (fun i => s (prng'.pos + i)) ∈ E}
      = (∏ j ∈ range (level + 1), ((r.sub j).q.toNat : ℝ≥0∞)⁻¹ ^ r.n) * randomBytes E :=
  (uniform_event hr hl pos clk hp hlen hvs hE).2

/-- **C105, uniform sampler.** The rejection loops end with probability one. -/
theorem C105_uniform_returns {n : ℕ} {r : Ring} (hr : r.Valid n) {level : ℕ} (hl : level < r.subs.length) (pos : ℕ)
    (clk : UInt64) {pol : Rows} (hp : level < pol.length) :
    randomBytes {s | ∃ fuel out, uniformReadLvl fuel r level ⟨s, pos, clk⟩ pol = some out} = 1 := by
  refine le_antisymm prob_le_one ?_
  -- all choices of coefficients
  let q : Fin (level + 1) → ℕ := fun j => (r.sub j).q.toNat
  let vs : ((j : Fin (level + 1)) → Fin r.n → Fin (q j)) → Rows := fun f =>
    List.ofFn fun j => List.ofFn fun i => UInt64.ofNat (f j i)
  have hrow : ∀ f (j : Fin (level + 1)), (vs f).row j = List.ofFn fun i => UInt64.ofNat (f j i) := by
    intro f j
    rw [Rows.row, getD_lt _ _ (by simp [vs]; omega)]
    exact List.getElem_ofFn _
  have hval : ∀ (f : (j : Fin (level + 1)) → Fin r.n → Fin (q j)) (j : Fin (level + 1)) (i : Fin r.n), (UInt64.ofNat (f j i)).toNat = f j i := by
    intro f j i
    have h1 := (f j i).2
    have h2 := (r.sub j).q.toNat_lt
    simp only [q] at h1
    rw [UInt64.toNat_ofNat', Nat.mod_eq_of_lt (by omega)]
  let A : ((j : Fin (level + 1)) → Fin r.n → Fin (q j)) → Set (ℕ → UInt8) := fun f =>
    {s | ∃ fuel prng', uniformReadLvl fuel r level ⟨s, pos, clk⟩ pol
        = some (vs f ++ pol.drop (level + 1), prng') ∧ (fun i => s (prng'.pos + i)) ∈ Set.univ}
  have hA : ∀ f, MeasurableSet (A f) ∧ randomBytes (A f) = ∏ j : Fin (level + 1), (q j : ℝ≥0∞)⁻¹ ^ r.n := by
    intro f
    obtain ⟨h1, h2⟩ := uniform_event hr hl pos clk hp (vs := vs f) (by simp [vs]) (fun j hj => by
      rw [show j = ((⟨j, by omega⟩ : Fin (level + 1)) : ℕ) from rfl, hrow]
      refine ⟨by simp, fun x hx => ?_⟩
      obtain ⟨i, rfl⟩ := List.mem_ofFn.1 hx
      rw [UInt64.lt_iff_toNat_lt, hval]
      exact (f ⟨j, by omega⟩ i).2) MeasurableSet.univ
    refine ⟨h1, h2.trans ?_⟩
    rw [measure_univ, mul_one, ← Fin.prod_univ_eq_prod_range (fun j => ((r.sub j).q.toNat : ℝ≥0∞)⁻¹ ^ r.n)]
  have hdisj : Pairwise (Function.onFun Disjoint A) := by
    intro f g hfg
    rw [Function.onFun, Set.disjoint_left]
    rintro s ⟨f1, p1, h1, -⟩ ⟨f2, p2, h2, -⟩
    have h3 := uniformReadLvl_mono (le_max_left f1 f2) h1
    rw [uniformReadLvl_mono (le_max_right f1 f2) h2, Option.some.injEq, Prod.mk.injEq] at h3
    have h4 := List.append_cancel_right h3.1
    refine hfg (funext fun j => funext fun i => Fin.ext ?_)
    have h5 : (List.ofFn fun i => UInt64.ofNat (f j i)) = List.ofFn fun i => UInt64.ofNat (g j i) := by
      rw [← hrow f j, ← hrow g j, h4]
    have h6 := congrArg UInt64.toNat (congrFun (List.ofFn_injective h5) i)
    rwa [hval, hval] at h6
  calc (1 : ℝ≥0∞) = ∑ f, randomBytes (A f) := by
        rw [sum_congr rfl fun f _ => (hA f).2, sum_const, card_univ, nsmul_eq_mul]
        simp only [Fintype.card_pi, Fintype.card_fin, prod_const, card_univ]
        push_cast
        rw [← prod_mul_distrib]
        refine (prod_eq_one fun j _ => ?_).symm
        have h0 : (q j : ℝ≥0∞) ≠ 0 := by
          have := (hr.subAt (i := j) (by omega)).prime.pos
          exact_mod_cast this.ne'
        rw [← mul_pow, ENNReal.mul_inv_cancel h0 (ENNReal.natCast_ne_top _), one_pow]
    _ = randomBytes (⋃ f, A f) := by rw [measure_iUnion hdisj fun f => (hA f).1, tsum_fintype]
    _ ≤ _ := measure_mono (Set.iUnion_subset fun f s hs => by
        obtain ⟨fuel, prng', h, -⟩ := hs
        exact ⟨fuel, _, h⟩)

/-- the residues of the integers `T`, in Montgomery form if asked for -/
def ternaryVec (r : Ring) (mont : Bool) (T : ℕ → ℤ) (u k : ℕ) : ZMod (r.sub u).q.toNat :=
  ((T k : ℤ) : ZMod (r.sub u).q.toNat) * (if mont then 2 ^ 64 else 1)

theorem ternaryVec_inj {n : ℕ} {r : Ring} (hr : r.Valid n) (hl : 0 < r.subs.length) {mont : Bool} {T T' : ℕ → ℤ} {k : ℕ}
    (hT : T k = 0 ∨ T k = 1 ∨ T k = -1) (hT' : T' k = 0 ∨ T' k = 1 ∨ T' k = -1)
    (h : ternaryVec r mont T 0 k = ternaryVec r mont T' 0 k) : T k = T' k := by
  have hv := hr.subAt hl
  have h3 : 2 < (r.sub 0).q.toNat := by
    have h1 := hv.prime.two_le
    have h2 := hv.odd
    omega
  haveI := Fact.mk hv.prime
  have hR : (if mont then (2 : ZMod (r.sub 0).q.toNat) ^ 64 else 1) ≠ 0 := by
    split
    · refine pow_ne_zero _ ?_
      intro h2
      have : ((2 : ℕ) : ZMod (r.sub 0).q.toNat) = 0 := by exact_mod_cast h2
      rw [ZMod.natCast_eq_zero_iff] at this
      have := Nat.le_of_dvd (by omega) this
      omega
    · exact one_ne_zero
  have h1 := mul_right_cancel₀ hR h
  have h2 : (((T k - T' k : ℤ)) : ZMod (r.sub 0).q.toNat) = 0 := by push_cast; rw [h1, sub_self]
  rw [ZMod.intCast_zmod_eq_zero_iff_dvd] at h2
  by_contra hne
  have h5 := Int.le_of_dvd (b := |T k - T' k|) (abs_pos.2 (sub_ne_zero.2 hne)) ((dvd_abs _ _).2 h2)
  have h6 : |T k - T' k| ≤ 2 := by
    rw [abs_le]
    omega
  omega

/-- **C105, ternary sampler with `p = 1/2`.** On a random byte stream, read from any position: the coefficients are
independent, `0` with probability 1/2 and `1`, `-1` with probability 1/4 each, and the bytes that the generator
yields afterwards are independent of them and random again.  Partial: false for `p = 1/3` (`C105_proba_violated`). -/
theorem C105_half_partial {n : ℕ} {r : Ring} (hr : r.Valid n) {level : ℕ} (hl : level < r.subs.length) (mont : Bool) (pos : ℕ)
    (clk : UInt64) {pol : Rows} (hp : level < pol.length) {T : ℕ → ℤ} (hT : ∀ k < r.n, T k = 0 ∨ T k = 1 ∨ T k = -1)
    {E : Set (ℕ → UInt8)} (hE : MeasurableSet E) :
    randomBytes {s | PolyIs r level r.qs (ternaryHalf r mont level ⟨s, pos, clk⟩ pol).1 (ternaryVec r mont T) ∧
        (fun i => s ((ternaryHalf r mont level ⟨s, pos, clk⟩ pol).2.pos + i)) ∈ E}
      = (∏ k ∈ range r.n, if T k = 0 then 2⁻¹ else 4⁻¹) * randomBytes E := by
  have h4 := hr.four_le
  obtain ⟨M, hM⟩ : ∃ M, r.n = 8 * M := ⟨2 ^ (n - 3), by
    rw [hr.deg, show n = 3 + (n - 3) by omega, pow_add]; simp⟩
  have hM8 : r.n / 8 = M := by omega
  set S1 : ℕ → Finset Bool := fun k => {decide (T k ≠ 0)} with hS1
  set S2 : ℕ → Finset Bool := fun k => if T k = 0 then univ else {decide (T k = -1)} with hS2
  have hset : {s | PolyIs r level r.qs (ternaryHalf r mont level ⟨s, pos, clk⟩ pol).1 (ternaryVec r mont T) ∧
        (fun i => s ((ternaryHalf r mont level ⟨s, pos, clk⟩ pol).2.pos + i)) ∈ E}
      = {s | dropBytes pos s ∈ {s1 | (∀ k < 8 * M, bitAt s1 k ∈ S1 k) ∧
          dropBytes M s1 ∈ {s2 | (∀ k < 8 * M, bitAt s2 k ∈ S2 k) ∧ dropBytes M s2 ∈ E}}} := by
    ext s
    simp only [Set.mem_ofPred_eq]
    have hdrop : (fun i => s ((ternaryHalf r mont level ⟨s, pos, clk⟩ pol).2.pos + i))
        = dropBytes M (dropBytes M (dropBytes pos s)) := by
      rw [dropBytes_dropBytes, dropBytes_dropBytes]
      funext i
      simp only [ternaryHalf, Prng.read, dropBytes, hM8]
      congr 1
      omega
    have hC := C43_half hr hl mont ⟨s, pos, clk⟩ hp
    simp only at hC
    set T' : ℕ → ℤ := fun k => if byteBit (s (pos + k / 8)) (k % 8) = 0 then 0
      else if byteBit (s (pos + r.n / 8 + k / 8)) (k % 8) = 0 then 1 else -1 with hT'
    have hT'' : ∀ k, T' k = 0 ∨ T' k = 1 ∨ T' k = -1 := by
      intro k
      simp only [hT']
      split
      · exact Or.inl rfl
      · split
        · exact Or.inr (Or.inl rfl)
        · exact Or.inr (Or.inr rfl)
    have hiff : PolyIs r level r.qs (ternaryHalf r mont level ⟨s, pos, clk⟩ pol).1 (ternaryVec r mont T)
        ↔ ∀ k < r.n, T' k = T k := by
      constructor
      · intro h k hk
        exact ternaryVec_inj hr (by omega) (hT'' k) (hT k hk)
          (((hC.is.row 0 (by omega)).val k hk).symm.trans ((h.row 0 (by omega)).val k hk))
      · intro h
        exact hC.is.congr fun u _ k hk => by rw [ternaryVec, ← h k hk]
    have hbits : (∀ k < r.n, T' k = T k) ↔ (∀ k < 8 * M, bitAt (dropBytes pos s) k ∈ S1 k) ∧
        ∀ k < 8 * M, bitAt (dropBytes M (dropBytes pos s)) k ∈ S2 k := by
      rw [← forall_and, hM]
      refine forall_congr' fun k => ?_
      rw [← imp_and]
      refine imp_congr_right fun hk => ?_
      have e1 := byteBit_eq_zero (s (pos + k / 8)) (i := k % 8) (by omega)
      have e2 := byteBit_eq_zero (s (pos + r.n / 8 + k / 8)) (i := k % 8) (by omega)
      have b1 : bitAt (dropBytes pos s) k = (s (pos + k / 8)).toNat.testBit (k % 8) := rfl
      have b2 : bitAt (dropBytes M (dropBytes pos s)) k = (s (pos + r.n / 8 + k / 8)).toNat.testBit (k % 8) := by
        rw [dropBytes_dropBytes, hM8]; rfl
      rw [b1, b2]
      simp only [hT', hS1, hS2, e1, e2]
      cases (s (pos + k / 8)).toNat.testBit (k % 8) <;> cases (s (pos + r.n / 8 + k / 8)).toNat.testBit (k % 8) <;>
        rcases hT k (by omega) with h | h | h <;> simp [h]
    rw [hiff, hbits, hdrop, and_assoc]
  obtain ⟨g1, g2⟩ := bits_apply M S2 hE
  obtain ⟨f1, f2⟩ := bits_apply M S1 g1
  rw [hset, dropBytes_apply pos f1, f2, g2, ← mul_assoc, ← prod_mul_distrib, hM]
  congr 1
  refine prod_congr rfl fun k _ => ?_
  have hq : (2⁻¹ : ℝ≥0∞) * 2⁻¹ = 4⁻¹ := by
    rw [← ENNReal.mul_inv (by simp) (by simp)]; norm_num
  have h2 : (2 : ℝ≥0∞) * 2⁻¹ = 1 := ENNReal.mul_inv_cancel (by simp) (by simp)
  simp only [hS1, hS2]
  split
  · simp [h2]
  · simp [hq]

end FastKsw.Props
