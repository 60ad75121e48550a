import Verif.Lemmas.RandomSparse
import Verif.Props.Distribution
import Mathlib.Data.Fintype.Perm
import Mathlib.Data.Fintype.CardEmbedding

/-!
# C105: the distribution of the sampler of fixed Hamming weight
-/

namespace FastKsw.Props

open MeasureTheory Finset
open scoped ENNReal

theorem sparseWrites_fst (signs : List UInt8) (ps : List ℕ) : ∀ i, (sparseWrites signs i ps).map Prod.fst = ps := by
  induction ps with
  | nil => intro i; rfl
  | cons p ps ih => intro i; simp [sparseWrites, ih]

theorem sparseWrites_mem (signs : List UInt8) (ps : List ℕ) : ∀ (i : ℕ) {t : ℕ} (_ : t < ps.length),
    (ps.getD t 0, (byteBit (signs.getD ((i + t) / 8) 0) ((i + t) % 8)).toNat + 1) ∈ sparseWrites signs i ps := by
  induction ps with
  | nil => intro i t h; simp at h
  | cons p ps ih =>
    intro i t h
    cases t with
    | zero => simp [sparseWrites]
    | succ t =>
      have := ih (i + 1) (t := t) (by simpa using h)
      rw [sparseWrites, List.getD_cons_succ, show i + (t + 1) = i + 1 + t by omega]
      exact List.mem_cons_of_mem _ this

/-- the coefficients that the sampler writes -/
theorem sparse_writes_is {n : ℕ} {r : Ring} (hr : r.Valid n) {level : ℕ} (hl : level < r.subs.length) (mont : Bool)
    {pol : Rows} (hp : level < pol.length) (hlen : ∀ j ≤ level, (pol.row j).length = r.n) (signs : List UInt8)
    {ps rest : List ℕ} (hperm : List.Perm (ps ++ rest) (List.range r.n)) {T : ℕ → ℤ}
    (hT0 : ∀ k ∈ rest, T k = 0)
    (hT1 : ∀ t < ps.length, T (ps.getD t 0) = if byteBit (signs.getD (t / 8) 0) (t % 8) = 0 then 1 else -1) :
    PolyIs r level r.qs (writeLvl level (fun k => applyWrites (ternaryValue (r.sub k) mont)
      (sparseWrites signs 0 ps ++ rest.map fun i => (i, 0)) (pol.row k)) pol) (ternaryVec r mont T) := by
  set all := sparseWrites signs 0 ps ++ rest.map fun i => (i, 0) with hall
  have hfst : all.map Prod.fst = ps ++ rest := by simp [hall, Function.comp_def, sparseWrites_fst]
  have hnd : (all.map Prod.fst).Nodup := by
    rw [hfst]
    exact hperm.nodup_iff.2 List.nodup_range
  have hex : ∀ k, ∃ v, k < r.n → (k, v) ∈ all ∧ ternaryInt v = T k := by
    intro k
    by_cases hk : k < r.n
    · have hm := hperm.mem_iff.2 (List.mem_range.2 hk)
      rcases List.mem_append.1 hm with h | h
      · obtain ⟨t, ht, rfl⟩ := List.getElem_of_mem h
        refine ⟨_, fun _ => ⟨List.mem_append_left _ (getD_lt ps 0 ht ▸ sparseWrites_mem signs ps 0 ht), ?_⟩⟩
        have := hT1 t ht
        rw [getD_lt ps 0 ht] at this
        rw [this, zero_add, byteBit_eq _ (Nat.mod_lt _ (by omega))]
        cases (signs.getD (t / 8) 0).toNat.testBit (t % 8) <;> simp [ternaryInt]
      · exact ⟨0, fun _ => ⟨List.mem_append_right _ (List.mem_map.2 ⟨k, h, rfl⟩), by rw [hT0 k h]; rfl⟩⟩
    · exact ⟨0, fun h => absurd h hk⟩
  choose idx hidx using hex
  refine (ternaryRows_is hr mont hl hp (idx := idx) fun j hj => ⟨?_, fun k hk => ?_⟩).is.congr fun u _ k hk => ?_
  · rw [applyWrites_length, hlen j hj]
  · exact applyWrites_mem _ _ hnd (hidx k hk).1 _ (by rw [hlen j hj]; exact hk)
  · rw [ternaryVec, (hidx k hk).2]

/-- the signs that make the positions `ps` hold `T` -/
def signBits (T : ℕ → ℤ) (ps : List ℕ) (k : ℕ) : Finset Bool :=
  if k < ps.length then {decide (T (ps.getD k 0) = -1)} else univ

theorem sparse_event_iff {n : ℕ} {r : Ring} (hr : r.Valid n) (hn : n < 32) {level : ℕ} (hl : level < r.subs.length)
    (mont : Bool) {hw h : ℕ} (hh : h = min hw r.n) (pos : ℕ) (clk : UInt64) {pol : Rows} (hp : level < pol.length)
    (hlen : ∀ j ≤ level, (pol.row j).length = r.n) {T : ℕ → ℤ} (hT : ∀ k < r.n, T k = 0 ∨ T k = 1 ∨ T k = -1)
    (hc : #{k ∈ range r.n | T k ≠ 0} = h) (E : Set (ℕ → UInt8)) (s : ℕ → UInt8) :
    (∃ fuel out prng', ternarySparse fuel r mont hw level ⟨s, pos, clk⟩ pol = some (out, prng') ∧
        PolyIs r level r.qs out (ternaryVec r mont T) ∧ (fun i => s (prng'.pos + i)) ∈ E)
    ↔ ∃ ps ∈ (({k ∈ range r.n | T k ≠ 0} : Finset ℕ).toList.permutations).toFinset,
        (∀ k < 8 * ((h + 7) / 8), bitAt (dropBytes pos s) k ∈ signBits T ps k) ∧
        dropBytes ((h + 7) / 8) (dropBytes pos s) ∈ {s | ∃ fuel rest s',
          specLoop fuel r.n ps.length 0 (List.range r.n) s = some (ps, rest, s') ∧ s' ∈ E} := by
  have hw' : (if hw > r.n then r.n else hw) = h := by rw [hh]; split <;> omega
  have hN : r.n < 2 ^ 64 := by
    rw [hr.deg]
    exact Nat.pow_lt_pow_right (by omega) (by omega)
  set L := (h + 7) / 8 with hL
  set signs := (Prng.read ⟨s, pos, clk⟩ L).1 with hsigns
  have hsb : ∀ t < h, ((signs.getD (t / 8) 0).toNat.testBit (t % 8)) = bitAt (dropBytes pos s) t := by
    intro t ht
    have h8 : t / 8 < L := by omega
    rw [hsigns, Prng.read, bitAt, dropBytes]
    simp [List.getD, h8]
  -- both directions go through the positions drawn
  have key : ∀ (fuel : ℕ) (ps rest : List ℕ) (p' : ℕ) (c' : UInt64),
      sparseLoop fuel r.n signs h 0 (List.range r.n) ⟨s, pos + L, clk + 1⟩
        = some (sparseWrites signs 0 ps, rest, ⟨s, p', c'⟩) →
      ps.length = h ∧
      (PolyIs r level r.qs (writeLvl level (fun k => applyWrites (ternaryValue (r.sub k) mont)
        (sparseWrites signs 0 ps ++ rest.map fun i => (i, 0)) (pol.row k)) pol) (ternaryVec r mont T)
      ↔ List.Perm ps ({k ∈ range r.n | T k ≠ 0} : Finset ℕ).toList ∧
        ∀ k < 8 * L, bitAt (dropBytes pos s) k ∈ signBits T ps k) := by
    intro fuel ps rest p' c' hx
    obtain ⟨h1, h2, -⟩ := sparseLoop_is hN _ (by omega) (by simp) hx
    rw [sparseWrites_fst] at h2
    have hplen : ps.length = h := by
      rw [← h1, ← List.length_map (f := Prod.fst) (as := sparseWrites signs 0 ps), sparseWrites_fst]
    have hnd := h2.nodup_iff.2 List.nodup_range
    obtain ⟨hnp, hnr, hdis⟩ := List.nodup_append.1 hnd
    have hmem : ∀ k, k < r.n ↔ k ∈ ps ∨ k ∈ rest := fun k => by
      rw [← List.mem_append, h2.mem_iff, List.mem_range]
    -- what the sampler has written
    set T' : ℕ → ℤ := fun k => if k ∈ ps then
      (if byteBit (signs.getD (ps.idxOf k / 8) 0) (ps.idxOf k % 8) = 0 then 1 else -1) else 0 with hT'
    have hT't : ∀ t < ps.length, T' (ps.getD t 0) = if bitAt (dropBytes pos s) t then -1 else 1 := by
      intro t ht
      have e1 : ps.idxOf (ps.getD t 0) = t := by rw [getD_lt _ _ ht]; exact hnp.idxOf_getElem t ht
      have e2 : ps.getD t 0 ∈ ps := by rw [getD_lt _ _ ht]; exact List.getElem_mem ht
      simp only [hT', e1, e2, if_true]
      rw [byteBit_eq _ (Nat.mod_lt _ (by omega)), hsb t (by omega)]
      cases bitAt (dropBytes pos s) t <;> rfl
    have hT'0 : ∀ k ∈ rest, T' k = 0 := by
      intro k hk
      simp only [hT']
      rw [if_neg fun hkp => hdis k hkp k hk rfl]
    have hT'v : ∀ k, T' k = 0 ∨ T' k = 1 ∨ T' k = -1 := by
      intro k
      simp only [hT']
      split
      · split
        · exact Or.inr (Or.inl rfl)
        · exact Or.inr (Or.inr rfl)
      · exact Or.inl rfl
    have hW := sparse_writes_is hr hl mont hp hlen signs h2 (T := T') hT'0 (fun t ht => by
      rw [hT't t ht, byteBit_eq _ (Nat.mod_lt _ (by omega)), hsb t (by omega)]
      cases bitAt (dropBytes pos s) t <;> rfl)
    refine ⟨hplen, ?_⟩
    have hiff : PolyIs r level r.qs (writeLvl level (fun k => applyWrites (ternaryValue (r.sub k) mont)
        (sparseWrites signs 0 ps ++ rest.map fun i => (i, 0)) (pol.row k)) pol) (ternaryVec r mont T)
        ↔ ∀ k < r.n, T' k = T k := by
      constructor
      · intro h k hk
        exact ternaryVec_inj hr (by omega) (hT'v k) (hT k hk)
          (((hW.row 0 (by omega)).val k hk).symm.trans ((h.row 0 (by omega)).val k hk))
      · intro h
        exact hW.congr fun u _ k hk => by rw [ternaryVec, ternaryVec, ← h k hk]
    rw [hiff]
    constructor
    · intro hTT
      have hsupp : ∀ k, k ∈ ps ↔ k ∈ ({k ∈ range r.n | T k ≠ 0} : Finset ℕ).toList := by
        intro k
        rw [Finset.mem_toList, Finset.mem_filter, Finset.mem_range]
        constructor
        · intro hk
          have hkn := (hmem k).2 (Or.inl hk)
          refine ⟨hkn, ?_⟩
          rw [← hTT k hkn]
          simp only [hT', if_pos hk]
          split <;> simp
        · rintro ⟨hkn, hne⟩
          rcases (hmem k).1 hkn with h | h
          · exact h
          · exact absurd ((hTT k hkn).symm.trans (hT'0 k h)) hne
      refine ⟨(List.perm_ext_iff_of_nodup hnp (Finset.nodup_toList _)).2 hsupp, fun k hk => ?_⟩
      rw [signBits]
      split
      · rename_i hkl
        have hkm : ps.getD k 0 ∈ ps := by rw [getD_lt _ _ hkl]; exact List.getElem_mem hkl
        rw [← hTT _ ((hmem _).2 (Or.inl hkm)), hT't k hkl]
        cases bitAt (dropBytes pos s) k <;> simp
      · exact Finset.mem_univ _
    · rintro ⟨hperm, hb⟩ k hk
      rcases (hmem k).1 hk with h | h
      · obtain ⟨t, ht, rfl⟩ := List.getElem_of_mem h
        have h3 := hb t (by omega)
        rw [signBits, if_pos ht, Finset.mem_singleton] at h3
        rw [← getD_lt ps 0 ht, hT't t ht, h3]
        have h4 := hperm.mem_iff.1 h
        rw [Finset.mem_toList, Finset.mem_filter, ← getD_lt ps 0 ht] at h4
        rcases hT (ps.getD t 0) (Finset.mem_range.1 h4.1) with h5 | h5 | h5
        · exact absurd h5 h4.2
        · rw [h5]; rfl
        · rw [h5]; rfl
      · rw [hT'0 k h]
        by_contra hne
        have h4 : k ∈ ps := hperm.mem_iff.2 (by
          rw [Finset.mem_toList, Finset.mem_filter, Finset.mem_range]; exact ⟨hk, fun e => hne e.symm⟩)
        exact hdis k h4 k h rfl
  have hcl : ∀ fuel, ternarySparse fuel r mont hw level ⟨s, pos, clk⟩ pol
      = (sparseLoop fuel r.n signs h 0 (List.range r.n) ⟨s, pos + L, clk + 1⟩).map fun a =>
        (writeLvl level (fun k => applyWrites (ternaryValue (r.sub k) mont)
          (a.1 ++ a.2.1.map fun i => (i, 0)) (pol.row k)) pol, a.2.2) := by
    intro fuel
    unfold ternarySparse
    simp only [hw']
    rfl
  constructor
  · rintro ⟨fuel, out, prng', hx, hP, hE⟩
    rw [hcl, Option.map_eq_some_iff] at hx
    obtain ⟨a, hx, e⟩ := hx
    rcases sparseLoop_linked (s := s) (fuel := fuel) (N := r.n) (signs := signs) h 0 (List.range r.n) (pos + L) (clk + 1)
      with ⟨e1, -⟩ | ⟨ps, rest, p', c', e1, e2⟩
    · rw [e1] at hx; cases hx
    · rw [e1] at hx
      cases hx
      simp only [Prod.mk.injEq] at e
      obtain ⟨rfl, rfl⟩ := e
      obtain ⟨k1, k2⟩ := key _ _ _ _ _ e1
      obtain ⟨k3, k4⟩ := k2.1 hP
      refine ⟨ps, List.mem_toFinset.2 (List.mem_permutations.2 k3), k4, fuel, rest, _, ?_, hE⟩
      rw [dropBytes_dropBytes, k1]
      exact e2
  · rintro ⟨ps, hps, hb, fuel, rest, s', hx, hE⟩
    have hperm := List.mem_permutations.1 (List.mem_toFinset.1 hps)
    have hpl : ps.length = h := by rw [hperm.length_eq, Finset.length_toList, hc]
    rw [dropBytes_dropBytes, hpl] at hx
    rcases sparseLoop_linked (s := s) (fuel := fuel) (N := r.n) (signs := signs) h 0 (List.range r.n) (pos + L) (clk + 1)
      with ⟨-, e2⟩ | ⟨ps', rest', p', c', e1, e2⟩
    · rw [e2] at hx; cases hx
    · rw [e2] at hx
      cases hx
      refine ⟨fuel, _, ⟨s, p', c'⟩, (hcl fuel).trans (by rw [e1]; rfl), ((key _ _ _ _ _ e1).2).2 ⟨hperm, hb⟩, hE⟩

theorem sparse_event {n : ℕ} {r : Ring} (hr : r.Valid n) (hn : n < 32) {level : ℕ} (hl : level < r.subs.length)
    (mont : Bool) {hw h : ℕ} (hh : h = min hw r.n) (pos : ℕ) (clk : UInt64) {pol : Rows} (hp : level < pol.length)
    (hlen : ∀ j ≤ level, (pol.row j).length = r.n) {T : ℕ → ℤ} (hT : ∀ k < r.n, T k = 0 ∨ T k = 1 ∨ T k = -1)
    (hc : #{k ∈ range r.n | T k ≠ 0} = h) {E : Set (ℕ → UInt8)} (hE : MeasurableSet E) :
    MeasurableSet {s | ∃ fuel out prng', ternarySparse fuel r mont hw level ⟨s, pos, clk⟩ pol = some (out, prng') ∧
        PolyIs r level r.qs out (ternaryVec r mont T) ∧ (fun i => s (prng'.pos + i)) ∈ E} ∧
    randomBytes {s | ∃ fuel out prng', ternarySparse fuel r mont hw level ⟨s, pos, clk⟩ pol = some (out, prng') ∧
        PolyIs r level r.qs out (ternaryVec r mont T) ∧ (fun i => s (prng'.pos + i)) ∈ E}
      = ((r.n.choose h * 2 ^ h : ℕ) : ℝ≥0∞)⁻¹ * randomBytes E := by
  have hN : r.n < 2 ^ 32 := by
    rw [hr.deg]
    exact Nat.pow_lt_pow_right (by omega) (by omega)
  have hhn : h ≤ r.n := by omega
  set P := (({k ∈ range r.n | T k ≠ 0} : Finset ℕ).toList.permutations).toFinset with hP
  have hPc : P.card = h.factorial := by
    rw [hP, List.toFinset_card_of_nodup (List.nodup_permutations _ (Finset.nodup_toList _)), List.length_permutations,
      Finset.length_toList, hc]
  let B : List ℕ → Set (ℕ → UInt8) := fun ps => {s | (∀ k < 8 * ((h + 7) / 8), bitAt s k ∈ signBits T ps k) ∧
        dropBytes ((h + 7) / 8) s ∈ {s | ∃ fuel rest s',
          specLoop fuel r.n ps.length 0 (List.range r.n) s = some (ps, rest, s') ∧ s' ∈ E}}
  have hset : {s | ∃ fuel out prng', ternarySparse fuel r mont hw level ⟨s, pos, clk⟩ pol = some (out, prng') ∧
        PolyIs r level r.qs out (ternaryVec r mont T) ∧ (fun i => s (prng'.pos + i)) ∈ E}
      = {s | dropBytes pos s ∈ ⋃ ps ∈ P, B ps} := by
    ext s
    rw [Set.mem_ofPred_eq, sparse_event_iff hr hn hl mont hh pos clk hp hlen hT hc E s]
    simp only [Set.mem_ofPred_eq, Set.mem_iUnion, exists_prop, B, hP]
  have hB : ∀ ps ∈ P, MeasurableSet (B ps) ∧ randomBytes (B ps)
      = ((2 ^ h : ℕ) : ℝ≥0∞)⁻¹ * ((r.n.descFactorial h : ℕ) : ℝ≥0∞)⁻¹ * randomBytes E := by
    intro ps hps
    have hperm := List.mem_permutations.1 (List.mem_toFinset.1 hps)
    have hpl : ps.length = h := by rw [hperm.length_eq, Finset.length_toList, hc]
    obtain ⟨h1, h2⟩ := specLoop_apply hN hE ps (i := 0) (index := List.range r.n) (by omega) (by simp) List.nodup_range
      (hperm.nodup_iff.2 (Finset.nodup_toList _)) (fun p hp => by
        have := hperm.mem_iff.1 hp
        rw [Finset.mem_toList, Finset.mem_filter] at this
        exact List.mem_range.2 (Finset.mem_range.1 this.1))
    obtain ⟨h3, h4⟩ := bits_apply ((h + 7) / 8) (signBits T ps) h1
    refine ⟨h3, h4.trans ?_⟩
    rw [h2, ← mul_assoc]
    congr 2
    · have h22 : (2 : ℝ≥0∞) * 2⁻¹ = 1 := ENNReal.mul_inv_cancel (by simp) (by simp)
      rw [prod_congr rfl (g := fun k => if k < h then (2⁻¹ : ℝ≥0∞) else 1) fun k _ => by
        rw [signBits, hpl]
        split <;> simp [h22], prod_ite, prod_const, prod_const_one, mul_one]
      have : ({k ∈ range (8 * ((h + 7) / 8)) | k < h} : Finset ℕ) = range h := by
        ext k
        simp only [Finset.mem_filter, Finset.mem_range]
        omega
      rw [this, card_range, ← ENNReal.inv_pow]
      push_cast
      rfl
    · rw [hpl, Nat.descFactorial_eq_prod_range]
      rw [Nat.cast_prod]
      exact (ENNReal.prod_inv_distrib fun i hi j hj _ => Or.inr (ENNReal.natCast_ne_top _)).symm
  have hmeas : MeasurableSet (⋃ ps ∈ P, B ps) := Finset.measurableSet_biUnion P fun ps hps => (hB ps hps).1
  rw [hset, dropBytes_apply pos hmeas, measure_biUnion_finset ?_ fun ps hps => (hB ps hps).1,
    sum_congr rfl fun ps hps => (hB ps hps).2, sum_const, hPc, nsmul_eq_mul]
  · refine ⟨measurable_dropBytes pos hmeas, ?_⟩
    rw [← mul_assoc]
    congr 1
    rw [Nat.descFactorial_eq_factorial_mul_choose]
    push_cast
    have hf0 : (h.factorial : ℝ≥0∞) ≠ 0 := by exact_mod_cast h.factorial_ne_zero
    have hft : (h.factorial : ℝ≥0∞) ≠ ⊤ := ENNReal.natCast_ne_top _
    rw [ENNReal.mul_inv (Or.inl hf0) (Or.inl hft),
      ENNReal.mul_inv (Or.inr (by simp)) (Or.inl (ENNReal.natCast_ne_top _))]
    rw [show (h.factorial : ℝ≥0∞) * ((2 ^ h)⁻¹ * ((h.factorial : ℝ≥0∞)⁻¹ * (r.n.choose h : ℝ≥0∞)⁻¹))
      = ((h.factorial : ℝ≥0∞) * (h.factorial : ℝ≥0∞)⁻¹) * ((r.n.choose h : ℝ≥0∞)⁻¹ * (2 ^ h)⁻¹) by ring,
      ENNReal.mul_inv_cancel hf0 hft, one_mul]
  · intro ps hps ps' hps' hne
    rw [Function.onFun, Set.disjoint_left]
    rintro s ⟨-, f1, r1, s1, e1, -⟩ ⟨-, f2, r2, s2, e2, -⟩
    have hpl : ∀ ps ∈ P, ps.length = h := fun ps hps => by
      rw [(List.mem_permutations.1 (List.mem_toFinset.1 hps)).length_eq, Finset.length_toList, hc]
    rw [hpl ps hps] at e1
    rw [hpl ps' hps'] at e2
    have e3 := specLoop_mono (le_max_left f1 f2) _ e1
    rw [specLoop_mono (le_max_right f1 f2) _ e2] at e3
    cases e3
    exact hne rfl

/-- **C105, sampler of fixed Hamming weight.** On a random byte stream, read from any position: every ternary
polynomial with exactly `min hw N` non-zero coefficients is returned with the same probability, the inverse of
their number `(N choose h)·2^h`, and the bytes that the generator yields afterwards are independent of the result
and random again. -/
theorem C105_sparse {n : ℕ} {r : Ring} (hr : r.Valid n) (hn : n < 32) {level : ℕ} (hl : level < r.subs.length)
    (mont : Bool) (hw : ℕ) (pos : ℕ) (clk : UInt64) {pol : Rows} (hp : level < pol.length)
    (hlen : ∀ j ≤ level, (pol.row j).length = r.n) {T : ℕ → ℤ} (hT : ∀ k < r.n, T k = 0 ∨ T k = 1 ∨ T k = -1)
    (hc : #{k ∈ range r.n | T k ≠ 0} = min hw r.n) {E : Set (ℕ → UInt8)} (hE : MeasurableSet E) :
    randomBytes {s | ∃ fuel out prng', ternarySparse fuel r mont hw level ⟨s, pos, clk⟩ pol = some (out, prng') ∧
        PolyIs r level r.qs out (ternaryVec r mont T) ∧ (fun i => s (prng'.pos + i)) ∈ E}
      = ((r.n.choose (min hw r.n) * 2 ^ min hw r.n : ℕ) : ℝ≥0∞)⁻¹ * randomBytes E :=
  (sparse_event hr hn hl mont rfl pos clk hp hlen hT hc hE).2

/-- **C105, sampler of fixed Hamming weight.** The rejection loops end with probability one. -/
theorem C105_sparse_returns {n : ℕ} {r : Ring} (hr : r.Valid n) (hn : n < 32) {level : ℕ} (mont : Bool) (hw : ℕ)
    (pos : ℕ) (clk : UInt64) (pol : Rows) :
    randomBytes {s | ∃ fuel out, ternarySparse fuel r mont hw level ⟨s, pos, clk⟩ pol = some out} = 1 := by
  refine le_antisymm prob_le_one ?_
  have hN : r.n < 2 ^ 32 := by
    rw [hr.deg]
    exact Nat.pow_lt_pow_right (by omega) (by omega)
  set h := min hw r.n with hh
  have hw' : (if hw > r.n then r.n else hw) = h := by split <;> omega
  let ps : (Fin h ↪ Fin r.n) → List ℕ := fun e => List.ofFn fun t => (e t : ℕ)
  have hpl : ∀ e, (ps e).length = h := fun e => by simp [ps]
  let A : (Fin h ↪ Fin r.n) → Set (ℕ → UInt8) := fun e => {s | ∃ fuel rest s',
    specLoop fuel r.n (ps e).length 0 (List.range r.n) s = some (ps e, rest, s') ∧ s' ∈ Set.univ}
  have hA : ∀ e, MeasurableSet (A e) ∧ randomBytes (A e) = ((r.n.descFactorial h : ℕ) : ℝ≥0∞)⁻¹ := by
    intro e
    obtain ⟨h1, h2⟩ := specLoop_apply hN MeasurableSet.univ (ps e) (i := 0) (index := List.range r.n)
      (by rw [hpl]; omega) (by simp) List.nodup_range
      (List.nodup_ofFn.2 fun a b hab => e.injective (Fin.ext hab)) (fun p hp => by
        obtain ⟨t, rfl⟩ := List.mem_ofFn.1 hp
        exact List.mem_range.2 (e t).2)
    refine ⟨h1, h2.trans ?_⟩
    rw [measure_univ, mul_one, hpl, Nat.descFactorial_eq_prod_range, Nat.cast_prod]
    exact (ENNReal.prod_inv_distrib fun i hi j hj _ => Or.inr (ENNReal.natCast_ne_top _)).symm
  have hdisj : Pairwise (Function.onFun Disjoint A) := by
    intro e f hef
    rw [Function.onFun, Set.disjoint_left]
    rintro s ⟨f1, r1, s1, e1, -⟩ ⟨f2, r2, s2, e2, -⟩
    rw [hpl] at e1 e2
    have e3 := specLoop_mono (le_max_left f1 f2) _ e1
    rw [specLoop_mono (le_max_right f1 f2) _ e2] at e3
    simp only [Option.some.injEq, Prod.mk.injEq] at e3
    refine hef (DFunLike.ext _ _ fun t => Fin.ext ?_)
    exact (congrFun (List.ofFn_injective e3.1) t).symm
  have hmeas : MeasurableSet (⋃ e, A e) := MeasurableSet.iUnion fun e => (hA e).1
  have hone : randomBytes (⋃ e, A e) = 1 := by
    rw [measure_iUnion hdisj fun e => (hA e).1, tsum_fintype, sum_congr rfl fun e _ => (hA e).2, sum_const, card_univ,
      Fintype.card_embedding_eq, Fintype.card_fin, Fintype.card_fin, nsmul_eq_mul]
    refine ENNReal.mul_inv_cancel ?_ (ENNReal.natCast_ne_top _)
    have := Nat.descFactorial_eq_zero_iff_lt (n := r.n) (k := h)
    have h0 : r.n.descFactorial h ≠ 0 := fun h0 => by omega
    exact_mod_cast h0
  calc (1 : ℝ≥0∞) = randomBytes {s | dropBytes (pos + (h + 7) / 8) s ∈ ⋃ e, A e} := by rw [dropBytes_apply _ hmeas, hone]
    _ ≤ _ := measure_mono fun s hs => by
        simp only [Set.mem_ofPred_eq, Set.mem_iUnion] at hs ⊢
        obtain ⟨e, fuel, rest, s', h1, -⟩ := hs
        rw [hpl] at h1
        refine ⟨fuel, ?_⟩
        unfold ternarySparse
        simp only [hw']
        rcases sparseLoop_linked (s := s) (fuel := fuel) (N := r.n)
          (signs := (Prng.read ⟨s, pos, clk⟩ ((h + 7) / 8)).1) h 0 (List.range r.n) (pos + (h + 7) / 8) (clk + 1)
          with ⟨-, e2⟩ | ⟨ps', rest', p', c', e1, -⟩
        · rw [e2] at h1; cases h1
        · exact ⟨_, by
            rw [show (Prng.read ⟨s, pos, clk⟩ ((h + 7) / 8)).2 = ⟨s, pos + (h + 7) / 8, clk + 1⟩ from rfl, e1]
            rfl⟩

end FastKsw.Props
