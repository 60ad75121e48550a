import Verif.Lemmas.RandomUniform
import Verif.Lemmas.RandomBits

/-!
# The sampler of fixed Hamming weight on a random byte stream
-/

namespace FastKsw

open MeasureTheory Finset
open scoped ENNReal

/-- the decision of the rejection loop on four bytes -/
def sparseAcc (mask bound : UInt64) (b : Fin 4 → UInt8) : Option UInt64 :=
  if mask &&& beUint (List.ofFn b) ≥ bound then none else some (mask &&& beUint (List.ofFn b))

theorem read_ofFn (s : ℕ → UInt8) (p L : ℕ) (c : UInt64) :
    (Prng.read ⟨s, p, c⟩ L).1 = List.ofFn (prefixOf L (dropBytes p s)) := by
  rw [List.ofFn_eq_map, Prng.read, ← List.map_coe_finRange_eq_range, List.map_map]
  rfl

theorem sparseDraw_linked {s : ℕ → UInt8} {mask bound : UInt64} {fuel : ℕ} : ∀ (p : ℕ) (c : UInt64) (k : ℕ),
    (sparseDraw mask bound fuel ⟨s, p, c⟩ = none ∧ reject 4 (sparseAcc mask bound) fuel k (dropBytes p s) = none) ∨
    ∃ j p' c' k', sparseDraw mask bound fuel ⟨s, p, c⟩ = some (j, ⟨s, p', c'⟩) ∧
      reject 4 (sparseAcc mask bound) fuel k (dropBytes p s) = some (j, k', dropBytes p' s) := by
  induction fuel with
  | zero => intro p c k; exact Or.inl ⟨rfl, rfl⟩
  | succ fuel ih =>
    intro p c k
    rw [sparseDraw, reject, read_ofFn, sparseAcc]
    split
    · simp only [dropBytes_dropBytes]
      exact ih (p + 4) (c + 1) (k + 1)
    · simp only [dropBytes_dropBytes]
      exact Or.inr ⟨_, _, _, _, rfl, rfl⟩

/-- one draw is uniform -/
theorem sparseAcc_uniform {M : ℕ} (hM0 : 0 < M) (hM : M < 2 ^ 32) {E : Set (ℕ → UInt8)} (hE : MeasurableSet E)
    {j : ℕ} (hj : j < M) :
    MeasurableSet {s | ∃ fuel k' s', reject 4 (sparseAcc (UInt64.ofNat (2 ^ len64 M) - 1) (UInt64.ofNat M)) fuel 0 s
      = some (UInt64.ofNat j, k', s') ∧ s' ∈ E} ∧
    randomBytes {s | ∃ fuel k' s', reject 4 (sparseAcc (UInt64.ofNat (2 ^ len64 M) - 1) (UInt64.ofNat M)) fuel 0 s
      = some (UInt64.ofNat j, k', s') ∧ s' ∈ E} = (M : ℝ≥0∞)⁻¹ * randomBytes E := by
  have hlen : M < 2 ^ len64 M ∧ len64 M ≤ 32 := by
    unfold len64
    rw [if_neg hM0.ne']
    have := (Nat.log2_lt (n := M) (k := 32) hM0.ne').2 hM
    exact ⟨Nat.lt_log2_self, by omega⟩
  have hpow : 2 ^ len64 M ≤ 2 ^ 32 := Nat.pow_le_pow_right (by omega) hlen.2
  have hone : 1 ≤ 2 ^ len64 M := Nat.one_le_two_pow
  have hmask : (UInt64.ofNat (2 ^ len64 M) - 1).toNat = 2 ^ len64 M - 1 := by
    rw [UInt64.toNat_sub_of_le, UInt64.toNat_ofNat', Nat.mod_eq_of_lt (by omega)]
    · rfl
    · rw [UInt64.le_iff_toNat_le, UInt64.toNat_ofNat', Nat.mod_eq_of_lt (by omega)]
      exact hone
  have hMn : (UInt64.ofNat M).toNat = M := by rw [UInt64.toNat_ofNat', Nat.mod_eq_of_lt (by omega)]
  have h := reject_uniform (sparseAcc (UInt64.ofNat (2 ^ len64 M) - 1) (UInt64.ofNat M)) (fun _ => hE) (fun _ => rfl)
    (V := valuesBelow (UInt64.ofNat M)) (m := 2 ^ (8 * 4 - len64 M)) (fun b v h => ?_) (by positivity) (fun v hv => ?_)
    (v := UInt64.ofNat j) (mem_valuesBelow.2 (by
      rw [UInt64.lt_iff_toNat_lt, hMn, UInt64.toNat_ofNat', Nat.mod_eq_of_lt (by omega)]; exact hj)) 0
  · rwa [card_valuesBelow, hMn] at h
  · rw [sparseAcc] at h
    split at h
    · cases h
    · cases h
      exact mem_valuesBelow.2 (UInt64.not_le.1 ‹_›)
  · have hv := UInt64.lt_iff_toNat_lt.1 (mem_valuesBelow.1 hv)
    rw [hMn] at hv
    refine Eq.trans ?_ (card_mod_two_pow (L := 4) (m := len64 M) (v := v.toNat) (by omega) (by omega))
    rw [blocksOf]
    refine congrArg Finset.card (filter_congr fun b _ => ?_)
    have hb : ((UInt64.ofNat (2 ^ len64 M) - 1) &&& beUint (List.ofFn b)).toNat = bytesNat 4 b % 2 ^ len64 M := by
      rw [UInt64.toNat_and, hmask, Nat.and_comm, Nat.and_two_pow_sub_one_eq_mod, beUint_ofFn (by omega)]
    rw [sparseAcc, ← hb]
    split
    · rename_i hn
      have hn := UInt64.le_iff_toNat_le.1 hn
      rw [hMn] at hn
      simp only [reduceCtorEq, false_iff]
      omega
    · rw [Option.some.injEq, ← UInt64.toNat_inj]

/-- `index` without its `j`-th entry, as in the code -/
def swapRemove (index : List ℕ) (j : ℕ) : List ℕ := (index.set j (index.getD (index.length - 1) 0)).dropLast

/-- the positions drawn by `sampleSparse` -/
def specLoop (fuel N : ℕ) : ℕ → ℕ → List ℕ → (ℕ → UInt8) → Option (List ℕ × List ℕ × (ℕ → UInt8))
  | 0, _, index, s => some ([], index, s)
  | todo + 1, i, index, s =>
    (reject 4 (sparseAcc (UInt64.ofNat (2 ^ len64 (N - i)) - 1) (UInt64.ofNat (N - i))) fuel 0 s).bind fun a =>
      (specLoop fuel N todo (i + 1) (swapRemove index a.1.toNat) a.2.2).bind fun b =>
        some (index.getD a.1.toNat 0 :: b.1, b.2)

/-- the writes for positions `ps`, the first of which is the `i`-th -/
def sparseWrites (signs : List UInt8) : ℕ → List ℕ → List (ℕ × ℕ)
  | _, [] => []
  | i, p :: ps => (p, (byteBit (signs.getD (i / 8) 0) (i % 8)).toNat + 1) :: sparseWrites signs (i + 1) ps

theorem sparseLoop_linked {s : ℕ → UInt8} {fuel N : ℕ} {signs : List UInt8} (todo : ℕ) : ∀ (i : ℕ) (index : List ℕ)
    (p : ℕ) (c : UInt64),
    (sparseLoop fuel N signs todo i index ⟨s, p, c⟩ = none ∧ specLoop fuel N todo i index (dropBytes p s) = none) ∨
    ∃ ps rest p' c', sparseLoop fuel N signs todo i index ⟨s, p, c⟩ = some (sparseWrites signs i ps, rest, ⟨s, p', c'⟩) ∧
      specLoop fuel N todo i index (dropBytes p s) = some (ps, rest, dropBytes p' s) := by
  induction todo with
  | zero => intro i index p c; exact Or.inr ⟨[], _, _, _, rfl, rfl⟩
  | succ todo ih =>
    intro i index p c
    rw [sparseLoop, specLoop]
    simp only
    rcases sparseDraw_linked (s := s) (mask := UInt64.ofNat (2 ^ len64 (N - i)) - 1) (bound := UInt64.ofNat (N - i))
      (fuel := fuel) p c 0 with ⟨h1, h2⟩ | ⟨j, p', c', k', h1, h2⟩
    · rw [h1, h2]
      exact Or.inl ⟨rfl, rfl⟩
    · rw [h1, h2, Option.bind_some, Option.bind_some]
      simp only
      rcases ih (i + 1) (swapRemove index j.toNat) p' c' with ⟨h3, h4⟩ | ⟨ps, rest, p2, c2, h3, h4⟩
      · rw [h4, show (index.set j.toNat (index.getD (index.length - 1) 0)).dropLast = swapRemove index j.toNat from rfl, h3]
        exact Or.inl ⟨rfl, rfl⟩
      · rw [h4, show (index.set j.toNat (index.getD (index.length - 1) 0)).dropLast = swapRemove index j.toNat from rfl, h3]
        exact Or.inr ⟨index.getD j.toNat 0 :: ps, rest, p2, c2, rfl, rfl⟩

theorem specLoop_mono {N : ℕ} {fuel fuel' : ℕ} (hf : fuel ≤ fuel') (todo : ℕ) : ∀ {i : ℕ} {index : List ℕ} {s : ℕ → UInt8}
    {x : List ℕ × List ℕ × (ℕ → UInt8)}, specLoop fuel N todo i index s = some x →
      specLoop fuel' N todo i index s = some x := by
  induction todo with
  | zero => intro i index s x h; exact h
  | succ todo ih =>
    intro i index s x h
    rw [specLoop, Option.bind_eq_some_iff] at h
    obtain ⟨a, ha, h⟩ := h
    rw [Option.bind_eq_some_iff] at h
    obtain ⟨b, hb, h⟩ := h
    rw [specLoop, reject_mono hf ha, Option.bind_some, ih hb, Option.bind_some, h]

/-- every sequence of positions is equally probable -/
theorem specLoop_apply {N : ℕ} (hN : N < 2 ^ 32) {E : Set (ℕ → UInt8)} (hE : MeasurableSet E) (ps : List ℕ) :
    ∀ {i : ℕ} {index : List ℕ} (_ : i + ps.length ≤ N) (_ : index.length = N - i) (_ : index.Nodup) (_ : ps.Nodup)
      (_ : ∀ p ∈ ps, p ∈ index),
    MeasurableSet {s | ∃ fuel rest s', specLoop fuel N ps.length i index s = some (ps, rest, s') ∧ s' ∈ E} ∧
    randomBytes {s | ∃ fuel rest s', specLoop fuel N ps.length i index s = some (ps, rest, s') ∧ s' ∈ E}
      = (∏ t ∈ range ps.length, ((N - i - t : ℕ) : ℝ≥0∞)⁻¹) * randomBytes E := by
  induction ps with
  | nil =>
    intro i index _ _ _ _ _
    have : {s | ∃ fuel rest s', specLoop fuel N ([] : List ℕ).length i index s = some ([], rest, s') ∧ s' ∈ E} = E := by
      ext s
      simp [specLoop]
    rw [this]
    simp [hE]
  | cons p ps ih =>
    intro i index hi hlen hnd hps hsub
    rw [List.length_cons] at hi
    obtain ⟨j, hj, hjp⟩ := List.getElem_of_mem (hsub p List.mem_cons_self)
    have hget : index.getD j 0 = p := by simp [List.getD, hj, hjp]
    have hperm := swapRemove_perm index hj
    rw [hget] at hperm
    change List.Perm (p :: swapRemove index j) index at hperm
    have hnd' : (swapRemove index j).Nodup := (List.nodup_cons.1 (hperm.nodup_iff.2 hnd)).2
    have hlen' : (swapRemove index j).length = N - (i + 1) := by
      have := hperm.length_eq
      rw [List.length_cons] at this
      omega
    have hsub' : ∀ x ∈ ps, x ∈ swapRemove index j := by
      intro x hx
      rcases List.mem_cons.1 (hperm.mem_iff.2 (hsub x (List.mem_cons_of_mem _ hx))) with rfl | h
      · exact absurd hx (List.nodup_cons.1 hps).1
      · exact h
    obtain ⟨h1, h2⟩ := ih (i := i + 1) (index := swapRemove index j) (by omega) hlen' hnd' (List.nodup_cons.1 hps).2 hsub'
    have hjn : (UInt64.ofNat j).toNat = j := by rw [UInt64.toNat_ofNat', Nat.mod_eq_of_lt (by omega)]
    have hset : {s | ∃ fuel rest s', specLoop fuel N (p :: ps).length i index s = some (p :: ps, rest, s') ∧ s' ∈ E}
        = {s | ∃ fuel k' s', reject 4 (sparseAcc (UInt64.ofNat (2 ^ len64 (N - i)) - 1) (UInt64.ofNat (N - i))) fuel 0 s
            = some (UInt64.ofNat j, k', s') ∧ s' ∈ {s | ∃ fuel rest s',
              specLoop fuel N ps.length (i + 1) (swapRemove index j) s = some (ps, rest, s') ∧ s' ∈ E}} := by
      ext s
      simp only [Set.mem_ofPred_eq, List.length_cons, specLoop]
      constructor
      · rintro ⟨fuel, rest, s', h, hs⟩
        rw [Option.bind_eq_some_iff] at h
        obtain ⟨⟨a, k1, s1⟩, ha, h⟩ := h
        rw [Option.bind_eq_some_iff] at h
        obtain ⟨⟨b, k2, s2⟩, hb, h⟩ := h
        simp only [Option.some.injEq, Prod.mk.injEq, List.cons.injEq] at h
        obtain ⟨⟨h3, rfl⟩, rfl, rfl⟩ := h
        have hab : a.toNat < index.length := by
          have : a < UInt64.ofNat (N - i) := by
            have h5 : ∀ (fuel k : ℕ) (s : ℕ → UInt8), reject 4 (sparseAcc (UInt64.ofNat (2 ^ len64 (N - i)) - 1)
                (UInt64.ofNat (N - i))) fuel k s = some (a, k1, s1) → a < UInt64.ofNat (N - i) := by
              intro fuel
              induction fuel with
              | zero => intro k s h; simp [reject] at h
              | succ fuel ih5 =>
                intro k s h
                rw [reject] at h
                split at h
                · rename_i v hv
                  cases h
                  rw [sparseAcc] at hv
                  split at hv
                  · cases hv
                  · cases hv
                    exact UInt64.not_le.1 ‹_›
                · exact ih5 _ _ h
            exact h5 _ _ _ ha
          have := UInt64.lt_iff_toNat_lt.1 this
          rw [UInt64.toNat_ofNat', Nat.mod_eq_of_lt (by omega)] at this
          omega
        have haj : a.toNat = j := by
          rw [List.getD_eq_getElem?_getD, List.getElem?_eq_getElem hab, Option.getD_some, ← hjp] at h3
          exact (List.Nodup.getElem_inj_iff hnd).1 h3
        have : a = UInt64.ofNat j := by rw [← haj]; simp
        subst this
        rw [hjn] at hb
        exact ⟨fuel, k1, s1, ha, fuel, _, _, hb, hs⟩
      · rintro ⟨f1, k1, s1, ha, f2, k2, s2, hb, hs⟩
        refine ⟨max f1 f2, k2, s2, ?_, hs⟩
        rw [reject_mono (le_max_left _ _) ha, Option.bind_some]
        simp only [hjn, hget]
        rw [specLoop_mono (le_max_right _ _) _ hb]
        rfl
    obtain ⟨g1, g2⟩ := sparseAcc_uniform (M := N - i) (by omega) (by omega) h1 (j := j) (by omega)
    rw [hset]
    refine ⟨g1, g2.trans ?_⟩
    rw [h2, ← mul_assoc, List.length_cons, prod_range_succ', mul_comm ((N - i : ℕ) : ℝ≥0∞)⁻¹]
    congr 2
    refine prod_congr rfl fun t _ => ?_
    rw [show N - (i + 1) - t = N - i - (t + 1) by omega]

end FastKsw
