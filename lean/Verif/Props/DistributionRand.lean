import Verif.Model.RandUniform
import Verif.Props.DistributionProba
import Verif.Lemmas.Blocks

/-!
# C105: `RandUniform`
-/

namespace FastKsw.Props

open MeasureTheory Finset
open scoped ENNReal

theorem randUniform_linked {s : ℕ → UInt8} {v mask : UInt64} {fuel : ℕ} : ∀ (p : ℕ) (c : UInt64) (k : ℕ),
    (randUniform v mask fuel ⟨s, p, c⟩ = none ∧ reject 8 (uniAcc v mask) fuel k (dropBytes p s) = none) ∨
    ∃ j p' c' k', randUniform v mask fuel ⟨s, p, c⟩ = some (j, ⟨s, p', c'⟩) ∧
      reject 8 (uniAcc v mask) fuel k (dropBytes p s) = some (j, k', dropBytes p' s) := by
  induction fuel with
  | zero => intro p c k; exact Or.inl ⟨rfl, rfl⟩
  | succ fuel ih =>
    intro p c k
    rw [randUniform, reject, randInt64, read_ofFn, uniAcc, UInt64.and_comm]
    split
    · simp only [dropBytes_dropBytes]
      exact Or.inr ⟨_, _, _, _, rfl, rfl⟩
    · simp only [dropBytes_dropBytes]
      exact ih (p + 8) (c + 1) (k + 1)

/-- a bound above the mask is no bound -/
theorem randUniform_bound {v v' mask : UInt64} (hv : mask < v) (hv' : mask < v') {fuel : ℕ} : ∀ prng : Prng,
    randUniform v mask fuel prng = randUniform v' mask fuel prng := by
  have hlt : ∀ x w : UInt64, mask < w → mask &&& x < w := fun x w h => by
    rw [UInt64.lt_iff_toNat_lt] at h ⊢
    rw [UInt64.toNat_and]
    exact lt_of_le_of_lt Nat.and_le_left h
  cases fuel with
  | zero => intro _; rfl
  | succ fuel =>
    intro prng
    rw [randUniform, randUniform, randInt64]
    simp only
    rw [if_pos (hlt _ _ hv), if_pos (hlt _ _ hv')]

theorem randUniform_event {v mask : UInt64} {m : ℕ} (hmask : mask.toNat = 2 ^ m - 1) (hv : v.toNat ≤ 2 ^ m) (hm : m ≤ 64)
    (pos : ℕ) (clk : UInt64) {x : UInt64} (hx : x < v) {E : Set (ℕ → UInt8)} (hE : MeasurableSet E) :
    randomBytes {s | ∃ fuel prng', randUniform v mask fuel ⟨s, pos, clk⟩ = some (x, prng') ∧ (fun i => s (prng'.pos + i)) ∈ E}
      = (v.toNat : ℝ≥0∞)⁻¹ * randomBytes E := by
  obtain ⟨h1, h2⟩ := uniAcc_uniform hmask hv hm (fun _ => hE) (fun _ => rfl) hx 0
  have hset : {s | ∃ fuel prng', randUniform v mask fuel ⟨s, pos, clk⟩ = some (x, prng') ∧ (fun i => s (prng'.pos + i)) ∈ E}
      = {s | dropBytes pos s ∈ {s | ∃ fuel k' s', reject 8 (uniAcc v mask) fuel 0 s = some (x, k', s') ∧ s' ∈ E}} := by
    ext s
    simp only [Set.mem_ofPred_eq]
    constructor
    · rintro ⟨fuel, prng', h, hs⟩
      rcases randUniform_linked (s := s) (v := v) (mask := mask) (fuel := fuel) pos clk 0 with ⟨e1, -⟩ | ⟨j, p', c', k', e1, e2⟩
      · rw [e1] at h; cases h
      · rw [e1] at h
        cases h
        exact ⟨fuel, k', _, e2, hs⟩
    · rintro ⟨fuel, k', s', h, hs⟩
      rcases randUniform_linked (s := s) (v := v) (mask := mask) (fuel := fuel) pos clk 0 with ⟨-, e2⟩ | ⟨j, p', c', k', e1, e2⟩
      · rw [e2] at h; cases h
      · rw [e2] at h
        cases h
        exact ⟨fuel, ⟨s, p', c'⟩, e1, hs⟩
  rw [hset, dropBytes_apply pos h1, h2]

/-- **C105, `RandUniform`.** On a random byte stream, with a mask `2^m - 1`: the result is uniform on the integers
below `v` when the mask covers them, uniform on the integers up to the mask when it does not, and the following
bytes are independent of it. -/
theorem C105_randUniform {v mask : UInt64} {m : ℕ} (hmask : mask.toNat = 2 ^ m - 1) (hm : m ≤ 64) (pos : ℕ) (clk : UInt64)
    {x : UInt64} (hx : x < v) (hxm : x ≤ mask) {E : Set (ℕ → UInt8)} (hE : MeasurableSet E) :
    randomBytes {s | ∃ fuel prng', randUniform v mask fuel ⟨s, pos, clk⟩ = some (x, prng') ∧ (fun i => s (prng'.pos + i)) ∈ E}
      = ((min v.toNat (2 ^ m) : ℕ) : ℝ≥0∞)⁻¹ * randomBytes E := by
  have hone : 1 ≤ 2 ^ m := Nat.one_le_two_pow
  by_cases hv : v.toNat ≤ 2 ^ m
  · rw [min_eq_left hv]
    exact randUniform_event hmask hv hm pos clk hx hE
  · have hv64 := v.toNat_lt
    have hv' : (UInt64.ofNat (2 ^ m)).toNat = 2 ^ m := by rw [UInt64.toNat_ofNat', Nat.mod_eq_of_lt (by omega)]
    have hlt : mask < v := UInt64.lt_iff_toNat_lt.2 (by omega)
    have hlt' : mask < UInt64.ofNat (2 ^ m) := UInt64.lt_iff_toNat_lt.2 (by omega)
    rw [min_eq_right (by omega)]
    have := randUniform_event (v := UInt64.ofNat (2 ^ m)) hmask (by omega) hm pos clk (x := x)
      (UInt64.lt_iff_toNat_lt.2 (by rw [hv']; have := UInt64.le_iff_toNat_le.1 hxm; omega)) hE
    rw [hv'] at this
    rw [← this]
    simp only [randUniform_bound hlt hlt']

/-- a bound that is not a power of two -/
example (E : Set (ℕ → UInt8)) (hE : MeasurableSet E) :
    randomBytes {s | ∃ fuel prng', randUniform 769 1023 fuel ⟨s, 3, 0⟩ = some (768, prng') ∧
      (fun i => s (prng'.pos + i)) ∈ E} = (769 : ℝ≥0∞)⁻¹ * randomBytes E := by
  have := C105_randUniform (v := 769) (mask := 1023) (m := 10) (by decide) (by norm_num) 3 0 (x := 768) (by decide)
    (by decide) hE
  simpa using this

set_option maxRecDepth 1000000 in
/-- the theorems on the ring of degree 16 modulo 97 and 193: the probability of a given pair of rows, of a given
polynomial with density 1/2, and of a given polynomial of weight 3 -/
example : ∃ r : Ring, newRing 100 16 [97, 193] = .ok r ∧
    randomBytes {s | ∃ fuel prng', uniformReadLvl fuel r 1 ⟨s, 7, 0⟩ (newPoly 16 2)
      = some ([List.replicate 16 96, List.replicate 16 192], prng')} = 97⁻¹ ^ 16 * 193⁻¹ ^ 16 ∧
    randomBytes {s | PolyIs r 1 r.qs (ternaryHalf r true 1 ⟨s, 7, 0⟩ (newPoly 16 2)).1
      (ternaryVec r true fun k => if k = 0 then 1 else if k = 1 then -1 else 0)} = 4⁻¹ * 4⁻¹ * 2⁻¹ ^ 14 ∧
    randomBytes {s | ∃ fuel out prng', ternarySparse fuel r true 3 1 ⟨s, 7, 0⟩ (newPoly 16 2) = some (out, prng') ∧
      PolyIs r 1 r.qs out (ternaryVec r true fun k => if k = 5 then 1 else if k = 1 ∨ k = 15 then -1 else 0)}
      = 4480⁻¹ := by
  obtain ⟨r, hr⟩ : ∃ r, newRing 100 16 [97, 193] = .ok r := by
    cases h : newRing 100 16 [97, 193] with
    | ok r => exact ⟨r, rfl⟩
    | error e =>
      have : (match newRing 100 16 [97, 193] with | .ok _ => true | .error _ => false) = true := by decide +kernel
      rw [h] at this; cases this
  obtain ⟨hv, -, hm⟩ := newRing_valid' (n := 4) rfl (by norm_num) (by
    intro q hq
    simp only [List.mem_cons, List.not_mem_nil, or_false] at hq
    rcases hq with rfl | rfl <;> decide) hr
  have hlen : r.subs.length = 2 := by
    have := congrArg List.length hm
    simpa [Ring.moduli] using this
  have hn : r.n = 16 := hv.deg
  have hq0 : (r.sub 0).q = 97 := by
    have := congrArg (fun l => l.getD 0 0) hm
    simpa [Ring.moduli, Ring.sub, List.getD, hlen, show 0 < r.subs.length by omega] using this
  have hq1 : (r.sub 1).q = 193 := by
    have := congrArg (fun l => l.getD 1 0) hm
    simpa [Ring.moduli, Ring.sub, List.getD, hlen, show 1 < r.subs.length by omega] using this
  refine ⟨r, hr, ?_, ?_, ?_⟩
  · have := C105_uniform hv (level := 1) (by omega) 7 0 (pol := newPoly 16 2) (by decide)
      (vs := [List.replicate 16 96, List.replicate 16 192]) rfl (fun j hj => by
        obtain rfl | rfl : j = 0 ∨ j = 1 := by omega
        · rw [hn, hq0]
          exact ⟨by simp [Rows.row], fun x hx => by rw [List.eq_of_mem_replicate hx]; decide⟩
        · rw [hn, hq1]
          exact ⟨by simp [Rows.row], fun x hx => by rw [List.eq_of_mem_replicate hx]; decide⟩) MeasurableSet.univ
    rw [measure_univ, mul_one, prod_range_succ, prod_range_one, hq0, hq1, hn] at this
    simpa [newPoly] using this
  · have := C105_half_partial hv (level := 1) (by omega) true 7 0 (pol := newPoly 16 2) (by decide)
      (T := fun k => if k = 0 then 1 else if k = 1 then -1 else 0) (fun k _ => by
        split
        · exact Or.inr (Or.inl rfl)
        · split
          · exact Or.inr (Or.inr rfl)
          · exact Or.inl rfl) MeasurableSet.univ
    rw [measure_univ, mul_one, hn] at this
    simp only [Set.mem_univ, and_true] at this
    rw [this]
    simp only [prod_range_succ, prod_range_zero]
    norm_num
    ring
  · have := C105_sparse hv (by norm_num) (level := 1) (by omega) true 3 7 0 (pol := newPoly 16 2) (by decide)
      (fun j hj => by
        obtain rfl | rfl : j = 0 ∨ j = 1 := by omega
        · rw [hn]; rfl
        · rw [hn]; rfl)
      (T := fun k => if k = 5 then 1 else if k = 1 ∨ k = 15 then -1 else 0) (fun k _ => by
        split
        · exact Or.inr (Or.inl rfl)
        · split
          · exact Or.inr (Or.inr rfl)
          · exact Or.inl rfl) (by rw [hn]; decide) MeasurableSet.univ
    rw [measure_univ, mul_one, hn, show (16 : ℕ).choose (min 3 16) * 2 ^ min 3 16 = 4480 by decide] at this
    simpa using this

end FastKsw.Props
