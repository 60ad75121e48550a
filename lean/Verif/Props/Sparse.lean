import Verif.Lemmas.Sparse
import Verif.Props.RingMisc

/-!
# C52, C57: a smaller ring inside a larger one
-/

namespace FastKsw

/-- the coefficients of `p(X^gap)` -/
def embedRow (gap : ℕ) (p : Row) : Row :=
  (List.range (p.length * gap)).map fun k => if k % gap = 0 then p.at (k / gap) else 0

theorem embedRow_length (gap : ℕ) (p : Row) : (embedRow gap p).length = p.length * gap := by
  simp [embedRow]

theorem embedRow_at (gap : ℕ) (p : Row) {k : ℕ} (hk : k < p.length * gap) :
    (embedRow gap p).at k = if k % gap = 0 then p.at (k / gap) else 0 := by
  unfold Row.at
  rw [List.getD_eq_getElem _ _ (by rw [embedRow_length]; exact hk)]
  simp [embedRow]

theorem embedRow_is {q m d B : ℕ} (hB : 0 < B) {p : Row} {v : ℕ → ZMod q}
    (hp : RowIs (2 ^ m) q B p v) :
    RowIs (2 ^ (m + d)) q B (embedRow (2 ^ d) p) (spread (2 ^ d) v) := by
  have hl : p.length * 2 ^ d = 2 ^ (m + d) := by rw [hp.len, pow_add]
  have hdiv : ∀ k < 2 ^ (m + d), k / 2 ^ d < 2 ^ m := by
    intro k hk
    rw [Nat.div_lt_iff_lt_mul (by positivity), ← pow_add]; exact hk
  refine ⟨by rw [embedRow_length, hl], fun k hk => ?_, fun k hk => ?_⟩
  · rw [embedRow_at _ _ (by omega)]
    split
    · exact hp.lt _ (hdiv k hk)
    · exact hB
  · unfold zval spread
    rw [embedRow_at _ _ (by omega)]
    split
    · exact hp.val _ (hdiv k hk)
    · simp

theorem writeLvl_congr {level : ℕ} {f g : ℕ → Row} {out : Rows} (h : ∀ i ≤ level, f i = g i) :
    writeLvl level f out = writeLvl level g out := by
  unfold writeLvl
  congr 1
  funext i x
  split
  · exact h i (by assumption)
  · rfl

theorem rows_ext {x y : Rows} (h : x.length = y.length) (h2 : ∀ i, x.row i = y.row i) : x = y := by
  apply List.ext_getElem h
  intro i h3 h4
  have := h2 i
  unfold Rows.row at this
  rwa [List.getD_eq_getElem _ _ h3, List.getD_eq_getElem _ _ h4] at this

/-- **C52**, mapping in the NTT domain: for rings of degrees `2^m` and `2^(m+d)` over the same moduli,
`MapSmallDimensionToLargerDimensionNTT` of the transform of `p` is the transform of `p(X^(2^d))`. -/
theorem C52_map {fuel m d : ℕ} {moduli : List UInt64} {r1 r2 : Ring} (hmd : m + d < 62)
    (hq : ∀ q ∈ moduli, q.toNat < 2 ^ 61)
    (h1 : newRing fuel (2 ^ m) moduli = .ok r1) (h2 : newRing fuel (2 ^ (m + d)) moduli = .ok r2)
    (level : ℕ) (hl : level < moduli.length) (p small large : Rows)
    (hp : p.length = level + 1) (hs : small.length = level + 1) (hL : level < large.length)
    (hrow : ∀ i ≤ level, (p.row i).length = 2 ^ m ∧ ∀ k < 2 ^ m, ((p.row i).at k).toNat < 2 ^ 62)
    (hlarge : ∀ i ≤ level, (large.row i).length = 2 ^ (m + d)) :
    mapSmallToLarge (r1.nttLvl level p small) large =
      r2.nttLvl level (p.map (embedRow (2 ^ d))) large := by
  have d1 : r1.n = 2 ^ m := (newRingCustom_ok h1).2.2.2.2.2.1
  have d2 : r2.n = 2 ^ (m + d) := (newRingCustom_ok h2).2.2.2.2.2.1
  have h16 := (newRingCustom_ok h1).1
  have hm : 2 ≤ m := by
    by_contra hc
    have : 2 ^ m ≤ 2 ^ 1 := Nat.pow_le_pow_right (by omega) (by omega)
    omega
  unfold mapSmallToLarge
  have hlen : (r1.nttLvl level p small).length - 1 = level := by
    unfold Ring.nttLvl; rw [length_writeLvl, hs]; omega
  rw [hlen]
  unfold Ring.nttLvl
  apply writeLvl_congr
  intro i hi
  rw [row_writeLvl hi (by omega), d1, d2]
  have hpr : Rows.row (p.map (embedRow (2 ^ d))) i = embedRow (2 ^ d) (p.row i) := by
    unfold Rows.row
    rw [List.getD_eq_getElem _ _ (show i < List.length (List.map _ p) by rw [List.length_map]; omega),
      List.getElem_map, List.getD_eq_getElem _ _ (show i < p.length by omega)]
  rw [hpr]
  obtain ⟨V1, V2, hqq, hroot⟩ := newRing_roots hmd (fun q h => by have := hq q h; omega) h1 h2
    (show i < moduli.length by omega)
  have hsm : (r2.sub i).q.toNat < 2 ^ 61 := by
    have e2 := (newRingCustom_valid (n := m + d) (m := m + d) le_rfl (by omega) rfl
      (fun q h => by have := hq q h; omega) h2).1
    apply hq
    rw [← e2]
    have l2 : r2.subs.length = moduli.length := by rw [← e2]; simp [Ring.moduli]
    exact List.mem_map_of_mem (Ring.sub_mem (by omega))
  obtain ⟨a1, a2⟩ := hrow i hi
  have hx : RowIs (2 ^ m) (r2.sub i).q.toNat (2 ^ 62) (p.row i) (zval _ (p.row i)) :=
    RowIs.refl _ a1 a2
  have hS := nttSmall_is V1 V2 hqq hroot hm hsm (by omega) hx
  have hE := ntt_is V2 (by omega) hsm (by omega) (embedRow_is (d := d) (by norm_num) hx)
  obtain ⟨s1, s2⟩ := mapSmallToLargeRow_spec ((r1.sub i).ntt (2 ^ m) (p.row i)) (large.row i) (2 ^ d)
    (by rw [hS.len]; positivity) (by rw [hlarge i hi, hS.len, pow_add])
  have hdiv : ∀ k < 2 ^ (m + d), k / 2 ^ d < 2 ^ m := by
    intro k hk
    rw [Nat.div_lt_iff_lt_mul (by positivity), ← pow_add]; exact hk
  refine RowIs.ext (v := evals (r2.sub i).psi (m + d) (spread (2 ^ d) (zval _ (p.row i)))) ⟨?_, ?_, ?_⟩ hE
  · rw [s1, hlarge i hi]
  · intro k hk
    rw [s2 k (by rw [hlarge i hi]; exact hk)]
    exact hS.lt _ (hdiv k hk)
  · intro k hk
    have := hS.val _ (hdiv k hk)
    unfold zval at this ⊢
    rw [s2 k (by rw [hlarge i hi]; exact hk), this, evals_spread V2.psi_pow]

/-- **C52**, `NttAndMontgomeryLvl`: the first `n = 2^(logSlots+1)` coefficients of every row, read as
a polynomial in `Y = X^(N/n)`, are transformed (and put into Montgomery form).  Missing: for `n < 16` the
coefficients of the row between `n` and 16 have to be zero; otherwise see `C52_violated`. -/
theorem C52_sparse_partial {logSlots d : ℕ} {r : Ring} (hr : r.Valid (logSlots + 1 + d)) (hsm : r.Small)
    (level : ℕ) (hl : level < r.subs.length) (mont : Bool) (pol : Rows) (hL : level < pol.length)
    (hrow : ∀ i ≤ level, (pol.row i).length = 2 ^ (logSlots + 1 + d) ∧
      ∀ k < 2 ^ (logSlots + 1), ((pol.row i).at k).toNat < 2 ^ 62)
    (hz : 3 ≤ logSlots ∨ ∀ i ≤ level, ∀ k, 2 ^ (logSlots + 1) ≤ k → k < 16 → (pol.row i).at k = 0) :
    r.nttAndMontgomeryLvl level logSlots mont pol =
      (let y := r.nttLvl level (pol.map fun x => embedRow (2 ^ d) (x.take (2 ^ (logSlots + 1)))) pol
       if mont then r.mformLvl level y y else y) := by
  set m := logSlots + 1 with hm
  have h16 := hr.four_le
  have hle : 2 ^ m ≤ 2 ^ (m + d) := Nat.pow_le_pow_right (by omega) (by omega)
  have hmap : ∀ i ≤ level, Rows.row (pol.map fun x => embedRow (2 ^ d) (x.take (2 ^ m))) i =
      embedRow (2 ^ d) ((pol.row i).take (2 ^ m)) := by
    intro i hi
    unfold Rows.row
    rw [List.getD_eq_getElem _ _ (show i < List.length (List.map _ pol) by rw [List.length_map]; omega),
      List.getElem_map, List.getD_eq_getElem _ _ (show i < pol.length by omega)]
  unfold Ring.nttAndMontgomeryLvl
  have hroot : r.nthRoot / 4 = 2 ^ (logSlots + d) := by
    rw [hr.root, show logSlots + 1 + d + 1 = logSlots + d + 2 by omega, pow_add]
    omega
  rw [hroot]
  by_cases hd : d = 0
  · subst hd
    rw [Nat.add_zero, if_pos rfl]
    have hnt : r.nttLvl level pol pol =
        r.nttLvl level (pol.map fun x => embedRow (2 ^ 0) (x.take (2 ^ m))) pol := by
      unfold Ring.nttLvl
      apply writeLvl_congr
      intro i hi
      rw [hmap i hi]
      congr 1
      have hlen := (hrow i hi).1
      rw [List.take_of_length_le (by rw [hlen])]
      apply row_ext
      · rw [embedRow_length]; omega
      · intro k
        by_cases hk : k < (pol.row i).length
        · rw [embedRow_at _ _ (by omega)]
          simp [Nat.mod_one]
        · unfold Row.at
          rw [List.getD_eq_default _ _ (by omega), List.getD_eq_default _ _ (by rw [embedRow_length]; omega)]
    rw [hnt]
  · have hne : ¬ 2 ^ logSlots = 2 ^ (logSlots + d) := by
      intro h
      have := Nat.pow_right_injective (le_refl 2) h
      omega
    rw [if_neg hne, show 2 * 2 ^ logSlots = 2 ^ m by rw [hm]; ring, hr.deg]
    have hrow' : ∀ i ≤ level, (r.sub i).sparseNttRow (2 ^ (m + d)) (2 ^ m) mont (pol.row i) =
        (let y := (r.sub i).ntt (2 ^ (m + d)) (embedRow (2 ^ d) ((pol.row i).take (2 ^ m)))
         if mont then mformVec y (r.sub i).q (r.sub i).bred else y) := by
      intro i hi
      have V := hr.subAt (show i < r.subs.length by omega)
      have hq := hsm _ (Ring.sub_mem (show i < r.subs.length by omega))
      obtain ⟨a1, a2⟩ := hrow i hi
      have htk : ∀ k < 2 ^ m, Row.at ((pol.row i).take (2 ^ m)) k = (pol.row i).at k := by
        intro k hk
        rw [Row.at_take, if_pos hk]
      have hS := sparseNttRow_is V (by omega) (by omega) hq (B := 2 ^ 62) (by omega) mont a1
        (by
          rcases hz with h | h
          · exact Or.inl (by omega)
          · exact Or.inr (h i hi)) (v := zval _ ((pol.row i).take (2 ^ m))) a2
        (fun k hk => by unfold zval; rw [htk k hk])
      have hx : RowIs (2 ^ m) (r.sub i).q.toNat (2 ^ 62) ((pol.row i).take (2 ^ m))
          (zval _ ((pol.row i).take (2 ^ m))) :=
        RowIs.refl _ (by rw [List.length_take]; omega) (fun k hk => by rw [htk k hk]; exact a2 k hk)
      have hE := ntt_is V (by omega) hq (by omega) (embedRow_is (d := d) (by norm_num) hx)
      cases mont with
      | false =>
        refine RowIs.ext hS (hE.congr fun k _ => ?_)
        simp
      | true =>
        refine RowIs.ext hS ((mformVec_is V.arith hE).congr fun k _ => ?_)
        simp
    cases mont with
    | false =>
      simp only [Bool.false_eq_true, if_false] at hrow' ⊢
      unfold Ring.nttLvl
      apply writeLvl_congr
      intro i hi
      rw [hrow' i hi, hmap i hi, hr.deg]
    | true =>
      simp only [if_true] at hrow' ⊢
      unfold Ring.mformLvl
      have hn : level < (r.nttLvl level (pol.map fun x => embedRow (2 ^ d) (x.take (2 ^ m))) pol).length := by
        unfold Ring.nttLvl; rw [length_writeLvl]; exact hL
      apply rows_ext
      · rw [length_writeLvl, length_writeLvl]; unfold Ring.nttLvl; rw [length_writeLvl]
      · intro i
        by_cases hi : i ≤ level
        · rw [row_writeLvl hi hL, row_writeLvl hi hn, hrow' i hi]
          unfold Ring.nttLvl
          rw [row_writeLvl hi hL, hmap i hi, hr.deg]
        · rw [row_writeLvl_above (by omega), row_writeLvl_above (by omega)]
          unfold Ring.nttLvl
          rw [row_writeLvl_above (by omega)]

/-! ### C52: witnesses -/

set_option maxRecDepth 1000000 in
theorem gen193 : ((genSub 100 (2 * 16) 193).any fun s => (genSub 100 (2 * 32) 193).any fun s' =>
    (s.sparseNttRow 16 2 false ([1, 0, 5] ++ List.replicate 13 0) != s.ntt 16 (embedRow 8 [1, 0])) &&
    (s.sparseNttRow 16 2 false ([1, 7] ++ List.replicate 14 0) == s.ntt 16 (embedRow 8 [1, 7])) &&
    (switchDownRow s s' 32 16 (s'.ntt 32 ([1, 2, 3] ++ List.replicate 29 0)) !=
        s'.ntt 32 ([1, 2, 3] ++ List.replicate 29 0)) &&
    (s.ntt 16 ([1, 3] ++ List.replicate 14 0) != List.replicate 16 9)) = true := by decide +kernel

theorem prime193 : isPrime 193 := by 
  have : (193 : UInt64).toNat = 193 := rfl
  unfold isPrime; rw [this]; norm_num

/-- rings of degree 16 and 32 with the modulus 193 -/
theorem rings193 : ∃ r1 r2 : Ring, newRing 100 16 [193] = .ok r1 ∧ newRing 100 32 [193] = .ok r2 ∧
    (r1.sub 0).sparseNttRow 16 2 false ([1, 0, 5] ++ List.replicate 13 0) ≠
      (r1.sub 0).ntt 16 (embedRow 8 [1, 0]) ∧
    (r1.sub 0).sparseNttRow 16 2 false ([1, 7] ++ List.replicate 14 0) =
      (r1.sub 0).ntt 16 (embedRow 8 [1, 7]) ∧
    switchDownRow (r1.sub 0) (r2.sub 0) 32 16 ((r2.sub 0).ntt 32 ([1, 2, 3] ++ List.replicate 29 0)) ≠
      (r2.sub 0).ntt 32 ([1, 2, 3] ++ List.replicate 29 0) ∧
    (r1.sub 0).ntt 16 ([1, 3] ++ List.replicate 14 0) ≠ List.replicate 16 9 := by
  have h := gen193
  have hp := prime193
  have h1 : ((193 : UInt64) &&& (UInt64.ofNat (2 * 16) - 1)) = 1 := by decide +kernel
  have h2 : ((193 : UInt64) &&& (UInt64.ofNat (2 * 32) - 1)) = 1 := by decide +kernel
  generalize (193 : UInt64) = q at *
  cases hg : genSub 100 (2 * 16) q with
  | none => rw [hg] at h; cases h
  | some s =>
    rw [hg] at h
    cases hg' : genSub 100 (2 * 32) q with
    | none => rw [hg'] at h; cases h
    | some s' =>
      rw [hg'] at h
      obtain ⟨r1, hr1, hs1⟩ := Props.newRing_single 100 16 q s hp (by decide) h1 hg
      obtain ⟨r2, hr2, hs2⟩ := Props.newRing_single 100 32 q s' hp (by decide) h2 hg'
      have e1 : r1.sub 0 = s := by unfold Ring.sub; rw [hs1]; rfl
      have e2 : r2.sub 0 = s' := by unfold Ring.sub; rw [hs2]; rfl
      refine ⟨r1, r2, hr1, hr2, ?_⟩
      rw [e1, e2]
      simpa [and_assoc] using h

/-- **C52 fails** for few slots: degree 16, modulus 193, one slot (`n = 2`), a row whose first two
coefficients are `1, 0` and whose third coefficient, outside the prefix, is 5.  The result is not the
transform of `1`: the unrolled loops read the third coefficient. -/
theorem C52_violated : ∃ r : Ring, newRing 100 16 [193] = .ok r ∧
    r.nttAndMontgomeryLvl 0 0 false [[1, 0, 5] ++ List.replicate 13 0] ≠
      r.nttLvl 0 [embedRow 8 [1, 0]] [[1, 0, 5] ++ List.replicate 13 0] := by
  obtain ⟨r1, r2, h1, h2, ha, -⟩ := rings193
  have d1 : r1.n = 16 := (newRingCustom_ok h1).2.2.2.2.2.1
  refine ⟨r1, h1, fun h => ha ?_⟩
  have hroot : r1.nthRoot = 32 := (newRingCustom_ok h1).2.2.2.2.2.2.1
  unfold Ring.nttAndMontgomeryLvl at h
  rw [hroot, if_neg (by norm_num)] at h
  simpa [Ring.nttLvl, writeLvl, d1, Rows.row] using h

/-- the hypotheses of `C52_map` are met by the rings of degree 16 and 32 with modulus 193 -/
example : ∃ r1 r2 : Ring, newRing 100 (2 ^ 4) [193] = .ok r1 ∧ newRing 100 (2 ^ (4 + 1)) [193] = .ok r2 ∧
    mapSmallToLarge (r1.nttLvl 0 [[1, 2, 3] ++ List.replicate 13 0] (newPoly 16 1)) (newPoly 32 1) =
      r2.nttLvl 0 [embedRow 2 ([1, 2, 3] ++ List.replicate 13 0)] (newPoly 32 1) := by
  obtain ⟨r1, r2, h1, h2, -⟩ := rings193
  refine ⟨r1, r2, h1, h2, ?_⟩
  refine C52_map (m := 4) (d := 1) (by norm_num) (by simp) h1 h2 0 (by simp) _ _ _ rfl rfl
    (by simp [newPoly]) (fun i hi => ?_) (fun i hi => ?_)
  · obtain rfl : i = 0 := by omega
    refine ⟨rfl, ?_⟩
    decide +kernel
  · obtain rfl : i = 0 := by omega
    rfl

/-- the hypotheses of `C52_sparse_partial` are met with one slot: the polynomial `1 + 7 X^8` -/
example : ∃ r : Ring, newRing 100 16 [193] = .ok r ∧
    r.nttAndMontgomeryLvl 0 0 true [[1, 7] ++ List.replicate 14 0] =
      (let y := r.nttLvl 0 [embedRow 8 [1, 7]] [[1, 7] ++ List.replicate 14 0]
       r.mformLvl 0 y y) := by
  obtain ⟨r1, r2, h1, h2, -⟩ := rings193
  refine ⟨r1, h1, ?_⟩
  obtain ⟨n, hn, V, hm, -⟩ := Props.C17_newRing_valid 100 16 (by norm_num) [193] (by simp) r1 h1
  obtain rfl : n = 4 := Nat.pow_right_injective (le_refl 2) (show 2 ^ n = 2 ^ 4 by omega)
  refine C52_sparse_partial (logSlots := 0) (d := 3) V ?_ 0 (List.length_pos_of_ne_nil V.ne_nil) true _ (by simp)
    (fun i hi => ?_) (Or.inr fun i hi => ?_)
  · intro s hs
    have : s.q ∈ r1.moduli := List.mem_map_of_mem hs
    rw [hm, List.mem_singleton] at this
    rw [this]; decide
  · obtain rfl : i = 0 := by omega
    refine ⟨rfl, ?_⟩
    decide +kernel
  · obtain rfl : i = 0 := by omega
    decide +kernel

/-! ### C57 -/

/-- coefficients `0, gap, 2·gap, …` of `p` -/
def sampleRow (n gap : ℕ) (p : Row) : Row := (List.range n).map fun k => p.at (k * gap)

theorem sampleRow_length (n gap : ℕ) (p : Row) : (sampleRow n gap p).length = n := by simp [sampleRow]

theorem sampleRow_at (n gap : ℕ) (p : Row) {k : ℕ} (hk : k < n) :
    (sampleRow n gap p).at k = p.at (k * gap) := by
  unfold Row.at
  rw [List.getD_eq_getElem _ _ (by rw [sampleRow_length]; exact hk)]
  simp [sampleRow]

/-- **C57**, NTT domain, small to large: `ctIn` is unchanged and every polynomial `p` of `ctIn` goes to
`p(X^gap)` in `ctOut`.  Missing: the opposite direction, see `C57_violated`. -/
theorem C57_up_partial {fuel m d : ℕ} {moduli : List UInt64} {r1 r2 : Ring} (hmd : m + d < 62)
    (hq : ∀ q ∈ moduli, q.toNat < 2 ^ 61)
    (h1 : newRing fuel (2 ^ m) moduli = .ok r1) (h2 : newRing fuel (2 ^ (m + d)) moduli = .ok r2)
    (level : ℕ) (hl : level < moduli.length) (p small : ℕ → Rows) (ctIn ctOut : List Rows) (any : Ring)
    (h0 : 0 < ctOut.length)
    (hin : ∀ i < ctOut.length, ctIn.getD i [] = r1.nttLvl level (p i) (small i))
    (hp : ∀ i < ctOut.length, (p i).length = level + 1 ∧ (small i).length = level + 1 ∧
      level < (ctOut.getD i []).length ∧ ∀ j ≤ level, ((p i).row j).length = 2 ^ m ∧
        (∀ k < 2 ^ m, (((p i).row j).at k).toNat < 2 ^ 62) ∧
        ((ctOut.getD i []).row j).length = 2 ^ (m + d)) :
    (switchRingDegreeNTT ctIn r1 any ctOut).1 = ctIn ∧
    (switchRingDegreeNTT ctIn r1 any ctOut).2.length = ctOut.length ∧
    ∀ i < ctOut.length, (switchRingDegreeNTT ctIn r1 any ctOut).2.getD i [] =
      r2.nttLvl level ((p i).map (embedRow (2 ^ d))) (ctOut.getD i []) := by
  have hsmall : (((ctIn.getD 0 []).row 0).length) = 2 ^ m := by
    obtain ⟨a1, a2, a3, a4⟩ := hp 0 h0
    obtain ⟨b1, b2, b3⟩ := a4 0 (Nat.zero_le _)
    obtain ⟨V1, V2, hqq, hroot⟩ := newRing_roots hmd (fun q h => by have := hq q h; omega) h1 h2
      (show 0 < moduli.length by omega)
    have d1 : r1.n = 2 ^ m := (newRingCustom_ok h1).2.2.2.2.2.1
    have h16 := (newRingCustom_ok h1).1
    have hm : 2 ≤ m := by
      by_contra hc
      have : 2 ^ m ≤ 2 ^ 1 := Nat.pow_le_pow_right (by omega) (by omega)
      omega
    have e1 := (newRingCustom_valid (n := m) (m := m) le_rfl (by omega) rfl
      (fun q h => by have := hq q h; omega) h1).1
    have l1 : r1.subs.length = moduli.length := by rw [← e1]; simp [Ring.moduli]
    have hsm : (r1.sub 0).q.toNat < 2 ^ 61 := by
      apply hq
      rw [← e1]
      exact List.mem_map_of_mem (Ring.sub_mem (by omega))
    rw [hin 0 h0]
    unfold Ring.nttLvl
    rw [row_writeLvl (Nat.zero_le _) (by omega), d1]
    exact (ntt_is V1 (by omega) hsm (B := 2 ^ 62) (by omega) (RowIs.refl _ b1 b2)).len
  have hout : ((ctOut.getD 0 []).row 0).length = 2 ^ (m + d) :=
    ((hp 0 h0).2.2.2 0 (Nat.zero_le _)).2.2
  have hle : 2 ^ m ≤ 2 ^ (m + d) := Nat.pow_le_pow_right (by omega) (by omega)
  unfold switchRingDegreeNTT
  simp only [hsmall, hout]
  rw [if_neg (by omega)]
  refine ⟨rfl, by simp, fun i hi => ?_⟩
  obtain ⟨a1, a2, a3, a4⟩ := hp i hi
  rw [List.getD_eq_getElem _ _ (by simpa using hi), List.getElem_mapIdx, hin i hi,
    ← C52_map hmd hq h1 h2 level hl (p i) (small i) (ctOut.getD i []) a1 a2 a3
      (fun j hj => ⟨(a4 j hj).1, (a4 j hj).2.1⟩) (fun j hj => (a4 j hj).2.2),
    List.getD_eq_getElem _ _ hi]

/-- **C57 fails**, NTT domain, large to small: for all ciphertexts and rings, `ctOut` stays as it was. -/
theorem C57_down_violated (ctIn ctOut : List Rows) (small large : Ring)
    (h : ((ctOut.getD 0 []).row 0).length < ((ctIn.getD 0 []).row 0).length) :
    (switchRingDegreeNTT ctIn small large ctOut).2 = ctOut := by
  unfold switchRingDegreeNTT
  simp only
  rw [if_pos h]

/-- **C57 fails**, witness: degree 32 to 16, modulus 193.  The input is the transform of `1 + 2X + 3X²`, the
output holds other values; the result should be the transform of `1 + 3X`.  The output is not that and the input
is changed. -/
theorem C57_violated : ∃ r1 r2 : Ring, newRing 100 16 [193] = .ok r1 ∧ newRing 100 32 [193] = .ok r2 ∧
    ∃ ctIn ctOut : List Rows, ctIn = [[(r2.sub 0).ntt 32 ([1, 2, 3] ++ List.replicate 29 0)]] ∧
      (switchRingDegreeNTT ctIn r1 r2 ctOut).1 ≠ ctIn ∧
      (switchRingDegreeNTT ctIn r1 r2 ctOut).2 ≠
        [[(r1.sub 0).ntt 16 (sampleRow 16 2 ([1, 2, 3] ++ List.replicate 29 0))]] := by
  obtain ⟨r1, r2, h1, h2, -, -, h3, h4⟩ := rings193
  have hlen : ((r2.sub 0).ntt 32 ([1, 2, 3] ++ List.replicate 29 0)).length = 32 := by
    obtain ⟨n, hn, V, hm, -⟩ := Props.C17_newRing_valid 100 32 (by norm_num) [193] (by simp) r2 h2
    obtain rfl : n = 5 := Nat.pow_right_injective (le_refl 2) (show 2 ^ n = 2 ^ 5 by omega)
    have hp := List.length_pos_of_ne_nil V.ne_nil
    have hq : (r2.sub 0).q.toNat < 2 ^ 61 := by
      have : (r2.sub 0).q ∈ r2.moduli := List.mem_map_of_mem (Ring.sub_mem hp)
      rw [hm, List.mem_singleton] at this
      rw [this]; decide
    exact (ntt_is (V.subAt hp) (by norm_num) hq (B := 2 ^ 62) (by omega)
      (RowIs.refl ([1, 2, 3] ++ List.replicate 29 0) rfl (by decide +kernel))).len
  have hs : sampleRow 16 2 ([1, 2, 3] ++ List.replicate 29 0) = [1, 3] ++ List.replicate 14 0 := by decide +kernel
  refine ⟨r1, r2, h1, h2, _, [[List.replicate 16 9]], rfl, ?_, ?_⟩
  · unfold switchRingDegreeNTT
    simp only [List.getD_cons_zero, Rows.row, hlen, List.length_replicate]
    rw [if_pos (by norm_num)]
    simpa using h3
  · rw [C57_down_violated]
    · rw [hs]
      intro h
      exact h4 (by simpa using h.symm)
    · simp only [List.getD_cons_zero, Rows.row, hlen, List.length_replicate]
      norm_num

/-- The first `2^m` entries that `SwitchCiphertextRingDegreeNTT` leaves in a row of `ctIn`. -/
theorem switchDownRow_take {s1 s2 : SubRing} {m d : ℕ} (V1 : s1.Valid m) (V2 : s2.Valid (m + d)) (hm : 4 ≤ m)
    (hqq : s1.q = s2.q) (hq : s2.q.toNat < 2 ^ 61) {p : Row} (hp : p.length = 2 ^ (m + d))
    (hb : ∀ k < 2 ^ (m + d), (p.at k).toNat < 2 ^ 62) :
    (switchDownRow s1 s2 (2 ^ (m + d)) (2 ^ m) (s2.ntt (2 ^ (m + d)) p)).take (2 ^ m) =
      s1.ntt (2 ^ m) (sampleRow (2 ^ m) (2 ^ d) p) := by
  have hle : 2 ^ m ≤ 2 ^ (m + d) := Nat.pow_le_pow_right (by omega) (by omega)
  have h16 : 2 ^ 4 ≤ 2 ^ m := Nat.pow_le_pow_right (by omega) hm
  have hgap : 2 ^ (m + d) / 2 ^ m = 2 ^ d := by
    rw [pow_add, mul_comm, Nat.mul_div_cancel _ (by positivity)]
  have hx : RowIs (2 ^ (m + d)) s2.q.toNat (2 ^ 62) p (zval _ p) := RowIs.refl _ hp hb
  have hN := ntt_is V2 (by omega) hq (by omega) hx
  have hI := invNtt_is V2 (by omega) hq (hN.mono (by omega))
  generalize s2.ntt (2 ^ (m + d)) p = row at hN hI ⊢
  generalize hpool : s2.invNtt (2 ^ (m + d)) row = pool at hI
  obtain ⟨c1, c2⟩ := strideCopy_spec (2 ^ m) 1 (2 ^ d) pool row (by norm_num) (by rw [hN.len]; omega)
  rw [mul_one] at c1 c2
  unfold switchDownRow
  simp only [hpool, hgap]
  generalize strideCopy (2 ^ m) 1 (2 ^ d) pool row = tmp at c1 c2
  have htmp : ∀ k < 2 ^ m, tmp.at k = pool.at (k * 2 ^ d) := by
    intro k hk
    rw [c2 k hk]; simp [Nat.mod_one]
  have hkd : ∀ k < 2 ^ m, k * 2 ^ d < 2 ^ (m + d) := by
    intro k hk
    rw [pow_add]; exact Nat.mul_lt_mul_of_pos_right hk (by positivity)
  have hpl : ∀ k < 2 ^ m, (pool.at (k * 2 ^ d)).toNat < s2.q.toNat ∧
      ((pool.at (k * 2 ^ d)).toNat : ZMod s2.q.toNat) = (p.at (k * 2 ^ d)).toNat := by
    intro k hk
    have hv := hI.val _ (hkd k hk)
    rw [coeffsOf_evals V2 (by omega) _ _ (hkd k hk)] at hv
    exact ⟨hI.lt _ (hkd k hk), hv⟩
  rw [← hqq] at hq hpl
  obtain ⟨t1, t2, t3⟩ := nttLazyMem_spec V1.mred (by omega) rfl (by omega) V1.table
    (twLaw_of_psi V1.psi_pow) (B := s1.q.toNat) (B' := 4 * s1.q.toNat) le_rfl (by omega) (by omega) tmp
    (by rw [c1, hN.len]; omega) (Or.inl hm) (fun k hk => by rw [htmp k hk]; exact (hpl k hk).1)
  have hS : RowIs (2 ^ m) s1.q.toNat (2 ^ 62) (sampleRow (2 ^ m) (2 ^ d) p) (fun k => zval s1.q.toNat p (k * 2 ^ d)) :=
    ⟨sampleRow_length _ _ _, fun k hk => by rw [sampleRow_at _ _ _ hk]; exact hb _ (hkd k hk),
      fun k hk => by unfold zval; rw [sampleRow_at _ _ _ hk]⟩
  refine RowIs.ext (v := evals s1.psi m (fun k => zval s1.q.toNat p (k * 2 ^ d))) ?_
    (ntt_is V1 (by omega) hq (by omega) hS)
  rw [show ∀ (y : Row), (reduceVec y s1.q s1.bred).take (2 ^ m) = reduceVec (y.take (2 ^ m)) s1.q s1.bred from
    fun y => by unfold reduceVec; rw [List.map_take]]
  refine reduceVec_is V1.arith (A := 6 * s1.q.toNat + 1) ⟨?_, fun k hk => ?_, fun k hk => ?_⟩
  · rw [List.length_take, t1, c1, hN.len]; omega
  · rw [Row.at_take, if_pos hk]
    have := t2 k hk
    omega
  · have h3 := t3 k hk
    unfold zval at h3 ⊢
    rw [Row.at_take, if_pos hk, h3]
    unfold evals
    apply Finset.sum_congr rfl
    intro j hj
    have hj' := Finset.mem_range.1 hj
    rw [htmp j hj', (hpl j hj').2, show s1.tw m = fun k => s1.psi ^ revBits m k from rfl, evalPt_psi V1.psi_pow (by omega) hk]
    rfl

/-- **C57 (what the large to small direction does).**  The result is in the first `NOut` entries of the rows of
`ctIn`: for the transform of `p` they are the transform, in the small ring, of the sub-sampled `p`.
Missing: it should be in `ctOut`. -/
theorem C57_down_partial {fuel m d : ℕ} {moduli : List UInt64} {r1 r2 : Ring} (hmd : m + d < 62) (hd : 0 < d)
    (hq : ∀ q ∈ moduli, q.toNat < 2 ^ 61)
    (h1 : newRing fuel (2 ^ m) moduli = .ok r1) (h2 : newRing fuel (2 ^ (m + d)) moduli = .ok r2)
    (p : ℕ → ℕ → Row) (ctIn ctOut : List Rows)
    (hin0 : ((ctIn.getD 0 []).row 0).length = 2 ^ (m + d)) (hout0 : ((ctOut.getD 0 []).row 0).length = 2 ^ m)
    (i j : ℕ) (hi : i < ctOut.length) (hi' : i < ctIn.length) (hj : j < (ctOut.getD i []).length)
    (hj' : j < (ctIn.getD i []).length) (hjm : j < moduli.length)
    (hin : (ctIn.getD i []).row j = (r2.sub j).ntt (2 ^ (m + d)) (p i j))
    (hp : (p i j).length = 2 ^ (m + d)) (hb : ∀ k < 2 ^ (m + d), ((p i j).at k).toNat < 2 ^ 62) :
    ((((switchRingDegreeNTT ctIn r1 r2 ctOut).1).getD i []).row j).take (2 ^ m) =
      (r1.sub j).ntt (2 ^ m) (sampleRow (2 ^ m) (2 ^ d) (p i j)) := by
  obtain ⟨V1, V2, hqq, hroot⟩ := newRing_roots hmd (fun q h => by have := hq q h; omega) h1 h2 hjm
  have h16 := (newRingCustom_ok h1).1
  have hm : 4 ≤ m := by
    by_contra hc
    have : 2 ^ m ≤ 2 ^ 3 := Nat.pow_le_pow_right (by omega) (by omega)
    omega
  have hsm : (r2.sub j).q.toNat < 2 ^ 61 := by
    have e2 := (newRingCustom_valid (n := m + d) (m := m + d) le_rfl (by omega) rfl
      (fun q h => by have := hq q h; omega) h2).1
    apply hq
    rw [← e2]
    have l2 : r2.subs.length = moduli.length := by rw [← e2]; simp [Ring.moduli]
    exact List.mem_map_of_mem (Ring.sub_mem (by omega))
  have hlt : 2 ^ m < 2 ^ (m + d) := Nat.pow_lt_pow_right (by omega) (by omega)
  rw [← switchDownRow_take V1 V2 hm hqq hsm hp hb, ← hin]
  congr 1
  unfold switchRingDegreeNTT
  simp only [hin0, hout0]
  rw [if_pos hlt]
  rw [List.getD_eq_getElem _ _ hi'] at hj' ⊢
  rw [List.getD_eq_getElem _ _ (by simpa using hi'), List.getElem_mapIdx, if_pos hi, row_mapIdx _ _ _ hj', if_pos hj]

/-- **C57**, coefficient domain, large to small: every row of the output becomes the sub-sampled row of the input. -/
theorem C57_coeff_down (ctIn ctOut : List Rows) (n gap : ℕ) (hg : 1 < gap) (hn : 0 < n)
    (hin : ((ctIn.getD 0 []).row 0).length = n * gap)
    (hrow : ∀ p ∈ ctOut, ∀ row ∈ p, row.length = n) (h0 : ((ctOut.getD 0 []).row 0).length = n) :
    switchRingDegree ctIn ctOut =
      ctOut.mapIdx fun i p => p.mapIdx fun j _ => sampleRow n gap ((ctIn.getD i []).row j) := by
  have hgt : n * gap > n := by nlinarith
  unfold switchRingDegree
  simp only [hin, h0]
  rw [if_pos hgt, Nat.mul_div_cancel_left _ hn]
  apply List.ext_getElem (by simp)
  intro i hi hi'
  simp only [List.getElem_mapIdx]
  apply List.ext_getElem (by simp)
  intro j hj hj'
  simp only [List.getElem_mapIdx]
  have hi2 : i < ctOut.length := by simpa using hi
  have hj2 : j < (ctOut[i]).length := by simpa using hj
  have hl := hrow _ (List.getElem_mem hi2) _ (List.getElem_mem hj2)
  obtain ⟨c1, c2⟩ := strideCopy_spec n 1 gap ((ctIn.getD i []).row j) (ctOut[i])[j] (by norm_num) (by omega)
  rw [mul_one] at c1 c2
  apply row_ext
  · rw [c1, sampleRow_length, hl]
  · intro k
    by_cases hk : k < n
    · rw [c2 k hk, sampleRow_at _ _ _ hk]
      simp [Nat.mod_one]
    · unfold Row.at
      rw [List.getD_eq_default _ _ (by rw [c1, hl]; omega), List.getD_eq_default _ _ (by rw [sampleRow_length]; omega)]

/-- **C57**, coefficient domain, small to large, when the output is zero: `p(X)` goes to `p(X^gap)`.
Missing: an output holding other values, see `C57_coeff_violated`. -/
theorem C57_coeff_up_partial (ctIn ctOut : List Rows) (n gap : ℕ) (hg : 0 < gap) (hn : 0 < n)
    (hin : ((ctIn.getD 0 []).row 0).length = n)
    (hrow : ∀ p ∈ ctOut, ∀ row ∈ p, row = List.replicate (n * gap) 0) (h0 : ((ctOut.getD 0 []).row 0).length = n * gap)
    (hin' : ∀ i < ctOut.length, ∀ j < (ctOut.getD i []).length, ((ctIn.getD i []).row j).length = n) :
    switchRingDegree ctIn ctOut =
      ctOut.mapIdx fun i p => p.mapIdx fun j _ => embedRow gap ((ctIn.getD i []).row j) := by
  have hgt : ¬ n > n * gap := by nlinarith
  unfold switchRingDegree
  simp only [hin, h0]
  rw [if_neg hgt, Nat.mul_div_cancel_left _ hn]
  apply List.ext_getElem (by simp)
  intro i hi hi'
  simp only [List.getElem_mapIdx]
  apply List.ext_getElem (by simp)
  intro j hj hj'
  simp only [List.getElem_mapIdx]
  have hi2 : i < ctOut.length := by simpa using hi
  have hj2 : j < (ctOut[i]).length := by simpa using hj
  have hz := hrow _ (List.getElem_mem hi2) _ (List.getElem_mem hj2)
  have hl := hin' i hi2 j (by rw [List.getD_eq_getElem _ _ hi2]; exact hj2)
  rw [hz]
  obtain ⟨c1, c2⟩ := strideCopy_spec n gap 1 ((ctIn.getD i []).row j) (List.replicate (n * gap) 0) hg (by simp)
  apply row_ext
  · rw [c1, embedRow_length, hl]; simp
  · intro k
    by_cases hk : k < n * gap
    · rw [c2 k hk, embedRow_at _ _ (by rw [hl]; exact hk), mul_one]
      split
      · rfl
      · unfold Row.at
        rw [List.getD_eq_getElem _ _ (by simpa using hk)]
        simp
    · unfold Row.at
      rw [List.getD_eq_default _ _ (by rw [c1, List.length_replicate]; omega),
        List.getD_eq_default _ _ (by rw [embedRow_length, hl]; omega)]

/-- **C57 fails**, coefficient domain, small to large: the coefficients of the output that are not written keep
their values. -/
theorem C57_coeff_violated : ∃ (ctIn ctOut : List Rows),
    ctIn = [[[1, 2] ++ List.replicate 14 0]] ∧ ctOut = [[List.replicate 32 9]] ∧
    switchRingDegree ctIn ctOut ≠ [[embedRow 2 ([1, 2] ++ List.replicate 14 0)]] ∧
    (((switchRingDegree ctIn ctOut).getD 0 []).row 0).at 1 = 9 :=
  ⟨_, _, rfl, rfl, by decide +kernel, by decide +kernel⟩

end FastKsw
