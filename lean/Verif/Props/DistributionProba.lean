import Verif.Props.DistributionSparse

/-!
# C105: where the documented distributions are not met
-/

namespace FastKsw.Props

open MeasureTheory Finset
open scoped ENNReal

/-- `uint64(p·2^56)` for `p = 1.0/3` in float64 -/
def third0 : UInt64 := 0x55555555555554

/-- `uint64((1-p)·2^56)` for `p = 1.0/3` in float64 -/
def third1 : UInt64 := 0xAAAAAAAAAAAAB0

/-- with `p = 1/3` a walk ends at the first bit that is 1; if this is not the last bit of its byte, the next bit is
the sign and the pointer is left on it -/
theorem third_walk {N fuel : ℕ} {prng : Prng} {bytes : List UInt8} {c s : UInt64} {st' : KyState} : ∀ {col t : ℕ} (_ : col ≤ t)
    (_ : t ≤ 6) (_ : byteBit (bytes.getD 0 0) t = 1)
    (_ : kySampling N third0 third1 fuel ⟨prng, bytes, col, 0⟩ 0 col = some (c, s, st')),
    st'.pointer < 8 ∧ byteBit (st'.bytes.getD st'.bytePointer 0) st'.pointer = s := by
  induction fuel with
  | zero => intro col t _ _ _ h; simp [kySampling] at h
  | succ fuel ih =>
    intro col t h1 h2 hb h
    rw [kySampling, if_neg (by simp only; omega)] at h
    simp only at h
    have hcol : col = 0 ∨ col = 1 ∨ col = 2 ∨ col = 3 ∨ col = 4 ∨ col = 5 ∨ col = 6 := by omega
    have e1 : probaBit third1 col = if col % 2 = 0 then 1 else 0 := by rcases hcol with h | h | h | h | h | h | h <;> subst h <;> decide
    have e0 : probaBit third0 col = if col % 2 = 0 then 0 else 1 := by rcases hcol with h | h | h | h | h | h | h <;> subst h <;> decide
    rw [e0, e1] at h
    rcases byteBit_cases (bytes.getD 0 0) col with hc | hc
    · rw [hc] at h
      have hne : col ≠ t := fun e => by subst e; rw [hc] at hb; exact absurd hb (by decide)
      have hd : ((if col % 2 = 0 then (1 : ℤ) else 0) = 1 ∧ (if col % 2 = 0 then (0 : ℤ) else 1) = 0) ∨
          ((if col % 2 = 0 then (1 : ℤ) else 0) = 0 ∧ (if col % 2 = 0 then (0 : ℤ) else 1) = 1) := by
        split
        · exact Or.inl ⟨rfl, rfl⟩
        · exact Or.inr ⟨rfl, rfl⟩
      rcases hd with ⟨d1, d0⟩ | ⟨d1, d0⟩
      · rw [d1, d0, if_neg (by decide), if_neg (by omega), if_neg (by decide), if_neg (by decide)] at h
        exact ih (col := col + 1) (by omega) h2 hb h
      · rw [d1, d0, if_neg (by decide), if_neg (by omega), if_neg (by decide), if_neg (by decide)] at h
        exact ih (col := col + 1) (by omega) h2 hb h
    · rw [hc] at h
      have hd : ((if col % 2 = 0 then (1 : ℤ) else 0) = 1 ∧ (if col % 2 = 0 then (0 : ℤ) else 1) = 0) ∨
          ((if col % 2 = 0 then (1 : ℤ) else 0) = 0 ∧ (if col % 2 = 0 then (0 : ℤ) else 1) = 1) := by
        split
        · exact Or.inl ⟨rfl, rfl⟩
        · exact Or.inr ⟨rfl, rfl⟩
      rcases hd with ⟨d1, d0⟩ | ⟨d1, d0⟩
      · rw [d1, d0, if_neg (by decide), if_neg (by omega), if_pos (by decide), if_neg (by omega)] at h
        cases h
        exact ⟨by simp only; omega, rfl⟩
      · rw [d1, d0, if_neg (by decide), if_neg (by omega), if_neg (by decide), if_pos (by decide), if_neg (by omega)] at h
        cases h
        exact ⟨by simp only; omega, rfl⟩

theorem third_one {N fuel : ℕ} {st st' : KyState} {c s : UInt64} (h : kySampling N third0 third1 fuel st 0 0 = some (c, s, st'))
    (hp : st.pointer < 8) (hb : byteBit (st.bytes.getD st.bytePointer 0) st.pointer = 1) : c = 1 := by
  cases fuel with
  | zero => simp [kySampling] at h
  | succ fuel =>
    rw [kySampling, if_neg (by omega)] at h
    simp only [hb, show probaBit third1 0 = 1 by decide] at h
    rw [if_neg (by decide), if_neg (by decide), if_pos (by decide)] at h
    split at h
    · cases h; rfl
    · cases h; rfl

/-- if one of the seven low bits of the first byte is 1, a `-1` is not followed by a `0` -/
theorem third_indices {fuel N cnt : ℕ} {prng : Prng} {bytes : List UInt8} {x : List ℕ} {st' : KyState} {t : ℕ} (ht : t ≤ 6)
    (hb : byteBit (bytes.getD 0 0) t = 1)
    (h : kyIndices fuel N third0 third1 (cnt + 2) ⟨prng, bytes, 0, 0⟩ = some (x, st')) (h0 : ternaryInt (x.getD 0 0) = -1) :
    ternaryInt (x.getD 1 0) ≠ 0 := by
  rw [kyIndices, Option.bind_eq_some_iff] at h
  obtain ⟨⟨c, s, st1⟩, hw, h⟩ := h
  rw [Option.bind_eq_some_iff] at h
  obtain ⟨⟨y, st2⟩, hy, h⟩ := h
  simp only [Option.some.injEq, Prod.mk.injEq] at h
  obtain ⟨rfl, rfl⟩ := h
  rw [kyIndices, Option.bind_eq_some_iff] at hy
  obtain ⟨⟨c', s', st3⟩, hw', hy⟩ := hy
  rw [Option.bind_eq_some_iff] at hy
  obtain ⟨⟨y', st4⟩, hy', hy⟩ := hy
  simp only [Option.some.injEq, Prod.mk.injEq] at hy
  obtain ⟨rfl, rfl⟩ := hy
  obtain ⟨b1, b2⟩ := kySampling_bits hw
  obtain ⟨b1', b2'⟩ := kySampling_bits hw'
  obtain ⟨w1, w2⟩ := third_walk (Nat.zero_le t) ht hb hw
  simp only [List.getD_cons_zero, List.getD_cons_succ] at h0 ⊢
  rw [ternaryIndex_cases b1 b2] at h0
  have hs : s = 1 := by
    rcases b2 with rfl | rfl
    · exfalso
      rcases b1 with rfl | rfl <;> revert h0 <;> decide
    · rfl
  have hc' := third_one hw' w1 (w2.trans hs)
  rw [ternaryIndex_cases b1' b2', hc']
  rcases b2' with rfl | rfl <;> decide

/-- **C105 (violation), ternary sampler with `p = 1/3`.** Documented: coefficients that are `0` with probability `p`
and `1`, `-1` with probability `(1-p)/2` each, so that for independent coefficients `-1` followed by `0` would have
probability 1/9.  On a random byte stream the first two coefficients are `-1` and `0` with probability at most
1/128. -/
theorem C105_proba_violated {n : ℕ} {r : Ring} (hr : r.Valid n) {level : ℕ} (hl : level < r.subs.length) (mont : Bool)
    (pos : ℕ) (clk : UInt64) {pol : Rows} (hp : level < pol.length) :
    randomBytes {s | ∃ fuel out prng' T, ternaryProba fuel r mont third0 third1 level ⟨s, pos, clk⟩ pol = some (out, prng') ∧
        PolyIs r level r.qs out (ternaryVec r mont T) ∧ T 0 = -1 ∧ T 1 = 0} ≤ 128⁻¹ := by
  have h4 := hr.four_le
  have hN : 16 ≤ r.n := by
    rw [hr.deg]
    exact Nat.pow_le_pow_right (n := 2) (by norm_num) h4
  obtain ⟨f1, f2⟩ := bits_apply 1 (fun k => if k < 7 then {false} else univ) MeasurableSet.univ
  have hle : randomBytes {s | dropBytes pos s ∈ {s | (∀ k < 8 * 1, bitAt s k ∈ (if k < 7 then ({false} : Finset Bool) else univ)) ∧
      dropBytes 1 s ∈ Set.univ}} = 128⁻¹ := by
    rw [dropBytes_apply pos f1, f2, measure_univ, mul_one]
    have h22 : (2 : ℝ≥0∞) * 2⁻¹ = 1 := ENNReal.mul_inv_cancel (by simp) (by simp)
    simp only [prod_range_succ, prod_range_zero, show 8 * 1 = 8 from rfl]
    norm_num [h22]
    rw [show (2⁻¹ * 2⁻¹ * 2⁻¹ * 2⁻¹ * 2⁻¹ * 2⁻¹ * 2⁻¹ : ℝ≥0∞) = 2⁻¹ ^ 7 by ring, ← ENNReal.inv_pow]
    norm_num
  rw [← hle]
  refine measure_mono fun s hs => ?_
  simp only [Set.mem_ofPred_eq] at hs ⊢
  obtain ⟨fuel, out, prng', T, h, hP, hT0, hT1⟩ := hs
  unfold ternaryProba at h
  simp only at h
  rw [Option.map_eq_some_iff] at h
  obtain ⟨⟨x, st⟩, hx, h⟩ := h
  simp only [Prod.mk.injEq] at h
  obtain ⟨rfl, rfl⟩ := h
  have hW := ternaryRows_is hr mont hl hp (idx := fun k => x.getD k 0)
    (f := fun j => (List.range r.n).map fun i => ternaryValue (r.sub j) mont (x.getD i 0))
    (fun j _ => ⟨by simp, fun k hk => by rw [at_map_range _ _ hk]⟩)
  have hv : ∀ k, ternaryInt (x.getD k 0) = 0 ∨ ternaryInt (x.getD k 0) = 1 ∨ ternaryInt (x.getD k 0) = -1 := by
    intro k
    simp only [ternaryInt]
    split
    · exact Or.inl rfl
    · split
      · exact Or.inr (Or.inl rfl)
      · exact Or.inr (Or.inr rfl)
  have hval : ∀ k < r.n, (T k = 0 ∨ T k = 1 ∨ T k = -1) → ternaryInt (x.getD k 0) = T k := fun k hk hTk =>
    ternaryVec_inj (T := fun k => ternaryInt (x.getD k 0)) hr (by omega) (hv k) hTk
      (((hW.is.row 0 (by omega)).val k hk).symm.trans ((hP.row 0 (by omega)).val k hk))
  have e0 := (hval 0 (by omega) (Or.inr (Or.inr hT0))).trans hT0
  have e1 := (hval 1 (by omega) (Or.inl hT1)).trans hT1
  refine ⟨fun k hk => ?_, Set.mem_univ _⟩
  split
  · rw [Finset.mem_singleton]
    by_contra hb
    have hb : bitAt (dropBytes pos s) k = true := by simpa using hb
    obtain ⟨cnt, hcnt⟩ : ∃ cnt, r.n = cnt + 2 := ⟨r.n - 2, by omega⟩
    rw [show kyIndices fuel r.n third0 third1 r.n = kyIndices fuel r.n third0 third1 (cnt + 2) by rw [← hcnt]] at hx
    refine third_indices (t := k) (by omega) ?_ hx e0 e1
    rw [byteBit_eq _ (by omega)]
    have : ((Prng.read ⟨s, pos, clk⟩ r.n).1.getD 0 0) = s pos := by
      simp [Prng.read, List.getD, show 0 < r.n by omega]
    rw [this]
    rw [bitAt, Nat.div_eq_of_lt (by omega), Nat.mod_eq_of_lt (by omega)] at hb
    rw [if_pos (by simpa [dropBytes] using hb)]
  · exact Finset.mem_univ _

/-- the bound is below the documented probability -/
example : (128⁻¹ : ℝ≥0∞) < 3⁻¹ * 3⁻¹ := by
  rw [← ENNReal.mul_inv (by simp) (by simp), ENNReal.inv_lt_inv]
  norm_num

/-- **C105 (violation), `GenSecretKey`.** Documented: "the distribution [1/3, 1/3, 1/3]", under which each of the
`3^N` ternary polynomials has probability `3^-N`.  The generator draws with the sampler of fixed Hamming weight `h`
of the parameters (rlwe/keygen.go:78, 86-88), so a polynomial with another number of non-zero coefficients has
probability 0 and one with this number has another probability. -/
theorem C105_secretKey_violated {n : ℕ} {r : Ring} (hr : r.Valid n) (hn : n < 32) {level : ℕ} (hl : level < r.subs.length)
    (mont : Bool) {h : ℕ} (hh : 0 < h) (pos : ℕ) (clk : UInt64) {pol : Rows} (hp : level < pol.length)
    (hlen : ∀ j ≤ level, (pol.row j).length = r.n) :
    (∀ T : ℕ → ℤ, (∀ k < r.n, T k = 0 ∨ T k = 1 ∨ T k = -1) → #{k ∈ range r.n | T k ≠ 0} ≠ min h r.n →
      randomBytes {s | ∃ fuel out prng', ternarySparse fuel r mont h level ⟨s, pos, clk⟩ pol = some (out, prng') ∧
        PolyIs r level r.qs out (ternaryVec r mont T)} = 0) ∧
    (∀ T : ℕ → ℤ, (∀ k < r.n, T k = 0 ∨ T k = 1 ∨ T k = -1) →
      randomBytes {s | ∃ fuel out prng', ternarySparse fuel r mont h level ⟨s, pos, clk⟩ pol = some (out, prng') ∧
        PolyIs r level r.qs out (ternaryVec r mont T)} ≠ 3⁻¹ ^ r.n) := by
  have h1 : ∀ T : ℕ → ℤ, (∀ k < r.n, T k = 0 ∨ T k = 1 ∨ T k = -1) → #{k ∈ range r.n | T k ≠ 0} ≠ min h r.n →
      randomBytes {s | ∃ fuel out prng', ternarySparse fuel r mont h level ⟨s, pos, clk⟩ pol = some (out, prng') ∧
        PolyIs r level r.qs out (ternaryVec r mont T)} = 0 := by
    intro T hT hc
    rw [show {s | ∃ fuel out prng', ternarySparse fuel r mont h level ⟨s, pos, clk⟩ pol = some (out, prng') ∧
        PolyIs r level r.qs out (ternaryVec r mont T)} = ∅ from ?_, measure_empty]
    refine Set.eq_empty_of_forall_notMem fun s hs => ?_
    obtain ⟨fuel, out, prng', hx, hP⟩ := hs
    obtain ⟨T', hT', hc', hW⟩ := C43_sparse hr hl (by omega) mont h hp hlen hx
    refine hc (Eq.trans ?_ hc')
    congr 1
    refine Finset.filter_congr fun k hk => ?_
    have := ternaryVec_inj hr (by omega) (mont := mont) (hT k (Finset.mem_range.1 hk)) (hT' k)
      (((hP.row 0 (by omega)).val k (Finset.mem_range.1 hk)).symm.trans
        ((hW.is.row 0 (by omega)).val k (Finset.mem_range.1 hk)))
    rw [this]
  refine ⟨h1, fun T hT heq => ?_⟩
  have h30 : (3⁻¹ : ℝ≥0∞) ^ r.n ≠ 0 := pow_ne_zero _ (by simp)
  by_cases hc : #{k ∈ range r.n | T k ≠ 0} = min h r.n
  · have := C105_sparse hr hn hl mont h pos clk hp hlen hT hc MeasurableSet.univ
    rw [measure_univ, mul_one] at this
    simp only [Set.mem_univ, and_true] at this
    rw [this, ← ENNReal.inv_pow, inv_inj] at heq
    have heq : r.n.choose (min h r.n) * 2 ^ min h r.n = 3 ^ r.n := by exact_mod_cast heq
    have hpos : 0 < min h r.n := by
      have : 0 < r.n := by rw [hr.deg]; positivity
      omega
    have hdvd : 2 ∣ 3 ^ r.n := by
      rw [← heq]
      exact Dvd.dvd.mul_left (dvd_pow_self 2 hpos.ne') _
    have := (Nat.Prime.dvd_of_dvd_pow Nat.prime_two hdvd)
    omega
  · exact h30 (heq.symm.trans (h1 T hT hc))

end FastKsw.Props
