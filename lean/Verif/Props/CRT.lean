import Verif.Lemmas.CRT
import Verif.Props.RingMisc

/-!
# C18: import and export of coefficients; C61: equality test

`r.prodQ level` is the product of the first `level + 1` moduli.
-/

namespace FastKsw.Props

variable {n : ℕ} {r : Ring} {level : ℕ}

/-- **C18 (import).** `SetCoefficientsBigintLvl` stores the reduced residues of the integers. -/
theorem C18_import (hr : r.Valid n) (hl : level < r.subs.length) (coeffs : List ℤ)
    (hc : coeffs.length = r.n) (p : Rows) (hp : level < p.length)
    (hp' : ∀ i ≤ level, (p.row i).length = r.n) :
    PolyWritten r level r.qs p (r.setCoefficientsBigintLvl level coeffs p)
      (fun i k => ((coeffs.getD k 0 : ℤ) : ZMod (r.sub i).q.toNat)) :=
  setCoefficientsBigintLvl_is (hr.arithLvl hl) hc hp hp'

/-- **C18 (import).** `SetCoefficientsBigint`: all the primes of the ring -/
theorem C18_importBigint (hr : r.Valid n) (coeffs : List ℤ) (hc : coeffs.length = r.n) (p : Rows)
    (hp : p.length = r.subs.length) (hp' : ∀ i < r.subs.length, (p.row i).length = r.n) :
    PolyWritten r (r.subs.length - 1) r.qs p (r.setCoefficientsBigint coeffs p)
      (fun i k => ((coeffs.getD k 0 : ℤ) : ZMod (r.sub i).q.toNat)) := by
  have h := List.length_pos_of_ne_nil hr.ne_nil
  exact C18_import hr (by omega) coeffs hc p (by omega) (fun i hi => hp' i (by omega))

/-- **C18 (import).** `SetCoefficientsUint64` -/
theorem C18_importUint64 (hr : r.Valid n) (coeffs : List UInt64) (hc : coeffs.length = r.n) (p : Rows)
    (hp : p.length = r.subs.length) (hp' : ∀ i < r.subs.length, (p.row i).length = r.n) :
    PolyWritten r (r.subs.length - 1) r.qs p (r.setCoefficientsUint64 coeffs p)
      (fun i k => (((coeffs.getD k 0).toNat : ℤ) : ZMod (r.sub i).q.toNat)) := by
  have h := List.length_pos_of_ne_nil hr.ne_nil
  exact setCoefficientsUint64_is (hr.arithLvl (by omega)) hc (by omega)
    (fun i hi => hp' i (by omega))

/-- **C18 (import).** `SetCoefficientsInt64` -/
theorem C18_importInt64 (hr : r.Valid n) (coeffs : List Int64) (hc : coeffs.length = r.n) (p : Rows)
    (hp : p.length = r.subs.length) (hp' : ∀ i < r.subs.length, (p.row i).length = r.n) :
    PolyWritten r (r.subs.length - 1) r.qs p (r.setCoefficientsInt64 coeffs p)
      (fun i k => (((coeffs.getD k 0).toInt : ℤ) : ZMod (r.sub i).q.toNat)) := by
  have h := List.length_pos_of_ne_nil hr.ne_nil
  exact setCoefficientsInt64_is (hr.arithLvl (by omega)) hc (by omega)
    (fun i hi => hp' i (by omega))

/-- **C18 (export).** For any stored words, reduced or not, and any `gap`, entry `i` of
`PolyToBigintLvl` is the integer in `[0, Q)` congruent to coefficient `i * gap` modulo every `q_j`. -/
theorem C18_export (hr : r.Valid n) (hl : level < r.subs.length) (p : Rows) (gap : ℕ) (hg : 0 < gap) :
    (∀ i, i < (r.polyToBigintLvl level p gap).length ↔ i * gap < r.n) ∧
    ∀ i, i * gap < r.n → ∃ y, (r.polyToBigintLvl level p gap)[i]? = some y ∧
      0 ≤ y ∧ y < r.prodQ level ∧
      ∀ j ≤ level, (y : ZMod (r.sub j).q.toNat) = ((p.row j).at (i * gap)).toNat := by
  have hlen : ∀ i, i < (r.n + gap - 1) / gap ↔ i * gap < r.n := by
    intro i
    rw [Nat.lt_div_iff_mul_lt hg]
    omega
  refine ⟨fun i => by simp [Ring.polyToBigintLvl, hlen], fun i hi => ?_⟩
  obtain ⟨h1, h2, h3⟩ := coeffBigint_spec hr hl p (i * gap)
  exact ⟨_, by simp [Ring.polyToBigintLvl, (hlen i).2 hi], h1, h2, h3⟩

/-- **C18 (round trip).** `PolyToBigint(SetCoefficientsBigint(x)) = x mod Q`, at every level. -/
theorem C18_roundtrip (hr : r.Valid n) (hl : level < r.subs.length) (coeffs : List ℤ)
    (hc : coeffs.length = r.n) (p : Rows) (hp : level < p.length)
    (hp' : ∀ i ≤ level, (p.row i).length = r.n) :
    r.polyToBigintLvl level (r.setCoefficientsBigintLvl level coeffs p) 1
      = coeffs.map (· % (r.prodQ level : ℤ)) := by
  have h := C18_import hr hl coeffs hc p hp hp'
  apply List.ext_getElem
  · simp [Ring.polyToBigintLvl, hc]
  · intro i h1 h2
    have hi : i < coeffs.length := by simpa using h2
    obtain ⟨b1, b2, b3⟩ := coeffBigint_spec hr hl (r.setCoefficientsBigintLvl level coeffs p) i
    simp only [Ring.polyToBigintLvl, List.getElem_map, List.getElem_range, mul_one]
    refine eq_emod_of_cong hr hl b1 b2 (fun j hj => ?_)
    rw [b3 j hj]
    have := (h.is.row j hj).val i (by omega)
    rw [zval] at this
    rw [this, List.getD, List.getElem?_eq_getElem hi, Option.getD_some]

/-- what `PolyToBigintCenteredLvl` returns for the integer `x` -/
theorem centerBigint_spec (hr : r.Valid n) (hl : level < r.subs.length) (x : ℤ) :
    ∃ y, y = centerBigint (x % r.prodQ level) (r.modulusLvl level) ∧ (r.prodQ level : ℤ) ∣ y - x ∧
      -(r.prodQ level : ℤ) - 1 ≤ 2 * y ∧ 2 * y < r.prodQ level - 1 := by
  have hpos := prodQ_pos hr hl
  have hodd := prodQ_odd hr hl
  have h1 := Int.emod_nonneg x (b := (r.prodQ level : ℤ)) (by omega)
  have h2 := Int.emod_lt_of_pos x (b := (r.prodQ level : ℤ)) (by omega)
  have h3 : (r.prodQ level : ℤ) ∣ x % r.prodQ level - x :=
    ⟨-(x / r.prodQ level), by have := Int.emod_add_mul_ediv x (r.prodQ level); linarith⟩
  refine ⟨_, rfl, ?_⟩
  rw [modulusLvl_eq]
  generalize hM : (r.prodQ level : ℤ) = M at *
  have hM2 : M % 2 = 1 := by omega
  unfold centerBigint
  split
  · refine ⟨?_, by omega, by omega⟩
    rw [show x % M - M - x = (x % M - x) - M by ring]
    exact dvd_sub h3 dvd_rfl
  · exact ⟨h3, by omega, by omega⟩

/-- **C18 (centred export).** Every integer vector comes back as congruent integers in
`[-(Q+1)/2, (Q-1)/2)`, and as the representative in `[-Q/2, Q/2)` whenever the input is not congruent
to `(Q-1)/2`.  Missing: for `x ≡ (Q-1)/2` the code returns `-(Q+1)/2`, see
`C18_centered_violated`. -/
theorem C18_centered_partial (hr : r.Valid n) (hl : level < r.subs.length) (coeffs : List ℤ)
    (hc : coeffs.length = r.n) (p : Rows) (hp : level < p.length)
    (hp' : ∀ i ≤ level, (p.row i).length = r.n) :
    (r.polyToBigintCenteredLvl level (r.setCoefficientsBigintLvl level coeffs p) 1).length = r.n ∧
    ∀ i (hi : i < coeffs.length), ∃ y,
      (r.polyToBigintCenteredLvl level (r.setCoefficientsBigintLvl level coeffs p) 1)[i]? = some y ∧
      (r.prodQ level : ℤ) ∣ y - coeffs[i] ∧
      -(r.prodQ level : ℤ) - 1 ≤ 2 * y ∧ 2 * y < r.prodQ level - 1 ∧
      (coeffs[i] % (r.prodQ level : ℤ) ≠ ((r.prodQ level : ℤ) - 1) / 2 →
        -(r.prodQ level : ℤ) ≤ 2 * y) := by
  have hrt := C18_roundtrip hr hl coeffs hc p hp hp'
  refine ⟨by simp [Ring.polyToBigintCenteredLvl], fun i hi => ?_⟩
  obtain ⟨y, e, y1, y2, y3⟩ := centerBigint_spec hr hl coeffs[i]
  have hcoef : r.coeffBigint level (r.setCoefficientsBigintLvl level coeffs p) i
      = coeffs[i] % (r.prodQ level : ℤ) := by
    have := congrArg (fun l => l[i]?) hrt
    simpa [Ring.polyToBigintLvl, hi, hc ▸ hi] using this
  refine ⟨y, ?_, y1, y2, y3, fun hne => ?_⟩
  · rw [e, ← hcoef]
    simp [Ring.polyToBigintCenteredLvl, hc ▸ hi]
  · have hodd := prodQ_odd hr hl
    have hpos := prodQ_pos hr hl
    have h1 := Int.emod_nonneg coeffs[i] (b := (r.prodQ level : ℤ)) (by omega)
    rw [e, modulusLvl_eq] at *
    generalize hM : (r.prodQ level : ℤ) = M at *
    have hM2 : M % 2 = 1 := by omega
    unfold centerBigint at *
    split at y2 <;> rename_i hif
    · rw [if_pos hif] at *
      omega
    · rw [if_neg hif] at *
      omega

/-- **C18 is violated by the centred export**: for every ring and level the integer `(Q-1)/2`, which
lies in `[-Q/2, Q/2)`, is returned as `-(Q+1)/2`, outside that range. -/
theorem C18_centered_violated (hr : r.Valid n) (hl : level < r.subs.length) (p : Rows)
    (hp : level < p.length) (hp' : ∀ i ≤ level, (p.row i).length = r.n) :
    let x : ℤ := ((r.prodQ level : ℤ) - 1) / 2;
    -(r.prodQ level : ℤ) ≤ 2 * x ∧ 2 * x < r.prodQ level ∧
    ∃ y : ℤ, (r.polyToBigintCenteredLvl level
        (r.setCoefficientsBigintLvl level (List.replicate r.n x) p) 1)[0]? = some y ∧
      2 * y = -((r.prodQ level : ℤ) + 1) ∧ ¬ (-(r.prodQ level : ℤ) ≤ 2 * y) := by
  intro x
  have hodd := prodQ_odd hr hl
  have hpos := prodQ_pos hr hl
  have hn : 0 < r.n := by rw [hr.deg]; positivity
  obtain ⟨-, h⟩ := C18_centered_partial hr hl (List.replicate r.n x) (by simp) p hp hp'
  obtain ⟨y, h1, h2, h3, h4, -⟩ := h 0 (by simpa using hn)
  simp only [List.getElem_replicate] at h2
  have hx : 2 * x = (r.prodQ level : ℤ) - 1 := by omega
  refine ⟨by omega, by omega, y, h1, ?_⟩
  obtain ⟨k, hk⟩ := h2
  have hk1 : k < 0 := by
    by_contra hc
    have : 0 ≤ (r.prodQ level : ℤ) * k := mul_nonneg (by omega) (by omega)
    omega
  have hk2 : -2 < k := by
    by_contra hc
    have : (r.prodQ level : ℤ) * k ≤ (r.prodQ level : ℤ) * (-2) :=
      mul_le_mul_of_nonneg_left (by omega) (by omega)
    omega
  have : k = -1 := by omega
  subst this
  omega

/-- a case of the hypotheses: level 1 of `NewRing(16, [97, 193])` -/
example : ∃ r : Ring, r.Valid 4 ∧ 1 < r.subs.length ∧ r.prodQ 1 = 18721 ∧
    ∃ p : Rows, 1 < p.length ∧ ∀ i ≤ 1, (p.row i).length = r.n := by
  obtain ⟨r, h1, h2, h3, h4, h5, h6⟩ := exists_ring
  refine ⟨r, h2, by omega, ?_, cpoly 5, by simp [cpoly], fun i hi => ?_⟩
  · rw [prodQ_succ, prodQ_zero, h5, h6]; rfl
  · rw [cpoly_row 5 hi, h4, List.length_replicate]

/-- **C61.** `EqualLvl` answers whether the operands are congruent in every coefficient modulo every
`q_i`, whatever their reduction, and leaves both operands reduced with the same residues. -/
theorem C61_equal (hr : r.Valid n) (hl : level < r.subs.length) (p1 p2 : Rows)
    (a b : ∀ i, ℕ → ZMod (r.sub i).q.toNat) (A B : ℕ → ℕ)
    (h1 : PolyIs r level A p1 a) (h2 : PolyIs r level B p2 b) :
    ((r.equalLvl level p1 p2).1 = true ↔ ∀ i ≤ level, ∀ k < r.n, a i k = b i k) ∧
    PolyWritten r level r.qs p1 (r.equalLvl level p1 p2).2.1 a ∧
    PolyWritten r level r.qs p2 (r.equalLvl level p1 p2).2.2 b := by
  have w1 := C10_reduce (hr.arithLvl hl) h1 h1.lvl
  have w2 := C10_reduce (hr.arithLvl hl) h2 h2.lvl
  refine ⟨?_, w1, w2⟩
  simp only [Ring.equalLvl, List.all_eq_true, List.mem_range, beq_iff_eq]
  constructor
  · intro h i hi k hk
    have e1 := (w1.is.row i hi).val k hk
    have e2 := (w2.is.row i hi).val k hk
    rw [zval] at e1 e2
    rw [← e1, ← e2, h i (by omega) k hk]
  · intro h i hi k hk
    have hi' : i ≤ level := by omega
    have e1 := (w1.is.row i hi').val k hk
    have e2 := (w2.is.row i hi').val k hk
    have b1 := (w1.is.row i hi').lt k hk
    have b2 := (w2.is.row i hi').lt k hk
    rw [zval] at e1 e2
    have e : ((((r.reduceLvl level p1 p1).row i).at k).toNat : ZMod (r.sub i).q.toNat)
        = ((((r.reduceLvl level p2 p2).row i).at k).toNat : ZMod (r.sub i).q.toNat) := by
      rw [e1, e2, h i hi' k hk]
    apply UInt64.toNat_inj.1
    have := (ZMod.natCast_eq_natCast_iff _ _ _).1 e
    exact this.eq_of_lt_of_lt b1 b2

end FastKsw.Props
