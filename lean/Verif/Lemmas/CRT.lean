import Verif.Model.CRT
import Verif.Lemmas.ModDown

/-!
# Import and export of coefficients
-/

namespace FastKsw

open Finset

theorem bigModU64_spec (c : ℤ) {q : UInt64} (hq : 0 < q.toNat) :
    (bigModU64 c q).toNat < q.toNat ∧ ((bigModU64 c q).toNat : ZMod q.toNat) = (c : ZMod q.toNat) := by
  have h3 := Int.emod_nonneg c (b := (q.toNat : ℤ)) (by omega)
  have h4 := Int.emod_lt_of_pos c (b := (q.toNat : ℤ)) (by omega)
  have h5 := q.toNat_lt
  unfold bigModU64
  rw [UInt64.toNat_ofNat', Nat.mod_eq_of_lt (by omega)]
  refine ⟨by omega, ?_⟩
  rw [← Int.cast_natCast, Int.toNat_of_nonneg h3, ZMod.intCast_eq_intCast_iff]
  exact Int.mod_modEq _ _

theorem setRow_at {α : Type} (f : α → UInt64) (coeffs : List α) (old : Row) (d : α) {k : ℕ}
    (hk : k < coeffs.length) : (setRow f coeffs old).at k = f (coeffs.getD k d) := by
  have : k < (coeffs.map f).length := by simpa using hk
  simp only [setRow, Row.at, List.getD, List.getElem?_append_left this]
  simp [hk]

theorem setRow_is {α : Type} {N q A : ℕ} {f : α → UInt64} {coeffs : List α} {old : Row} (d : α)
    {v : ℕ → ZMod q} (hlen : coeffs.length = N) (hold : old.length = N)
    (h : ∀ c, (f c).toNat < A) (hv : ∀ k < N, ((f (coeffs.getD k d)).toNat : ZMod q) = v k) :
    RowIs N q A (setRow f coeffs old) v := by
  refine ⟨by simp [setRow]; omega, fun k hk => ?_, fun k hk => ?_⟩
  · rw [setRow_at f coeffs old d (by omega)]; exact h _
  · rw [zval, setRow_at f coeffs old d (by omega)]; exact hv k hk

theorem setCoefficientsBigintLvl_is {r : Ring} {level : ℕ} (hr : r.ArithLvl level) {p1 : Rows}
    {coeffs : List ℤ} (hc : coeffs.length = r.n) (hl : level < p1.length)
    (hp : ∀ i ≤ level, (p1.row i).length = r.n) :
    PolyWritten r level r.qs p1 (r.setCoefficientsBigintLvl level coeffs p1)
      (r.intVec (fun k => coeffs.getD k 0)) :=
  writeLvl_is hl (fun i hi => setRow_is 0 hc (hp i hi)
    (fun c => (bigModU64_spec c (by have := (hr i hi).one_lt; omega)).1)
    (fun k _ => (bigModU64_spec _ (by have := (hr i hi).one_lt; omega)).2))

theorem setCoefficientsUint64_is {r : Ring} (hr : r.ArithLvl (r.subs.length - 1)) {p1 : Rows}
    {coeffs : List UInt64} (hc : coeffs.length = r.n) (hl : r.subs.length - 1 < p1.length)
    (hp : ∀ i ≤ r.subs.length - 1, (p1.row i).length = r.n) :
    PolyWritten r (r.subs.length - 1) r.qs p1 (r.setCoefficientsUint64 coeffs p1)
      (r.intVec (fun k => ((coeffs.getD k 0).toNat : ℤ))) := by
  refine writeLvl_is hl (fun i hi => setRow_is 0 hc (hp i hi) (fun c => ?_) (fun k _ => ?_))
  · rw [UInt64.toNat_mod]
    exact Nat.mod_lt _ (by have := (hr i hi).one_lt; omega)
  · rw [UInt64.toNat_mod, ZMod.natCast_mod]
    simp [Ring.intVec]

theorem toInt64_toInt {q : UInt64} (h : q.toNat < 2 ^ 63) : q.toInt64.toInt = q.toNat := by
  show q.toInt64.toBitVec.toInt = _
  have e : q.toInt64.toBitVec = q.toBitVec := rfl
  rw [e, BitVec.toInt_eq_toNat_of_lt]
  · rfl
  · show 2 * q.toNat < _; omega

theorem toNat_toUInt64 (x : Int64) :
    (x.toUInt64.toNat : ℤ) = x.toInt % ((2 ^ 64 : ℕ) : ℤ) := by
  have e : x.toUInt64.toNat = x.toBitVec.toNat := rfl
  have e2 : x.toInt = x.toBitVec.toInt := rfl
  rw [e, e2, BitVec.toInt_eq_toNat_bmod, Int.bmod_emod]
  norm_cast
  rw [Nat.mod_eq_of_lt x.toBitVec.isLt]

theorem int64Residue_spec (c : Int64) {q : UInt64} (h1 : 1 < q.toNat) (h : q.toNat < 2 ^ 63) :
    (int64Residue c q).toNat < q.toNat ∧
    ((int64Residue c q).toNat : ZMod q.toNat) = (c.toInt : ZMod q.toNat) := by
  have hq := toInt64_toInt h
  have hm : (c % q.toInt64).toInt = c.toInt.tmod q.toNat := by rw [Int64.toInt_mod, hq]
  have hs : ((c % q.toInt64 + q.toInt64).toUInt64.toNat : ℤ) = c.toInt.tmod q.toNat + q.toNat := by
    rw [toNat_toUInt64, Int64.toInt_add, hm, hq, Int.bmod_emod]
    have t1 := Int.tmod_lt_of_pos c.toInt (b := (q.toNat : ℤ)) (by omega)
    have t2 := Int.tmod_lt_of_pos (-c.toInt) (b := (q.toNat : ℤ)) (by omega)
    rw [Int.neg_tmod] at t2
    rw [Int.emod_eq_of_lt] <;> omega
  have t1 := Int.tmod_lt_of_pos c.toInt (b := (q.toNat : ℤ)) (by omega)
  unfold int64Residue
  have hlt : (c % q.toInt64 + q.toInt64).toUInt64.toNat < 2 * q.toNat := by omega
  refine ⟨toNat_cred_lt hlt, ?_⟩
  rw [cast_of_modEq (toNat_cred_modEq _ _), ← Int.cast_natCast, hs]
  rw [Int.tmod_def]
  push_cast
  rw [ZMod.natCast_self, add_zero, zero_mul, sub_zero]

theorem setCoefficientsInt64_is {r : Ring} (hr : r.ArithLvl (r.subs.length - 1)) {p1 : Rows}
    {coeffs : List Int64} (hc : coeffs.length = r.n) (hl : r.subs.length - 1 < p1.length)
    (hp : ∀ i ≤ r.subs.length - 1, (p1.row i).length = r.n) :
    PolyWritten r (r.subs.length - 1) r.qs p1 (r.setCoefficientsInt64 coeffs p1)
      (r.intVec (fun k => (coeffs.getD k 0).toInt)) :=
  writeLvl_is hl (fun i hi => setRow_is 0 hc (hp i hi)
    (fun c => (int64Residue_spec c (hr i hi).one_lt (hr i hi).lt).1)
    (fun _ _ => (int64Residue_spec _ (hr i hi).one_lt (hr i hi).lt).2))

theorem foldl_mul_range (f : ℕ → ℤ) (m : ℕ) :
    (List.range m).foldl (fun a i => a * f i) 1 = ∏ i ∈ range m, f i := by
  induction m with
  | zero => simp
  | succ m ih => rw [List.range_succ, List.foldl_append, ih, prod_range_succ]; rfl

theorem foldl_add_range (f : ℕ → ℤ) (m : ℕ) :
    (List.range m).foldl (fun a i => a + f i) 0 = ∑ i ∈ range m, f i := by
  induction m with
  | zero => simp
  | succ m ih => rw [List.range_succ, List.foldl_append, ih, sum_range_succ]; rfl

theorem modulusLvl_eq (r : Ring) (level : ℕ) : r.modulusLvl level = r.prodQ level := by
  unfold Ring.modulusLvl Ring.prodQ
  rw [foldl_mul_range, Nat.cast_prod]

theorem moduli_eq_map (r : Ring) :
    r.moduli = (List.range r.subs.length).map (fun i => (r.sub i).q) := by
  apply List.ext_getElem
  · simp [Ring.moduli]
  · intro i h1 h2
    have : i < r.subs.length := by simpa [Ring.moduli] using h1
    simp [Ring.moduli, Ring.sub, List.getD, this]

theorem modulusBigint_eq (r : Ring) :
    r.modulusBigint = ∏ i ∈ range r.subs.length, ((r.sub i).q.toNat : ℤ) := by
  unfold Ring.modulusBigint
  rw [moduli_eq_map, List.foldl_map, foldl_mul_range (fun i => ((r.sub i).q.toNat : ℤ))]

section
variable {n : ℕ} {r : Ring} (hr : r.Valid n)
include hr

theorem crt_cong {i k : ℕ} (hi : i < r.subs.length) (hk : k < r.subs.length) :
    ((r.crtReconstruction k : ℤ) : ZMod (r.sub i).q.toNat) = if k = i then 1 else 0 := by
  have hpk := (hr.subAt hk).prime
  have hqk : ((r.sub k).q.toNat : ℤ) ≠ 0 := by have := hpk.pos; omega
  have hC : r.modulusBigint / ((r.sub k).q.toNat : ℤ)
      = ∏ j ∈ (range r.subs.length).erase k, ((r.sub j).q.toNat : ℤ) := by
    rw [modulusBigint_eq, ← Finset.mul_prod_erase _ _ (mem_range.2 hk), Int.mul_ediv_cancel_left _ hqk]
  unfold Ring.crtReconstruction
  simp only [hC]
  by_cases h : k = i
  · subst h
    rw [if_pos rfl]
    set C := ∏ j ∈ (range r.subs.length).erase k, ((r.sub j).q.toNat : ℤ) with hCd
    have hcop : Int.gcd C ((r.sub k).q.toNat : ℤ) = 1 := by
      rw [← Int.isCoprime_iff_gcd_eq_one]
      apply IsCoprime.prod_left
      intro j hj
      have hj' := mem_erase.1 hj
      rw [Nat.isCoprime_iff_coprime, Nat.coprime_primes (hr.subAt (mem_range.1 hj'.2)).prime hpk]
      exact fun he => hj'.1 (hr.q_inj (mem_range.1 hj'.2) hk he)
    have hb := Int.gcd_eq_gcd_ab C ((r.sub k).q.toNat : ℤ)
    rw [hcop] at hb
    have hb' := congrArg (fun t : ℤ => (t : ZMod (r.sub k).q.toNat)) hb
    push_cast at hb'
    rw [ZMod.natCast_self, zero_mul, add_zero] at hb'
    unfold bigModInverse
    rw [Int.emod_emod_of_dvd _ dvd_rfl, Int.cast_mul]
    have e : ((Int.gcdA C ((r.sub k).q.toNat : ℤ) % ((r.sub k).q.toNat : ℤ) : ℤ)
        : ZMod (r.sub k).q.toNat) = (Int.gcdA C ((r.sub k).q.toNat : ℤ) : ZMod (r.sub k).q.toNat) := by
      rw [ZMod.intCast_eq_intCast_iff]
      exact Int.mod_modEq _ _
    rw [e, ← hb']
  · rw [if_neg h, ZMod.intCast_zmod_eq_zero_iff_dvd]
    exact Dvd.dvd.mul_right (Finset.dvd_prod_of_mem _ (mem_erase.2 ⟨Ne.symm h, mem_range.2 hi⟩)) _

theorem prodQ_pos {level : ℕ} (hl : level < r.subs.length) : 0 < r.prodQ level :=
  Finset.prod_pos (fun i hi => (hr.subAt (by have := mem_range.1 hi; omega)).prime.pos)

omit hr in
theorem prodQ_cast_dvd {level i : ℕ} (hi : i ≤ level) : (r.sub i).q.toNat ∣ r.prodQ level :=
  Finset.dvd_prod_of_mem (fun i => (r.sub i).q.toNat) (mem_range.2 (by omega))

theorem coeffBigint_spec {level : ℕ} (hl : level < r.subs.length) (p1 : Rows) (j : ℕ) :
    0 ≤ r.coeffBigint level p1 j ∧ r.coeffBigint level p1 j < r.prodQ level ∧
    ∀ i ≤ level, ((r.coeffBigint level p1 j : ℤ) : ZMod (r.sub i).q.toNat)
      = (((p1.row i).at j).toNat : ZMod (r.sub i).q.toNat) := by
  have hpos := prodQ_pos hr hl
  unfold Ring.coeffBigint
  rw [modulusLvl_eq, foldl_add_range]
  refine ⟨Int.emod_nonneg _ (by omega), Int.emod_lt_of_pos _ (by omega), fun i hi => ?_⟩
  have e := Int.emod_emod_of_dvd (∑ k ∈ range (level + 1),
    (((p1.row k).at j).toNat : ℤ) * r.crtReconstruction k)
    (Int.natCast_dvd_natCast.2 (prodQ_cast_dvd (r := r) hi))
  have e2 := (ZMod.intCast_eq_intCast_iff _ _ (r.sub i).q.toNat).2 e
  rw [e2, Int.cast_sum]
  rw [Finset.sum_eq_single i]
  · push_cast
    rw [crt_cong hr (by omega) (by omega), if_pos rfl, mul_one]
  · intro k hk hne
    have := mem_range.1 hk
    push_cast
    rw [crt_cong hr (by omega) (by omega), if_neg hne, mul_zero]
  · intro h
    exact absurd (mem_range.2 (by omega)) h

/-- the representative in `[0, Q)` is unique -/
theorem eq_emod_of_cong {level : ℕ} (hl : level < r.subs.length) {a x : ℤ} (h0 : 0 ≤ a)
    (h1 : a < r.prodQ level)
    (h : ∀ i ≤ level, (a : ZMod (r.sub i).q.toNat) = (x : ZMod (r.sub i).q.toNat)) :
    a = x % r.prodQ level := by
  have hd := hr.dvd_of_cong hl h
  have := Int.emod_eq_emod_iff_emod_sub_eq_zero.2 (Int.emod_eq_zero_of_dvd hd)
  rwa [Int.emod_eq_of_lt h0 h1] at this

theorem prodQ_odd {level : ℕ} (hl : level < r.subs.length) : r.prodQ level % 2 = 1 := by
  induction level with
  | zero => rw [prodQ_zero]; exact (hr.subAt hl).odd
  | succ l ih =>
    rw [prodQ_succ, Nat.mul_mod, ih (by omega), (hr.subAt hl).odd]

end

end FastKsw
