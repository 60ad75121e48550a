import Verif.Lemmas.BasisExt
import Mathlib.Algebra.BigOperators.Field

/-!
# Basis extension of words and polynomials
-/

namespace FastKsw

open Finset

theorem NearRep.dvd_eq {M : ℕ} {z x : ℤ} (h : NearRep M z) (hd : (M : ℤ) ∣ z - x)
    (h1 : (M : ℤ) ≤ 2 ^ 42 * x) (h2 : 2 ^ 42 * x < (2 ^ 42 - 1) * M) : z = x := by
  obtain ⟨k, hk⟩ := hd
  have hlo := h.lo
  have hhi := h.hi
  have hM : (0 : ℤ) < M := by
    rcases Nat.eq_zero_or_pos M with h0 | h0
    · subst h0; simp at h1 h2; omega
    · exact_mod_cast h0
  have k1 : k < 1 := by
    by_contra hc
    have : (M : ℤ) * 1 ≤ M * k := mul_le_mul_of_nonneg_left (by omega) hM.le
    omega
  have k2 : -1 < k := by
    by_contra hc
    have : (M : ℤ) * k ≤ M * (-1) := mul_le_mul_of_nonneg_left (by omega) hM.le
    omega
  have : k = 0 := by omega
  rw [this, mul_zero] at hk
  omega

/-- congruent modulo all moduli of the chain -/
theorem dvd_of_residues {Q : List UInt64} (h : SrcOK Q) {a b : ℤ}
    (hab : ∀ i < Q.length, (a : ZMod (Row.at Q i).toNat) = b) : (prodL Q : ℤ) ∣ a - b := by
  unfold prodL
  rw [Nat.cast_prod]
  apply Finset.prod_dvd_of_coprime
  · intro i hi j hj hij
    have hi' := mem_range.1 hi
    have hj' := mem_range.1 hj
    rw [Function.onFun, Nat.isCoprime_iff_coprime, Nat.coprime_primes (h.prime i hi') (h.prime j hj')]
    intro he
    exact hij (h.inj i hi' j hj' he)
  · intro i hi
    have := hab i (mem_range.1 hi)
    apply (ZMod.intCast_zmod_eq_zero_iff_dvd _ _).1
    push_cast
    rw [this, sub_self]

/-- the integer whose residues the basis extension computes -/
theorem modUp_int {Q : List UInt64} (h : SrcOK Q) (qInv : ℕ → UInt64)
    (hinv : ∀ i < Q.length, Row.at Q i * qInv i = 1) (c q : ℕ → UInt64)
    (hq : ∀ i < Q.length, q i = Row.at Q i) :
    ∃ z : ℤ, NearRep (prodL Q) z ∧
      (∀ i < Q.length, (z : ZMod (Row.at Q i).toNat) = ((c i).toNat : ZMod (Row.at Q i).toNat)) ∧
      ∀ (par : ModupParams) (j : ℕ) (p pInv : UInt64), DstOK p pInv →
        par.qoverqiinvqi = (List.range Q.length).map (qoverqiinvqi Q) →
        par.qoverqimodp.row j = (List.range Q.length).map (qoverqimodp Q p) →
        par.vtimesqmodp.row j = vtimesqmodp Q p →
        (modUpCoeff Q.length c q qInv par j p pInv).toNat < ((Q.length + 7) / 8 + 2) * p.toNat ∧
        ((modUpCoeff Q.length c q qInv par j p pInv).toNat : ZMod p.toNat) = z := by
  set n := Q.length with hn
  set qb : Row := (List.range n).map (qoverqiinvqi Q) with hqb
  set y : ℕ → UInt64 := reconY c q qInv qb with hy
  have hyi : ∀ i < n, (y i).toNat < (Row.at Q i).toNat ∧
      ((y i).toNat : ZMod (Row.at Q i).toNat) * coL Q i = (c i).toNat := by
    intro i hi
    obtain ⟨g1, g2⟩ := qoverqiinvqi_spec h hi
    have hsm := h.small i hi
    have e : y i = mred (c i) (qoverqiinvqi Q i) (Row.at Q i) (qInv i) := by
      rw [hy]; unfold reconY; rw [hqb, at_map_range _ _ hi, hq i hi]
    obtain ⟨m1, m2⟩ := mred_spec (hinv i hi) (by omega) (c i) (qoverqiinvqi Q i)
      (mul_lt_of_lt_right _ g1)
    rw [e]
    refine ⟨m1, ?_⟩
    have m3 := mred_zmod (hinv i hi) (by omega) (c i) (qoverqiinvqi Q i) (mul_lt_of_lt_right _ g1)
    apply (two_pow_unit (h.odd i hi)).mul_right_cancel
    calc _ = ((mred (c i) (qoverqiinvqi Q i) (Row.at Q i) (qInv i)).toNat : ZMod (Row.at Q i).toNat)
          * 2 ^ 64 * coL Q i := by ring
      _ = (c i).toNat * (((qoverqiinvqi Q i).toNat : ZMod (Row.at Q i).toNat) * coL Q i) := by
          rw [m3]; ring
      _ = _ := by rw [g2]
  set S : ℕ := ∑ i ∈ range n, (y i).toNat * coL Q i with hS
  set v := reconV n y q with hv
  have hM := prodL_pos h
  have hMq : (0 : ℚ) < prodL Q := by exact_mod_cast hM
  -- the float sum
  have hlen : n ≤ 32 := h.le
  obtain ⟨s1, s0⟩ := sum_err (fun i => (y i).toNat) (fun i => (q i).toNat) n hlen
    (fun i hi => by show (y i).toNat < (q i).toNat; rw [hq i hi]; exact (hyi i hi).1)
  set s := (List.range n).foldl (fun vi i => f64Add vi (f64Div (f64OfNat (y i).toNat)
    (f64OfNat (q i).toNat))) 0 with hs
  have hvs : v = ⌊s⌋.toNat := rfl
  have hfl : (0 : ℤ) ≤ ⌊s⌋ := Int.floor_nonneg.2 s0
  have hvz : ((v : ℕ) : ℤ) = ⌊s⌋ := by rw [hvs, Int.toNat_of_nonneg hfl]
  have hvq : ((v : ℕ) : ℚ) = ((⌊s⌋ : ℤ) : ℚ) := by rw [← hvz]; simp
  have f1 := Int.floor_le s
  have f2 := Int.lt_floor_add_one s
  rw [← hvq] at f1 f2
  have hSq : ∑ i ∈ range n, ((y i).toNat : ℚ) / (q i).toNat = (S : ℚ) / prodL Q := by
    rw [hS]
    push_cast
    rw [Finset.sum_div]
    apply Finset.sum_congr rfl
    intro i hi
    have hi' := mem_range.1 hi
    rw [hq i hi', prodL_eq Q hi']
    push_cast
    have hq0 : ((Row.at Q i).toNat : ℚ) ≠ 0 := by
      exact_mod_cast (h.prime i hi').pos.ne'
    have hc0 : (coL Q i : ℚ) ≠ 0 := by
      have := prodL_eq Q hi'
      intro h0
      rw [Nat.cast_eq_zero] at h0
      rw [h0, mul_zero] at this
      omega
    field_simp
  rw [hSq] at s1
  have herr : 38 * (n : ℚ) * uro < 1 / 2 ^ 42 := by
    unfold uro
    have : (n : ℚ) ≤ 32 := by exact_mod_cast hlen
    have : 38 * (n : ℚ) * (1 / 2 ^ 53) ≤ 38 * 32 * (1 / 2 ^ 53) := by
      apply mul_le_mul_of_nonneg_right _ (by norm_num)
      linarith
    refine lt_of_le_of_lt this (by norm_num)
  have s2 := abs_le.1 s1
  have hSn : (S : ℚ) / prodL Q ≤ n := by
    rw [← hSq]
    calc _ ≤ ∑ i ∈ range n, (1 : ℚ) := by
          apply Finset.sum_le_sum
          intro i hi
          have hi' := mem_range.1 hi
          have hq0 : (0 : ℚ) < (q i).toNat := by
            rw [hq i hi']; exact_mod_cast (h.prime i hi').pos
          rw [div_le_one hq0, hq i hi']
          exact_mod_cast (hyi i hi').1.le
      _ = n := by simp
  have hvn : v ≤ n := by
    have : (v : ℚ) < n + 1 := by
      have : (1 : ℚ) / 2 ^ 42 ≤ 1 := by norm_num
      linarith [s2.2]
    have : v < n + 1 := by exact_mod_cast this
    omega
  refine ⟨(S : ℤ) - v * prodL Q, ?_, ?_, ?_⟩
  · have e : (((S : ℤ) - v * prodL Q : ℤ) : ℚ) = ((S : ℚ) / prodL Q - v) * prodL Q := by
      push_cast
      rw [sub_mul, div_mul_cancel₀ _ hMq.ne']
    constructor
    · have : (-(prodL Q : ℚ)) ≤ 2 ^ 42 * (((S : ℤ) - v * prodL Q : ℤ) : ℚ) := by
        rw [e]
        have : -(1 / 2 ^ 42 : ℚ) ≤ (S : ℚ) / prodL Q - v := by linarith [s2.2]
        have := mul_le_mul_of_nonneg_right this hMq.le
        linarith
      exact_mod_cast this
    · have : 2 ^ 42 * (((S : ℤ) - v * prodL Q : ℤ) : ℚ) < (2 ^ 42 + 1) * (prodL Q : ℚ) := by
        rw [e]
        have : (S : ℚ) / prodL Q - v < 1 + 1 / 2 ^ 42 := by linarith [s2.1]
        have := mul_lt_mul_of_pos_right this hMq
        linarith
      exact_mod_cast this
  · intro i hi
    have hz : ((prodL Q : ℕ) : ZMod (Row.at Q i).toNat) = 0 := by
      rw [prodL_eq Q hi, Nat.cast_mul, ZMod.natCast_self, zero_mul]
    push_cast
    rw [hz, mul_zero, sub_zero, hS, Nat.cast_sum, Finset.sum_eq_single_of_mem i (mem_range.2 hi)]
    · rw [Nat.cast_mul, (hyi i hi).2]
    · intro j hj hji
      rw [Nat.cast_mul, (ZMod.natCast_eq_zero_iff (coL Q j) _).2 (coL_dvd Q hi hji.symm), mul_zero]
  · intro par j p pInv D e1 e2 e3
    have hyq : reconY c q qInv par.qoverqiinvqi = y := by rw [e1]
    have hw : modUpCoeff n c q qInv par j p pInv = multSum n v y p pInv (vtimesqmodp Q p)
        ((List.range n).map (qoverqimodp Q p)) := by
      unfold modUpCoeff
      simp only
      rw [hyq, e2, e3]
    rw [hw]
    obtain ⟨b1, b2⟩ := vtimesqmodp_spec D Q hvn
    obtain ⟨t1, t2⟩ := multSum_spec D n v y (vtimesqmodp Q p) ((List.range n).map (qoverqimodp Q p))
      hlen (fun i hi => lt_trans (hyi i hi).1 (h.small i hi))
      (fun i hi => by rw [at_map_range _ _ hi]; exact (qoverqimodp_spec D Q i).1) b1
    refine ⟨t1, ?_⟩
    rw [t2, b2]
    have e4 : (∑ i ∈ range n, ((y i).toNat : ZMod p.toNat) *
        (Row.at ((List.range n).map (qoverqimodp Q p)) i).toNat) * rinv p.toNat = (S : ZMod p.toNat) := by
      rw [Finset.sum_mul, hS, Nat.cast_sum]
      apply Finset.sum_congr rfl
      intro i hi
      rw [at_map_range _ _ (mem_range.1 hi), (qoverqimodp_spec D Q i).2, Nat.cast_mul]
      calc _ = ((y i).toNat : ZMod p.toNat) * coL Q i * (2 ^ 64 * rinv p.toNat) := by ring
        _ = _ := by rw [mul_rinv (odd_of_mul_eq_one D.inv), mul_one]
    rw [e4]
    push_cast
    ring

end FastKsw
