import Verif.Model.BasisExtension
import Verif.Lemmas.Float
import Verif.Lemmas.VecOps
import Verif.Lemmas.PolyIs
import Verif.Spec.RNS
import Mathlib.Data.Nat.ChineseRemainder
import Mathlib.FieldTheory.Finite.Basic

/-!
# Correctness of the RNS basis extension
-/

namespace FastKsw

open Finset

/-- source moduli of a basis extension -/
structure SrcOK (Q : List UInt64) : Prop where
  prime : ∀ i < Q.length, (Row.at Q i).toNat.Prime
  odd : ∀ i < Q.length, (Row.at Q i).toNat % 2 = 1
  small : ∀ i < Q.length, (Row.at Q i).toNat < 2 ^ 61
  inj : ∀ i < Q.length, ∀ j < Q.length, (Row.at Q i).toNat = (Row.at Q j).toNat → i = j
  pos : 0 < Q.length
  le : Q.length ≤ 32

/-- product of the moduli -/
def prodL (Q : List UInt64) : ℕ := ∏ i ∈ range Q.length, (Row.at Q i).toNat

/-- product of the moduli other than `i` -/
def coL (Q : List UInt64) (i : ℕ) : ℕ :=
  ∏ j ∈ range Q.length, if j ≠ i then (Row.at Q j).toNat else 1

theorem prodL_eq (Q : List UInt64) {i : ℕ} (hi : i < Q.length) :
    prodL Q = (Row.at Q i).toNat * coL Q i := by
  unfold prodL coL
  rw [← Finset.mul_prod_erase _ _ (mem_range.2 hi), ← Finset.mul_prod_erase _ (fun j =>
    if j ≠ i then (Row.at Q j).toNat else 1) (mem_range.2 hi)]
  congr 1
  rw [if_neg (by simp), one_mul]
  apply Finset.prod_congr rfl
  intro j hj
  rw [if_pos (Finset.mem_erase.1 hj).1]

theorem coL_dvd (Q : List UInt64) {i j : ℕ} (hj : j < Q.length) (hij : j ≠ i) :
    (Row.at Q j).toNat ∣ coL Q i := by
  have := Finset.dvd_prod_of_mem (fun j => if j ≠ i then (Row.at Q j).toNat else 1) (mem_range.2 hj)
  rwa [if_pos hij] at this

theorem coL_coprime {Q : List UInt64} (h : SrcOK Q) {i : ℕ} (hi : i < Q.length) :
    Nat.Coprime (coL Q i) (Row.at Q i).toNat := by
  unfold coL
  apply Nat.Coprime.prod_left
  intro j hj
  have hj' := mem_range.1 hj
  split
  · rename_i hij
    rw [Nat.coprime_primes (h.prime j hj') (h.prime i hi)]
    intro he
    exact hij (h.inj j hj' i hi he)
  · exact Nat.coprime_one_left _

theorem prodL_pos {Q : List UInt64} (h : SrcOK Q) : 0 < prodL Q :=
  Finset.prod_pos (fun i hi => (h.prime i (mem_range.1 hi)).pos)

section fold
variable {p m : UInt64} (hinv : p * m = 1) (hp1 : 1 < p.toNat) (hp : p.toNat ≤ 2 ^ 63)
include hinv hp1 hp

/-- one step: multiply by `a` -/
theorem step_mul (s a : UInt64) (hs : s.toNat < p.toNat) :
    (mred s (mform a p (bredParams p)) p m).toNat < p.toNat ∧
    ((mred s (mform a p (bredParams p)) p m).toNat : ZMod p.toNat) = s.toNat * a.toNat := by
  have hf := mform_toNat hp1 hp a
  obtain ⟨h1, h2⟩ := mred_spec hinv hp s (mform a p (bredParams p)) (mul_lt_of_lt_left _ hs)
  refine ⟨h1, ?_⟩
  have h3 := mred_zmod hinv hp s (mform a p (bredParams p)) (mul_lt_of_lt_left _ hs)
  rw [hf, ZMod.natCast_mod] at h3
  have hu := two_pow_unit (odd_of_mul_eq_one hinv)
  apply hu.mul_right_cancel
  rw [h3]
  simp only [Nat.cast_mul, Nat.cast_pow, Nat.cast_ofNat]
  ring

theorem fold_if (Q : List UInt64) (i : ℕ) (n : ℕ) (s0 : UInt64) (hs : s0.toNat < p.toNat) :
    ((List.range n).foldl (fun s j => if j ≠ i then mred s (mform (Row.at Q j) p (bredParams p)) p m
      else s) s0).toNat < p.toNat ∧
    (((List.range n).foldl (fun s j => if j ≠ i then mred s (mform (Row.at Q j) p (bredParams p)) p m
      else s) s0).toNat : ZMod p.toNat) =
      s0.toNat * ((∏ j ∈ range n, if j ≠ i then (Row.at Q j).toNat else 1 : ℕ) : ZMod p.toNat) := by
  induction n with
  | zero => simp [hs]
  | succ n ih =>
    rw [List.range_succ, List.foldl_append, Finset.prod_range_succ]
    simp only [List.foldl_cons, List.foldl_nil]
    obtain ⟨h1, h2⟩ := ih
    by_cases hni : n ≠ i
    · simp only [if_pos hni]
      obtain ⟨h3, h4⟩ := step_mul hinv hp1 hp _ (Row.at Q n) h1
      refine ⟨h3, ?_⟩
      rw [h4, h2]
      push_cast
      ring
    · simp only [if_neg hni]
      refine ⟨h1, ?_⟩
      rw [h2]
      push_cast
      ring

theorem fold_all (Q : List UInt64) (s0 : UInt64) (hs : s0.toNat < p.toNat) :
    (Q.foldl (fun s a => mred s (mform a p (bredParams p)) p m) s0).toNat < p.toNat ∧
    ((Q.foldl (fun s a => mred s (mform a p (bredParams p)) p m) s0).toNat : ZMod p.toNat) =
      s0.toNat * (((Q.map UInt64.toNat).prod : ℕ) : ZMod p.toNat) := by
  induction Q generalizing s0 with
  | nil => simp [hs]
  | cons a Q ih =>
    obtain ⟨h3, h4⟩ := step_mul hinv hp1 hp s0 a hs
    obtain ⟨h1, h2⟩ := ih _ h3
    refine ⟨h1, ?_⟩
    rw [List.foldl_cons, h2, h4]
    simp only [List.map_cons, List.prod_cons]
    push_cast
    ring

end fold

theorem prod_map_eq_prodL (Q : List UInt64) : (Q.map UInt64.toNat).prod = prodL Q := by
  unfold prodL
  induction Q with
  | nil => simp
  | cons a Q ih =>
    rw [List.map_cons, List.prod_cons, ih, List.length_cons, Finset.prod_range_succ', mul_comm]
    rfl

/-- target modulus with its Montgomery constant -/
structure DstOK (p pInv : UInt64) : Prop where
  one_lt : 1 < p.toNat
  small : p.toNat < 2 ^ 61
  inv : p * pInv = 1

theorem DstOK.mredParams {p pInv : UInt64} (h : DstOK p pInv) : p * mredParams p = 1 :=
  mredParams_spec p (odd_of_mul_eq_one h.inv)

theorem qoverqiinvqi_spec {Q : List UInt64} (h : SrcOK Q) {i : ℕ} (hi : i < Q.length) :
    (qoverqiinvqi Q i).toNat < (Row.at Q i).toNat ∧
    ((qoverqiinvqi Q i).toNat : ZMod (Row.at Q i).toNat) * coL Q i = 2 ^ 64 := by
  have hpr := h.prime i hi
  have hinv := mredParams_spec _ (h.odd i hi)
  have hsm := h.small i hi
  have hcop := coL_coprime h hi
  set q := Row.at Q i with hq
  have : Fact q.toNat.Prime := ⟨hpr⟩
  have hm := mform_toNat hpr.one_lt (by omega : q.toNat ≤ 2 ^ 63) 1
  have h1 : (mform 1 q (bredParams q)).toNat < q.toNat := by rw [hm]; exact Nat.mod_lt _ hpr.pos
  obtain ⟨f1, f2⟩ := fold_if hinv hpr.one_lt (by omega) Q i Q.length _ h1
  have e2 : (q - 2).toNat = q.toNat - 2 :=
    UInt64.toNat_sub_of_le _ _ (UInt64.le_iff_toNat_le.2 hpr.two_le)
  have hX := f2
  rw [hm, ZMod.natCast_mod] at hX
  have hX' : (((List.range Q.length).foldl (fun s j => if j ≠ i then
      mred s (mform (Row.at Q j) q (bredParams q)) q (mredParams q) else s)
      (mform 1 q (bredParams q))).toNat : ZMod q.toNat) = (coL Q i : ZMod q.toNat) * 2 ^ 64 := by
    rw [hX]
    unfold coL
    simp only [Nat.cast_mul, Nat.cast_pow, Nat.cast_ofNat, UInt64.toNat_one, Nat.cast_one]
    ring
  obtain ⟨g1, g2⟩ := modexpMontgomery_spec hinv hpr.one_lt (by omega) (q - 2).toNat
    (q - 2).toNat_lt _ (coL Q i : ZMod q.toNat) f1 hX'
  refine ⟨g1, ?_⟩
  have g2' : ((qoverqiinvqi Q i).toNat : ZMod q.toNat) = (coL Q i : ZMod q.toNat) ^ (q - 2).toNat * 2 ^ 64 := g2
  rw [g2', e2]
  have hne : (coL Q i : ZMod q.toNat) ≠ 0 := by
    intro h0
    rw [ZMod.natCast_eq_zero_iff] at h0
    have := Nat.Coprime.eq_one_of_dvd hcop.symm h0
    have := hpr.one_lt
    omega
  have hf := ZMod.pow_card_sub_one_eq_one hne
  have e3 : q.toNat - 1 = q.toNat - 2 + 1 := by have := hpr.two_le; omega
  rw [e3, pow_succ] at hf
  calc _ = (coL Q i : ZMod q.toNat) ^ (q.toNat - 2) * (coL Q i : ZMod q.toNat) * 2 ^ 64 := by ring
    _ = _ := by rw [hf, one_mul]

theorem qoverqimodp_spec {p pInv : UInt64} (h : DstOK p pInv) (Q : List UInt64) (i : ℕ) :
    (qoverqimodp Q p i).toNat < p.toNat ∧
    ((qoverqimodp Q p i).toNat : ZMod p.toNat) = coL Q i * 2 ^ 64 := by
  have hsm := h.small
  obtain ⟨f1, f2⟩ := fold_if h.mredParams h.one_lt (by omega) Q i Q.length 1 (by simpa using h.one_lt)
  have hm := mform_toNat h.one_lt (by omega : p.toNat ≤ 2 ^ 63) ((List.range Q.length).foldl
    (fun s j => if j ≠ i then mred s (mform (Row.at Q j) p (bredParams p)) p (mredParams p) else s) 1)
  have e : (qoverqimodp Q p i).toNat = _ := hm
  rw [e]
  refine ⟨Nat.mod_lt _ (by have := h.one_lt; omega), ?_⟩
  rw [ZMod.natCast_mod]
  simp only [Nat.cast_mul, Nat.cast_pow, Nat.cast_ofNat]
  rw [f2]
  unfold coL
  simp

theorem vTimes_spec {p : UInt64} (hp0 : 0 < p.toNat) (hp : p.toNat ≤ 2 ^ 63) (v : UInt64)
    (hv : v.toNat ≤ p.toNat) (i : ℕ) :
    (vTimes v p i).toNat < p.toNat ∧ ((vTimes v p i).toNat : ZMod p.toNat) = i * v.toNat := by
  induction i with
  | zero => simp [vTimes, hp0]
  | succ i ih =>
    obtain ⟨h1, h2⟩ := ih
    rw [vTimes]
    have e : (vTimes v p i + v).toNat = (vTimes v p i).toNat + v.toNat := by
      rw [UInt64.toNat_add, Nat.mod_eq_of_lt (by omega)]
    refine ⟨toNat_cred_lt (by omega), ?_⟩
    rw [cast_of_modEq (toNat_cred_modEq _ _), e]
    push_cast
    rw [h2]
    ring

theorem vtimesqmodp_spec {p pInv : UInt64} (h : DstOK p pInv) (Q : List UInt64) {v : ℕ}
    (hv : v ≤ Q.length) :
    ((vtimesqmodp Q p).at v).toNat < p.toNat ∧
    (((vtimesqmodp Q p).at v).toNat : ZMod p.toNat) = -(v * prodL Q : ZMod p.toNat) := by
  have hsm := h.small
  have h1 := h.one_lt
  obtain ⟨f1, f2⟩ := fold_all h.mredParams h.one_lt (by omega) Q 1 (by simpa using h.one_lt)
  set w := Q.foldl (fun s a => mred s (mform a p (bredParams p)) p (mredParams p)) 1 with hw
  have e : (vtimesqmodp Q p).at v = vTimes (p - w) p v := by
    show Row.at ((List.range (Q.length + 1)).map (vTimes (p - w) p)) v = _
    simp [Row.at, List.getD, Nat.lt_succ_of_le hv]
  rw [e]
  have es : (p - w).toNat = p.toNat - w.toNat := toNat_sub_of_le' (by omega)
  obtain ⟨g1, g2⟩ := vTimes_spec (by omega) (by omega : p.toNat ≤ 2 ^ 63) (p - w) (by omega) v
  refine ⟨g1, ?_⟩
  rw [g2, es, Nat.cast_sub f1.le, f2, prod_map_eq_prodL]
  simp

theorem at_map_range (n : ℕ) (f : ℕ → UInt64) {i : ℕ} (hi : i < n) :
    Row.at ((List.range n).map f) i = f i := by
  simp [Row.at, List.getD, hi]

/-- the 128-bit accumulator holds the exact sum -/
theorem multSumAcc_spec (y : ℕ → UInt64) (e : Row) (p : ℕ) (n : ℕ) (hn : n ≤ 32)
    (hp : p ≤ 2 ^ 61) (hy : ∀ i < n, (y i).toNat < 2 ^ 61) (he : ∀ i < n, (e.at i).toNat < p) :
    (multSumAcc n y e).2.toNat * 2 ^ 64 + (multSumAcc n y e).1.toNat =
      ∑ i ∈ range n, (y i).toNat * (e.at i).toNat := by
  have hsum : ∀ m ≤ n, ∑ i ∈ range m, (y i).toNat * (e.at i).toNat ≤ m * (2 ^ 61 * 2 ^ 61) := by
    intro m hm
    calc _ ≤ ∑ i ∈ range m, 2 ^ 61 * 2 ^ 61 := by
          apply Finset.sum_le_sum
          intro i hi
          have hi' := mem_range.1 hi
          exact Nat.mul_le_mul (hy i (by omega)).le (by have := he i (by omega); omega)
      _ = _ := by simp
  have key : ∀ m ≤ n, ((List.range m).foldl (fun (r : UInt64 × UInt64) i =>
      (r.1 + mulLo (y i) (e.at i), r.2 + (mulHi (y i) (e.at i) + addCarry r.1 (mulLo (y i) (e.at i)))))
        (0, 0)).2.toNat * 2 ^ 64 + ((List.range m).foldl (fun (r : UInt64 × UInt64) i =>
      (r.1 + mulLo (y i) (e.at i), r.2 + (mulHi (y i) (e.at i) + addCarry r.1 (mulLo (y i) (e.at i)))))
        (0, 0)).1.toNat = ∑ i ∈ range m, (y i).toNat * (e.at i).toNat := by
    intro m
    induction m with
    | zero => intro _; simp
    | succ m ih =>
      intro hm
      have ih := ih (by omega)
      have hs := hsum (m + 1) hm
      rw [List.range_succ, List.foldl_append, Finset.sum_range_succ]
      rw [Finset.sum_range_succ] at hs
      simp only [List.foldl_cons, List.foldl_nil]
      set r := (List.range m).foldl (fun (r : UInt64 × UInt64) i =>
        (r.1 + mulLo (y i) (e.at i), r.2 + (mulHi (y i) (e.at i) + addCarry r.1 (mulLo (y i) (e.at i)))))
        (0, 0)
      have h1 := toNat_mulHi (y m) (e.at m)
      have h2 := toNat_mulLo (y m) (e.at m)
      have h3 := toNat_addCarry r.1 (mulLo (y m) (e.at m))
      have h4 := r.1.toNat_lt
      have h5 := (mulLo (y m) (e.at m)).toNat_lt
      rw [UInt64.toNat_add, UInt64.toNat_add, UInt64.toNat_add]
      rw [← ih] at hs ⊢
      generalize (y m).toNat * (e.at m).toNat = w at *
      have h6 : (m + 1) * (2 ^ 61 * 2 ^ 61) ≤ 2 ^ 127 :=
        le_trans (Nat.mul_le_mul_right _ (by omega : m + 1 ≤ 32)) (by norm_num)
      replace hs := hs.trans h6
      rw [h1, h2, h3, h2]
      generalize r.1.toNat = a at *
      generalize r.2.toNat = b at *
      clear ih hsum h1 h2 h3 h5 h6
      omega
  exact key n le_rfl

/-- `multSum`: the sum times `2^-64`, plus the correction, with an explicit range -/
theorem multSum_spec {p pInv : UInt64} (h : DstOK p pInv) (n v : ℕ) (y : ℕ → UInt64) (vt e : Row)
    (hn : n ≤ 32) (hy : ∀ i < n, (y i).toNat < 2 ^ 61) (he : ∀ i < n, (e.at i).toNat < p.toNat)
    (hv : (vt.at v).toNat < p.toNat) :
    (multSum n v y p pInv vt e).toNat < ((n + 7) / 8 + 2) * p.toNat ∧
    ((multSum n v y p pInv vt e).toNat : ZMod p.toNat) =
      (∑ i ∈ range n, ((y i).toNat : ZMod p.toNat) * (e.at i).toNat) * rinv p.toNat + (vt.at v).toNat := by
  have hp := h.small
  have hp1 := h.one_lt
  have hacc := multSumAcc_spec y e p.toNat n hn hp.le hy he
  set r := multSumAcc n y e with hr
  have hm := mont_core p pInv r.1 h.inv
  have hlt := mulHi_lt (r.1 * pInv) p (by omega)
  set hhi := mulHi (r.1 * pInv) p with hhhi
  -- size of the high word
  have hbound : r.2.toNat * 2 ^ 64 < (n + 7) / 8 * p.toNat * 2 ^ 64 ∨ n = 0 := by
    rcases Nat.eq_zero_or_pos n with h0 | h0
    · exact Or.inr h0
    · left
      have : ∑ i ∈ range n, (y i).toNat * (e.at i).toNat < ∑ i ∈ range n, 2 ^ 61 * p.toNat := by
        apply Finset.sum_lt_sum_of_nonempty (by simpa using h0.ne')
        intro i hi
        have hi' := mem_range.1 hi
        exact Nat.mul_lt_mul'' (hy i hi') (he i hi')
      simp only [Finset.sum_const, Finset.card_range, smul_eq_mul] at this
      have h8 : n * (2 ^ 61 * p.toNat) ≤ (n + 7) / 8 * p.toNat * 2 ^ 64 := by
        have : n ≤ (n + 7) / 8 * 8 := by omega
        calc _ ≤ (n + 7) / 8 * 8 * (2 ^ 61 * p.toNat) := Nat.mul_le_mul_right _ this
          _ = _ := by ring
      omega
  have hr2 : r.2.toNat + p.toNat ≤ (n + 7) / 8 * p.toNat + p.toNat := by
    rcases hbound with hb | hb
    · have := Nat.lt_of_mul_lt_mul_right hb; omega
    · subst hb
      have : r.2.toNat = 0 := by simp at hacc; omega
      omega
  have hc4 : (n + 7) / 8 ≤ 4 := by omega
  have hcp : (n + 7) / 8 * p.toNat ≤ 4 * p.toNat := Nat.mul_le_mul_right _ hc4
  have e1 : (r.2 - hhi + p).toNat = r.2.toNat + p.toNat - hhi.toNat := by
    rw [UInt64.toNat_add, toNat_sub']
    have := r.2.toNat_lt
    omega
  have e2 : (multSum n v y p pInv vt e).toNat = r.2.toNat + p.toNat - hhi.toNat + (vt.at v).toNat := by
    show (r.2 - hhi + p + vt.at v).toNat = _
    rw [UInt64.toNat_add, e1, Nat.mod_eq_of_lt (by omega)]
  rw [e2]
  constructor
  · have : ((n + 7) / 8 + 2) * p.toNat = (n + 7) / 8 * p.toNat + 2 * p.toNat := by ring
    omega
  · rw [Nat.cast_add]
    congr 1
    apply eq_mul_rinv (odd_of_mul_eq_one h.inv)
    have e3 : ((r.2.toNat + p.toNat - hhi.toNat) * 2 ^ 64 + (r.1 * pInv).toNat * p.toNat) =
        ∑ i ∈ range n, (y i).toNat * (e.at i).toNat + p.toNat * 2 ^ 64 := by
      rw [hm, ← hacc, Nat.sub_mul, Nat.add_mul]
      have : hhi.toNat * 2 ^ 64 ≤ p.toNat * 2 ^ 64 := Nat.mul_le_mul_right _ hlt.le
      omega
    have e4 := congrArg (Nat.cast : ℕ → ZMod p.toNat) e3
    simp only [Nat.cast_add, Nat.cast_mul, Nat.cast_pow, Nat.cast_ofNat, CharP.cast_eq_zero, mul_zero,
      zero_mul, add_zero, Nat.cast_sum] at e4
    exact e4

end FastKsw
