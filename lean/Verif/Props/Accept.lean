import Verif.Props.Factors
import Verif.Props.Derived
import Verif.Spec.Accept
import Mathlib.Tactic.FinCases

/-!
# C103: which degrees and moduli are accepted

With the loops of `getFactors` and `primitiveRoot` known to end, `NewRing` and `NewParameters` are described without
reference to a number of steps: they return for all arguments, and succeed exactly on the acceptable ones.
-/

namespace FastKsw

namespace Props

theorem mask_of_mod {q : UInt64} {k : ℕ} (hk : k < 64) (h : q.toNat % 2 ^ k = 1) :
    q &&& (UInt64.ofNat (2 ^ k) - 1) = 1 := by
  have h64 : 2 ^ k < 2 ^ 64 := Nat.pow_lt_pow_right (by omega) hk
  have e : (UInt64.ofNat (2 ^ k)).toNat = 2 ^ k := by
    rw [UInt64.toNat_ofNat']
    exact Nat.mod_eq_of_lt h64
  have hp : 1 ≤ 2 ^ k := Nat.one_le_two_pow
  have e2 : (UInt64.ofNat (2 ^ k) - 1).toNat = 2 ^ k - 1 := by
    rw [toNat_sub_of_le' (by rw [e, UInt64.toNat_one]; exact hp), e, UInt64.toNat_one]
  rw [← UInt64.toNat_inj, UInt64.toNat_and, e2, Nat.and_two_pow_sub_one_eq_mod, UInt64.toNat_one]
  exact h

theorem genSub_returns {q : UInt64} (hp : q.toNat.Prime) (h33 : 33 ≤ q.toNat) (hq : q.toNat ≤ 2 ^ 63) (nth : ℕ) :
    ∃ s, ∀ fuel, q.toNat ≤ fuel → genSub fuel nth q = some s := by
  obtain ⟨g, hg⟩ := primitiveRoot_returns hp h33 hq
  obtain ⟨s, hs⟩ : ∃ s, genSub q.toNat nth q = some s := by
    unfold genSub
    rw [hg _ le_rfl]
    exact ⟨_, rfl⟩
  refine ⟨s, fun fuel hf => ?_⟩
  rw [← hs]
  unfold genSub
  rw [hg fuel hf, hg _ le_rfl]

theorem mapM_genSub_returns (nth : ℕ) (l : List UInt64) (hl : ∀ q ∈ l, q.toNat.Prime ∧ 33 ≤ q.toNat ∧ q.toNat ≤ 2 ^ 63) :
    ∃ ss, ∀ fuel, (∀ q ∈ l, q.toNat ≤ fuel) → l.mapM (genSub fuel nth) = some ss := by
  induction l with
  | nil => exact ⟨[], fun fuel _ => rfl⟩
  | cons q l ih =>
    obtain ⟨h1, h2, h3⟩ := hl q List.mem_cons_self
    obtain ⟨s, hs⟩ := genSub_returns h1 h2 h3 nth
    obtain ⟨ss, hss⟩ := ih fun x hx => hl x (List.mem_cons_of_mem _ hx)
    refine ⟨s :: ss, fun fuel hf => ?_⟩
    rw [List.mapM_cons, hs fuel (hf q List.mem_cons_self), hss fuel fun x hx => hf x (List.mem_cons_of_mem _ hx)]
    rfl

theorem land_two_pow (n : ℕ) : Nat.land (2 ^ n) (2 ^ n - 1) = 0 := by
  show 2 ^ n &&& (2 ^ n - 1) = 0
  rw [Nat.and_two_pow_sub_one_eq_mod, Nat.mod_self]

theorem newRingCustom_returns {n m : ℕ} (hn : 4 ≤ n) (hm : n ≤ m) (hm' : m < 62) {moduli : List UInt64} (hne : moduli ≠ [])
    (hnd : moduli.Nodup) (hq : ∀ q ∈ moduli, q.toNat.Prime ∧ q.toNat < 2 ^ 63 ∧ q.toNat % (2 * 2 ^ m) = 1) (ty : RingType) :
    ∃ r, ∀ fuel, (∀ q ∈ moduli, q.toNat ≤ fuel) → newRingCustom fuel (2 ^ n) moduli ty (2 * 2 ^ m) = .ok r := by
  have e2 : 2 * 2 ^ m = 2 ^ (m + 1) := by ring
  have h16 : 2 ^ 4 ≤ 2 ^ n := Nat.pow_le_pow_right (by omega) hn
  have h33 : ∀ q ∈ moduli, 33 ≤ q.toNat := by
    intro q hqm
    obtain ⟨h1, -, h3⟩ := hq q hqm
    have h32 : 2 ^ 5 ∣ 2 ^ (m + 1) := pow_dvd_pow 2 (by omega)
    have := Nat.mod_mod_of_dvd q.toNat h32
    rw [← e2, h3] at this
    have h5 : q.toNat % 32 = 1 := by simpa using this.symm
    have := h1.one_lt
    omega
  obtain ⟨ss, hss⟩ := mapM_genSub_returns (2 * 2 ^ m) moduli fun q hqm =>
    ⟨(hq q hqm).1, h33 q hqm, (hq q hqm).2.1.le⟩
  refine ⟨{ n := 2 ^ n, nthRoot := 2 * 2 ^ m, subs := ss, rescaleParams := genRescaleParams moduli, type := ty },
    fun fuel hf => ?_⟩
  unfold newRingCustom
  rw [if_neg, if_neg, if_neg]
  · have hfind : moduli.find? (fun qi => decide (¬ isPrime qi) || (qi &&& (UInt64.ofNat (2 * 2 ^ m) - 1)) != 1) = none := by
      rw [List.find?_eq_none]
      intro q hqm
      obtain ⟨h1, -, h3⟩ := hq q hqm
      have h5 : isPrime q := h1
      have h6 : q &&& (UInt64.ofNat (2 * 2 ^ m) - 1) = 1 := by
        rw [e2] at h3 ⊢
        exact mask_of_mod (by omega) h3
      rw [h6]
      simp [h5]
    rw [hfind]
    simp only
    rw [hss fuel hf]
  · rw [not_not, C60_allDistinct]
    exact hnd
  · simpa using hne
  · rintro (h | h)
    · omega
    · exact h.1 (land_two_pow n)

/-- **C103 (NewRing).** For moduli below `2^63` and degrees below `2^61`, `NewRing` and `NewRingConjugateInvariant`
return, with a result that does not depend on the number of steps allowed once it reaches the largest modulus: a ring
exactly when the degree is a power of two from 16 on and the moduli are distinct primes, at least one, that are
1 modulo `2N` (`4N`). -/
theorem C103_newRing (N : ℕ) (hN : N < 2 ^ 61) (ty : RingType) (moduli : List UInt64) (hq : ∀ q ∈ moduli, q.toNat < 2 ^ 63) :
    (RingAcceptable N ty moduli → ∃ r, ∀ fuel, (∀ q ∈ moduli, q.toNat ≤ fuel) → newRingFromType fuel N moduli ty = .ok r) ∧
    (¬ RingAcceptable N ty moduli → ∀ fuel, ∃ e, newRingFromType fuel N moduli ty = .error e ∧ e ≠ .noFuel) := by
  have key : ∀ (m : ℕ) (hm : ∀ n, N = 2 ^ n → n ≤ m ∧ m < 62 ∧ rootOrder N ty = 2 * 2 ^ m),
      (RingAcceptable N ty moduli → ∃ r, ∀ fuel, (∀ q ∈ moduli, q.toNat ≤ fuel) →
        newRingCustom fuel N moduli ty (rootOrder N ty) = .ok r) ∧
      (¬ RingAcceptable N ty moduli → ∀ fuel, ∃ e, newRingCustom fuel N moduli ty (rootOrder N ty) = .error e ∧ e ≠ .noFuel) := by
    intro m hm
    constructor
    · rintro ⟨⟨n, hn, rfl⟩, h2, h3, h4, h5⟩
      obtain ⟨a, b, c⟩ := hm n rfl
      rw [c] at h5 ⊢
      exact newRingCustom_returns hn a b h2 h3 (fun q hqm => ⟨h4 q hqm, hq q hqm, h5 q hqm⟩) ty
    · intro hbad fuel
      unfold newRingCustom
      split
      · exact ⟨_, rfl, by decide⟩
      rename_i h1
      split
      · exact ⟨_, rfl, by decide⟩
      rename_i h2
      split
      · exact ⟨_, rfl, by decide⟩
      rename_i h3
      split
      · split
        · exact ⟨_, rfl, by decide⟩
        · exact ⟨_, rfl, by decide⟩
      rename_i h4
      exfalso
      apply hbad
      push Not at h1
      have hN0 : N ≠ 0 := by omega
      have hpow : Nat.land N (N - 1) = 0 := by
        by_contra hc
        exact hN0 (h1.2 hc)
      obtain ⟨n, hn⟩ := (Nat.and_sub_one_eq_zero_iff_isPowerOfTwo hN0).1 hpow
      have hn4 : 4 ≤ n := by
        by_contra hc
        have : 2 ^ n ≤ 2 ^ 3 := Nat.pow_le_pow_right (by omega) (by omega)
        omega
      have hall : ∀ q ∈ moduli, q.toNat.Prime ∧ q &&& (UInt64.ofNat (rootOrder N ty) - 1) = 1 := by
        rw [List.find?_eq_none] at h4
        intro q hqm
        have := h4 q hqm
        simp only [Bool.or_eq_true, decide_eq_true_eq, bne_iff_ne, ne_eq, not_or, not_not] at this
        exact this
      refine ⟨⟨n, hn4, hn⟩, fun h => by simp [h] at h2, ?_, fun q hqm => (hall q hqm).1, fun q hqm => ?_⟩
      · rw [not_not, C60_allDistinct] at h3
        exact h3
      · obtain ⟨a, b, c⟩ := hm n hn
        have := (hall q hqm).2
        rw [c, show 2 * 2 ^ m = 2 ^ (m + 1) by ring] at this ⊢
        exact and_mask_eq_one (by omega) this
  have hlog : ∀ n, N = 2 ^ n → n < 61 ∧ Nat.log2 N = n := by
    rintro n rfl
    refine ⟨?_, Nat.log2_two_pow⟩
    by_contra hc
    have : 2 ^ 61 ≤ 2 ^ n := Nat.pow_le_pow_right (by omega) (by omega)
    omega
  cases ty with
  | standard =>
    refine key (Nat.log2 N) fun n hn => ?_
    obtain ⟨a, b⟩ := hlog n hn
    rw [b]
    exact ⟨le_rfl, by omega, by rw [hn]; rfl⟩
  | conjugateInvariant =>
    refine key (Nat.log2 N + 1) fun n hn => ?_
    obtain ⟨a, b⟩ := hlog n hn
    rw [b]
    exact ⟨by omega, by omega, by rw [hn]; show 4 * 2 ^ n = _; ring⟩

theorem lenMinusOne_le {x : UInt64} {k : ℕ} (hx : x ≠ 0) : lenMinusOne x > k ↔ 2 ^ (k + 1) ≤ x.toNat := by
  have hx0 : x.toNat ≠ 0 := fun h => hx (UInt64.toNat_inj.1 (by rw [h]; rfl))
  unfold lenMinusOne len64
  rw [if_neg hx, if_neg hx0, Nat.add_sub_cancel]
  show k < Nat.log2 x.toNat ↔ _
  rw [← Nat.succ_le_iff, Nat.le_log2 hx0]

/-- **C103 (NewParameters).** For every degree, ring type and lists of moduli of any size, `NewParameters` returns, with a
result that does not depend on the number of steps allowed once it reaches the largest modulus: parameters exactly when
the arguments are acceptable. -/
theorem C103_newParameters (logN : ℕ) (ty : RingType) (q p : List UInt64) (h : ℕ) (sigma : UInt64) :
    (ParamsAcceptable logN ty q p → ∃ P, ∀ fuel, (∀ x ∈ q ++ p, x.toNat ≤ fuel) →
      newParameters fuel logN q p h sigma ty = .ok P) ∧
    (¬ ParamsAcceptable logN ty q p → ∀ fuel, ∃ e, newParameters fuel logN q p h sigma ty = .error e ∧
      ((∀ x ∈ q ++ p, x.toNat ≤ fuel) → e ≠ .ring .noFuel)) := by
  constructor
  · rintro ⟨⟨d1, d2⟩, ⟨c1, c2⟩, c3, s1, s2, ⟨n1, n2⟩, pr, ro⟩
    have hN : 2 ^ logN ≤ 2 ^ 17 := Nat.pow_le_pow_right (by omega) d2
    have size : ∀ (l : List UInt64) (k : ℕ), k < 63 → (∀ x ∈ l, x.toNat.Prime) → (∀ x ∈ l, x.toNat < 2 ^ (k + 1)) →
        l.any (fun qi => decide (lenMinusOne qi > k)) = false := by
      intro l k hk hpr hlt
      rw [List.any_eq_false]
      intro x hx
      have h0 : x ≠ 0 := by
        rintro rfl
        exact (hpr 0 hx).ne_zero rfl
      have := hlt x hx
      rw [decide_eq_true_eq, lenMinusOne_le h0]
      omega
    obtain ⟨rQ, hrQ⟩ := (C103_newRing (2 ^ logN) (by omega) ty q fun x hx => by have := s1 x hx; omega).1
      ⟨⟨logN, d1, rfl⟩, fun h => by simp [h] at c1, n1, fun x hx => pr x (List.mem_append_left _ hx),
        fun x hx => ro x (List.mem_append_left _ hx)⟩
    have hs : checkSizeParams logN q.length p.length = .ok () := by
      unfold checkSizeParams maxLogN minLogN maxModuliCount
      rw [if_neg (by omega), if_neg (by omega), if_neg (by omega), if_neg (by omega)]
    have hc : checkModuli q p = .ok () := by
      unfold checkModuli maxModuliCount maxModuliSize
      rw [if_neg (by omega), if_neg (by omega),
        size q 61 (by omega) (fun x hx => pr x (List.mem_append_left _ hx)) (fun x hx => s1 x hx),
        size p 62 (by omega) (fun x hx => pr x (List.mem_append_right _ hx)) (fun x hx => s2 x hx),
        if_neg (by decide), if_neg (by decide), if_neg, if_neg]
      · exact fun h => h fun x hx => pr x (List.mem_append_right _ hx)
      · exact fun h => h fun x hx => pr x (List.mem_append_left _ hx)
    by_cases hp : p.length ≠ 0
    · obtain ⟨rP, hrP⟩ := (C103_newRing (2 ^ logN) (by omega) ty p s2).1
        ⟨⟨logN, d1, rfl⟩, fun h => by simp [h] at hp, n2, fun x hx => pr x (List.mem_append_right _ hx),
          fun x hx => ro x (List.mem_append_right _ hx)⟩
      refine ⟨⟨logN, q, p, sigma, h, rQ, some rP, ty⟩, fun fuel hf => ?_⟩
      unfold newParameters
      simp only [hs, hc, hrQ fuel fun x hx => hf x (List.mem_append_left _ hx), if_pos hp,
        hrP fuel fun x hx => hf x (List.mem_append_right _ hx)]
    · refine ⟨⟨logN, q, p, sigma, h, rQ, none, ty⟩, fun fuel hf => ?_⟩
      unfold newParameters
      simp only [hs, hc, hrQ fuel fun x hx => hf x (List.mem_append_left _ hx), if_neg hp]
  · intro hbad fuel
    have nof : ∀ e : ParamErr, (∀ r, e ≠ .ring r) → (∀ x ∈ q ++ p, x.toNat ≤ fuel) → e ≠ .ring .noFuel :=
      fun e he _ => he _
    unfold newParameters
    split
    · rename_i e he
      refine ⟨e, rfl, nof e fun r hr => ?_⟩
      subst hr
      unfold checkSizeParams at he
      split at he <;> [cases he; skip]
      split at he <;> [cases he; skip]
      split at he <;> [cases he; skip]
      split at he <;> cases he
    rename_i hs
    split
    · rename_i e he
      refine ⟨e, rfl, nof e fun r hr => ?_⟩
      subst hr
      unfold checkModuli at he
      split at he <;> [cases he; skip]
      split at he <;> [cases he; skip]
      split at he <;> [cases he; skip]
      split at he <;> [cases he; skip]
      split at he <;> [cases he; skip]
      split at he <;> cases he
    rename_i hc
    unfold checkSizeParams maxLogN minLogN maxModuliCount at hs
    split at hs <;> [cases hs; skip]
    split at hs <;> [cases hs; skip]
    split at hs <;> [cases hs; skip]
    split at hs <;> [cases hs; skip]
    unfold checkModuli maxModuliCount maxModuliSize at hc
    split at hc <;> [cases hc; skip]
    split at hc <;> [cases hc; skip]
    rename_i hsq
    split at hc <;> [cases hc; skip]
    rename_i hsp
    split at hc <;> [cases hc; skip]
    rename_i hpq
    split at hc <;> [cases hc; skip]
    rename_i hpp
    rw [not_not] at hpq hpp
    have size : ∀ (l : List UInt64) (k : ℕ), k < 63 → (∀ x ∈ l, x.toNat.Prime) →
        ¬ l.any (fun qi => decide (lenMinusOne qi > k)) = true → ∀ x ∈ l, x.toNat < 2 ^ (k + 1) := by
      intro l k hk hpr hlt x hx
      rw [Bool.not_eq_true, List.any_eq_false] at hlt
      have h0 : x ≠ 0 := by
        rintro rfl
        exact (hpr 0 hx).ne_zero rfl
      have := hlt x hx
      rw [decide_eq_true_eq, lenMinusOne_le h0] at this
      omega
    have s1 := size q 61 (by omega) hpq hsq
    have s2 := size p 62 (by omega) hpp hsp
    have hN : 2 ^ logN ≤ 2 ^ 17 := Nat.pow_le_pow_right (by omega) (by omega)
    have RQ := C103_newRing (2 ^ logN) (by omega) ty q fun x hx => by have := s1 x hx; omega
    have RP := C103_newRing (2 ^ logN) (by omega) ty p s2
    by_cases hQ : RingAcceptable (2 ^ logN) ty q
    · by_cases hP : p ≠ [] → RingAcceptable (2 ^ logN) ty p
      · exfalso
        apply hbad
        refine ⟨by omega, ⟨List.length_pos_iff.2 hQ.nonempty, by omega⟩, by omega, s1, s2, ⟨hQ.nodup, ?_⟩, ?_, ?_⟩
        · by_cases h0 : p = []
          · rw [h0]; exact List.nodup_nil
          · exact (hP h0).nodup
        · intro x hx
          rcases List.mem_append.1 hx with hx | hx
          · exact hpq x hx
          · exact hpp x hx
        · intro x hx
          rcases List.mem_append.1 hx with hx | hx
          · exact hQ.root x hx
          · exact (hP (List.ne_nil_of_mem hx)).root x hx
      · push Not at hP
        split
        · rename_i e he
          refine ⟨_, rfl, fun hf => ?_⟩
          obtain ⟨r, hr⟩ := RQ.1 hQ
          rw [hr fuel fun x hx => hf x (List.mem_append_left _ hx)] at he
          cases he
        · have hp0 : p.length ≠ 0 := by simpa using hP.1
          rw [if_pos hp0]
          obtain ⟨e, he, hne⟩ := RP.2 hP.2 fuel
          rw [he]
          exact ⟨_, rfl, fun _ h => hne (by cases h; rfl)⟩
    · obtain ⟨e, he, hne⟩ := RQ.2 hQ fuel
      rw [he]
      exact ⟨_, rfl, fun _ h => hne (by cases h; rfl)⟩

/-- the hypotheses are met by a small set of parameters, which is therefore accepted -/
example : ∃ P, ∀ fuel, 257 ≤ fuel → newParameters fuel 4 [97, 193] [257] 8 0 .standard = .ok P := by
  have hA : ParamsAcceptable 4 .standard [97, 193] [257] :=
    ⟨by norm_num, by simp, by simp, by decide, by decide, by decide, by
      intro x hx
      fin_cases hx
      · exact (by norm_num : Nat.Prime 97)
      · exact (by norm_num : Nat.Prime 193)
      · exact (by norm_num : Nat.Prime 257), by decide⟩
  obtain ⟨P, hP⟩ := (C103_newParameters 4 .standard [97, 193] [257] 8 0).1 hA
  refine ⟨P, fun fuel hf => hP fuel fun x hx => ?_⟩
  fin_cases hx
  · exact le_trans (by decide) hf
  · exact le_trans (by decide) hf
  · exact le_trans (by decide) hf

/-- 97 is not 1 modulo 64, so that it is refused in the conjugate-invariant ring -/
example : ¬ ParamsAcceptable 4 .conjugateInvariant [97, 193] [257] := fun h => absurd (h.root 97 (by simp)) (by decide)

end Props
end FastKsw
