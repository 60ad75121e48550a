import Verif.Lemmas.NewRing
import Verif.Spec.Factors

/-!
# Lemmas on `getFactors` and `primitiveRoot`, ring/utils.go
-/

namespace FastKsw

/-! ### The table of small primes -/

/-- the primes below 132 -/
def trialPrimes : List ℕ := [2, 3, 5, 7, 11, 13, 17, 19, 23, 29, 31, 37, 41, 43, 47, 53, 59, 61, 67, 71, 73, 79, 83,
  89, 97, 101, 103, 107, 109, 113, 127, 131]

/-- no number of the list divides `n`, except `n` itself -/
def noDivisor (n : ℕ) : List ℕ → Bool
  | [] => true
  | d :: ds => bif Nat.beq (n % d) 0 then Nat.beq n d else noDivisor n ds

theorem noDivisor_or (n : ℕ) (l : List ℕ) (h : noDivisor n l = true) : n ∈ l ∨ ∀ d ∈ l, ¬ d ∣ n := by
  induction l with
  | nil => right; simp
  | cons d l ih =>
    rw [noDivisor] at h
    cases hb : Nat.beq (n % d) 0 with
    | true =>
      rw [hb, cond_true] at h
      left
      rw [Nat.eq_of_beq_eq_true h]
      exact List.mem_cons_self
    | false =>
      rw [hb, cond_false] at h
      have h0 : ¬ d ∣ n := fun hd => by
        rw [Nat.mod_eq_zero_of_dvd hd] at hb
        cases hb
      rcases ih h with h | h
      · left; exact List.mem_cons_of_mem _ h
      · right
        intro e he
        rcases List.mem_cons.1 he with rfl | he
        · exact h0
        · exact h e he

theorem noDivisor_of_prime {n : ℕ} (hp : n.Prime) (l : List ℕ) (hl : ∀ d ∈ l, 2 ≤ d) : noDivisor n l = true := by
  induction l with
  | nil => rfl
  | cons d l ih =>
    rw [noDivisor]
    cases hb : Nat.beq (n % d) 0 with
    | true =>
      rw [cond_true]
      rcases (Nat.dvd_prime hp).1 (Nat.dvd_of_mod_eq_zero (Nat.eq_of_beq_eq_true hb)) with h | h
      · have := hl d List.mem_cons_self
        omega
      · rw [h]; exact Nat.beq_refl n
    | false =>
      rw [cond_false]
      exact ih fun e he => hl e (List.mem_cons_of_mem _ he)

theorem trialPrimes_prime : ∀ d ∈ trialPrimes, d.Prime := by
  decide +kernel

theorem mem_trialPrimes {p : ℕ} (hp : p.Prime) (h : p < 132) : p ∈ trialPrimes := by
  have : ∀ p < 132, p.Prime → p ∈ trialPrimes := by decide +kernel
  exact this p h hp

theorem noDivisor_prime {n : ℕ} (h2 : 2 ≤ n) (hn : n < 17424) : noDivisor n trialPrimes = true ↔ n.Prime := by
  constructor
  · intro h
    rcases noDivisor_or n _ h with h | h
    · exact trialPrimes_prime n h
    · by_contra hp
      have h1 := Nat.minFac_sq_le_self (by omega) hp
      have h3 : n.minFac < 132 := by
        by_contra hc
        have : 132 ^ 2 ≤ n.minFac ^ 2 := Nat.pow_le_pow_left (by omega) 2
        omega
      exact h _ (mem_trialPrimes (Nat.minFac_prime (by omega)) h3) (Nat.minFac_dvd n)
  · intro h
    exact noDivisor_of_prime h _ fun d hd => (trialPrimes_prime d hd).two_le

/-- `l` lists the numbers from `n` to `n + k - 1` without divisor below 132 -/
def sieveCheck : ℕ → ℕ → List ℕ → Bool
  | 0, _, l => l.isEmpty
  | k + 1, n, l =>
    bif noDivisor n trialPrimes then
      match l with
      | [] => false
      | p :: l => bif Nat.beq p n then sieveCheck k (n + 1) l else false
    else sieveCheck k (n + 1) l

theorem sieveCheck_eq (k n : ℕ) (l : List ℕ) (h : sieveCheck k n l = true) :
    l = (List.range' n k).filter (noDivisor · trialPrimes) := by
  induction k generalizing n l with
  | zero => cases l <;> simp_all [sieveCheck]
  | succ k ih =>
    rw [sieveCheck.eq_def] at h
    simp only at h
    rw [List.range'_succ, List.filter_cons]
    cases hn : noDivisor n trialPrimes with
    | true =>
      rw [hn, cond_true] at h
      rw [if_pos rfl]
      cases l with
      | nil => cases h
      | cons p l =>
        simp only at h
        cases hp : Nat.beq p n with
        | true =>
          rw [hp, cond_true] at h
          rw [Nat.eq_of_beq_eq_true hp, ← ih _ _ h]
        | false => rw [hp] at h; cases h
    | false =>
      rw [hn, cond_false] at h
      rw [if_neg (by decide)]
      exact ih _ _ h

set_option maxRecDepth 1000000 in
theorem sieveCheck_small : sieveCheck 17388 2 smallPrimes = true := by decide +kernel

/-- `smallPrimes` is the list of the primes up to 17389 -/
theorem smallPrimes_eq : smallPrimes = (List.range' 2 17388).filter (fun n => decide n.Prime) := by
  rw [sieveCheck_eq _ _ _ sieveCheck_small]
  apply List.filter_congr
  intro n hn
  rw [List.mem_range'_1] at hn
  rw [Bool.eq_iff_iff, noDivisor_prime hn.1 (by omega), decide_eq_true_eq]

theorem mem_smallPrimes (p : ℕ) : p ∈ smallPrimes ↔ p.Prime ∧ p < 17390 := by
  rw [smallPrimes_eq, List.mem_filter, List.mem_range'_1, decide_eq_true_eq]
  constructor
  · rintro ⟨h1, h2⟩; exact ⟨h2, by omega⟩
  · rintro ⟨h1, h2⟩; exact ⟨⟨h1.two_le, by omega⟩, h1⟩

theorem smallPrimes_nodup : smallPrimes.Nodup := by
  rw [smallPrimes_eq]
  exact List.Nodup.filter _ List.nodup_range'

/-! ### Division by the small primes -/

theorem divOut_exact (p : UInt64) (hp : 2 ≤ p.toNat) (fuel : ℕ) (m : UInt64) (b : Bool) (hm : 0 < m.toNat)
    (hf : m.toNat < 2 ^ fuel) :
    let r := divOut p fuel m b
    ¬ p.toNat ∣ r.1.toNat ∧ (∃ k, m.toNat = p.toNat ^ k * r.1.toNat) ∧ (r.2 = true ↔ b = true ∨ p.toNat ∣ m.toNat) := by
  induction fuel generalizing m b with
  | zero => simp at hf; omega
  | succ fuel ih =>
    rw [divOut]
    by_cases h : m % p = 0
    · rw [if_pos h]
      have hmod : m.toNat % p.toNat = 0 := by rw [← UInt64.toNat_mod, h]; rfl
      have hdvd : p.toNat ∣ m.toNat := Nat.dvd_of_mod_eq_zero hmod
      have hdm : m.toNat = p.toNat * (m / p).toNat := by rw [UInt64.toNat_div, Nat.mul_div_cancel' hdvd]
      have hpos : 0 < (m / p).toNat := Nat.pos_of_ne_zero fun h0 => by rw [h0] at hdm; omega
      have hlt : (m / p).toNat < 2 ^ fuel := by
        have : 2 * (m / p).toNat ≤ p.toNat * (m / p).toNat := Nat.mul_le_mul_right _ hp
        rw [pow_succ] at hf
        omega
      obtain ⟨h1, ⟨k, hk⟩, h3⟩ := ih (m / p) true hpos hlt
      refine ⟨h1, ⟨k + 1, ?_⟩, ?_⟩
      · rw [hdm, hk, pow_succ]; ring
      · rw [h3]; simp [hdvd]
    · rw [if_neg h]
      have hnd : ¬ p.toNat ∣ m.toNat := fun hd => h (by
        rw [← UInt64.toNat_inj, UInt64.toNat_mod, Nat.mod_eq_zero_of_dvd hd]; rfl)
      exact ⟨hnd, ⟨0, by simp⟩, by simp [hnd]⟩

/-- the loop over the table: the primes that divide are appended, the rest of `m` has none of them -/
theorem smallFactors_exact (ps : List ℕ) (hps : ∀ p ∈ ps, p.Prime ∧ p < 2 ^ 64) (hnd : ps.Nodup) (m : UInt64)
    (fs : List UInt64) (hm : 0 < m.toNat) :
    let r := smallFactors ps m fs
    0 < r.1.toNat ∧ r.1.toNat ∣ m.toNat ∧ (∀ p ∈ ps, ¬ p ∣ r.1.toNat) ∧
      (∀ p, p.Prime → p ∣ m.toNat / r.1.toNat → p ∈ ps) ∧
      r.2 = fs ++ (ps.filter (fun p => decide (p ∣ m.toNat))).map UInt64.ofNat := by
  induction ps generalizing m fs with
  | nil =>
    refine ⟨hm, dvd_rfl, by simp, fun p hp hd => ?_, by simp [smallFactors]⟩
    simp only [smallFactors, Nat.div_self hm] at hd
    exact absurd (Nat.dvd_one.1 hd) hp.one_lt.ne'
  | cons p ps ih =>
    rw [smallFactors]
    obtain ⟨hp, hp64⟩ := hps p List.mem_cons_self
    have hpn : (UInt64.ofNat p).toNat = p := by rw [UInt64.toNat_ofNat']; exact Nat.mod_eq_of_lt hp64
    obtain ⟨a1, ⟨k, a2⟩, a3⟩ := divOut_exact (UInt64.ofNat p) (by rw [hpn]; exact hp.two_le) 64 m false hm m.toNat_lt
    rw [hpn] at a1 a2 a3
    simp only [Bool.false_eq_true, false_or] at a3
    generalize divOut (UInt64.ofNat p) 64 m false = d at a1 a2 a3
    have hd0 : 0 < d.1.toNat := Nat.pos_of_ne_zero fun h => a1 (h ▸ dvd_zero p)
    obtain ⟨b1, b2, b3, b4, b5⟩ := ih (fun q hq => hps q (List.mem_cons_of_mem _ hq)) (List.nodup_cons.1 hnd).2 d.1
      (if d.2 then fs ++ [UInt64.ofNat p] else fs) hd0
    simp only
    generalize smallFactors ps d.1 (if d.2 then fs ++ [UInt64.ofNat p] else fs) = r at b1 b2 b3 b4 b5
    have hdm : d.1.toNat ∣ m.toNat := ⟨p ^ k, by rw [a2]; ring⟩
    refine ⟨b1, b2.trans hdm, ?_, ?_, ?_⟩
    · intro q hq
      rcases List.mem_cons.1 hq with rfl | hq
      · exact fun h => a1 (h.trans b2)
      · exact b3 q hq
    · intro q hq hdiv
      obtain ⟨t, ht⟩ := b2
      have e1 : d.1.toNat / r.1.toNat = t := by rw [ht, Nat.mul_div_cancel_left _ b1]
      have e2 : m.toNat / r.1.toNat = p ^ k * t := by
        rw [a2, ht, show p ^ k * (r.1.toNat * t) = r.1.toNat * (p ^ k * t) by ring, Nat.mul_div_cancel_left _ b1]
      rw [e2] at hdiv
      rcases (hq.dvd_mul).1 hdiv with h | h
      · rw [(Nat.prime_dvd_prime_iff_eq hq hp).1 (hq.dvd_of_dvd_pow h)]
        exact List.mem_cons_self
      · exact List.mem_cons_of_mem _ (b4 q hq (by rw [e1]; exact h))
    · have hf : ps.filter (fun q => decide (q ∣ d.1.toNat)) = ps.filter (fun q => decide (q ∣ m.toNat)) := by
        apply List.filter_congr
        intro q hq
        have hqp := (hps q (List.mem_cons_of_mem _ hq)).1
        have hne : q ≠ p := fun h => (List.nodup_cons.1 hnd).1 (h ▸ hq)
        rw [decide_eq_decide, a2]
        constructor
        · exact fun h => h.mul_left _
        · intro h
          rcases (hqp.dvd_mul).1 h with h | h
          · exact absurd ((Nat.prime_dvd_prime_iff_eq hqp hp).1 (hqp.dvd_of_dvd_pow h)) hne
          · exact h
      rw [b5, hf, List.filter_cons]
      by_cases hdv : p ∣ m.toNat
      · rw [if_pos (a3.2 hdv), if_pos (by simpa using hdv)]
        simp
      · rw [if_neg (fun h => hdv (a3.1 h)), if_neg (by simpa using hdv)]

/-! ### Pollard's rho -/

theorem rho_toNat {m c x : UInt64} (hm1 : 1 < m.toNat) (hm : m.toNat ≤ 2 ^ 63) (hc : c.toNat < 2 ^ 63) :
    (polynomialPollardsRho x m c).toNat = (x.toNat ^ 2 + c.toNat) % m.toNat := by
  unfold polynomialPollardsRho
  rw [UInt64.toNat_mod, UInt64.toNat_add, modExp_toNat hm1 hm]
  have h2 : (2 : UInt64).toNat = 2 := rfl
  have := Nat.mod_lt (x.toNat ^ 2) (show 0 < m.toNat by omega)
  rw [h2, Nat.mod_eq_of_lt (by omega : x.toNat ^ 2 % m.toNat + c.toNat < 2 ^ 64), Nat.mod_add_mod]

/-- the two walks, exchanged after the first step, meet in the second: no factor is found -/
theorem pollardInner_fails {m c : UInt64} (hm : m.toNat ≤ 2 ^ 63) (hc : c.toNat ≤ 9) (hbig : 178 < m.toNat)
    (hcop : Nat.Coprime ((c.toNat + 2) * (c.toNat + 6)) m.toNat) (hc0 : 0 < c.toNat) {fuel : ℕ} (hf : 2 ≤ fuel) :
    pollardInner m c fuel 2 2 = some 0 := by
  obtain ⟨f, rfl⟩ : ∃ f, fuel = f + 2 := ⟨fuel - 2, by omega⟩
  have h2 : (2 : UInt64).toNat = 2 := rfl
  have hx : (polynomialPollardsRho 2 m c).toNat = 4 + c.toNat := by
    rw [rho_toNat (by omega) hm (by omega), h2, Nat.mod_eq_of_lt (by omega)]
    norm_num
  generalize hX : polynomialPollardsRho 2 m c = X at hx
  have hsq : (4 + c.toNat) ^ 2 ≤ 13 ^ 2 := Nat.pow_le_pow_left (by omega) 2
  have hy : (polynomialPollardsRho X m c).toNat = (4 + c.toNat) ^ 2 + c.toNat := by
    rw [rho_toNat (by omega) hm (by omega), hx, Nat.mod_eq_of_lt (by omega)]
  generalize hY : polynomialPollardsRho X m c = Y at hy
  have hgt : X.toNat < Y.toNat := by
    rw [hx, hy]; nlinarith
  have hYX : Y > X := hgt
  have hdiff : (Y - X).toNat = (c.toNat + 2) * (c.toNat + 6) := by
    rw [toNat_sub_of_le' (by omega), hx, hy]
    have : (4 + c.toNat) ^ 2 = (c.toNat + 2) * (c.toNat + 6) + 4 := by ring
    omega
  have hgcd : gcd (Y - X) m = 1 := by
    unfold gcd
    have h0 : ¬ (Y - X = 0 ∨ m = 0) := by
      rintro (h | h)
      · rw [h] at hdiff
        have : (c.toNat + 2) * (c.toNat + 6) = 0 := hdiff.symm
        nlinarith
      · rw [h] at hbig; simp at hbig
    rw [if_neg h0, ← UInt64.toNat_inj, gcdLoop_toNat _ _ _ (Nat.lt_succ_self _), hdiff]
    exact hcop
  rw [pollardInner]
  simp only [hX, hY, if_pos hYX, hgcd]
  rw [if_neg (by decide), if_pos (by decide), pollardInner]
  simp only [hY]
  generalize polynomialPollardsRho Y m c = Z
  have e : (if Z > Z then (Z, Z) else (Z, Z)) = (Z, Z) := ite_self _
  simp only [e, UInt64.sub_self]
  have : gcd 0 m = 0 := by unfold gcd; rw [if_pos (Or.inl rfl)]
  simp only [this]
  rfl

theorem pollard_fails {m : UInt64} (hm : m.toNat ≤ 2 ^ 63) (hbig : 178 < m.toNat)
    (hcop : ∀ p, p.Prime → p < 17 → ¬ p ∣ m.toNat) {fuel : ℕ} (hf : 2 ≤ fuel) :
    factorizationPollardsRho fuel m = some 0 := by
  have key : ∀ c : UInt64, 0 < c.toNat → c.toNat ≤ 9 → pollardInner m c fuel 2 2 = some 0 := by
    intro c h0 h9
    refine pollardInner_fails hm h9 hbig ?_ h0 hf
    apply Nat.Coprime.symm
    have : ∀ k, 0 < k → k ≤ 15 → Nat.Coprime m.toNat k := by
      intro k hk hk'
      apply Nat.coprime_of_dvd
      intro p hp h1 h2
      have := Nat.le_of_dvd hk h2
      exact hcop p hp (by omega) h1
    exact Nat.Coprime.mul_right (this _ (by omega) (by omega)) (this _ (by omega) (by omega))
  unfold factorizationPollardsRho
  simp only [pollardOuter, key 1 (by decide) (by decide), key 2 (by decide) (by decide),
    key 3 (by decide) (by decide), key 4 (by decide) (by decide), key 5 (by decide) (by decide),
    key 6 (by decide) (by decide), key 7 (by decide) (by decide), key 8 (by decide) (by decide),
    key 9 (by decide) (by decide)]
  rfl

/-! ### `getFactors` -/

/-- `getFactors` returns, and its result does not depend on the fuel: the primes of the table that divide, and
what remains after dividing by them, prime or not -/
theorem getFactors_exact {n : UInt64} (hn : 0 < n.toNat) (hn' : n.toNat ≤ 2 ^ 63) :
    ∃ c : UInt64, RoughPart 17390 n.toNat c.toNat ∧ ∀ fuel, 2 ≤ fuel →
      getFactors fuel n = some ((smallPrimes.filter (fun p => decide (p ∣ n.toNat))).map UInt64.ofNat ++
        if c = 1 then [] else [c]) := by
  have hps : ∀ p ∈ smallPrimes, p.Prime ∧ p < 2 ^ 64 := fun p hp => by
    obtain ⟨h1, h2⟩ := (mem_smallPrimes p).1 hp
    exact ⟨h1, by omega⟩
  obtain ⟨h1, h2, h3, h4, h5⟩ := smallFactors_exact smallPrimes hps smallPrimes_nodup n [] hn
  have hrough : ∀ p, p.Prime → p ∣ (smallFactors smallPrimes n []).1.toNat → 17390 ≤ p := by
    intro p hp hd
    by_contra hlt
    exact h3 p ((mem_smallPrimes p).2 ⟨hp, by omega⟩) hd
  refine ⟨(smallFactors smallPrimes n []).1, ⟨h2, hrough, fun p hp hd => ((mem_smallPrimes p).1 (h4 p hp hd)).2⟩, ?_⟩
  intro fuel hf
  unfold getFactors
  rw [List.nil_append] at h5
  generalize smallFactors smallPrimes n [] = r at h1 h2 h3 h4 h5 hrough
  simp only
  by_cases hr : r.1 = 1
  · rw [if_pos hr, if_pos hr, h5, List.append_nil]
  · rw [if_neg hr, if_neg hr, h5]
    have hne : r.1.toNat ≠ 1 := fun h => hr (UInt64.toNat_inj.1 (by rw [h]; rfl))
    have hbig : 178 < r.1.toNat := by
      have := hrough _ (Nat.minFac_prime hne) (Nat.minFac_dvd _)
      have := Nat.minFac_le h1
      omega
    have hm : r.1.toNat ≤ 2 ^ 63 := le_trans (Nat.le_of_dvd hn h2) hn'
    rw [largeFactors, pollard_fails hm hbig (fun p hp h17 hd => by have := hrough p hp hd; omega) hf]
    rfl

/-! ### `primitiveRoot` -/

theorem primitiveRootLoop_returns {q : UInt64} (factors : List UInt64) (g0 : UInt64)
    (h0 : rootRejected q g0 factors true = false) (fuel : ℕ) (g : UInt64)
    (hg : g.toNat < g0.toNat) (hf : g0.toNat ≤ g.toNat + fuel) :
    ∃ r, primitiveRootLoop q factors fuel g = some r := by
  induction fuel generalizing g with
  | zero => omega
  | succ fuel ih =>
    rw [primitiveRootLoop]
    have hg1 : (g + 1).toNat = g.toNat + 1 := by
      have := g0.toNat_lt
      rw [UInt64.toNat_add]; simp; omega
    by_cases hr : rootRejected q (g + 1) factors true = true
    · simp only [hr, if_true]
      have : (g + 1).toNat ≠ g0.toNat := by
        intro e
        rw [UInt64.toNat_inj.1 e] at hr
        rw [h0] at hr; simp at hr
      exact ih (g + 1) (by omega) (by omega)
    · simp only [hr]
      exact ⟨_, rfl⟩

/-- the loop returns the first candidate that passes -/
theorem primitiveRootLoop_first {q : UInt64} (factors : List UInt64) (fuel : ℕ) (g r : UInt64)
    (hlt : g.toNat + fuel < 2 ^ 64) (h : primitiveRootLoop q factors fuel g = some r) :
    g.toNat < r.toNat ∧ rootRejected q r factors true = false ∧
      ∀ x : UInt64, g.toNat < x.toNat → x.toNat < r.toNat → rootRejected q x factors true = true := by
  induction fuel generalizing g with
  | zero => simp [primitiveRootLoop] at h
  | succ fuel ih =>
    rw [primitiveRootLoop] at h
    have hg1 : (g + 1).toNat = g.toNat + 1 := by
      rw [UInt64.toNat_add]; simp; omega
    by_cases hr : rootRejected q (g + 1) factors true = true
    · simp only [hr, if_true] at h
      obtain ⟨a, b, c⟩ := ih (g + 1) (by omega) h
      refine ⟨by omega, b, fun x hx hxr => ?_⟩
      by_cases hx1 : x.toNat = g.toNat + 1
      · rw [show x = g + 1 from UInt64.toNat_inj.1 (by rw [hg1, hx1])]; exact hr
      · exact c x (by omega) hxr
    · simp only [hr] at h
      cases h
      simp only [Bool.not_eq_true] at hr
      exact ⟨by omega, hr, fun x h1 h2 => by omega⟩

theorem primitiveRootLoop_mono {q : UInt64} (factors : List UInt64) {fuel fuel' : ℕ} (hf : fuel ≤ fuel') (g r : UInt64)
    (h : primitiveRootLoop q factors fuel g = some r) : primitiveRootLoop q factors fuel' g = some r := by
  induction fuel generalizing g fuel' with
  | zero => simp [primitiveRootLoop] at h
  | succ fuel ih =>
    obtain ⟨f, rfl⟩ : ∃ f, fuel' = f + 1 := ⟨fuel' - 1, by omega⟩
    rw [primitiveRootLoop] at h ⊢
    by_cases hr : rootRejected q (g + 1) factors true = true
    · simp only [hr, if_true] at h ⊢
      exact ih (by omega) _ h
    · simp only [hr] at h ⊢
      exact h

theorem modExp_ne_one {q : UInt64} (h1q : 1 < q.toNat) (hq : q.toNat ≤ 2 ^ 63) (g e : UInt64) :
    modExp g e q ≠ 1 ↔ (g.toNat : ZMod q.toNat) ^ e.toNat ≠ 1 := by
  rw [not_iff_not, ← UInt64.toNat_inj, modExp_toNat h1q hq]
  rw [UInt64.toNat_one]
  have h3 := ZMod.natCast_eq_natCast_iff' (g.toNat ^ e.toNat) 1 q.toNat
  push_cast at h3
  rw [h3, Nat.mod_eq_of_lt h1q]

/-- the test of a candidate -/
theorem rootRejected_iff {q : UInt64} (h1q : 1 < q.toNat) (hq : q.toNat ≤ 2 ^ 63) {fs : List UInt64} (hne : fs ≠ [])
    (g : UInt64) : rootRejected q g fs true = false ↔
      ∀ f ∈ fs, (g.toNat : ZMod q.toNat) ^ ((q.toNat - 1) / f.toNat) ≠ 1 := by
  have hq1 : (q - 1).toNat = q.toNat - 1 := by
    rw [toNat_sub_of_le' (by rw [UInt64.toNat_one]; omega), UInt64.toNat_one]
  have key : (∀ f ∈ fs, modExp g ((q - 1) / f) q ≠ 1) ↔
      ∀ f ∈ fs, (g.toNat : ZMod q.toNat) ^ ((q.toNat - 1) / f.toNat) ≠ 1 := by
    apply forall_congr'; intro f
    apply forall_congr'; intro _
    rw [modExp_ne_one h1q hq, UInt64.toNat_div, hq1]
  rw [← key]
  exact ⟨rootRejected_false fs true, rootRejected_of_all fs hne true⟩

/-- `primitiveRoot` returns -/
theorem primitiveRoot_returns {q : UInt64} (hp : q.toNat.Prime) (h33 : 33 ≤ q.toNat) (hq : q.toNat ≤ 2 ^ 63) :
    ∃ g, ∀ fuel, q.toNat ≤ fuel → primitiveRoot fuel q = some g := by
  have hodd : q.toNat % 2 = 1 := by
    rcases hp.eq_two_or_odd with h | h <;> omega
  have hq1 : (q - 1).toNat = q.toNat - 1 := by
    rw [toNat_sub_of_le' (by rw [UInt64.toNat_one]; omega), UInt64.toNat_one]
  obtain ⟨c, -, hc⟩ := getFactors_exact (n := q - 1) (by omega) (by omega)
  generalize ((smallPrimes.filter (fun p => decide (p ∣ (q - 1).toNat))).map UInt64.ofNat ++
        if c = 1 then [] else [c]) = fs at hc
  obtain ⟨hfok, h2⟩ := getFactors_spec 2 (q - 1) (by omega) (by omega) fs (hc 2 le_rfl)
  obtain ⟨g0, g3, gq, gr⟩ := exists_big_root hp h33
  have hg0 : (UInt64.ofNat g0).toNat = g0 := by
    rw [UInt64.toNat_ofNat']; have := q.toNat_lt; exact Nat.mod_eq_of_lt (by omega)
  have hg2 : (2 : UInt64).toNat = 2 := rfl
  have hacc : rootRejected q (UInt64.ofNat g0) fs true = false := by
    rw [rootRejected_iff (by omega) hq (List.ne_nil_of_mem h2)]
    intro f hf
    obtain ⟨f1, f2⟩ := hfok f hf
    rw [hg0]
    rw [hq1] at f2
    exact gr _ (Nat.div_pos (Nat.le_of_dvd (by omega) f2) (by omega)) (Nat.div_lt_self (by omega) f1)
  obtain ⟨r, hr⟩ := primitiveRootLoop_returns fs _ hacc q.toNat 2 (by rw [hg0, hg2]; omega) (by rw [hg0, hg2]; omega)
  refine ⟨r, fun fuel hf => ?_⟩
  unfold primitiveRoot
  rw [hc fuel (by omega)]
  exact primitiveRootLoop_mono fs hf _ _ hr

end FastKsw
