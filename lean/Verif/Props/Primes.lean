import Verif.Model.Primes
import Verif.Lemmas.PrimeWitness
import Verif.Lemmas.ModRed
import Mathlib.Tactic.Linarith

/-!
# C08: rounded division; C09: generation of NTT primes
-/

namespace FastKsw.Props

/-! ## C08 -/

/-- **C08.** For `b ≠ 0` the result is a nearest integer to `a/b`, and in a tie the one farther from
zero.  (The two conditions determine the integer, `C08_unique`.) -/
theorem C08_divRound (a b : ℤ) (hb : b ≠ 0) : ∃ d, divRound a b = some d ∧
    2 * |a - d * b| ≤ |b| ∧ (2 * |a - d * b| = |b| → |a| < |d * b|) := by
  unfold divRound
  rw [if_neg hb]
  have hdm := Int.tdiv_mul_add_tmod a b
  have hlt : |a.tmod b| < |b| := by
    have := Int.natAbs_tmod a b
    have h2 := Nat.mod_lt a.natAbs (Int.natAbs_pos.2 hb)
    rw [← Int.natCast_natAbs, ← Int.natCast_natAbs]
    omega
  have hsgn : (0 ≤ a → 0 ≤ a.tmod b) ∧ (a ≤ 0 → a.tmod b ≤ 0) := by
    refine ⟨fun h => Int.tmod_nonneg _ h, fun h => ?_⟩
    have := Int.tmod_nonneg b (a := -a) (by omega)
    rw [Int.neg_tmod] at this
    omega
  set i := a.tdiv b with hi
  set r := a.tmod b with hr
  have hcmp : (r * 2).natAbs ≥ b.natAbs ↔ |b| ≤ 2 * |r| := by
    rw [← Int.natCast_natAbs, ← Int.natCast_natAbs]; omega
  have hsign : a.sign = b.sign ↔ (0 < a ∧ 0 < b) ∨ (a < 0 ∧ b < 0) := by
    rcases lt_trichotomy a 0 with h | h | h <;> rcases lt_trichotomy b 0 with h' | h' | h' <;>
      simp [Int.sign_eq_neg_one_of_neg, Int.sign_eq_one_of_pos, h, h'] <;> omega
  have hzero : ¬ |b| ≤ 2 * |r| → 2 * |a - i * b| ≤ |b| ∧ (2 * |a - i * b| = |b| → |a| < |i * b|) := by
    intro h
    have e : a - i * b = r := by linarith [hdm]
    rw [e]
    omega
  have hne : |b| ≤ 2 * |r| → a ≠ 0 := by
    intro h h0
    have h1 := hsgn.1 (by omega)
    have h2 := hsgn.2 (by omega)
    have : r = 0 := by omega
    rw [this, abs_zero] at h
    have := abs_pos.2 hb
    omega
  simp only
  split
  · rename_i h
    rw [hcmp] at h
    split
    · rename_i hs
      refine ⟨i + 1, rfl, ?_⟩
      have e : a - (i + 1) * b = r - b := by linarith [hdm]
      have e2 : (i + 1) * b = a - r + b := by linarith [hdm]
      rw [e, e2]
      rcases hsign.1 hs with ⟨h1, h2⟩ | ⟨h1, h2⟩
      · have hr0 := hsgn.1 h1.le
        rw [abs_of_pos h2, abs_of_nonneg hr0] at h hlt
        rw [abs_of_neg (by omega : r - b < 0), abs_of_pos h2, abs_of_pos h1,
          abs_of_pos (by omega : 0 < a - r + b)]
        omega
      · have hr0 := hsgn.2 h1.le
        rw [abs_of_neg h2, abs_of_nonpos hr0] at h hlt
        rw [abs_of_pos (by omega : 0 < r - b), abs_of_neg h2, abs_of_neg h1,
          abs_of_neg (by omega : a - r + b < 0)]
        omega
    · rename_i hs
      refine ⟨i - 1, rfl, ?_⟩
      have e : a - (i - 1) * b = r + b := by linarith [hdm]
      have e2 : (i - 1) * b = a - r - b := by linarith [hdm]
      rw [e, e2]
      rw [hsign] at hs
      rcases lt_or_gt_of_ne (hne h) with h1 | h1
      · have h2 : 0 < b := by omega
        have hr0 := hsgn.2 h1.le
        rw [abs_of_pos h2, abs_of_nonpos hr0] at h hlt
        rw [abs_of_pos (by omega : 0 < r + b), abs_of_pos h2, abs_of_neg h1,
          abs_of_neg (by omega : a - r - b < 0)]
        omega
      · have h2 : b < 0 := by omega
        have hr0 := hsgn.1 h1.le
        rw [abs_of_neg h2, abs_of_nonneg hr0] at h hlt
        rw [abs_of_neg (by omega : r + b < 0), abs_of_neg h2, abs_of_pos h1,
          abs_of_pos (by omega : 0 < a - r - b)]
        omega
  · rename_i h
    rw [hcmp] at h
    exact ⟨i, rfl, hzero h⟩

/-- the specification in `C08_divRound` has only one solution -/
theorem C08_unique (a b d d' : ℤ) (hb : b ≠ 0)
    (h : 2 * |a - d * b| ≤ |b| ∧ (2 * |a - d * b| = |b| → |a| < |d * b|))
    (h' : 2 * |a - d' * b| ≤ |b| ∧ (2 * |a - d' * b| = |b| → |a| < |d' * b|)) : d = d' := by
  have hpos := abs_pos.2 hb
  by_contra hne
  have h1 : |b| ≤ |d * b - d' * b| := by
    rw [← sub_mul, abs_mul]
    have : 1 ≤ |d - d'| := Int.one_le_abs (by omega)
    nlinarith
  have h2 : |d * b - d' * b| ≤ |a - d * b| + |a - d' * b| := by
    have : d * b - d' * b = (a - d' * b) - (a - d * b) := by ring
    rw [this, add_comm]
    exact abs_sub _ _
  have e1 : 2 * |a - d * b| = |b| := by omega
  have e2 : 2 * |a - d' * b| = |b| := by omega
  have f1 := h.2 e1
  have f2 := h'.2 e2
  have g : |d * b - d' * b| = |b| := by omega
  have big : ∀ t : ℤ, t * b = 0 ∨ |b| ≤ |t * b| := by
    intro t
    rcases eq_or_ne t 0 with h | h
    · left; rw [h, zero_mul]
    · right
      rw [abs_mul]
      have : 1 ≤ |t| := Int.one_le_abs h
      nlinarith
  have b1 := big d
  have b2 := big d'
  generalize d * b = u at *
  generalize d' * b = w at *
  clear big
  rcases abs_cases (a - u) with c1 | c1 <;> rcases abs_cases (a - w) with c2 | c2 <;>
    rcases abs_cases a with c3 | c3 <;> rcases abs_cases u with c4 | c4 <;>
    rcases abs_cases w with c5 | c5 <;> rcases abs_cases (u - w) with c6 | c6 <;> omega

example : divRound 7 2 = some 4 ∧ divRound (-7) 2 = some (-4) ∧ divRound 7 (-2) = some (-4) ∧
    divRound (-5) (-3) = some 2 ∧ divRound 4 (-3) = some (-1) ∧ divRound 1 0 = none := by decide

/-- With the receiver equal to the divisor `DivRound` is wrong: the quotient 3 overwrites the divisor,
so `7/2` becomes 3 instead of 4; and `1/2` divides by zero. -/
theorem C08_alias_divisor_wrong : divRoundAliasB 7 2 = some 3 ∧ divRound 7 2 = some 4 ∧
    divRoundAliasB 1 2 = none := by decide

/-! ## C09 -/

/-- **C09 (`NextNTTPrime`).** The value returned for an NTT prime of at most 61 bits is prime,
`≡ 1`, larger than the argument, and the smallest such. -/
theorem C09_next (fuel : ℕ) (q m x : UInt64) (hm : m.toNat < 2 ^ 61) (hq : q.toNat < 2 ^ 61)
    (hm0 : 0 < m.toNat) (h1 : q.toNat % m.toNat = 1) (h : nextNTTPrime fuel q m = some (some x)) :
    x.toNat.Prime ∧ x.toNat % m.toNat = 1 ∧ q.toNat < x.toNat ∧
    ∀ y, q.toNat < y → y < x.toNat → y % m.toNat = 1 → ¬ y.Prime := by
  have key : ∀ fuel (c : UInt64), c.toNat < 2 ^ 62 → c.toNat % m.toNat = 1 → q.toNat < c.toNat →
      (∀ y, q.toNat < y → y < c.toNat → y % m.toNat = 1 → ¬ y.Prime) →
      nextNTTPrimeLoop m fuel c = some (some x) →
      x.toNat.Prime ∧ x.toNat % m.toNat = 1 ∧ q.toNat < x.toNat ∧
        ∀ y, q.toNat < y → y < x.toNat → y % m.toNat = 1 → ¬ y.Prime := by
    intro fuel
    induction fuel with
    | zero => intro c _ _ _ _ h; cases h
    | succ fuel ih =>
      intro c hc hc1 hqc hno h
      unfold nextNTTPrimeLoop at h
      split at h
      · rename_i hp
        cases h
        exact ⟨hp, hc1, hqc, hno⟩
      · rename_i hp
        simp only at h
        have e : (c + m).toNat = c.toNat + m.toNat := by
          rw [UInt64.toNat_add, Nat.mod_eq_of_lt (by omega)]
        split at h
        · cases h
        · rename_i hlen
          have hlt : (c + m).toNat < 2 ^ 61 := by
            by_contra hge
            apply hlen
            have h0 : (c + m).toNat ≠ 0 := by omega
            rw [len64, if_neg h0]
            have := (Nat.le_log2 h0).2 (by omega : 2 ^ 61 ≤ (c + m).toNat)
            omega
          refine ih (c + m) (by omega) (by rw [e, Nat.add_mod_right]; exact hc1) (by omega) ?_ h
          intro y h1 h2 h3
          rcases lt_trichotomy y c.toNat with h4 | h4 | h4
          · exact hno y h1 h4 h3
          · rw [h4]; exact hp
          · exfalso
            have e3 : (y - c.toNat) % m.toNat = 0 := by
              have : y ≡ c.toNat [MOD m.toNat] := h3.trans hc1.symm
              exact Nat.mod_eq_zero_of_dvd ((Nat.modEq_iff_dvd' h4.le).1 this.symm)
            rw [Nat.mod_eq_of_lt (by omega)] at e3
            omega
  have e : (q + m).toNat = q.toNat + m.toNat := by
    rw [UInt64.toNat_add, Nat.mod_eq_of_lt (by omega)]
  refine key fuel (q + m) (by omega) (by rw [e, Nat.add_mod_right]; exact h1) (by omega) ?_ h
  intro y h2 h3 h4
  exfalso
  have e3 : (y - q.toNat) % m.toNat = 0 := by
    have : y ≡ q.toNat [MOD m.toNat] := h4.trans h1.symm
    exact Nat.mod_eq_zero_of_dvd ((Nat.modEq_iff_dvd' h2.le).1 this.symm)
  rw [Nat.mod_eq_of_lt (by omega)] at e3
  omega

example : nextNTTPrime 10 97 32 = some (some 193) := by decide +kernel

/-- **C09 fails for `PreviousNTTPrime`.**  97 is the smallest prime `≡ 1 (mod 32)`; the search passes
1, wraps around and returns `2^64 - 95`, larger than its argument. -/
theorem C09_previous_violated : ∃ x : UInt64, previousNTTPrime 7 97 32 = some (some x) ∧
    (97 : UInt64).toNat < x.toNat := by
  refine ⟨18446744073709551521, ?_, by decide⟩
  have e1 : ¬ isPrime (65 : UInt64) := not_prime_of_mul 5 13 rfl (by omega) (by omega)
  have e2 : ¬ isPrime (33 : UInt64) := not_prime_of_mul 3 11 rfl (by omega) (by omega)
  have e3 : ¬ isPrime (1 : UInt64) := Nat.not_prime_one
  have e4 : ¬ isPrime (18446744073709551585 : UInt64) :=
    not_prime_of_mul 3 6148914691236517195 rfl (by omega) (by omega)
  have e5 : ¬ isPrime (18446744073709551553 : UInt64) :=
    not_prime_of_mul 401 46001855545410353 rfl (by omega) (by omega)
  have e6 : isPrime (18446744073709551521 : UInt64) := prime_top
  have hlt : ¬ ((97 : UInt64) < 32) := by decide
  unfold previousNTTPrime
  rw [if_neg hlt, show (97 : UInt64) - 32 = 65 by decide]
  rw [previousNTTPrimeLoop, if_neg e1, if_neg hlt, show (65 : UInt64) - 32 = 33 by decide]
  rw [previousNTTPrimeLoop, if_neg e2, if_neg hlt, show (33 : UInt64) - 32 = 1 by decide]
  rw [previousNTTPrimeLoop, if_neg e3, if_neg hlt, show (1 : UInt64) - 32 = 18446744073709551585 by decide]
  rw [previousNTTPrimeLoop, if_neg e4, if_neg hlt,
    show (18446744073709551585 : UInt64) - 32 = 18446744073709551553 by decide]
  rw [previousNTTPrimeLoop, if_neg e5, if_neg hlt,
    show (18446744073709551553 : UInt64) - 32 = 18446744073709551521 by decide]
  rw [previousNTTPrimeLoop, if_pos e6]

/-- **C09 (`PreviousNTTPrime`, what holds).** If there is a smaller NTT prime, the largest one is
returned.  Missing: the case without one, where the search wraps around instead of failing. -/
theorem C09_previous_partial (fuel : ℕ) (q m x : UInt64) (hm0 : 0 < m.toNat)
    (h1 : q.toNat % m.toNat = 1) (p : ℕ) (hp : p.Prime) (hp1 : p % m.toNat = 1) (hpq : p < q.toNat)
    (h : previousNTTPrime fuel q m = some (some x)) :
    x.toNat.Prime ∧ x.toNat % m.toNat = 1 ∧ x.toNat < q.toNat ∧
    ∀ y, x.toNat < y → y < q.toNat → y % m.toNat = 1 → ¬ y.Prime := by
  have step : ∀ c : ℕ, p < c → c % m.toNat = 1 → p + m.toNat ≤ c := by
    intro c hc hc1
    by_contra hlt
    have e3 : (c - p) % m.toNat = 0 := by
      have : c ≡ p [MOD m.toNat] := hc1.trans hp1.symm
      exact Nat.mod_eq_zero_of_dvd ((Nat.modEq_iff_dvd' hc.le).1 this.symm)
    rw [Nat.mod_eq_of_lt (by omega)] at e3
    omega
  have hqm : m.toNat ≤ q.toNat := by have := step _ hpq h1; omega
  have key : ∀ fuel (c : UInt64), p ≤ c.toNat → c.toNat % m.toNat = 1 → c.toNat < q.toNat →
      (∀ y, c.toNat < y → y < q.toNat → y % m.toNat = 1 → ¬ y.Prime) →
      previousNTTPrimeLoop q m fuel c = some (some x) →
      x.toNat.Prime ∧ x.toNat % m.toNat = 1 ∧ x.toNat < q.toNat ∧
      ∀ y, x.toNat < y → y < q.toNat → y % m.toNat = 1 → ¬ y.Prime := by
    intro fuel
    induction fuel with
    | zero => intro c _ _ _ _ h; cases h
    | succ fuel ih =>
      intro c hc hc1 hqc hno h
      unfold previousNTTPrimeLoop at h
      split at h
      · rename_i hpr
        cases h
        exact ⟨hpr, hc1, hqc, hno⟩
      · rename_i hpr
        have hpc : p < c.toNat := by
          rcases Nat.lt_or_ge p c.toNat with h | h
          · exact h
          · exact absurd (by rw [show c.toNat = p by omega]; exact hp : c.toNat.Prime) hpr
        have hst := step _ hpc hc1
        have e : (c - m).toNat = c.toNat - m.toNat :=
          UInt64.toNat_sub_of_le _ _ (UInt64.le_iff_toNat_le.2 (by omega))
        split at h
        · cases h
        · refine ih (c - m) (by omega) ?_ (by omega) ?_ h
          · rw [e, ← hc1]
            conv_rhs => rw [show c.toNat = c.toNat - m.toNat + m.toNat by omega, Nat.add_mod_right]
          · intro y h1 h2 h3
            rcases lt_trichotomy y c.toNat with h4 | h4 | h4
            · exfalso
              have e3 : (c.toNat - y) % m.toNat = 0 := by
                have : y ≡ c.toNat [MOD m.toNat] := h3.trans hc1.symm
                exact Nat.mod_eq_zero_of_dvd ((Nat.modEq_iff_dvd' h4.le).1 this)
              rw [Nat.mod_eq_of_lt (by omega)] at e3
              omega
            · rw [h4]; exact hpr
            · exact hno y h4 h2 h3
  unfold previousNTTPrime at h
  split at h
  · cases h
  · have e : (q - m).toNat = q.toNat - m.toNat :=
      UInt64.toNat_sub_of_le _ _ (UInt64.le_iff_toNat_le.2 (by omega))
    have hst := step _ hpq h1
    refine key fuel (q - m) (by omega) ?_ (by omega) ?_ h
    · rw [e, ← h1]
      conv_rhs => rw [show q.toNat = q.toNat - m.toNat + m.toNat by omega, Nat.add_mod_right]
    · intro y h2 h3 h4
      exfalso
      have e3 : (q.toNat - y) % m.toNat = 0 := by
        have : y ≡ q.toNat [MOD m.toNat] := h4.trans h1.symm
        exact Nat.mod_eq_zero_of_dvd ((Nat.modEq_iff_dvd' h3.le).1 this)
      rw [Nat.mod_eq_of_lt (by omega)] at e3
      omega

example : previousNTTPrime 10 193 32 = some (some 97) := by decide +kernel

/-- what the list of primes found so far satisfies -/
structure BatchOK (m : ℕ) (l : List UInt64) : Prop where
  prime : ∀ x ∈ l, x.toNat.Prime ∧ x.toNat % m = 1
  nodup : l.Nodup

theorem start_mod {logQ : ℕ} {m : UInt64} (hm : 1 < m.toNat) (hd : m.toNat ∣ 2 ^ logQ) :
    (UInt64.ofNat (2 ^ logQ) + 1).toNat % m.toNat = 1 := by
  have h64 : ∃ k, m.toNat = 2 ^ k := by
    obtain ⟨k, _, hk⟩ := (Nat.dvd_prime_pow Nat.prime_two).1 hd
    exact ⟨k, hk⟩
  obtain ⟨k, hk⟩ := h64
  have hk64 : k < 64 := by
    by_contra hc
    have : 2 ^ 64 ≤ 2 ^ k := Nat.pow_le_pow_right (by omega) (by omega)
    have := m.toNat_lt
    omega
  have hd64 : m.toNat ∣ 2 ^ 64 := by rw [hk]; exact pow_dvd_pow 2 (by omega)
  rw [UInt64.toNat_add, UInt64.toNat_ofNat', Nat.mod_mod_of_dvd _ hd64, Nat.add_mod,
    Nat.mod_mod_of_dvd _ hd64, Nat.mod_eq_zero_of_dvd hd]
  show (0 + 1 % m.toNat) % m.toNat = 1
  rw [Nat.zero_add, Nat.mod_mod, Nat.mod_eq_of_lt hm]

/-- **C09 (`GenerateNTTPrimesQ`).** For a root order dividing `2^logQ`, every batch returned consists
of `levels` distinct primes `≡ 1` modulo the root order.  Missing: root orders not dividing
`2^logQ` (`C09_smallLogQ_violated`). -/
theorem C09_generateQ_partial (fuel logQ levels : ℕ) (m : UInt64) (hm : 1 < m.toNat)
    (hd : m.toNat ∣ 2 ^ logQ) (l : List UInt64)
    (h : generateNTTPrimesQ fuel logQ m levels = some (some l)) :
    (∀ x ∈ l, x.toNat.Prime ∧ x.toNat % m.toNat = 1) ∧ l.Nodup ∧ l.length = levels := by
  set s := (UInt64.ofNat (2 ^ logQ) + 1).toNat with hs
  have key : ∀ fuel (ps : List UInt64) (nx pv : UInt64) (cn cp : Bool),
      BatchOK m.toNat ps → (∀ x ∈ ps, (s < x.toNat ∧ x.toNat ≤ nx.toNat) ∨
        (x.toNat < s ∧ pv.toNat ≤ x.toNat)) →
      s ≤ nx.toNat → pv.toNat ≤ s → nx.toNat % m.toNat = 1 → pv.toNat % m.toNat = 1 →
      genPrimesQLoop m levels fuel ps nx pv cn cp = some (some l) →
      BatchOK m.toNat l ∧ l.length = levels := by
    intro fuel
    induction fuel with
    | zero => intro _ _ _ _ _ _ _ _ _ _ _ h; cases h
    | succ fuel ih =>
      intro ps nx pv cn cp hps hin hnx hpv hn1 hp1 h
      unfold genPrimesQLoop at h
      split at h
      · cases h
      · simp only at h
        -- upward half
        obtain ⟨nx', hnx', h1, h2, h3⟩ : ∃ nx' : UInt64,
            nx' = (if cn = true ∧ ¬ (nx > 0xffffffffffffffff - m) then nx + m else nx) ∧
            nx.toNat ≤ nx'.toNat ∧ nx'.toNat % m.toNat = 1 ∧
            ((cn = true ∧ ¬ (nx > 0xffffffffffffffff - m)) → nx.toNat < nx'.toNat) := by
          refine ⟨_, rfl, ?_⟩
          split
          · rename_i hc
            have h5 : ¬ ((0xffffffffffffffff - m).toNat < nx.toNat) :=
              fun hh => hc.2 (UInt64.lt_iff_toNat_lt.2 hh)
            have h6 : (0xffffffffffffffff - m).toNat = 2 ^ 64 - 1 - m.toNat :=
              UInt64.toNat_sub_of_le _ _ (UInt64.le_iff_toNat_le.2 (by
                have := m.toNat_lt
                show m.toNat ≤ 2 ^ 64 - 1
                omega))
            have hml := m.toNat_lt
            have e : (nx + m).toNat = nx.toNat + m.toNat := by
              rw [UInt64.toNat_add, Nat.mod_eq_of_lt (by omega)]
            rw [e, Nat.add_mod_right]
            exact ⟨by omega, hn1, fun _ => by omega⟩
          · rename_i hc
            exact ⟨le_rfl, hn1, fun hc' => absurd hc' hc⟩
        rw [← hnx'] at h
        obtain ⟨ps', hps', g1, g2⟩ : ∃ ps' : List UInt64,
            ps' = (if cn = true ∧ ¬ (nx > 0xffffffffffffffff - m) ∧ isPrime nx' then ps ++ [nx'] else ps) ∧
            BatchOK m.toNat ps' ∧ (∀ x ∈ ps', (s < x.toNat ∧ x.toNat ≤ nx'.toNat) ∨
              (x.toNat < s ∧ pv.toNat ≤ x.toNat)) := by
          refine ⟨_, rfl, ?_⟩
          split
          · rename_i hc
            have hlt := h3 ⟨hc.1, hc.2.1⟩
            refine ⟨⟨?_, ?_⟩, ?_⟩
            · intro x hx
              rcases List.mem_append.1 hx with hx | hx
              · exact hps.prime x hx
              · rw [List.mem_singleton.1 hx]; exact ⟨hc.2.2, h2⟩
            · rw [List.nodup_append]
              refine ⟨hps.nodup, by simp, ?_⟩
              intro a ha b hb hab
              rw [List.mem_singleton.1 hb] at hab
              subst hab
              rcases hin a ha with h | h <;> omega
            · intro x hx
              rcases List.mem_append.1 hx with hx | hx
              · rcases hin x hx with h | h <;> omega
              · rw [List.mem_singleton.1 hx]; omega
          · exact ⟨hps, fun x hx => by rcases hin x hx with h | h <;> omega⟩
        rw [← hps'] at h
        split at h
        · rename_i hret
          cases h
          exact ⟨g1, hret.2.2.2⟩
        · -- downward half
          obtain ⟨pv', hpv', k1, k2, k3⟩ : ∃ pv' : UInt64,
              pv' = (if cp = true ∧ ¬ (pv < m) then pv - m else pv) ∧
              pv'.toNat ≤ pv.toNat ∧ pv'.toNat % m.toNat = 1 ∧
              ((cp = true ∧ ¬ (pv < m)) → pv'.toNat < pv.toNat) := by
            refine ⟨_, rfl, ?_⟩
            split
            · rename_i hc
              have h5 : ¬ (pv.toNat < m.toNat) := fun hh => hc.2 (UInt64.lt_iff_toNat_lt.2 hh)
              have e : (pv - m).toNat = pv.toNat - m.toNat :=
                UInt64.toNat_sub_of_le _ _ (UInt64.le_iff_toNat_le.2 (by omega))
              rw [e]
              refine ⟨by omega, ?_, fun _ => by omega⟩
              rw [← hp1]
              conv_rhs => rw [show pv.toNat = pv.toNat - m.toNat + m.toNat by omega, Nat.add_mod_right]
            · rename_i hc
              exact ⟨le_rfl, hp1, fun hc' => absurd hc' hc⟩
          rw [← hpv'] at h
          obtain ⟨ps'', hps'', l1, l2⟩ : ∃ ps'' : List UInt64,
              ps'' = (if cp = true ∧ ¬ (pv < m) ∧ isPrime pv' then ps' ++ [pv'] else ps') ∧
              BatchOK m.toNat ps'' ∧ (∀ x ∈ ps'', (s < x.toNat ∧ x.toNat ≤ nx'.toNat) ∨
                (x.toNat < s ∧ pv'.toNat ≤ x.toNat)) := by
            refine ⟨_, rfl, ?_⟩
            split
            · rename_i hc
              have hlt := k3 ⟨hc.1, hc.2.1⟩
              refine ⟨⟨?_, ?_⟩, ?_⟩
              · intro x hx
                rcases List.mem_append.1 hx with hx | hx
                · exact g1.prime x hx
                · rw [List.mem_singleton.1 hx]; exact ⟨hc.2.2, k2⟩
              · rw [List.nodup_append]
                refine ⟨g1.nodup, by simp, ?_⟩
                intro a ha b hb hab
                rw [List.mem_singleton.1 hb] at hab
                subst hab
                rcases g2 a ha with h | h <;> omega
              · intro x hx
                rcases List.mem_append.1 hx with hx | hx
                · rcases g2 x hx with h | h <;> omega
                · rw [List.mem_singleton.1 hx]; omega
            · exact ⟨g1, fun x hx => by rcases g2 x hx with h | h <;> omega⟩
          rw [← hps''] at h
          split at h
          · rename_i hret
            cases h
            exact ⟨l1, hret.2.2.2⟩
          · exact ih ps'' nx' pv' _ _ l1 l2 (by omega) (by omega) h2 k2 h
  have hst := start_mod hm hd
  obtain ⟨h1, h2⟩ := key fuel [] _ _ true true ⟨by simp, by simp⟩ (by simp) le_rfl le_rfl hst hst h
  exact ⟨h1.prime, h1.nodup, h2⟩

example : generateNTTPrimesQ 20 6 32 2 = some (some [97, 193]) := by decide +kernel

/-- **C09 fails for `GenerateNTTPrimesQ` when the root order exceeds `2^logQ`**: for `logQ = 4` and root
order 32 it returns 113, which is not `≡ 1 (mod 32)`. -/
theorem C09_smallLogQ_violated : generateNTTPrimesQ 10 4 32 1 = some (some [113]) ∧
    (113 : UInt64).toNat % (32 : UInt64).toNat ≠ 1 := by decide +kernel

/-- **C09 (`GenerateNTTPrimesP`).** As for `GenerateNTTPrimesQ`; moreover all primes are below `2^logP`. -/
theorem C09_generateP_partial (fuel logP n : ℕ) (m : UInt64) (hm : 1 < m.toNat)
    (hlog : logP ≤ 63) (hd : m.toNat ∣ 2 ^ logP) (l : List UInt64)
    (h : generateNTTPrimesP fuel logP m n = some (some l)) :
    (∀ x ∈ l, x.toNat.Prime ∧ x.toNat % m.toNat = 1 ∧ x.toNat < 2 ^ logP) ∧ l.Nodup ∧ l.length = n := by
  have hp : 2 ^ logP ≤ 2 ^ 63 := Nat.pow_le_pow_right (by omega) hlog
  have key : ∀ fuel (ps : List UInt64) (c : UInt64),
      (∀ x ∈ ps, x.toNat.Prime ∧ x.toNat % m.toNat = 1 ∧ x.toNat < 2 ^ logP) → ps.Nodup →
      (∀ x ∈ ps, c.toNat ≤ x.toNat) → c.toNat ≤ 2 ^ logP + 1 → c.toNat % m.toNat = 1 →
      genPrimesPLoop m n fuel ps c = some (some l) →
      (∀ x ∈ l, x.toNat.Prime ∧ x.toNat % m.toNat = 1 ∧ x.toNat < 2 ^ logP) ∧ l.Nodup ∧ l.length = n := by
    intro fuel
    induction fuel with
    | zero => intro _ _ _ _ _ _ _ h; cases h
    | succ fuel ih =>
      intro ps c hps hnd hle hc hc1 h
      unfold genPrimesPLoop at h
      split at h
      · rename_i hgt
        have hgt' : m.toNat < c.toNat := UInt64.lt_iff_toNat_lt.1 hgt
        have e : (c - m).toNat = c.toNat - m.toNat :=
          UInt64.toNat_sub_of_le _ _ (UInt64.le_iff_toNat_le.2 (by omega))
        have e1 : (c - m).toNat % m.toNat = 1 := by
          rw [e, ← hc1]
          conv_rhs => rw [show c.toNat = c.toNat - m.toNat + m.toNat by omega, Nat.add_mod_right]
        simp only at h
        split at h
        · rename_i hpr
          have q1 : ∀ x ∈ ps ++ [c - m], x.toNat.Prime ∧ x.toNat % m.toNat = 1 ∧ x.toNat < 2 ^ logP := by
            intro x hx
            rcases List.mem_append.1 hx with hx | hx
            · exact hps x hx
            · rw [List.mem_singleton.1 hx]; exact ⟨hpr, e1, by omega⟩
          have q2 : (ps ++ [c - m]).Nodup := by
            rw [List.nodup_append]
            refine ⟨hnd, by simp, ?_⟩
            intro a ha b hb hab
            rw [List.mem_singleton.1 hb] at hab
            subst hab
            have := hle _ ha
            omega
          split at h
          · rename_i hlen
            cases h
            exact ⟨q1, q2, hlen⟩
          · refine ih _ _ q1 q2 ?_ (by omega) e1 h
            intro x hx
            rcases List.mem_append.1 hx with hx | hx
            · have := hle x hx; omega
            · rw [List.mem_singleton.1 hx]
        · exact ih _ _ hps hnd (fun x hx => by have := hle x hx; omega) (by omega) e1 h
      · cases h
  have hst := start_mod hm hd
  refine key fuel [] _ (by simp) (by simp) (by simp) ?_ hst h
  rw [UInt64.toNat_add, UInt64.toNat_ofNat', Nat.mod_eq_of_lt (by omega : 2 ^ logP < 2 ^ 64)]
  show (2 ^ logP + 1) % 2 ^ 64 ≤ _
  exact Nat.mod_le _ _

example : generateNTTPrimesP 20 9 32 2 = some (some [449, 353]) := by decide +kernel

end FastKsw.Props
