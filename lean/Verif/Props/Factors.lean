import Verif.Lemmas.Pratt
import Verif.Props.Ring
import Mathlib.Tactic.NormNum.Prime
import Mathlib.NumberTheory.LegendreSymbol.QuadraticReciprocity

/-!
# C103: factors, primitive roots and the acceptance of moduli by `NewRing`

`factorizationPollardsRho` exchanges its two walks when the second one is ahead.  It always is after the first
step, and then both walks are at the same place after the second step: no factor is ever found of a number without
small prime factors.  So `getFactors` returns (its loops are run at most twice), but lists the product of all prime
factors above 17389 as if it were a prime, and `primitiveRoot` can return a number that is not a primitive root.
`NewRing` only needs a quadratic non-residue, and so always returns a valid ring when it should.
-/

namespace FastKsw.Props

/-! ## Factors -/

/-- **C103 (table).** The table of small primes holds exactly the primes below 17390, in increasing order. -/
theorem C103_table : smallPrimes = (List.range 17390).filter (fun n => decide n.Prime) := by
  rw [smallPrimes_eq, List.range_eq_range', show (17390 : ℕ) = 2 + 17388 from rfl, ← List.range'_append_1 (s := 0) (m := 2),
    List.filter_append]
  have : (List.range' 0 2).filter (fun n => decide n.Prime) = [] := by decide
  rw [this, List.nil_append]

/-- **C103 (Pollard's rho).** `factorizationPollardsRho` finds no factor of any number above 178 and up to `2^63`
without prime factor below 17: it returns 0, after two steps for each of the nine constants. -/
theorem C103_rho (m : UInt64) (hm : m.toNat ≤ 2 ^ 63) (hbig : 178 < m.toNat)
    (hcop : ∀ p, p.Prime → p ∣ m.toNat → 17 ≤ p) (fuel : ℕ) (hf : 2 ≤ fuel) :
    factorizationPollardsRho fuel m = some 0 :=
  pollard_fails hm hbig (fun p hp h17 hd => by have := hcop p hp hd; omega) hf

/-- **C103 (getFactors).** For every `n` between 1 and `2^63`, `getFactors` returns the primes below 17390 that
divide `n`, in increasing order, followed by the part of `n` without such primes unless this is 1. -/
theorem C103_getFactors (n : UInt64) (hn : 0 < n.toNat) (hn' : n.toNat ≤ 2 ^ 63) :
    ∃ c : UInt64, RoughPart 17390 n.toNat c.toNat ∧ ∀ fuel, 2 ≤ fuel →
      getFactors fuel n = some (((List.range 17390).filter (fun p => decide (p.Prime ∧ p ∣ n.toNat))).map UInt64.ofNat ++
        if c = 1 then [] else [c]) := by
  obtain ⟨c, h1, h2⟩ := getFactors_exact hn hn'
  refine ⟨c, h1, fun fuel hf => ?_⟩
  rw [h2 fuel hf, C103_table, List.filter_filter]
  congr 4
  funext p
  rw [Bool.decide_and, Bool.and_comm]

theorem _root_.FastKsw.RoughPart.unique {B n c c' : ℕ} (h : RoughPart B n c) (h' : RoughPart B n c') : c = c' := by
  have key : ∀ a b, RoughPart B n a → RoughPart B n b → a ∣ b := by
    intro a b ha hb
    have hcop : Nat.Coprime a (n / b) := by
      apply Nat.coprime_of_dvd
      intro p hp h1 h2
      have := ha.rough p hp h1
      have := hb.smooth p hp h2
      omega
    have e : n = b * (n / b) := (Nat.mul_div_cancel' hb.dvd).symm
    exact hcop.dvd_of_dvd_mul_right (e ▸ ha.dvd)
  exact Nat.dvd_antisymm (key _ _ h h') (key _ _ h' h)

/-- **C103 (factors, what holds).** If the part of `n` without primes below 17390 is 1 or a prime, `getFactors`
returns all the prime factors of `n` and nothing else.  Missing: other `n`, for which this is false. -/
theorem C103_factors_partial (n : UInt64) (hn : 0 < n.toNat) (hn' : n.toNat ≤ 2 ^ 63) {c : ℕ}
    (hc : RoughPart 17390 n.toNat c) (h1 : c = 1 ∨ c.Prime) (fuel : ℕ) (hf : 2 ≤ fuel) :
    ∃ fs, getFactors fuel n = some fs ∧ AllPrimeFactors n.toNat (fs.map UInt64.toNat) := by
  obtain ⟨c', hc', he⟩ := C103_getFactors n hn hn'
  have hcc : c'.toNat = c := hc'.unique hc
  refine ⟨_, he fuel hf, ?_⟩
  have hm : ((List.range 17390).filter (fun p => decide (p.Prime ∧ p ∣ n.toNat))).map (UInt64.toNat ∘ UInt64.ofNat) =
      (List.range 17390).filter (fun p => decide (p.Prime ∧ p ∣ n.toNat)) := by
    conv_rhs => rw [← List.map_id ((List.range 17390).filter _)]
    apply List.map_congr_left
    intro p hp
    have := List.mem_range.1 (List.mem_filter.1 hp).1
    show (UInt64.ofNat p).toNat = p
    rw [UInt64.toNat_ofNat']
    exact Nat.mod_eq_of_lt (by omega)
  have hsmall : ∀ p, p ∈ (List.range 17390).filter (fun p => decide (p.Prime ∧ p ∣ n.toNat)) ↔
      p < 17390 ∧ p.Prime ∧ p ∣ n.toNat := by
    intro p
    rw [List.mem_filter, List.mem_range, decide_eq_true_eq]
  have hlarge : ∀ p, p.Prime → p ∣ n.toNat → p < 17390 ∨ p ∣ c := by
    intro p hp hd
    rw [← Nat.mul_div_cancel' hc.dvd] at hd
    rcases hp.dvd_mul.1 hd with h | h
    · exact Or.inr h
    · exact Or.inl (hc.smooth p hp h)
  have hnd : ((List.range 17390).filter (fun p => decide (p.Prime ∧ p ∣ n.toNat))).Nodup := List.nodup_range.filter _
  by_cases hone : c' = 1
  · rw [if_pos hone, List.append_nil, List.map_map, hm]
    have hc1 : c = 1 := by rw [← hcc, hone]; rfl
    refine ⟨hnd, fun p => ?_⟩
    rw [hsmall]
    refine ⟨fun h => h.2, fun h => ⟨?_, h⟩⟩
    rcases hlarge p h.1 h.2 with h2 | h2
    · exact h2
    · rw [hc1] at h2
      exact absurd (Nat.dvd_one.1 h2) h.1.one_lt.ne'
  · rw [if_neg hone, List.map_append, List.map_map, hm, List.map_singleton, hcc]
    have hp : c.Prime := h1.resolve_left fun h => hone (UInt64.toNat_inj.1 (by rw [hcc, h]; rfl))
    have hbig := hc.rough c hp dvd_rfl
    constructor
    · rw [List.nodup_append]
      refine ⟨hnd, List.nodup_singleton c, ?_⟩
      intro a ha b hb
      rw [List.mem_singleton.1 hb]
      have := ((hsmall a).1 ha).1
      omega
    · intro p
      rw [List.mem_append, hsmall, List.mem_singleton]
      constructor
      · rintro (h | rfl)
        · exact h.2
        · exact ⟨hp, hc.dvd⟩
      · rintro ⟨h2, h3⟩
        rcases hlarge p h2 h3 with h4 | h4
        · exact Or.inl ⟨h4, h2, h3⟩
        · exact Or.inr ((Nat.prime_dvd_prime_iff_eq h2 hp).1 h4)

theorem prime79889944193 : Nat.Prime 79889944193 :=
  prattAll_prime (known := []) (by simp)
    (cs := [(35831, 22, [(2, 1), (5, 1), (3583, 1)]), (79889944193, 5, [(2, 7), (17419, 1), (35831, 1)])])
    (by decide +kernel) (79889944193, 5, [(2, 7), (17419, 1), (35831, 1)]) (by simp)

theorem prime17419 : Nat.Prime 17419 := (noDivisor_prime (by norm_num) (by norm_num)).1 (by decide +kernel)

theorem prime35831 : Nat.Prime 35831 :=
  prattAll_prime (known := []) (by simp) (cs := [(35831, 22, [(2, 1), (5, 1), (3583, 1)])])
    (by decide +kernel) (35831, 22, [(2, 1), (5, 1), (3583, 1)]) (by simp)

/-- the part of `79889944192 = 2^7·17419·35831` without small primes -/
theorem rough79889944192 : RoughPart 17390 79889944192 (17419 * 35831) := by
  refine ⟨by norm_num, fun p hp hd => ?_, fun p hp hd => ?_⟩
  · rcases hp.dvd_mul.1 hd with h | h
    · rw [(Nat.prime_dvd_prime_iff_eq hp prime17419).1 h]; norm_num
    · rw [(Nat.prime_dvd_prime_iff_eq hp prime35831).1 h]; norm_num
  · have h : p ∣ 2 ^ 7 := by norm_num at hd ⊢; exact hd
    have := (Nat.prime_dvd_prime_iff_eq hp Nat.prime_two).1 (hp.dvd_of_dvd_pow h)
    omega

/-- what `getFactors` returns for it -/
theorem factors79889944192 (fuel : ℕ) (hf : 2 ≤ fuel) :
    getFactors fuel 79889944192 = some [2, 624140189] := by
  obtain ⟨c, h1, h2⟩ := getFactors_exact (n := 79889944192) (by decide) (by decide)
  have hc : c.toNat = 624140189 := RoughPart.unique h1 rough79889944192
  have hc' : c = 624140189 := UInt64.toNat_inj.1 (by rw [hc]; rfl)
  have hl : smallPrimes.filter (fun p => decide (p ∣ (79889944192 : UInt64).toNat)) = [2] := by
    rw [show (79889944192 : UInt64).toNat = 79889944192 from rfl]
    decide +kernel
  rw [h2 fuel hf, hl, hc', if_neg (by decide)]
  rfl

/-- **C103 (factors, violated).** `getFactors` does not return all the prime factors: for
`79889944192 = 2^7·17419·35831` it returns 2 and the product `17419·35831`. -/
theorem C103_factors_violated : ∃ n : UInt64, ∀ fuel, 2 ≤ fuel → ∃ fs, getFactors fuel n = some fs ∧
    ¬ AllPrimeFactors n.toNat (fs.map UInt64.toNat) := by
  refine ⟨79889944192, fun fuel hf => ⟨_, factors79889944192 fuel hf, fun h => ?_⟩⟩
  have := (h.iff 17419).2 ⟨prime17419, by decide⟩
  exact absurd this (by decide)

/-! ## Roots -/

/-- **C103 (primitiveRoot returns).** For every prime `q` between 33 and `2^63`, `primitiveRoot` returns, for any
number of steps from `q` on the same result: the first `g` from 3 on with `g^((q-1)/f) ≠ 1` for all `f` listed by
`getFactors`. -/
theorem C103_primitiveRoot (q : UInt64) (hp : q.toNat.Prime) (h33 : 33 ≤ q.toNat) (hq : q.toNat ≤ 2 ^ 63) :
    ∃ fs g, 3 ≤ g.toNat ∧ g.toNat < q.toNat ∧
      (∀ fuel, q.toNat ≤ fuel → getFactors fuel (q - 1) = some fs ∧ primitiveRoot fuel q = some g) ∧
      (∀ f ∈ fs, ¬ g.toNat ^ ((q.toNat - 1) / f.toNat) % q.toNat = 1) ∧
      ∀ x, 3 ≤ x → x < g.toNat → ∃ f ∈ fs, x ^ ((q.toNat - 1) / f.toNat) % q.toNat = 1 := by
  obtain ⟨g, hg⟩ := primitiveRoot_returns hp h33 hq
  have hodd : q.toNat % 2 = 1 := by
    rcases hp.eq_two_or_odd with h | h <;> omega
  have hq1 : (q - 1).toNat = q.toNat - 1 := by
    rw [toNat_sub_of_le' (by rw [UInt64.toNat_one]; omega), UInt64.toNat_one]
  obtain ⟨c, -, hc⟩ := getFactors_exact (n := q - 1) (by omega) (by omega)
  obtain ⟨fs, hfs, hloop⟩ := primitiveRoot_some (hg q.toNat le_rfl)
  obtain ⟨-, h2⟩ := getFactors_spec _ (q - 1) (by omega) (by omega) fs hfs
  obtain ⟨s1, s2, -⟩ := primitiveRoot_spec hp h33 hodd hq (hg q.toNat le_rfl)
  obtain ⟨-, a, b⟩ := primitiveRootLoop_first fs q.toNat 2 g (by have : (2 : UInt64).toNat = 2 := rfl; omega) hloop
  have hne := List.ne_nil_of_mem h2
  have hz : ∀ x e : ℕ, (x : ZMod q.toNat) ^ e = 1 ↔ x ^ e % q.toNat = 1 := by
    intro x e
    have h3 := ZMod.natCast_eq_natCast_iff' (x ^ e) 1 q.toNat
    push_cast at h3
    rw [h3, Nat.mod_eq_of_lt hp.one_lt]
  rw [rootRejected_iff hp.one_lt hq hne] at a
  refine ⟨fs, g, s1, s2, fun fuel hf => ⟨?_, hg fuel hf⟩, fun f hf => ?_, fun x h3 hx => ?_⟩
  · rw [hc fuel (by omega), ← hc q.toNat (by omega), hfs]
  · rw [← hz]; exact a f hf
  · have hxn : (UInt64.ofNat x).toNat = x := by
      rw [UInt64.toNat_ofNat']; exact Nat.mod_eq_of_lt (by omega)
    have hrej := b (UInt64.ofNat x) (by rw [hxn]; exact h3) (by rw [hxn]; exact hx)
    by_contra hcon
    push Not at hcon
    have : rootRejected q (UInt64.ofNat x) fs true = false := by
      rw [rootRejected_iff hp.one_lt hq hne, hxn]
      intro f hf
      rw [Ne, hz]
      exact hcon f hf
    rw [this] at hrej
    cases hrej

/-- powers of an element of full order reach every unit -/
theorem generates_of_order {q g : ℕ} (hp : q.Prime) (hg0 : 0 < g) (hgq : g < q)
    (h : ∀ p, p.Prime → p ∣ q - 1 → ¬ g ^ ((q - 1) / p) % q = 1) : Generates q g := by
  have : Fact q.Prime := ⟨hp⟩
  have hz : ∀ e : ℕ, (g : ZMod q) ^ e = 1 ↔ g ^ e % q = 1 := by
    intro e
    have h3 := ZMod.natCast_eq_natCast_iff' (g ^ e) 1 q
    push_cast at h3
    rw [h3, Nat.mod_eq_of_lt hp.one_lt]
  have hne : (g : ZMod q) ≠ 0 := by
    intro h0
    rw [ZMod.natCast_eq_zero_iff] at h0
    have := Nat.le_of_dvd hg0 h0
    omega
  have hord : orderOf (g : ZMod q) = q - 1 := by
    apply orderOf_eq_of_pow_and_pow_div_prime (by have := hp.two_le; omega) (ZMod.pow_card_sub_one_eq_one hne)
    intro p hp' hd
    rw [Ne, hz]
    exact h p hp' hd
  have hordu : orderOf (Units.mk0 (g : ZMod q) hne) = Nat.card (ZMod q)ˣ := by
    rw [Nat.card_eq_fintype_card, ZMod.card_units, ← hord, ← orderOf_units]
    rfl
  intro x hx0 hxq
  have hxne : (x : ZMod q) ≠ 0 := by
    intro h0
    rw [ZMod.natCast_eq_zero_iff] at h0
    have := Nat.le_of_dvd hx0 h0
    omega
  have hmem : Units.mk0 (x : ZMod q) hxne ∈ Submonoid.powers (Units.mk0 (g : ZMod q) hne) :=
    mem_powers_iff_mem_zpowers.2 (by
      rw [Subgroup.eq_top_of_card_eq (Subgroup.zpowers (Units.mk0 (g : ZMod q) hne)) (by rw [Nat.card_zpowers, hordu])]
      trivial)
  obtain ⟨e, he⟩ := hmem
  refine ⟨e, ?_⟩
  have h1 := congrArg Units.val he
  simp only [Units.val_pow_eq_pow_val, Units.val_mk0] at h1
  rw [← Nat.cast_pow, ZMod.natCast_eq_natCast_iff', Nat.mod_eq_of_lt hxq] at h1
  exact h1

theorem order_of_generates {q g : ℕ} (hp : q.Prime) (h : Generates q g) (h3 : 3 ≤ q) :
    ∀ f, 1 < f → f ∣ q - 1 → ¬ g ^ ((q - 1) / f) % q = 1 := by
  have : Fact q.Prime := ⟨hp⟩
  intro f hf hd hcon
  have hz : (g : ZMod q) ^ ((q - 1) / f) = 1 := by
    have h3 := ZMod.natCast_eq_natCast_iff' (g ^ ((q - 1) / f)) 1 q
    push_cast at h3
    rw [h3, Nat.mod_eq_of_lt hp.one_lt]
    exact hcon
  have hpos : 0 < (q - 1) / f := Nat.div_pos (Nat.le_of_dvd (by omega) hd) (by omega)
  have hlt : (q - 1) / f < q - 1 := Nat.div_lt_self (by omega) hf
  -- all units are among the first (q-1)/f powers
  have hsub : Finset.Ico 1 q ⊆ (Finset.range ((q - 1) / f)).image fun e => g ^ e % q := by
    intro x hx
    rw [Finset.mem_Ico] at hx
    obtain ⟨e, he⟩ := h x (by omega) hx.2
    rw [Finset.mem_image]
    refine ⟨e % ((q - 1) / f), Finset.mem_range.2 (Nat.mod_lt _ hpos), ?_⟩
    rw [← he]
    have : ((g ^ (e % ((q - 1) / f)) : ℕ) : ZMod q) = ((g ^ e : ℕ) : ZMod q) := by
      push_cast
      conv_rhs => rw [← Nat.div_add_mod e ((q - 1) / f), pow_add, pow_mul, hz, one_pow, one_mul]
    exact (ZMod.natCast_eq_natCast_iff' _ _ _).1 this
  have hcard := (Finset.card_le_card hsub).trans Finset.card_image_le
  rw [Nat.card_Ico, Finset.card_range] at hcard
  omega

/-- **C103 (primitive roots, what holds).** If `q ≡ 1 (mod 8)` and the part of `q - 1` without primes below 17390
is 1 or a prime, `primitiveRoot` returns the smallest primitive root of `q`.  Missing: other `q`, for which the
result can fail to be a primitive root. -/
theorem C103_root_partial (q : UInt64) (hp : q.toNat.Prime) (h8 : q.toNat % 8 = 1) (h33 : 33 ≤ q.toNat)
    (hq : q.toNat ≤ 2 ^ 63) {c : ℕ} (hc : RoughPart 17390 (q.toNat - 1) c) (h1 : c = 1 ∨ c.Prime) :
    ∃ g, (∀ fuel, q.toNat ≤ fuel → primitiveRoot fuel q = some g) ∧ Generates q.toNat g.toNat ∧
      ∀ x, 0 < x → x < g.toNat → ¬ Generates q.toNat x := by
  have hq1 : (q - 1).toNat = q.toNat - 1 := by
    rw [toNat_sub_of_le' (by rw [UInt64.toNat_one]; omega), UInt64.toNat_one]
  obtain ⟨fs, g, g3, gq, hg, hall, hfirst⟩ := C103_primitiveRoot q hp h33 hq
  obtain ⟨fs', hfs', hA⟩ := C103_factors_partial (q - 1) (by omega) (by omega) (hq1 ▸ hc) h1 q.toNat (by omega)
  rw [(hg q.toNat le_rfl).1] at hfs'
  cases hfs'
  rw [hq1] at hA
  refine ⟨g, fun fuel hf => (hg fuel hf).2, ?_, ?_⟩
  · apply generates_of_order hp (by omega) gq
    intro p hp' hd
    obtain ⟨f, hf, rfl⟩ := List.mem_map.1 ((hA.iff p).2 ⟨hp', hd⟩)
    exact hall f hf
  · intro x hx0 hxg hgen
    have hord := order_of_generates hp hgen (by omega)
    by_cases hx3 : 3 ≤ x
    · obtain ⟨f, hf, he⟩ := hfirst x hx3 hxg
      obtain ⟨f1, f2⟩ := (hA.iff f.toNat).1 (List.mem_map_of_mem hf)
      exact hord f.toNat f1.one_lt f2 he
    · have h2 : 2 ∣ q.toNat - 1 := by omega
      apply hord 2 (by norm_num) h2
      have : Fact q.toNat.Prime := ⟨hp⟩
      have hx12 : x = 1 ∨ x = 2 := by omega
      rcases hx12 with rfl | rfl
      · rw [one_pow]; exact Nat.mod_eq_of_lt hp.one_lt
      · have hne : (2 : ZMod q.toNat) ≠ 0 := by
          intro h0
          have h4 : ((2 : ℕ) : ZMod q.toNat) = 0 := by exact_mod_cast h0
          rw [ZMod.natCast_eq_zero_iff] at h4
          have := Nat.le_of_dvd (by norm_num) h4
          omega
        have hsq : IsSquare (2 : ZMod q.toNat) := (ZMod.exists_sq_eq_two_iff (by omega)).2 (Or.inl h8)
        have h5 := (ZMod.euler_criterion q.toNat hne).1 hsq
        have h6 := ZMod.natCast_eq_natCast_iff' (2 ^ (q.toNat / 2)) 1 q.toNat
        push_cast at h6
        rw [h6, Nat.mod_eq_of_lt hp.one_lt] at h5
        rw [show (q.toNat - 1) / 2 = q.toNat / 2 by omega]
        exact h5

theorem not_generates {q g e : UInt64} {f : ℕ} (hp : q.toNat.Prime) (h3 : 3 ≤ q.toNat) (hq : q.toNat ≤ 2 ^ 63)
    (hf : 1 < f) (he : e.toNat * f = q.toNat - 1) (h : modExp g e q = 1) : ¬ Generates q.toNat g.toNat := by
  intro hg
  apply order_of_generates hp hg h3 f hf ⟨e.toNat, by rw [← he, mul_comm]⟩
  rw [← he, Nat.mul_div_cancel _ (by omega), ← modExp_toNat hp.one_lt hq, h]
  rfl

/-- **C103 (primitive roots, violated).** `primitiveRoot` can return a number that is not a primitive root: for
the prime `79889944193 = 2^7·17419·35831 + 1` it returns 3, whose order is a proper divisor of `q - 1`. -/
theorem C103_root_violated : ∃ q g : UInt64, q.toNat.Prime ∧ q.toNat % 128 = 1 ∧
    (∀ fuel, q.toNat ≤ fuel → primitiveRoot fuel q = some g) ∧ ¬ Generates q.toNat g.toNat := by
  have hq : (79889944193 : UInt64).toNat = 79889944193 := rfl
  refine ⟨79889944193, 3, by rw [hq]; exact prime79889944193, by rw [hq], fun fuel hf => ?_, fun h => ?_⟩
  · unfold primitiveRoot
    rw [hq] at hf
    rw [show (79889944193 : UInt64) - 1 = 79889944192 from rfl, factors79889944192 fuel (by omega)]
    obtain ⟨f, rfl⟩ : ∃ f, fuel = f + 1 := ⟨fuel - 1, by omega⟩
    have hr : rootRejected 79889944193 (2 + 1) [2, 624140189] true = false := by decide +kernel
    rw [Option.bind_some, primitiveRootLoop]
    simp only [hr]
    rfl
  · exact not_generates (f := 17419) (e := 4586368) (by rw [hq]; exact prime79889944193) (by rw [hq]; norm_num)
      (by rw [hq]; norm_num) (by norm_num) (by rw [hq]; rfl) (by decide +kernel) h

/-- Pollard's rho on the product of the primes 17419 and 35831: no factor, whatever the number of steps -/
example (fuel : ℕ) (hf : 2 ≤ fuel) : factorizationPollardsRho fuel 624140189 = some 0 := by
  have e : (624140189 : UInt64).toNat = 17419 * 35831 := rfl
  refine C103_rho _ (by rw [e]; norm_num) (by rw [e]; norm_num) (fun p hp hd => ?_) fuel hf
  rw [e] at hd
  rcases (hp.dvd_mul).1 hd with h | h
  · rw [(Nat.prime_dvd_prime_iff_eq hp prime17419).1 h]; norm_num
  · rw [(Nat.prime_dvd_prime_iff_eq hp prime35831).1 h]; norm_num

/-- the hypotheses of `C103_root_partial` hold for the Fermat prime 65537 -/
example : ∃ g, (∀ fuel, 65537 ≤ fuel → primitiveRoot fuel 65537 = some g) ∧ Generates 65537 g.toNat ∧
    ∀ x, 0 < x → x < g.toNat → ¬ Generates 65537 x := by
  have e : (65537 : UInt64).toNat = 65537 := rfl
  have h := C103_root_partial 65537 (by rw [e]; norm_num) (by rw [e]) (by rw [e]; norm_num) (by rw [e]; norm_num) (c := 1)
    ⟨one_dvd _, fun p hp hd => absurd (Nat.dvd_one.1 hd) hp.ne_one, fun p hp hd => by
      rw [e] at hd
      have h2 : p ∣ 2 ^ 16 := by simpa using hd
      rw [(Nat.prime_dvd_prime_iff_eq hp Nat.prime_two).1 (hp.dvd_of_dvd_pow h2)]
      norm_num⟩ (Or.inl rfl)
  rwa [e] at h

end FastKsw.Props
