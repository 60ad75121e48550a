import Verif.Model.RingTestParams
import Verif.Model.Primes
import Verif.Lemmas.RingTestPrimes
import Verif.Lemmas.Blocks
import Verif.Props.Accept

/-!
# C112: the parameters of the tests of package `ring`
-/

namespace FastKsw

/-! ### the search for primes with a table of the answers -/

/-- `genPrimesPLoop` with the answers of the primality test from `o` -/
def genPrimesO (o : UInt64 → Bool) (nthRoot : UInt64) (n : Nat) : Nat → List UInt64 → UInt64 → Option (Option (List UInt64))
  | 0, _, _ => none
  | fuel + 1, primes, x =>
    if x > nthRoot then
      let x := x - nthRoot
      if o x then
        let primes := primes ++ [x]
        if primes.length = n then some (some primes) else genPrimesO o nthRoot n fuel primes x
      else genPrimesO o nthRoot n fuel primes x
    else some none

/-- the answers of `o` at the `fuel` numbers below `x` are right -/
def answersOk (o : UInt64 → Bool) (nthRoot : UInt64) : Nat → UInt64 → Bool
  | 0, _ => true
  | fuel + 1, x =>
    let x := x - nthRoot
    (bif o x then ringTestCerts.any (fun c => Nat.beq c.1 x.toNat)
      else Nat.ble 3 x.toNat && Nat.beq (x.toNat % 2) 1 && !Nat.beq (powModAux x.toNat 64 2 (x.toNat - 1) 1 % x.toNat) 1)
      && answersOk o nthRoot fuel x

/-- Fermat's test -/
theorem not_prime_of_fermat {x : ℕ} (h3 : 3 ≤ x) (hx : x < 2 ^ 64) (hodd : x % 2 = 1)
    (h : powModAux x 64 2 (x - 1) 1 % x ≠ 1) : ¬ x.Prime := by
  intro hp
  have hf : Fact x.Prime := ⟨hp⟩
  apply h
  have e := powModAux_eq x 64 2 (x - 1) 1 (by omega)
  have h2 : ((2 : ℕ) : ZMod x) ≠ 0 := by
    intro hc
    rw [ZMod.natCast_eq_zero_iff] at hc
    have := Nat.le_of_dvd (by norm_num) hc
    omega
  rw [ZMod.pow_card_sub_one_eq_one h2, Nat.cast_one, one_mul] at e
  have e' : ((powModAux x 64 2 (x - 1) 1 : ℕ) : ZMod x) = ((1 : ℕ) : ZMod x) := by rw [e, Nat.cast_one]
  rw [ZMod.natCast_eq_natCast_iff] at e'
  rw [e', Nat.mod_eq_of_lt (by omega)]

theorem genPrimesO_eq {o : UInt64 → Bool} {m : UInt64} {n fuel : ℕ} {primes : List UInt64} {x : UInt64} {l : List UInt64} (k : ℕ)
    (hk : k ≤ fuel) (h : answersOk o m k x = true) (he : genPrimesO o m n k primes x = some (some l)) :
    genPrimesPLoop m n fuel primes x = some (some l) := by
  induction k generalizing primes x fuel with
  | zero => simp [genPrimesO] at he
  | succ k ih =>
    obtain ⟨fuel, rfl⟩ : ∃ f, fuel = f + 1 := ⟨fuel - 1, by omega⟩
    rw [genPrimesO] at he
    rw [genPrimesPLoop]
    rw [answersOk, Bool.and_eq_true] at h
    simp only at h he ⊢
    split at he
    · rename_i hgt
      rw [if_pos hgt]
      have ho : isPrime (x - m) ↔ o (x - m) = true := by
        unfold isPrime
        cases hox : o (x - m) with
        | true =>
          rw [hox, cond_true] at h
          simpa using ringTestCerts_prime h.1
        | false =>
          rw [hox, cond_false, Bool.and_eq_true, Bool.and_eq_true] at h
          have h3 := Nat.le_of_ble_eq_true h.1.1.1
          have h4 := Nat.eq_of_beq_eq_true h.1.1.2
          have h5 : powModAux (x - m).toNat 64 2 ((x - m).toNat - 1) 1 % (x - m).toNat ≠ 1 := by
            intro hc
            simp [hc] at h
          simpa using not_prime_of_fermat h3 (UInt64.toNat_lt _) h4 h5
      by_cases hox : o (x - m) = true
      · rw [if_pos (ho.2 hox)]
        rw [if_pos hox] at he
        split at he
        · rename_i hl
          rw [if_pos hl]; exact he
        · rename_i hl
          rw [if_neg hl]; exact ih (by omega) h.2 he
      · rw [if_neg (fun hc => hox (ho.1 hc))]
        rw [if_neg hox] at he
        exact ih (by omega) h.2 he
    · simp at he

/-- the table of answers -/
def ringTestOracle (x : UInt64) : Bool := (qi60 ++ pi60).any fun q => q == x

set_option maxRecDepth 100000 in
theorem ringTest_answers : answersOk ringTestOracle (2 ^ 18) 1334 (UInt64.ofNat (2 ^ 61) + 1) = true := by decide +kernel

set_option maxRecDepth 100000 in
theorem ringTest_search : genPrimesO ringTestOracle (2 ^ 18) 64 1334 [] (UInt64.ofNat (2 ^ 61) + 1)
    = some (some (qi60 ++ pi60)) := by decide +kernel

namespace Props

/-- **C112 (lists).** `Qi60` followed by `Pi60` is what `GenerateNTTPrimes(61, 2^18, 64)` returns: the 64 largest primes below
`2^61` that are 1 modulo `2^18`, from the largest on. -/
theorem C112_lists (fuel : ℕ) (hf : 1334 ≤ fuel) : generateNTTPrimes fuel 61 (2 ^ 18) 64 = some (some (qi60 ++ pi60)) := by
  unfold generateNTTPrimes generateNTTPrimesP
  rw [if_neg (by norm_num), if_pos rfl]
  exact genPrimesO_eq 1334 hf ringTest_answers ringTest_search

set_option maxRecDepth 100000 in
theorem lists_ok : (qi60 ++ pi60).all (fun q => decide (2 ^ 60 < q.toNat ∧ q.toNat < 2 ^ 61 ∧ q.toNat % 2 ^ 18 = 1) &&
    ringTestCerts.any (fun c => Nat.beq c.1 q.toNat)) = true ∧ (qi60 ++ pi60).Nodup := by
  constructor <;> decide +kernel

theorem lists_prime {q : UInt64} (h : q ∈ qi60 ++ pi60) :
    q.toNat.Prime ∧ 2 ^ 60 < q.toNat ∧ q.toNat < 2 ^ 61 ∧ q.toNat % 2 ^ 18 = 1 := by
  have := List.all_eq_true.1 lists_ok.1 q h
  rw [Bool.and_eq_true, decide_eq_true_eq] at this
  exact ⟨ringTestCerts_prime this.2, this.1⟩

theorem lastK_sublist (k : ℕ) (l : List UInt64) : (lastK k l).Sublist l := List.drop_sublist _ _

theorem acceptable_lastK {l : List UInt64} (hl : l.Sublist (qi60 ++ pi60)) (hlen : 0 < l.length) {k n : ℕ} (hk : 0 < k)
    (hn : 4 ≤ n) (hn' : n ≤ 17) : RingAcceptable (2 ^ n) .standard (lastK k l) := by
  have hs : (lastK k l).Sublist (qi60 ++ pi60) := (lastK_sublist k l).trans hl
  refine ⟨⟨n, hn, rfl⟩, ?_, lists_ok.2.sublist hs, fun q hq => (lists_prime (hs.subset hq)).1, fun q hq => ?_⟩
  · unfold lastK
    intro hc
    have := congrArg List.length hc
    simp at this
    omega
  · have h := (lists_prime (hs.subset hq)).2.2.2
    have hd : 2 * 2 ^ n ∣ 2 ^ 18 := by rw [← pow_succ']; exact pow_dvd_pow 2 (by omega)
    have h2 : q.toNat % 2 ^ 18 % (2 * 2 ^ n) = q.toNat % (2 * 2 ^ n) := Nat.mod_mod_of_dvd _ hd
    show q.toNat % (2 * 2 ^ n) = 1
    rw [← h2, h]
    exact Nat.mod_eq_of_lt (by have := Nat.one_le_two_pow (n := n); omega)

/-- the ring of the last `k` primes of one of the lists, in degree `2^n` -/
theorem exists_testRing {l : List UInt64} (hl : l.Sublist (qi60 ++ pi60)) (hlen : 0 < l.length) {k n : ℕ} (hk : 0 < k)
    (hn : 4 ≤ n) (hn' : n ≤ 17) :
    ∃ r, (∀ fuel, 2 ^ 61 ≤ fuel → newRing fuel (2 ^ n) (lastK k l) = .ok r) ∧ r.Valid n ∧ r.Small ∧ r.moduli = lastK k l := by
  have hs : (lastK k l).Sublist (qi60 ++ pi60) := (lastK_sublist k l).trans hl
  have hlt : ∀ q ∈ lastK k l, q.toNat < 2 ^ 61 := fun q hq => (lists_prime (hs.subset hq)).2.2.1
  have h17 : 2 ^ n ≤ 2 ^ 17 := Nat.pow_le_pow_right (by norm_num) hn'
  obtain ⟨r, hr⟩ := (C103_newRing (2 ^ n) (lt_of_le_of_lt h17 (by norm_num)) .standard (lastK k l)
    (fun q hq => lt_trans (hlt q hq) (by norm_num))).1 (acceptable_lastK hl hlen hk hn hn')
  refine ⟨r, fun fuel hf => hr fuel (fun q hq => (hlt q hq).le.trans hf), ?_⟩
  exact newRing_valid' rfl (by omega) hlt (hr (2 ^ 61) fun q hq => (hlt q hq).le)

/-- **C112 (rings).** `genTestParams` builds both rings for each of the five parameter sets of package `ring` (the conditions of
the theorems on rings hold), with the listed degree and moduli, no modulus being shared. -/
theorem C112_rings (p : ℕ × List UInt64 × List UInt64) (hp : p ∈ ringTestParams) :
    ∃ rQ rP, (∀ fuel, 2 ^ 61 ≤ fuel → genTestRings fuel p = .ok (rQ, rP)) ∧
      rQ.Valid p.1 ∧ rQ.Small ∧ rQ.moduli = p.2.1 ∧ rP.Valid p.1 ∧ rP.Small ∧ rP.moduli = p.2.2 ∧
      (rQ.moduli ++ rP.moduli).Nodup ∧ rQ.subs.length = rP.subs.length ∧ rQ.subs.length < 32 := by
  have key : ∀ n k, 4 ≤ n → n ≤ 17 → 0 < k → k < 32 →
      ∃ rQ rP, (∀ fuel, 2 ^ 61 ≤ fuel → genTestRings fuel (n, lastK k qi60, lastK k pi60) = .ok (rQ, rP)) ∧
      rQ.Valid n ∧ rQ.Small ∧ rQ.moduli = lastK k qi60 ∧ rP.Valid n ∧ rP.Small ∧ rP.moduli = lastK k pi60 ∧
      (rQ.moduli ++ rP.moduli).Nodup ∧ rQ.subs.length = rP.subs.length ∧ rQ.subs.length < 32 := by
    intro n k h1 h2 h3 h4
    obtain ⟨rQ, a1, a2, a3, a4⟩ := exists_testRing (l := qi60) (List.sublist_append_left _ _) (by decide) h3 h1 h2
    obtain ⟨rP, b1, b2, b3, b4⟩ := exists_testRing (l := pi60) (List.sublist_append_right _ _) (by decide) h3 h1 h2
    have l1 : rQ.subs.length = k := by
      have := congrArg List.length a4
      simp only [Ring.moduli, List.length_map, lastK, List.length_drop, show qi60.length = 32 from rfl] at this
      omega
    have l2 : rP.subs.length = k := by
      have := congrArg List.length b4
      simp only [Ring.moduli, List.length_map, lastK, List.length_drop, show pi60.length = 32 from rfl] at this
      omega
    refine ⟨rQ, rP, fun fuel hf => ?_, a2, a3, a4, b2, b3, b4, ?_, by omega, by omega⟩
    · unfold genTestRings
      simp only
      rw [a1 fuel hf, b1 fuel hf]
      rfl
    · rw [a4, b4]
      exact lists_ok.2.sublist ((lastK_sublist k qi60).append (lastK_sublist k pi60))
  simp only [ringTestParams, List.mem_cons, List.not_mem_nil, or_false] at hp
  rcases hp with rfl | rfl | rfl | rfl | rfl
  · exact key 12 2 (by norm_num) (by norm_num) (by norm_num) (by norm_num)
  · exact key 13 4 (by norm_num) (by norm_num) (by norm_num) (by norm_num)
  · exact key 14 7 (by norm_num) (by norm_num) (by norm_num) (by norm_num)
  · exact key 15 14 (by norm_num) (by norm_num) (by norm_num) (by norm_num)
  · exact key 16 29 (by norm_num) (by norm_num) (by norm_num) (by norm_num)

end Props

end FastKsw
