import Verif.Props.Defaults

/-!
# C104: the parameter sets of rlwe/rlwe_test_params.go given by sizes
-/

namespace FastKsw.Props

open FastKsw

/-- six primes that are 1 modulo `2^18`, near `2^60` -/
def near60 : List UInt64 :=
  [0xffffffffffc0001, 0xfffffffff840001, 0x1000000000980001, 0x1000000000b00001, 0xfffffffff240001, 0x1000000000f00001]

def near60Certs : List (ℕ × ℕ × List (ℕ × ℕ)) :=
  [(105137, 3, [(2, 4), (6571, 1)]),
   (116131, 2, [(2, 1), (3, 1), (5, 1), (7, 2), (79, 1)]),
   (445699, 2, [(2, 1), (3, 2), (11, 1), (2251, 1)]),
   (1223179, 2, [(2, 1), (3, 1), (11, 1), (43, 1), (431, 1)]),
   (1782797, 2, [(2, 2), (445699, 1)]),
   (10696783, 3, [(2, 1), (3, 1), (1782797, 1)]),
   (25781083, 5, [(2, 1), (3, 1), (37, 1), (116131, 1)]),
   (36650387593, 5, [(2, 3), (3, 2), (7, 1), (13, 1), (19, 1), (37, 1), (73, 1), (109, 1)]),
   (733007751857, 3, [(2, 4), (1777, 1), (25781083, 1)]),
   (1099511627791, 3, [(2, 1), (3, 1), (5, 1), (36650387593, 1)]),
   (1152921504592429057, 5, [(2, 18), (3, 2), (17, 1), (373, 1), (733, 1), (105137, 1)]),
   (1152921504598720513, 5, [(2, 18), (3, 1), (571, 1), (2099, 1), (1223179, 1)]),
   (1152921504606584833, 10, [(2, 18), (3, 2), (7, 2), (43, 1), (127, 1), (337, 1), (5419, 1)]),
   (1152921504616808449, 11, [(2, 19), (3, 1), (733007751857, 1)]),
   (1152921504618381313, 5, [(2, 20), (3, 7), (47, 1), (10696783, 1)]),
   (1152921504622575617, 3, [(2, 20), (1099511627791, 1)])]

set_option maxRecDepth 100000 in
theorem near60Certs_ok : prattAll [] near60Certs = true := by decide +kernel

theorem near60_check : near60.Nodup ∧ (near60.all fun x => near60Certs.any (fun c => Nat.beq c.1 x.toNat) && Nat.beq (x.toNat % 2 ^ 18) 1 &&
    Nat.ble x.toNat (2 ^ 60 + 1 + 15728640) && Nat.ble (2 ^ 60 + 1) (x.toNat + 15728640) && !Nat.beq x.toNat (2 ^ 60 + 1)) = true := by
  decide +kernel

theorem near60_spec {m : ℕ} (hm : m ∣ 2 ^ 18) (h1 : 1 < m) : ∀ x ∈ near60, ModulusOf m 60 x ∧ offTwoPow 60 x.toNat ≤ 15728640 := by
  intro x hx
  have h := List.all_eq_true.1 near60_check.2 x hx
  simp only [Bool.and_eq_true, Nat.ble_eq, Bool.not_eq_true'] at h
  obtain ⟨⟨⟨⟨a1, a2⟩, a3⟩, a4⟩, a5⟩ := h
  obtain ⟨c, hc, he⟩ := List.any_eq_true.1 a1
  have hp : x.toNat.Prime := by
    rw [← Nat.eq_of_beq_eq_true he]
    exact prattAll_prime (by simp) near60Certs_ok c hc
  have hr : x.toNat % m = 1 := by
    rw [← Nat.mod_mod_of_dvd _ hm, Nat.eq_of_beq_eq_true a2, Nat.mod_eq_of_lt h1]
  exact ⟨⟨⟨hp, hr⟩, fun h => absurd h (by decide), Nat.ne_of_beq_eq_false a5⟩, off_le a3 a4⟩

/-- when there are enough usable moduli within `D` of the power of two, all the delivered ones are -/
theorem within_of_usable {m s D : ℕ} {sizes : List ℤ} {moduli : List UInt64} (M : ModuliFor m sizes moduli)
    (hs : ∀ z ∈ sizes, z = (s : ℤ)) {l : List UInt64} (hl : l.Nodup) (hn : sizes.length ≤ l.length)
    (hu : ∀ x ∈ l, ModulusOf m s x ∧ offTwoPow s x.toNat ≤ D) (i : ℕ) (hi : i < sizes.length) :
    offTwoPow s (moduli.getD i 0).toNat ≤ D := by
  have e : ∀ j (hj : j < sizes.length), (sizes[j]).toNat = s := fun j hj => by
    rw [hs _ (List.getElem_mem hj)]
    rfl
  by_cases hc : ∀ y ∈ l, y ∈ moduli
  · have hsub : l.toFinset ⊆ moduli.toFinset := fun y hy => List.mem_toFinset.2 (hc y (List.mem_toFinset.1 hy))
    have hcard : moduli.toFinset.card ≤ l.toFinset.card := by
      rw [List.toFinset_card_of_nodup hl]
      exact (List.toFinset_card_le moduli).trans (M.length.trans_le hn)
    have heq := Finset.eq_of_subset_of_card_le hsub hcard
    have hi' : i < moduli.length := by rw [M.length]; exact hi
    have hmem : moduli.getD i 0 ∈ l := by
      rw [← List.mem_toFinset, heq, List.mem_toFinset, List.getD_eq_getElem _ 0 hi']
      exact List.getElem_mem hi'
    exact (hu _ hmem).2
  · push Not at hc
    obtain ⟨y, hy, hym⟩ := hc
    have := M.nearest i hi y (by rw [e i hi]; exact (hu y hy).1) (fun j hj _ hjy => hym (by
      have hj' : j < moduli.length := by rw [M.length]; exact hj
      rw [← hjy, List.getD_eq_getElem _ 0 hj']
      exact List.getElem_mem hj'))
    rw [e i hi] at this
    exact this.trans (hu y hy).2

/-- **C104 (test parameters of `rlwe` by sizes).** `TestPN16QP240` and `TestPN17QP360`, which give sizes instead of moduli, are
accepted; the moduli are distinct primes within 15728640 of `2^60`, and the rings meet the hypotheses of the correctness theorems. -/
theorem C104_rlwe_sizes : ∀ l ∈ [testPn16qp240, testPn17qp360], ∀ fuel, 2 ^ 65 < fuel → ∃ (P : RParams) (rP : Ring),
    newParametersFromLiteral fuel l = some (.ok P) ∧ (P.logN : ℤ) = l.logN ∧ some P.qi.length = l.logQ.map List.length ∧
    some P.pi.length = l.logP.map List.length ∧ P.h = 2 ^ (P.logN - 1) ∧ P.sigma = defaultSigma ∧
    (P.qi ++ P.pi).Nodup ∧ (∀ x ∈ P.qi ++ P.pi, NttPrime (2 ^ (P.logN + 1)) x.toNat ∧ |(x.toNat : ℤ) - (2 ^ 60 + 1)| ≤ 15728640) ∧
    P.ringP = some rP ∧ KeyParams P.logN P.ringQ rP ∧ P.ringQ.moduli = P.qi ∧ rP.moduli = P.pi := by
  have key : ∀ (logN : ℤ) (logQ logP : List ℤ), SizesInRange logN logQ logP → logQ ≠ [] → logP ≠ [] →
      (∀ z ∈ logQ ++ logP, z = ((60 : ℕ) : ℤ)) → (logQ ++ logP).length ≤ 6 → ∀ fuel, 2 ^ 65 < fuel → ∃ (P : RParams) (rP : Ring),
      newParametersFromLiteral fuel (sizeLit logN logQ logP defaultSigma 0 .standard) = some (.ok P) ∧ (P.logN : ℤ) = logN ∧
      P.qi.length = logQ.length ∧
      P.pi.length = logP.length ∧ P.h = 2 ^ (P.logN - 1) ∧ P.sigma = defaultSigma ∧
      (P.qi ++ P.pi).Nodup ∧ (∀ x ∈ P.qi ++ P.pi, NttPrime (2 ^ (P.logN + 1)) x.toNat ∧ |(x.toNat : ℤ) - (2 ^ 60 + 1)| ≤ 15728640) ∧
      P.ringP = some rP ∧ KeyParams P.logN P.ringQ rP ∧ P.ringQ.moduli = P.qi ∧ rP.moduli = P.pi := by
    intro logN logQ logP hs hQ hP0 h60 h6 fuel hf
    have hN : 4 ≤ logN ∧ logN ≤ 17 := ⟨hs.1, hs.2.1⟩
    have hbig : ∀ s ∈ logQ ++ logP, logN + 1 ≤ s := fun s hs' => by rw [h60 s hs']; push_cast; omega
    have hm1 : 1 < 2 ^ (logN + 1).toNat := Nat.one_lt_two_pow (by omega)
    have hmd : 2 ^ (logN + 1).toNat ∣ 2 ^ 18 := Nat.pow_dvd_pow 2 (by omega)
    have hsp := near60_spec hmd hm1
    obtain ⟨g1, g2, g3⟩ := C102_genModuli_partial (fuel := fuel) hs hbig
    have hok : ∃ q p, genModuli fuel logN logQ logP = some (.ok (q, p)) := by
      have := g1 hf
      rcases genModuli_cases (fuel := fuel) hs hbig with ⟨g, -⟩ | ⟨g, h⟩ | ⟨q, p, g, h⟩
      · exact absurd g this
      · obtain ⟨s, hs1, hs2⟩ := g3 g
        have e : s.toNat = 60 := by rw [h60 s hs1]; rfl
        have := hs2 near60 near60_check.1 (fun x hx => by rw [e]; exact (hsp x hx).1)
        have hc := List.count_le_length (a := s) (l := logQ ++ logP)
        have : near60.length = 6 := rfl
        omega
      · exact ⟨q, p, g⟩
    obtain ⟨q, p, hg⟩ := hok
    obtain ⟨e1, e2, M⟩ := g2 q p hg
    have hw := within_of_usable M h60 near60_check.1 (by rw [show near60.length = 6 from rfl]; exact h6) hsp
    have e60 : ∀ i (h : i < (logQ ++ logP).length), ((logQ ++ logP)[i]).toNat = 60 := fun i h => by
      rw [h60 _ (List.getElem_mem h)]; rfl
    have hq : ∀ i (h : i < (logQ ++ logP).length),
        4 * offTwoPow ((logQ ++ logP)[i]).toNat ((q ++ p).getD i 0).toNat < 2 ^ ((logQ ++ logP)[i]).toNat := by
      intro i h
      rw [e60 i h]
      have := hw i h
      omega
    have hx : ∀ x ∈ q ++ p, NttPrime (2 ^ (logN + 1).toNat) x.toNat ∧ offTwoPow 60 x.toNat ≤ 15728640 := by
      intro x hx
      obtain ⟨i, hi, rfl⟩ := List.getElem_of_mem hx
      have hi' : i < (logQ ++ logP).length := by rw [← M.length]; exact hi
      have a1 := hw i hi'
      have a2 := (M.usable i hi').ntt
      rw [List.getD_eq_getElem _ 0 hi] at a1 a2
      exact ⟨a2, a1⟩
    obtain ⟨P, p1, p2, p3⟩ := C104_literal_sizes_partial (sigma := defaultSigma) (h := 0) (ty := .standard) hg hN.1 hQ hbig hq (by
      intro x hx'
      have := (hx x hx').2
      unfold offTwoPow at this
      omega)
    obtain ⟨rP, r1, r2, r3, r4, -⟩ := C102_literal_keyParams_partial p1 hP0 hbig (by rw [p2, p3]; exact hq)
    obtain ⟨-, f1, -, f3, f4, -⟩ := C102_literal p1
    have f1' : logN.toNat = P.logN := by omega
    refine ⟨P, rP, p1, f1, by rw [p2, e1], by rw [p3, e2], ?_, ?_, ?_, ?_, r1, by rw [← f1']; exact r2, r3, r4⟩
    · rw [f3, if_pos rfl, f1']
    · rw [f4, if_neg (by decide +kernel)]
    · rw [p2, p3]
      exact C102_distinct_partial M (fun s hs' => by have := hbig s hs'; omega) hq
    · rw [p2, p3]
      intro x hx'
      obtain ⟨a1, a2⟩ := hx x hx'
      refine ⟨?_, ?_⟩
      · rw [show P.logN + 1 = (logN + 1).toNat by omega]
        exact a1
      · unfold offTwoPow at a2
        rw [Int.abs_eq_natAbs]
        exact_mod_cast a2
  intro l hl fuel hf
  simp only [List.mem_cons, List.not_mem_nil, or_false] at hl
  rcases hl with rfl | rfl
  · obtain ⟨P, rP, a1, a2, a3, a4, a5⟩ := key 16 [60, 60, 60] [60] (by unfold SizesInRange; decide) (by decide) (by decide) (by decide) (by decide) fuel hf
    exact ⟨P, rP, a1, a2, congrArg some a3, congrArg some a4, a5⟩
  · obtain ⟨P, rP, a1, a2, a3, a4, a5⟩ := key 17 [60, 60, 60, 60] [60, 60] (by unfold SizesInRange; decide) (by decide) (by decide) (by decide) (by decide) fuel hf
    exact ⟨P, rP, a1, a2, congrArg some a3, congrArg some a4, a5⟩

end FastKsw.Props
