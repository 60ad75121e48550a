import Verif.Model.SwitchParams
import Verif.Lemmas.ModDown

/-!
# C118: the rescaling constants of switching keys are the inverse of the special modulus
-/

namespace FastKsw

theorem bigProd_eq (P : List UInt64) : bigProd P = (P.map UInt64.toNat).prod := by
  have h : ∀ (l : List UInt64) (a : ℕ), l.foldl (fun acc pj => acc * pj.toNat) a = a * (l.map UInt64.toNat).prod := by
    intro l
    induction l with
    | nil => intro a; simp
    | cons p l ih => intro a; simp [ih, mul_assoc]
  rw [bigProd, h, one_mul]

theorem switchkeysRescalingParam_spec {q : UInt64} (hq : q.toNat.Prime) (hlt : q.toNat < 2 ^ 63) {B : ℕ}
    (hB : ¬ q.toNat ∣ B) :
    (switchkeysRescalingParam B q).toNat < q.toNat ∧
      ((switchkeysRescalingParam B q).toNat : ZMod q.toNat) * B = 2 ^ 64 := by
  have := Fact.mk hq
  have h2 := hq.two_le
  have hm := mform_zmod hq.one_lt hlt.le (modExp (UInt64.ofNat (B % q.toNat)) (q - 2) q)
  refine ⟨hm.1, ?_⟩
  have hr : (UInt64.ofNat (B % q.toNat)).toNat = B % q.toNat := by
    rw [UInt64.toNat_ofNat']
    exact Nat.mod_eq_of_lt ((Nat.mod_lt _ hq.pos).trans (UInt64.toNat_lt q))
  have hb : (B : ZMod q.toNat) ≠ 0 := by rwa [Ne, ZMod.natCast_eq_zero_iff]
  have hi : ((modExp (UInt64.ofNat (B % q.toNat)) (q - 2) q).toNat : ZMod q.toNat) * B = 1 := by
    rw [modExp_toNat hq.one_lt hlt.le, ZMod.natCast_mod, Nat.cast_pow, hr, ZMod.natCast_mod, ← pow_succ,
      UInt64.toNat_sub_of_le q 2 (UInt64.le_iff_toNat_le.2 h2)]
    show (B : ZMod q.toNat) ^ (q.toNat - 2 + 1) = 1
    rw [show q.toNat - 2 + 1 = q.toNat - 1 by omega]
    exact ZMod.pow_card_sub_one_eq_one hb
  show ((mform (modExp (UInt64.ofNat (B % q.toNat)) (q - 2) q) q (bredParams q)).toNat : ZMod q.toNat) * B = _
  rw [hm.2, mul_right_comm, hi, one_mul]

theorem prime_not_dvd_prod {q : ℕ} (hq : q.Prime) {P : List UInt64} (hP : ∀ p ∈ P, p.toNat.Prime ∧ p.toNat ≠ q) :
    ¬ q ∣ (P.map UInt64.toNat).prod := by
  intro h
  obtain ⟨a, ha, hd⟩ := (hq.prime.dvd_prod_iff).1 h
  obtain ⟨p, hp, rfl⟩ := List.mem_map.1 ha
  obtain ⟨h1, h2⟩ := hP p hp
  rcases (Nat.dvd_prime h1).1 hd with h | h
  · exact hq.one_lt.ne' h
  · exact h2 h.symm

theorem prodQ_eq_list (r : Ring) (h : 0 < r.subs.length) :
    r.prodQ (r.subs.length - 1) = ((r.subs.map (·.q)).map UInt64.toNat).prod := by
  rw [Ring.prodQ, show r.subs.length - 1 + 1 = r.subs.length by omega, List.map_map]
  have : ∀ l : List SubRing, ∏ i ∈ Finset.range l.length, (l.getD i default).q.toNat =
      (l.map (UInt64.toNat ∘ (·.q))).prod := by
    intro l
    induction l with
    | nil => rfl
    | cons s l ih =>
      rw [List.length_cons, Finset.prod_range_succ', List.map_cons, List.prod_cons, ← ih, mul_comm]
      rfl
  exact this r.subs

/-- **C118 (constants).** For every list of primes `Q` below `2^63` and every list `P` of primes outside `Q` (in any number, in
any order, possibly empty or repeated), `GenSwitchkeysRescalingParams` returns one word per modulus of `Q`; the word of `q` is
below `q`, and it is the only word below `q` whose product with `∏P` is `2^64` modulo `q`. -/
theorem C118_rescalingParams (Q P : List UInt64) (hQ : ∀ q ∈ Q, q.toNat.Prime ∧ q.toNat < 2 ^ 63)
    (hP : ∀ p ∈ P, p.toNat.Prime ∧ p ∉ Q) :
    (genSwitchkeysRescalingParams Q P).length = Q.length ∧
    ∀ i (hi : i < Q.length), ∃ c : UInt64, (genSwitchkeysRescalingParams Q P)[i]? = some c ∧ c.toNat < Q[i].toNat ∧
      c.toNat * (P.map UInt64.toNat).prod ≡ 2 ^ 64 [MOD Q[i].toNat] ∧
      ∀ c' < Q[i].toNat, c' * (P.map UInt64.toNat).prod ≡ 2 ^ 64 [MOD Q[i].toNat] → c' = c.toNat := by
  refine ⟨by simp [genSwitchkeysRescalingParams], fun i hi => ?_⟩
  have hm : Q[i] ∈ Q := List.getElem_mem hi
  obtain ⟨hq, hlt⟩ := hQ _ hm
  have hnd := prime_not_dvd_prod hq (P := P) (fun p hp => ⟨(hP p hp).1, fun h => (hP p hp).2 (by
    rw [UInt64.toNat_inj.1 h]; exact hm)⟩)
  have hs := switchkeysRescalingParam_spec hq hlt hnd
  have h3 : (switchkeysRescalingParam (P.map UInt64.toNat).prod Q[i]).toNat * (P.map UInt64.toNat).prod ≡ 2 ^ 64
      [MOD Q[i].toNat] := by
    rw [← ZMod.natCast_eq_natCast_iff, Nat.cast_mul, hs.2, Nat.cast_pow, Nat.cast_ofNat]
  refine ⟨switchkeysRescalingParam (P.map UInt64.toNat).prod Q[i], ?_, hs.1, h3, fun c' hc' h' => ?_⟩
  · simp [genSwitchkeysRescalingParams, bigProd_eq, hi]
  · have hc : Nat.gcd Q[i].toNat (P.map UInt64.toNat).prod = 1 := (Nat.Prime.coprime_iff_not_dvd hq).2 hnd
    have := Nat.ModEq.cancel_right_of_coprime hc (h'.trans h3.symm)
    rwa [Nat.ModEq, Nat.mod_eq_of_lt hc', Nat.mod_eq_of_lt hs.1] at this

/-- **C118 (use).** Multiplying by the constant with `MRed` divides by `∏P`: for every integer `a`, every word `x` congruent to
`a·∏P` modulo `q` is sent to the residue of `a`. -/
theorem C118_divides (Q P : List UInt64) (hQ : ∀ q ∈ Q, q.toNat.Prime ∧ q.toNat < 2 ^ 63 ∧ q.toNat ≠ 2)
    (hP : ∀ p ∈ P, p.toNat.Prime ∧ p ∉ Q) (i : ℕ) (hi : i < Q.length) (a : ℕ) (x : UInt64)
    (hx : x.toNat ≡ a * (P.map UInt64.toNat).prod [MOD Q[i].toNat]) :
    ∃ c : UInt64, (genSwitchkeysRescalingParams Q P)[i]? = some c ∧
      (mred x c Q[i] (mredParams Q[i])).toNat = a % Q[i].toNat := by
  obtain ⟨c, hc, hlt, hcp, -⟩ := (C118_rescalingParams Q P (fun q h => ⟨(hQ q h).1, (hQ q h).2.1⟩) hP).2 i hi
  obtain ⟨hq, hq63, hq2⟩ := hQ _ (List.getElem_mem hi)
  have hodd : Q[i].toNat % 2 = 1 := hq.eq_two_or_odd.resolve_left hq2
  have hm := mred_spec (mredParams_spec Q[i] hodd) hq63.le x c (by
    calc x.toNat * c.toNat ≤ 2 ^ 64 * c.toNat := Nat.mul_le_mul_right _ (UInt64.toNat_lt x).le
      _ < Q[i].toNat * 2 ^ 64 := by omega)
  refine ⟨c, hc, ?_⟩
  have h1 : (mred x c Q[i] (mredParams Q[i])).toNat * 2 ^ 64 ≡ a * 2 ^ 64 [MOD Q[i].toNat] := by
    refine hm.2.trans ((hx.mul_right _).trans ?_)
    rw [mul_assoc, mul_comm (List.prod _)]
    exact hcp.mul_left a
  have hcop : Nat.gcd Q[i].toNat (2 ^ 64) = 1 := by
    apply Nat.Coprime.pow_right
    exact (Nat.coprime_primes hq Nat.prime_two).2 hq2
  have := Nat.ModEq.cancel_right_of_coprime hcop h1
  rwa [Nat.ModEq, Nat.mod_eq_of_lt hm.1] at this

/-- **C118 (agreement).** The constants are the ones the extender of the basis precomputes for the division by all special
primes (`genModDownParams`, last row): the two code paths agree, word for word. -/
theorem C118_modDown {n : ℕ} {rQ rP : Ring} (hQ : rQ.Valid n) (hP : rP.Valid n) (hd : rQ.Disjoint rP)
    (hl : 0 < rP.subs.length) (i : ℕ) (hi : i < rQ.subs.length) :
    (genSwitchkeysRescalingParams (rQ.subs.map (·.q)) (rP.subs.map (·.q)))[i]? =
      some (((genModDownParams rQ rP).row (rP.subs.length - 1)).at i) := by
  have V := hQ.subAt hi
  have hpd := prodQ_eq_list rP hl
  have hnd : ¬ (rQ.sub i).q.toNat ∣ ((rP.subs.map (·.q)).map UInt64.toNat).prod := by
    refine prime_not_dvd_prod V.prime (fun p hp => ?_)
    obtain ⟨s, hs, rfl⟩ := List.mem_map.1 hp
    obtain ⟨j, hj, rfl⟩ := List.getElem_of_mem hs
    have e : rP.sub j = rP.subs[j] := by simp [Ring.sub, List.getD, hj]
    rw [← e]
    exact ⟨(hP.subAt hj).prime, fun h => hd i hi j hj (UInt64.toNat_inj.1 h.symm)⟩
  have h1 := switchkeysRescalingParam_spec V.prime V.lt hnd
  have h2 := modDownParam_spec hQ hP hd hi (show rP.subs.length - 1 < rP.subs.length by omega)
  rw [row_at_genModDown hi (by omega)]
  have e : rQ.sub i = rQ.subs[i] := by simp [Ring.sub, List.getD, hi]
  have e1 : (genSwitchkeysRescalingParams (rQ.subs.map (·.q)) (rP.subs.map (·.q)))[i]? =
      some (switchkeysRescalingParam ((rP.subs.map (·.q)).map UInt64.toNat).prod (rQ.sub i).q) := by
    rw [e]
    simp [genSwitchkeysRescalingParams, bigProd_eq, hi]
  rw [e1, Option.some_inj, ← UInt64.toNat_inj]
  rw [hpd] at h2
  have hcop : Nat.gcd (rQ.sub i).q.toNat ((rP.subs.map (·.q)).map UInt64.toNat).prod = 1 :=
    (Nat.Prime.coprime_iff_not_dvd V.prime).2 hnd
  have hmod : (switchkeysRescalingParam ((rP.subs.map (·.q)).map UInt64.toNat).prod (rQ.sub i).q).toNat *
      ((rP.subs.map (·.q)).map UInt64.toNat).prod ≡ (modDownParam rQ rP i (rP.subs.length - 1)).toNat *
      ((rP.subs.map (·.q)).map UInt64.toNat).prod [MOD (rQ.sub i).q.toNat] := by
    rw [← ZMod.natCast_eq_natCast_iff, Nat.cast_mul, Nat.cast_mul, h1.2, h2.2]
  have := Nat.ModEq.cancel_right_of_coprime hcop hmod
  rwa [Nat.ModEq, Nat.mod_eq_of_lt h1.1, Nat.mod_eq_of_lt h2.1] at this

/-- the hypotheses of C118 are met by the moduli 97, 193 and the special primes 257, 769; the constants are
`2^64 · (257·769)⁻¹` modulo 97 and 193 -/
example : (∀ q ∈ ([97, 193] : List UInt64), q.toNat.Prime ∧ q.toNat < 2 ^ 63 ∧ q.toNat ≠ 2) ∧
    (∀ p ∈ ([257, 769] : List UInt64), p.toNat.Prime ∧ p ∉ ([97, 193] : List UInt64)) ∧
    (∀ x ∈ (List.zip [97, 193] (genSwitchkeysRescalingParams [97, 193] [257, 769])),
      x.2.toNat * (257 * 769) % x.1 = 2 ^ 64 % x.1) := by
  refine ⟨?_, ?_, by decide +kernel⟩
  · intro q hq
    fin_cases hq <;> exact ⟨by decide +kernel, by decide, by decide⟩
  · intro p hp
    fin_cases hp <;> exact ⟨by decide +kernel, by decide⟩

end FastKsw
