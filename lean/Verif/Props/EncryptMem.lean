import Verif.Model.EncryptMem
import Verif.Props.Encrypt
import Verif.Props.GenModuli
import Verif.Props.SwitchMem

/-!
# C127: public-key encryption does not panic, whatever the number of primes in `P`

`Encrypt` divides by the first prime of `P` only, so the limit of 32 primes of C126 does not concern it.
-/

namespace FastKsw.Props

theorem EltIs.inRange {n : ℕ} {r : Ring} {level N : ℕ} {A : ℕ → ℕ} {isNTT : Bool} {p : Rows} {x : ∀ u, Rq (2 ^ n) (r.qs u)}
    (h : EltIs n r level A isNTT p x) (hN : N = 2 ^ n) : rowsInRange level N p = true :=
  rowsInRange_iff.2 ⟨h.lvl, fun i hi => by rw [h.len i hi, hN]⟩

theorem extend_row0 {rQ rP : Ring} {x y out : Rows} (h : x.row 0 = y.row 0) : extendBasisSmallNorm rQ rP 0 x out = extendBasisSmallNorm rQ rP 0 y out := by
  unfold extendBasisSmallNorm
  rw [h]

theorem gauss_row0 (r : Ring) (level : ℕ) (g : List (UInt64 × Bool)) {x : Rows} (hx : level < x.length) :
    (gaussWrite r level g x).row 0 = g.map (gaussWord (r.sub 0).q) := by
  unfold gaussWrite
  rw [row_writeLvl (Nat.zero_le _) hx]

theorem extend_twice {rQ rP : Ring} (x y out : Rows) :
    extendBasisSmallNorm rQ rP 0 x (extendBasisSmallNorm rQ rP 0 y out) = extendBasisSmallNorm rQ rP 0 x out := by
  unfold extendBasisSmallNorm writeLvl
  rw [List.mapIdx_mapIdx]
  congr 1
  funext i r
  by_cases h : i ≤ 0 <;> simp [h]

/-- the rows that `pkEncryptMem` checks are those that `encrypt` divides -/
theorem C127_special {rQ rP : Ring} {pk : PolyQP × PolyQP} {u : Rows} {g0 g1 : List (UInt64 × Bool)} {pt c0 c1 : Poly} {lQ : ℕ}
    (hlQ : lQ = min pt.level c0.level) (hl : lQ < rQ.subs.length) (hu : lQ < u.length) :
    pkEncrypt rQ rP pk u g0 g1 pt c0 c1 =
      let e := fun (g : List (UInt64 × Bool)) => gaussWrite rQ lQ g (newPoly rQ.n rQ.subs.length)
      let be := newBasisExtender rQ rP
      let uQ := rQ.nttLvl lQ u u
      let uQ := rQ.mformLvl lQ uQ uQ
      let e0 := gaussWrite rQ lQ g0 uQ
      let e1 := gaussWrite rQ lQ g1 e0
      let part := fun (k c e : Rows) =>
        let q := rQ.mulCoeffsMontgomeryLvl lQ uQ k c
        let q := rQ.invNttLvl lQ q q
        rQ.addLvl lQ q e q
      let q0 := part pk.1.q c0.coeffs e0
      let q1 := part pk.2.q c1.coeffs e1
      let q0 := be.modDownQPtoQ lQ 0 q0 (pkSpecialRows rQ rP u pk.1.p (e g0)) q0
      let q1 := be.modDownQPtoQ lQ 0 q1 (pkSpecialRows rQ rP u pk.2.p (e g1)) q1
      let v : Rows × Rows := if c0.isNTT then
          let q0 := if !pt.isNTT then rQ.addLvl lQ q0 pt.coeffs q0 else q0
          let q0 := rQ.nttLvl lQ q0 q0
          let q1 := rQ.nttLvl lQ q1 q1
          let q0 := if pt.isNTT then rQ.addLvl lQ q0 pt.coeffs q0 else q0
          (q0, q1)
        else if !pt.isNTT then (rQ.addLvl lQ q0 pt.coeffs q0, q1)
        else (rQ.addLvl lQ q0 (rQ.invNttLvl lQ pt.coeffs e1) q0, q1)
      (Poly.trunc ⟨v.1, c0.isNTT⟩ lQ, Poly.trunc ⟨v.2, c0.isNTT⟩ lQ) := by
  have hn : lQ < (newPoly rQ.n rQ.subs.length).length := by rw [length_newPoly]; exact hl
  unfold pkEncrypt pkSpecialRows
  dsimp only
  rw [← hlQ]
  set uQ := rQ.mformLvl lQ (rQ.nttLvl lQ u u) (rQ.nttLvl lQ u u) with huQ
  have hlen : lQ < uQ.length := by
    rw [huQ]
    unfold Ring.mformLvl Ring.nttLvl
    simp only [length_writeLvl]
    exact hu
  have h0 : ∀ out, extendBasisSmallNorm rQ rP 0 (gaussWrite rQ lQ g0 (newPoly rQ.n rQ.subs.length)) out =
      extendBasisSmallNorm rQ rP 0 (gaussWrite rQ lQ g0 uQ) out := fun out => extend_row0 (by rw [gauss_row0 _ _ _ hn, gauss_row0 _ _ _ hlen])
  have h1 : ∀ out, extendBasisSmallNorm rQ rP 0 (gaussWrite rQ lQ g1 (newPoly rQ.n rQ.subs.length)) out =
      extendBasisSmallNorm rQ rP 0 (gaussWrite rQ lQ g1 (gaussWrite rQ lQ g0 uQ)) out := fun out => extend_row0 (by
        rw [gauss_row0 _ _ _ hn, gauss_row0 _ _ _ (by unfold gaussWrite; rw [length_writeLvl]; exact hlen)])
  rw [h0, h1, extend_twice]

section
variable {n : ℕ} {rQ rP : Ring} (K : KeyParams n rQ rP)
include K

/-- **C127.** `Encrypt` under a public key, at any level, of a plaintext in either representation, into a ciphertext in either representation: if the
receiver has a second component there is no panic and the result is that of C32; without one there is a panic.  The number of primes in `P` does not
matter. -/
theorem C127_encrypt {pk : PolyQP × PolyQP} {S E : ℕ → ℤ} {t : EncTape} {pt : Poly} {value : List Poly} {lQ : ℕ}
    (hlQ : lQ = min pt.level (value.getD 0 default).level) (hl : lQ < rQ.subs.length)
    (hpk : IsPublicKey n rQ rP lQ 0 pk S E) (hu : rowsInRange lQ rQ.n t.u = true) (hpt : rowsInRange lQ rQ.n pt.coeffs = true)
    (hv : ∀ c ∈ value, rowsInRange lQ rQ.n c.coeffs = true) :
    pkEncryptMem rQ rP pk t pt value = if 1 < value.length then
      some (pkEncrypt rQ rP pk t.u t.g0 t.g1 pt (value.getD 0 default)
        ⟨writeLvl lQ t.mask.row (value.getD 1 default).coeffs, (value.getD 1 default).isNTT⟩) else none := by
  have h0 : 0 < rP.subs.length := by have := K.rings.lP; omega
  have h1q := K.q100
  have h1p := K.p100
  obtain ⟨B, A, b1, b2, b3, b4, -⟩ := hpk.ex
  have hN : rQ.n = 2 ^ n := K.rings.hQ.deg
  have hdiv := div_inRange (K.at hl h0) (by omega) (by omega) (by omega)
  have hval : ∀ i < value.length, rowsInRange lQ rQ.n (value.getD i default).coeffs = true := fun i hi => by
    rw [List.getD_eq_getElem _ _ hi]
    exact hv _ (List.getElem_mem hi)
  unfold pkEncryptMem
  dsimp only
  rw [← hlQ]
  split
  · rename_i h
    rw [if_pos h.1]
  · rename_i h
    rw [if_neg]
    intro h2
    exact h ⟨h2, hl, h0, hval 1 h2, hu, EltIs.inRange b1 hN, EltIs.inRange b2 hN, EltIs.inRange b3 hN, EltIs.inRange b4 hN, hval 0 (by omega), hpt,
      hdiv _, hdiv _⟩

/-- **C127 (with a generated key).** `GenPublicKey`, then `Encrypt` as in `EncryptNew`, into two components of the level of the plaintext: there is no
panic, although with more than 32 primes in `P` every `SwitchKeysInPlace` with a generated relinearization key panics. -/
theorem C127_keys {sk : PolyQP} {S : ℕ → ℤ} (hs : sk.IsMont n rQ rP (rQ.subs.length - 1) (rP.subs.length - 1) S) {e : Rows} {E : ℕ → ℤ}
    (he : Sampled rQ (rQ.subs.length - 1) e E) (hE : ∀ k < 2 ^ n, ∀ u < rP.subs.length, |E k| ≤ rP.qs u)
    {a : PolyQP} {v : ∀ u, ℕ → ZMod (rQ.sub u).q.toNat} {w : ∀ u, ℕ → ZMod (rP.sub u).q.toNat}
    (hq : PolyIs rQ (rQ.subs.length - 1) rQ.qs a.q v) (hp : PolyIs rP (rP.subs.length - 1) rP.qs a.p w)
    {t : EncTape} {pt : Poly} (hpt : rowsInRange pt.level rQ.n pt.coeffs = true) (hl : pt.level < rQ.subs.length)
    (hu : rowsInRange pt.level rQ.n t.u = true) (isNTT : Bool) :
    (∃ c, pkEncryptMem rQ rP (genPublicKey rQ rP sk e a) t pt (List.replicate 2 ⟨newPoly rQ.n (pt.level + 1), isNTT⟩) = some c) ∧
    (32 < rP.subs.length → ∀ {maxDegree i : ℕ}, i < maxDegree → ∀ {tape : ℕ → ℕ → KeyTape} {E : ℕ → ℕ → ℤ},
      TapeOK n rQ rP (rQ.subs.length - 1) (rP.subs.length - 1) (tape i) E → ∀ {cx p0 p1 : Rows}, rowsInRange pt.level rQ.n cx = true →
      rowsInRange pt.level rQ.n p0 = true → rowsInRange pt.level rQ.n p1 = true →
      (newKeySwitcher rQ rP).switchKeysMem pt.level isNTT cx ((genRelinearizationKey rQ rP sk maxDegree tape).getD i []) p0 p1 = none) := by
  have h0 : 0 < rP.subs.length := by have := K.rings.lP; omega
  have hlev : pt.level = min pt.level ((List.replicate 2 (⟨newPoly rQ.n (pt.level + 1), isNTT⟩ : Poly)).getD 0 default).level := by
    show _ = min pt.level (Poly.level ⟨newPoly rQ.n (pt.level + 1), isNTT⟩)
    show _ = min pt.level ((newPoly rQ.n (pt.level + 1)).length - 1)
    rw [length_newPoly]
    omega
  have hval : ∀ c ∈ List.replicate 2 (⟨newPoly rQ.n (pt.level + 1), isNTT⟩ : Poly), rowsInRange pt.level rQ.n c.coeffs = true := by
    intro c hc
    rw [List.eq_of_mem_replicate hc]
    exact rowsInRange_iff.2 ⟨by rw [length_newPoly]; omega, fun i hi => by rw [row_newPoly (by omega), List.length_replicate]⟩
  refine ⟨⟨_, (C127_encrypt K hlev hl (C32_publicKey K hs he hE hq hp hl h0) hu hpt hval).trans (if_pos (by simp))⟩, ?_⟩
  intro h32 maxDegree i hi tape E ht cx p0 p1 hc hp0 hp1
  rw [C126_keys K hs hi ht 0 (Or.inl rfl) hl isNTT hc hp0 hp1, if_neg (by omega)]

end

/-- **C127 (more than 32 primes).** The hypotheses of C127 are met with more than 32 primes in `P`: `NewParameters` accepts `Q = 97·193·257` with 33. -/
theorem C127_33 (fuel : ℕ) (hf : 5000 ≤ fuel) : ∃ P rP, newParameters fuel 4 [97, 193, 257] primes33 5 0x4009999999999999 .standard = .ok P ∧
    P.ringP = some rP ∧ KeyParams 4 P.ringQ rP ∧ P.ringQ.subs.length = 3 ∧ rP.subs.length = 33 := by
  have s1 : SmallPrimes [97, 193, 257] := small_primes [97, 193, 257] (by decide +kernel) (by norm_num)
  have l33 : primes33.length = 33 := by decide +kernel
  have d1 : ([97, 193, 257] : List UInt64).Nodup := by decide +kernel
  have d2 : primes33.Nodup := by decide +kernel
  have d3 : (([97, 193, 257] : List UInt64).all fun x => !primes33.contains x) = true := by decide +kernel
  have lq : ([97, 193, 257] : List UInt64).length = 3 := rfl
  generalize ([97, 193, 257] : List UInt64) = q at s1 d1 d3 lq ⊢
  have s2 := primes33_prime
  generalize primes33 = p at s2 l33 d2 d3 ⊢
  have hd : ∀ x ∈ q, x ∉ p := fun x hx => by simpa using List.all_eq_true.1 d3 x hx
  have hs : SmallPrimes (q ++ p) := fun x hx => (List.mem_append.1 hx).elim (s1 x) (s2 x)
  obtain ⟨P, hP⟩ := (C103_newParameters 4 .standard q p 5 0x4009999999999999).1
    ⟨by omega, by omega, by omega, fun x hx => lt_of_le_of_lt (s1 x hx).2.2 (by norm_num), fun x hx => lt_of_le_of_lt (s2 x hx).2.2 (by norm_num),
      ⟨d1, d2⟩, fun x hx => (hs x hx).1, fun x hx => by have := (hs x hx).2.1; rwa [show rootOrder (2 ^ 4) .standard = 32 by rfl]⟩
  have hP' := hP fuel fun x hx => le_trans (hs x hx).2.2 hf
  have hne : p ≠ [] := fun h => by
    rw [h] at l33
    cases l33
  have hsm : ∀ x ∈ q ++ p, x.toNat < 2 ^ 61 := fun x hx => lt_of_le_of_lt (hs x hx).2.2 (by norm_num)
  obtain ⟨rP, e1, K, e2, e3⟩ := C102_keyParams hP' hne hsm hd
  have lQ : P.ringQ.subs.length = 3 := by rw [← lq, ← e2, Ring.moduli, List.length_map]
  have lP : rP.subs.length = 33 := by rw [← l33, ← e3, Ring.moduli, List.length_map]
  exact ⟨P, rP, hP', e1, K, lQ, lP⟩

/-- the parameters of `exampleKeys`: a key generated with the mask `5 X` encrypts a plaintext of the largest words at level 1 without a panic, and into a
ciphertext of degree 0 it panics -/
example : ∃ (rQ rP : Ring) (pk : PolyQP × PolyQP) (c : Poly × Poly), rQ.moduli = [97, 193, 641] ∧ rP.moduli = [257, 353] ∧
    pkEncryptMem rQ rP pk ⟨newPoly 16 2, newPoly 16 3, List.replicate 16 (2, true), List.replicate 16 (1, false)⟩
      ⟨List.replicate 2 (List.replicate 16 (0 - 1)), false⟩ (List.replicate 2 ⟨newPoly 16 2, true⟩) = some c ∧
    pkEncryptMem rQ rP pk ⟨newPoly 16 2, newPoly 16 3, List.replicate 16 (2, true), List.replicate 16 (1, false)⟩
      ⟨List.replicate 2 (List.replicate 16 (0 - 1)), false⟩ [⟨newPoly 16 2, true⟩] = none := by
  obtain ⟨p, ksw, kg, s, tape, h1, h, hF, ha, lQ, hk, hg, hQ, hP, hsam, hsk, ht⟩ := exampleKeys
  have K := FParams.OK.keyParams h
  have hn : p.ringQ.n = 16 := h.hQ.deg
  have ha' : p.ringP.subs.length = 2 := ha
  have p0 := sub_of_moduli hP 0 257 rfl
  have p1 := sub_of_moduli hP 1 353 rfl
  obtain ⟨aq, haq⟩ := exists_poly h.hQ (show p.ringQ.subs.length - 1 < p.ringQ.subs.length by omega) (fun k => 5 * k)
  obtain ⟨ap, hap⟩ := exists_poly h.hP (show p.ringP.subs.length - 1 < p.ringP.subs.length by omega) (fun k => 5 * k)
  have hE : ∀ k < 2 ^ 4, ∀ u < p.ringP.subs.length, |exampleS k| ≤ p.ringP.qs u := by
    intro k _ u hu
    have hb : |exampleS k| ≤ 1 := by
      simp only [exampleS]
      split
      · norm_num
      · split <;> norm_num
    have : 1 < p.ringP.qs u := by
      rcases (by omega : u = 0 ∨ u = 1) with rfl | rfl
      · show 1 < (p.ringP.sub 0).q.toNat
        rw [p0]; decide
      · show 1 < (p.ringP.sub 1).q.toNat
        rw [p1]; decide
    omega
  have pkOK := C32_publicKey K hsk hsam hE (a := ⟨aq, ap⟩) haq hap (lQ := 1) (lP := 0) (by omega) (by omega)
  have hnew : ∀ m, 1 < m → rowsInRange 1 p.ringQ.n (newPoly 16 m) = true := fun m hm => rowsInRange_iff.2
    ⟨by rw [length_newPoly]; omega, fun i hi => by rw [row_newPoly (by omega), List.length_replicate, hn]⟩
  have hpt : rowsInRange 1 p.ringQ.n (List.replicate 2 (List.replicate 16 (0 - 1))) = true := rowsInRange_iff.2 ⟨by simp, fun i hi => by
    rw [Rows.row, List.getD_eq_getElem _ _ (by simp; omega), List.getElem_replicate, List.length_replicate, hn]⟩
  refine ⟨p.ringQ, p.ringP, _, _, hQ, hP, (C127_encrypt K (lQ := 1) ?_ (by omega) pkOK (hnew 3 (by omega)) hpt fun c hc => ?_).trans (if_pos ?_),
    (C127_encrypt K (lQ := 1) ?_ (by omega) pkOK (hnew 3 (by omega)) hpt fun c hc => ?_).trans (if_neg ?_)⟩
  · rfl
  · rw [List.eq_of_mem_replicate hc]
    exact hnew 2 (by omega)
  · simp
  · rfl
  · rw [List.mem_singleton.1 hc]
    exact hnew 2 (by omega)
  · simp

end FastKsw.Props
