import Verif.Props.Defaults
import Verif.Props.FSwitchMem

/-!
# C125, continued: rotation keys, the shipped parameter sets, and large `gamma`

The keys of `GenRotKey` have the shape that `SwitchKey` needs, and the shipped parameter sets are within the limits.  With `gamma` above
32, which `NewParametersFromLiteral` does not check either, it is key generation that panics.
-/

namespace FastKsw.Props
open Finset

/-- **C125 (with rotation keys).** `GenRotKey` and then `SwitchKey` at any level, on any words: no panic. -/
theorem C125_rotation_partial {fuel n : ℕ} {p : FParams} {kg : FKeyGenerator} {ksw : FKeySwitcher} (h : p.OK fuel n)
    (hk : newFKeySwitcher fuel p = some ksw) (hg : newFKeyGenerator fuel p = some kg) {sk : PolyQP} {S : ℕ → ℤ}
    (hs : sk.IsMont n p.ringQ p.ringP p.maxLevel (p.alpha - 1) S) {tape : ℕ → KeyTape} {e : ℕ → ℕ → ℤ}
    (ht : TapeOK n p.ringQ p.ringP p.maxLevel (p.alpha - 1) tape e) (rot : ℤ) {pool : Rows} (hp : GenPool p pool) {levelQ : ℕ}
    (hl : levelQ < p.ringQ.subs.length) {a c0 c1 : Rows} (ha : levelQ < a.length)
    (hc0 : levelQ < c0.length) (hr0 : ∀ i ≤ levelQ, (c0.row i).length = p.ringQ.n) (hc1 : levelQ < c1.length)
    (hr1 : ∀ i ≤ levelQ, (c1.row i).length = p.ringQ.n) :
    ∃ pool' key d, kg.genRotKeyMem pool rot sk tape = some (pool', key) ∧ ksw.switchKeyMem levelQ false a key.2.1 key.2.2 c0 c1 = some d ∧
      key = kg.genRotKey rot sk tape ∧ ksw.switchKey levelQ false a key.2.1 key.2.2 c0 c1 = some d := by
  obtain ⟨pool', e1, -⟩ := C124_rotation h hg hs ht rot hp
  obtain ⟨g', -, -, hkey⟩ := C33_rotation (FParams.OK.keyParams h) hs (rot.tmod ((p.ringQ.n / 2 : ℕ) : ℤ)) ht
  obtain ⟨s1, s2⟩ := convertKey_shape h hg hkey
  have e2 : (kg.genRotKey rot sk tape).2 =
      kg.convertKey (genSwitchingKeyForRotationBy p.ringQ p.ringP (rot.tmod ((p.ringQ.n / 2 : ℕ) : ℤ)) sk tape) := by
    unfold FKeyGenerator.genRotKey
    dsimp only
    rw [(kg_ok h hg).params]
  rw [← e2] at s1 s2
  obtain ⟨d, d1, d2⟩ := C125_no_panic_partial h hk hl ha s1 s2 hc0 hr0 hc1 hr1
  exact ⟨pool', _, d, e1, d1, rfl, d2⟩

/-- **C125 (shipped parameters).** Every parameter set of `frlwe` and `fckks` is within the limits: `SwitchKey` with a relinearization key
or a rotation key has no index out of range, at any level, on any words. -/
theorem C125_defaults : ∀ l ∈ [fPN15QP880, fcPN15QP870.fl, fcPN16QP1760.fl], ∃ F fp ksw kg,
    frlweNewParametersFromLiteral (2 ^ 61) l = some (.ok F) ∧ fp.ringQ = F.rl.ringQ ∧ some fp.ringP = F.rl.ringP ∧ fp.ringT = F.ringT ∧
    newFKeySwitcher (2 ^ 61) fp = some ksw ∧ newFKeyGenerator (2 ^ 61) fp = some kg ∧
    ∀ {sk : PolyQP} {S : ℕ → ℤ}, sk.IsMont l.rl.logN.toNat fp.ringQ fp.ringP fp.maxLevel (fp.alpha - 1) S →
    ∀ {tape : ℕ → KeyTape} {e : ℕ → ℕ → ℤ}, TapeOK l.rl.logN.toNat fp.ringQ fp.ringP fp.maxLevel (fp.alpha - 1) tape e →
    ∀ (rot : ℤ) {pool : Rows}, GenPool fp pool → ∀ levelQ < fp.ringQ.subs.length, ∀ {a c0 c1 : Rows}, levelQ < a.length →
    levelQ < c0.length → (∀ i ≤ levelQ, (c0.row i).length = fp.ringQ.n) →
    levelQ < c1.length → (∀ i ≤ levelQ, (c1.row i).length = fp.ringQ.n) →
    (∃ pool' key d, kg.genRelinKeyMem pool sk tape = some (pool', key) ∧ ksw.switchKeyMem levelQ false a key.1 key.2 c0 c1 = some d) ∧
    ∃ pool' key d, kg.genRotKeyMem pool rot sk tape = some (pool', key) ∧ ksw.switchKeyMem levelQ false a key.2.1 key.2.2 c0 c1 = some d := by
  intro l hl
  obtain ⟨F, fp, U⟩ := C104_fast l hl
  obtain ⟨ksw, kg, hk, hg⟩ := U.built _ le_rfl
  have hok := U.ok _ le_rfl
  refine ⟨F, fp, ksw, kg, U.accepted _ le_rfl, U.ringQ, U.ringP, U.ringT, hk, hg, fun hs tape e ht rot pool hp levelQ hlQ a c0 c1 ha h0 r0 h1 r1 => ⟨?_, ?_⟩⟩
  · obtain ⟨pool', key, d, g1, g2, -⟩ := C125_relin_partial hok hk hg hs ht hp hlQ ha h0 r0 h1 r1
    exact ⟨pool', key, d, g1, g2⟩
  · obtain ⟨pool', key, d, g1, g2, -⟩ := C125_rotation_partial hok hk hg hs ht rot hp hlQ ha h0 r0 h1 r1
    exact ⟨pool', key, d, g1, g2⟩

/-- the number of rows copied for the first block -/
theorem fillPool_count {p : FParams} {x : PolyQP} {pool : Rows} {s : ℕ × Rows} (h : p.fillPool x 0 pool = some s) :
    min p.gamma (p.maxLevel + p.alpha + 1) ≤ s.1 := by
  unfold FParams.fillPool at h
  simp only [Nat.zero_mul, Nat.zero_add] at h
  generalize p.gamma = g at h ⊢
  induction g generalizing s with
  | zero => simp
  | succ g ih =>
    rw [List.range_succ, List.foldlM_append] at h
    obtain ⟨s', h1, h2⟩ := Option.bind_eq_some_iff.1 h
    have := ih h1
    rw [List.foldlM_cons] at h2
    obtain ⟨s'', h2, h3⟩ := Option.bind_eq_some_iff.1 h2
    cases h3
    split at h2
    · split at h2
      · cases h2; dsimp only; omega
      · cases h2
    · split at h2
      · split at h2
        · cases h2; dsimp only; omega
        · cases h2
      · cases h2; omega

/-- the first step of a loop that panics -/
theorem foldlM_first {α : Type} {f : α → ℕ → Option α} {n : ℕ} (hn : 0 < n) {a : α} (h : f a 0 = none) : (List.range n).foldlM f a = none := by
  obtain ⟨n, rfl⟩ := Nat.exists_eq_succ_of_ne_zero hn.ne'
  rw [List.range_succ_eq_map, List.foldlM_cons, h]
  rfl

/-- **C125 (key generation).** With `gamma` above 32 and more than 32 primes in `P` and `Q` together, `GenRelinKey` and `GenRotKey` panic. -/
theorem C125_gamma_panic (kg : FKeyGenerator) (hg : 32 < kg.params.gamma) (hc : 32 < kg.params.maxLevel + kg.params.alpha + 1)
    (hb : 0 < kg.params.beta) (h0 : 0 < ceilDivF (kg.params.maxLevel + kg.params.alpha + 1) kg.params.gamma) (pool : Rows) (sk : PolyQP)
    (tape : ℕ → KeyTape) (rot : ℤ) : kg.genRelinKeyMem pool sk tape = none ∧ kg.genRotKeyMem pool rot sk tape = none := by
  have h1 : ∀ x i pool, i = 0 → ∀ out, kg.polyTInto x i pool out = none := by
    rintro x i pool rfl out
    unfold FKeyGenerator.polyTInto
    dsimp only
    cases hf : kg.params.fillPool x 0 pool with
    | none => rfl
    | some s =>
      have := fillPool_count hf
      rw [Option.bind_some]
      split
      · rw [if_neg (by omega)]
      · rfl
  have h2 : ∀ x pool ts, kg.polyQPToPolyTsInto x pool ts = none := by
    intro x pool ts
    unfold FKeyGenerator.polyQPToPolyTsInto
    refine foldlM_first h0 ?_
    split
    · rw [h1 _ _ _ rfl]; rfl
    · rfl
  have h3 : ∀ pool k rlk, kg.convertKeyInto pool k rlk = none := by
    intro pool k rlk
    unfold FKeyGenerator.convertKeyInto
    refine foldlM_first hb ?_
    split
    · rw [h2]; rfl
    · rfl
  constructor
  · exact h3 _ _ _
  · unfold FKeyGenerator.genRotKeyMem
    dsimp only
    rw [h3]
    rfl

theorem newFParams_gamma {fuel logN : ℕ} {q p t : List UInt64} {h : ℕ} {sigma : UInt64} {gamma : ℕ} (g : ℕ) {fp : FParams}
    (hf : newFParams fuel logN q p t h sigma gamma = some fp) : newFParams fuel logN q p t h sigma g = some { fp with gamma := g } := by
  unfold newFParams at hf ⊢
  split at hf
  · cases hf
  split at hf
  · cases hf
  split at hf
  · cases hf
  split at hf
  · cases hf
  rw [← Option.some.inj hf]

/-- **C125 (refutation, `gamma`).** `Q` of 33 primes, `P = 97·193`, `T = 257` and any `gamma` from 33 to 100 are accepted, the key generator is built,
and every call of `GenRelinKey` and of `GenRotKey` panics. -/
theorem C125_gamma_not (fuel : ℕ) (hf : 5000 ≤ fuel) (gamma : ℕ) (hg : 32 < gamma) (hg' : gamma ≤ 100) :
    ∃ p kg, newFParams fuel 4 primes33 [97, 193] [257] 5 0x4009999999999999 gamma = some p ∧ newFKeyGenerator fuel p = some kg ∧
      ∀ pool sk tape rot, kg.genRelinKeyMem pool sk tape = none ∧ kg.genRotKeyMem pool rot sk tape = none := by
  have s1 : SmallPrimes [97, 193] := small_primes [97, 193] (by decide +kernel) (by norm_num)
  have s2 : SmallPrimes [257] := small_primes [257] (by decide +kernel) (by norm_num)
  have s3 : SmallPrimes (primes33 ++ [97, 193]) := fun q hq => (List.mem_append.1 hq).elim (primes33_prime q) (s1 q)
  have l33 : primes33.length = 33 := by decide +kernel
  obtain ⟨fp, hfp⟩ := params_small s3 s2 (by omega) (by simp) (by simp) (by simp) (by decide +kernel) (by decide +kernel) 5 0x4009999999999999 1 hf
  obtain ⟨hok, hQ, hP, -, -, -⟩ := C26_params hfp (fun x hx => lt_of_le_of_lt (primes33_prime x hx).2.2 (by norm_num))
    (fun x hx => lt_of_le_of_lt (s1 x hx).2.2 (by norm_num)) (fun x hx => lt_of_le_of_lt (s2 x hx).2.2 (by norm_num)) (by simp) (by simp)
    (by omega) (by omega)
  have lQ : fp.ringQ.subs.length = 33 := by rw [← l33, ← hQ, Ring.moduli, List.length_map]
  have lP : fp.ringP.subs.length = 2 := by simpa [Ring.moduli] using congrArg List.length hP
  have lR := hok.lenR
  have e1 : ceilDivF fp.ringR.subs.length gamma = (fp.ringR.subs.length + gamma - 1) / gamma := ceilDivF_small (by omega) (by omega) (by omega)
  obtain ⟨gR, r1, -⟩ := blockRings_ok (len := (fp.ringR.subs.length + gamma - 1) / gamma) hok.n_lt hok.sR hok.bR (by omega)
    (fun i hi => (ceil_block (by omega)).1 hi)
  have hN : fp.ringQ.n = 2 ^ 4 := hok.hQ.deg
  have hc := hok.cntR
  have hkg : newFKeyGenerator fuel { fp with gamma := gamma } = some
      ⟨{ fp with gamma := gamma }, (List.range ((fp.ringR.subs.length + gamma - 1) / gamma)).map gR,
        ((List.range ((fp.ringR.subs.length + gamma - 1) / gamma)).map gR).map fun r => newBasisExtender r fp.ringT⟩ := by
    unfold newFKeyGenerator
    change (blockRings fuel fp.ringQ.n fp.ringR.moduli gamma (fp.maxLevel + fp.alpha + 1) (ceilDivF (fp.maxLevel + fp.alpha + 1) gamma)).bind _ = _
    rw [hc, e1, hN, r1]
    rfl
  refine ⟨_, _, newFParams_gamma gamma hfp, hkg, fun pool sk tape rot => C125_gamma_panic _ hg ?_ ?_ ?_ pool sk tape rot⟩
  · show 32 < fp.maxLevel + fp.alpha + 1
    omega
  · show 0 < fp.beta
    unfold FParams.beta FParams.alpha
    rw [lP, lQ, if_pos (by omega), ceilDivF_small (by omega) (by omega) (by omega)]
    omega
  · show 0 < ceilDivF (fp.maxLevel + fp.alpha + 1) gamma
    rw [hc, e1]
    exact (ceil_block (by omega)).2 (by omega)

end FastKsw.Props
