import Verif.Props.EndToEnd

/-!
# C81 for parameters without special primes: the encryption of zero is sampled directly modulo `Q`
-/

namespace FastKsw.Props

open FastKsw Finset

/-- A public key modulo the primes of `Q` only: `b + a s = e` -/
def IsPublicKeyQ (n : ℕ) (r : Ring) (level : ℕ) (pk : Rows × Rows) (S E : ℕ → ℤ) : Prop :=
  ∃ b a : ∀ u, Rq (2 ^ n) (r.qs u), EltIs n r level r.qs true pk.1 b ∧ EltIs n r level r.qs true pk.2 a ∧
    ∀ u ≤ level, b u + a u * intR (2 ^ n) (r.qs u) S = intR (2 ^ n) (r.qs u) E

theorem _root_.FastKsw.IsPublicKey.q {n : ℕ} {rQ rP : Ring} {lQ lP : ℕ} {pk : PolyQP × PolyQP} {S E : ℕ → ℤ}
    (h : IsPublicKey n rQ rP lQ lP pk S E) : IsPublicKeyQ n rQ lQ (pk.1.q, pk.2.q) S E := by
  obtain ⟨B, A, h1, h2, -, -, h5, -⟩ := h.ex
  exact ⟨_, _, h1, h2, h5⟩

/-- the noise of the encryption of zero modulo `Q` -/
def noPNoise (N : ℕ) (U E G0 G1 S : ℕ → ℤ) (k : ℕ) : ℤ := negConv N U E k + G0 k + negConv N G1 S k

theorem noPNoise_le {N bound : ℕ} {U E G0 G1 S : ℕ → ℤ} (hU : ∀ k < N, |U k| ≤ 1) (hS : ∀ k < N, |S k| ≤ 1)
    (hE : ∀ k < N, |E k| ≤ bound) (h0 : ∀ k < N, |G0 k| ≤ bound) (h1 : ∀ k < N, |G1 k| ≤ bound) {k : ℕ} (hk : k < N) :
    |noPNoise N U E G0 G1 S k| ≤ (2 * N + 1) * bound := by
  have c1 := abs_negConv_le hU hE hk
  have c2 := abs_negConv_le h1 hS hk
  have d0 := h0 k hk
  unfold noPNoise
  rw [abs_le] at c1 c2 d0 ⊢
  constructor <;> linarith [c1.1, c1.2, c2.1, c2.2, d0.1, d0.2]

section
variable {logSlots d : ℕ} {r rP : Ring} (hr : r.Valid (logSlots + 1 + d)) (sr : r.Small) (hP : rP.subs = [])
include hr sr hP

/-- `Encrypt` of `ckks` without special primes, into a ciphertext of degree 1 at any level. -/
theorem ckksEncrypt_noP {S E : ℕ → ℤ} {pk : PolyQP × PolyQP} {bound level : ℕ}
    (hpk : IsPublicKeyQ (logSlots + 1 + d) r level (pk.1.q, pk.2.q) S E)
    (hS : ∀ k, |S k| ≤ 1) (hE : ∀ k < 2 ^ (logSlots + 1 + d), |E k| ≤ bound)
    (hb : ∀ u < r.subs.length, bound ≤ r.qs u)
    {t : EncTape} {U G0 G1 : ℕ → ℤ} (ht : TapeIs (logSlots + 1 + d) r bound t U G0 G1)
    {pt : Pt} {z : ℕ → ℤ} {lp lc : ℕ} (hp : PoolOK r.n lp pt) (hlp : lp < r.subs.length) (hlev' : min lp lc ≤ level)
    (hz : Holds r (logSlots + 1 + d) lp pt.value.coeffs z) {ct : Ct} (hc : CtShape 1 lc ct) :
    ∃ ct', ckksEncrypt r rP pk t pt ct = some ct' ∧ ct'.scale = pt.scale ∧
      (∀ k < 2 ^ (logSlots + 1 + d), |noPNoise (2 ^ (logSlots + 1 + d)) U E G0 G1 S k| ≤ (2 * 2 ^ (logSlots + 1 + d) + 1) * bound) ∧
      CtEnc (logSlots + 1 + d) r (min lp lc) r.qs 1 ct' (fun u => intR _ _ S)
        (fun u => intR _ _ fun k => z k + noPNoise (2 ^ (logSlots + 1 + d)) U E G0 G1 S k) := by
  have hc0 : (ct.value.getD 0 default).level = lc := hc.level
  have hlev : min pt.value.level (ct.value.getD 0 default).level = min lp lc := by rw [hp.level, hc0]
  have hl : min lp lc < r.subs.length := by omega
  have s0 : (ct.value.getD 0 default).coeffs.length = lc + 1 := hc.size 0 (by omega)
  have s1 : (ct.value.getD 1 default).coeffs.length = lc + 1 := hc.size 1 le_rfl
  have n0 := hc.ntt 0 (by omega)
  obtain ⟨b, a, k0, k1, k2⟩ := hpk
  set c1 : Poly := ⟨writeLvl (min pt.value.level (ct.value.getD 0 default).level) t.mask.row
    (ct.value.getD 1 default).coeffs, (ct.value.getD 1 default).isNTT⟩ with hc1
  have hct := C32_pkEncryptNoP hr sr (pk := (pk.1.q, pk.2.q)) (pt := pt.value) (c0 := ct.value.getD 0 default) (c1 := c1)
    (m := fun u => intR (2 ^ (logSlots + 1 + d)) (r.qs u) z) (s := fun u => intR _ _ S) (e := fun u => intR _ _ E)
    (a := a) (b := b) (by rw [hlev]; exact hl)
    (by intro h; rw [h] at s0; simp at s0) (by rw [hc1]; dsimp only; rw [length_writeLvl, s1, hc0]; omega)
    (by rw [hlev]; exact k0.below hlev') (by rw [hlev]; exact k1.below hlev') (by rw [hlev]; exact fun u hu => k2 u (by omega))
    (by
      rw [hlev, hp.ntt]
      exact (elt_nttVec hr hlp hz).below (min_le_left _ _))
    (by rw [hlev]; exact (ht.u _ hl).is) (by rw [hlev]; exact fun u hu => hb u (by omega)) ht.g0 ht.g1
  have small : ∀ {g : List (UInt64 × Bool)} {G : ℕ → ℤ}, DrawsOK r.n bound g G → ∀ k < 2 ^ (logSlots + 1 + d), |G k| ≤ bound := by
    intro g G hg k hk
    rw [← hr.deg] at hk
    have h1 := hg.le k hk
    rw [hg.val k hk]
    split <;> rw [abs_le] <;> omega
  set v := pkEncryptNoP r (pk.1.q, pk.2.q) t.u t.g0 t.g1 pt.value (ct.value.getD 0 default) c1 with hv
  rw [hlev, n0] at hct
  refine ⟨⟨(ct.value.set 0 v.1).set 1 v.2, pt.scale⟩, ?_, rfl, fun k hk => ?_, ?_⟩
  · unfold ckksEncrypt
    rw [if_neg (by have := hc.len; omega)]
    dsimp only
    rw [if_pos hP]
  · exact_mod_cast noPNoise_le (fun k _ => ht.u1 k) (fun k _ => hS k) hE (small ht.g0) (small ht.g1) hk
  · obtain ⟨x, a1, a2⟩ := hct.ct hc.len (scale := pt.scale)
    refine ⟨x, a1, fun u hu => (a2 u hu).trans ?_⟩
    dsimp only
    rw [intR_mul, intR_mul, intR_add, intR_add, intR_add]
    rfl

/-- **C81 (encryption without special primes).** As `C81_encryptMsg_partial`, for parameters with no prime in `P`: the noise is
`U E + G0 + G1 S`, at most `(2 N + 1) bound`.  Missing: with fewer than 8 slots only the first call is covered, and the error `δ` of the
inverse transform in float64 is a parameter. -/
theorem C81_encryptMsg_noP_partial {S E : ℕ → ℤ} {pk : PolyQP × PolyQP} {bound level : ℕ}
    (hpk : IsPublicKeyQ (logSlots + 1 + d) r level (pk.1.q, pk.2.q) S E)
    (hS : ∀ k, |S k| ≤ 1) (hE : ∀ k < 2 ^ (logSlots + 1 + d), |E k| ≤ bound)
    (hb : ∀ u < r.subs.length, bound ≤ r.qs u)
    {t : EncTape} {U G0 G1 : ℕ → ℤ} (ht : TapeIs (logSlots + 1 + d) r bound t U G0 G1)
    {mem : List ℂ} (hmem : 2 ^ (logSlots + d) ≤ mem.length ∧ (3 ≤ logSlots → 16 ≤ mem.length))
    {msg : List ℂ} (hmsg : msg.length ≤ 2 ^ logSlots) {pool : Pt} {lp lc : ℕ} (hp : PoolOK r.n lp pool)
    (hlp : lp < r.subs.length) (hlev : min lp lc ≤ level) (hscale : 0 < pool.scale)
    (hzero : 3 ≤ logSlots ∨ ∀ i ≤ lp, ∀ k, 2 ^ (logSlots + 1) ≤ k → k < 16 → (pool.value.coeffs.row i).at k = 0)
    {fl : List ℂ → List (ℚ × ℚ)} {δ : ℝ} {B : ℚ}
    (hfl : ∀ y, encodeFFT r.nthRoot (encRoots r.nthRoot) mem msg logSlots = some y →
      FloatOK (2 ^ logSlots) pool.scale δ B (fl y) y) {ct : Ct} (hc : CtShape 1 lc ct) :
    ∃ pool' ct', encryptMsg r rP (encRoots r.nthRoot) fl mem logSlots pk t msg pool ct = some (pool', ct') ∧
      PoolOK r.n lp pool' ∧ pool'.scale = pool.scale ∧ ct'.scale = pool.scale ∧
      ∃ z D : ℕ → ℤ, Encodes logSlots d pool.scale msg
        (2 ^ (logSlots + 1) * (δ * pool.scale + ((1 / 2 + (B + 1) / 2 ^ 51 : ℚ) : ℝ))) z ∧
      (∀ k < r.n, |(z k : ℚ)| ≤ B + (B + 1) / 2 ^ 51 + 1 / 2) ∧
      (∀ k < 2 ^ (logSlots + 1 + d), |D k| ≤ (2 * 2 ^ (logSlots + 1 + d) + 1) * bound) ∧
      CtEnc (logSlots + 1 + d) r (min lp lc) r.qs 1 ct' (fun u => intR _ _ S) (fun u => intR _ _ fun k => z k + D k) := by
  obtain ⟨y, hy, -, henc⟩ := encode_slotVal (level := lp) hr sr hlp mem hmem msg hmsg hscale
  have F := hfl y hy
  obtain ⟨z, hz1, hz2, hz3, hz4⟩ := henc (fl y) δ B F.len F.close F.ne64 F.le pool.value.coeffs (by rw [hp.len]; omega)
    hp.row hzero
  set pool' : Pt := { pool with value := ⟨r.embedPoly pool.value.level logSlots (fl y) pool.scale false pool.value.coeffs,
    pool.value.isNTT⟩ } with hpool'
  have hl' := hp.level
  have ok : PoolOK r.n lp pool' := by
    refine ⟨hp.ntt, ?_, fun i hi => ?_⟩
    · rw [hpool', hl']; exact hz3.len.trans hp.len
    · rw [hpool', hl']; exact (hz3.is.row i hi).len
  obtain ⟨ct', e1, e2, hD, hct⟩ := ckksEncrypt_noP hr sr hP hpk hS hE hb ht (z := z) ok hlp hlev
    (by rw [hpool', hl']; exact hz3.is) hc
  refine ⟨pool', ct', ?_, ok, rfl, e2, z, _, ⟨hz1, hz4⟩, hz2, hD, hct⟩
  unfold encryptMsg Ring.encodeSlots
  rw [hy, Option.map_some, Option.bind_some, ← hpool', e1, Option.map_some]

end

/-- the hypotheses are met: one slot in degree 16, moduli 97, 193, 641 and no special prime, the message `3 + 4i` with the scale
1024; the noise of the ciphertext is at most 99 -/
example : ∃ (rQ rP : Ring) (pk : PolyQP × PolyQP) (t : EncTape) (pool' : Pt) (ct' : Ct) (z D : ℕ → ℤ),
    rQ.Valid 4 ∧ rQ.moduli = [97, 193, 641] ∧ rP.subs = [] ∧
    encryptMsg rQ rP (encRoots rQ.nthRoot) (fun _ => [(3, 4)]) (List.replicate 8 0) 0 pk t [3 + 4 * Complex.I]
      (newPlaintext rQ.n 2 1024) (newCiphertext rQ.n 1 1 1) = some (pool', ct') ∧ (∀ k < 16, |D k| ≤ 99) ∧
    CtEnc 4 rQ 1 rQ.qs 1 ct' (fun u => intR _ _ exampleS) (fun u => intR _ _ fun k => z k + D k) := by
  obtain ⟨rQ, rP, sr, tape, K, mQ, mP, lQ, lP, hq, q0, hsk, -⟩ := exampleRings
  have R := K.rings
  have p0 : rP.qs 0 = 257 := by unfold Ring.qs; rw [sub_of_moduli mP 0 257 rfl]; rfl
  have hS : ∀ k, |exampleS k| ≤ 1 := by
    intro k
    unfold exampleS
    split
    · decide
    · split <;> decide
  have samp : ∀ {X : ℕ → ℤ} {l : ℕ}, l < rQ.subs.length → (∀ k, |X k| ≤ 3) → ∃ x, Sampled rQ l x X := by
    intro X l hl hX
    obtain ⟨x, hx⟩ := exists_poly R.hQ hl X
    exact ⟨x, hx.mono fun u _ => by omega, fun k _ => by have := hX k; omega⟩
  obtain ⟨e, he⟩ := samp (X := fun _ => -2) (l := rQ.subs.length - 1) (by omega) (fun _ => by decide)
  obtain ⟨aq, haq⟩ := exists_poly R.hQ (show rQ.subs.length - 1 < rQ.subs.length by omega) (fun k => 5 * k)
  obtain ⟨ap, hap⟩ := exists_poly R.hP (show rP.subs.length - 1 < rP.subs.length by omega) (fun k => 5 * k)
  have hpk := (C32_publicKey K hsk he (fun k _ u hu => by
    rcases (by omega : u = 0 ∨ u = 1) with rfl | rfl
    · rw [p0]; decide
    · unfold Ring.qs; rw [sub_of_moduli mP 1 353 rfl]; decide) (a := ⟨aq, ap⟩) haq hap
    (show rQ.subs.length - 1 < rQ.subs.length by omega) (show 0 < rP.subs.length by omega)).q
  obtain ⟨u, hu⟩ := samp (X := exampleS) (l := rQ.subs.length - 1) (by omega) (fun k => by have := hS k; omega)
  have hn : rQ.n = 16 := R.hQ.deg
  have hg : DrawsOK rQ.n 3 (List.replicate 16 (2, false)) (fun _ => -2) := by
    refine ⟨by simp [hn], fun k hk => ?_, fun k hk => ?_⟩
    · rw [hn] at hk; revert k; decide
    · rw [hn] at hk; revert k; decide
  have ht : TapeIs (0 + 1 + 3) rQ 3 ⟨[], u, List.replicate 16 (2, false), List.replicate 16 (2, false)⟩ exampleS (fun _ => -2)
      (fun _ => -2) := ⟨fun l hl => ⟨⟨by have := hu.is.lvl; dsimp only; omega, fun i hi => hu.is.row i (by omega)⟩, hu.small⟩, hS, hg, hg⟩
  obtain ⟨pool', ct', a1, -, -, -, z, D, -, -, a2, a3⟩ := C81_encryptMsg_noP_partial (logSlots := 0) (d := 3) (rP := { rP with subs := [] })
    R.hQ R.sQ rfl hpk hS (fun _ _ => by decide)
    (fun u hu => by have := hq u (by omega); omega) ht (mem := List.replicate 8 0)
    (by norm_num) (msg := [3 + 4 * Complex.I]) (by norm_num)
    (newPlaintext_ok rQ.n 2 1024) (by omega) (by omega) (by norm_num [newPlaintext])
    (Or.inr fun i hi k _ _ => by
      show Row.at ((newPoly rQ.n 3).row i) k = 0
      rw [row_newPoly (by omega)]
      simp [Row.at, List.getD, List.getElem?_replicate]
      split <;> rfl)
    (fl := fun _ => [(3, 4)]) (δ := 0) (B := 4096) (fun y hy => by
      have hy : y = [3 + 4 * Complex.I] := by
        have hM : rQ.nthRoot / 4 = 8 := by rw [R.hQ.root]; norm_num
        have hc : ∀ x : List ℂ, cSliceBitReverse 1 x = x := fun x => rfl
        have hlen : len64 1 = 1 := by decide
        unfold encodeFFT specialiFFT at hy
        rw [hM] at hy
        simp [hlen, ifftLayers, hc] at hy
        exact hy.symm
      subst hy
      refine ⟨rfl, fun k hk => ?_, fun v hv => ?_, fun v hv => ?_⟩
      · obtain rfl : k = 0 := by omega
        simp
      · obtain rfl := List.mem_singleton.1 hv
        show f64 |3 * 1024| ≠ 2 ^ 64 ∧ f64 |4 * 1024| ≠ 2 ^ 64
        decide +kernel
      · obtain rfl := List.mem_singleton.1 hv
        show |(3 : ℚ) * 1024| ≤ 4096 ∧ |(4 : ℚ) * 1024| ≤ 4096
        norm_num)
    (newCiphertext_shape rQ.n 1 1 1)
  exact ⟨rQ, _, _, _, pool', ct', z, D, R.hQ, mQ, rfl, a1, fun k hk => (a2 k hk).trans (by norm_num), a3⟩

end FastKsw.Props
