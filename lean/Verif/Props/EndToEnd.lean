import Verif.Model.Facade
import Verif.Props.Slots
import Verif.Props.Encrypt
import Verif.Lemmas.CtEnc
import Verif.Lemmas.ConstCt
import Verif.Lemmas.Rescale

/-!
# C81: encrypting and decrypting messages with `fckks`
-/

namespace FastKsw.Props

open FastKsw Finset

theorem _root_.FastKsw.IsPublicKey.below {n : ℕ} {rQ rP : Ring} {lQ lP : ℕ} {pk : PolyQP × PolyQP} {S E : ℕ → ℤ}
    (h : IsPublicKey n rQ rP lQ lP pk S E) {l : ℕ} (hl : l ≤ lQ) : IsPublicKey n rQ rP l lP pk S E := by
  obtain ⟨B, A, h1, h2, h3, h4, h5, h6⟩ := h.ex
  exact ⟨B, A, h1.below hl, h2.below hl, h3, h4, fun u hu => h5 u (by omega), h6⟩

/-- the pool of an encryptor or decryptor, at level `level`: an NTT plaintext with rows of the right size -/
structure PoolOK (N level : ℕ) (pool : Pt) : Prop where
  ntt : pool.value.isNTT = true
  len : pool.value.coeffs.length = level + 1
  row : ∀ i ≤ level, (pool.value.coeffs.row i).length = N

theorem PoolOK.level {N level : ℕ} {pool : Pt} (h : PoolOK N level pool) : pool.value.level = level := by
  unfold Poly.level; rw [h.len]; rfl

theorem newPlaintext_ok (N level : ℕ) (scale : ℚ) : PoolOK N level (newPlaintext N level scale) :=
  ⟨rfl, length_newPoly _ _, fun i hi => by
    show ((newPoly N (level + 1)).row i).length = N
    rw [row_newPoly (by omega)]; simp⟩

/-- the bound of `C32_noise_bound` on the noise of a public-key encryption -/
def encBound (N P bound : ℕ) : ℚ := (2 * N + 1) * bound / P + (N + 1) * (1 + 1 / 2 ^ 42)

/-- The inverse transform in float64: `fl y` has `slots` entries, is within `δ` of the exact result `y`, and after scaling
it is at most `B` and not exactly `2^64`. -/
structure FloatOK (slots : ℕ) (scale : ℚ) (δ : ℝ) (B : ℚ) (w : List (ℚ × ℚ)) (y : List ℂ) : Prop where
  len : w.length = slots
  close : ∀ k < slots, |((w.getD k 0).1 : ℝ) - (y.getD k 0).re| ≤ δ ∧ |((w.getD k 0).2 : ℝ) - (y.getD k 0).im| ≤ δ
  ne64 : ∀ v ∈ w, f64 |v.1 * scale| ≠ 2 ^ 64 ∧ f64 |v.2 * scale| ≠ 2 ^ 64
  le : ∀ v ∈ w, |v.1 * scale| ≤ B ∧ |v.2 * scale| ≤ B

/-- The samplers of one encryption: a ternary polynomial `U` and errors `G0`, `G1` of size at most `bound` -/
structure TapeIs (n : ℕ) (r : Ring) (bound : ℕ) (t : EncTape) (U G0 G1 : ℕ → ℤ) : Prop where
  u : ∀ l < r.subs.length, Sampled r l t.u U
  u1 : ∀ k, |U k| ≤ 1
  g0 : DrawsOK r.n bound t.g0 G0
  g1 : DrawsOK r.n bound t.g1 G1

/-- `z` encodes the values `v` at the scale `scale` with an error of at most `ε` in every slot -/
structure Encodes (logSlots d : ℕ) (scale : ℚ) (v : List ℂ) (ε : ℝ) (z : ℕ → ℤ) : Prop where
  sparse : ∀ k, k % 2 ^ d ≠ 0 → z k = 0
  close : ∀ j < 2 ^ logSlots, ‖slotVal logSlots d z j - ((scale : ℚ) : ℂ) * v.getD j 0‖ ≤ ε

/-- a pair of polynomials written to the components of a ciphertext of degree 1 -/
theorem Encrypts.ct {n : ℕ} {r : Ring} {level : ℕ} {v : Poly × Poly} {s m : ∀ u, Rq (2 ^ n) (r.qs u)}
    (h : Encrypts n r level true v s m) {value : List Poly} (hlen : value.length = 1 + 1) {scale : ℚ} :
    CtEnc n r level r.qs 1 ⟨(value.set 0 v.1).set 1 v.2, scale⟩ s m := by
  obtain ⟨⟨b0, b1⟩, ⟨e0, e1⟩, x0, x1, y0, y1, hm⟩ := h
  have g0 : ((value.set 0 v.1).set 1 v.2).getD 0 default = v.1 := by
    simp [List.getD, hlen]
  have g1 : ((value.set 0 v.1).set 1 v.2).getD 1 default = v.2 := by
    simp [List.getD, hlen]
  have l0 := y0.lvl
  have l1 := y1.lvl
  unfold Poly.level at e0 e1
  refine ⟨fun i => if i = 0 then x0 else x1, ⟨⟨by simp [hlen], fun i hi => ?_, fun i hi => ?_⟩, fun i hi => ?_⟩, fun u hu => ?_⟩
  · have hi : i = 0 ∨ i = 1 := by omega
    rcases hi with rfl | rfl
    · dsimp only; rw [g0]; exact b0
    · dsimp only; rw [g1]; exact b1
  · have hi : i = 0 ∨ i = 1 := by omega
    unfold Ct.rows
    rcases hi with rfl | rfl
    · dsimp only; rw [g0]; omega
    · dsimp only; rw [g1]; omega
  · have hi : i = 0 ∨ i = 1 := by omega
    unfold Ct.rows
    rcases hi with rfl | rfl
    · dsimp only; rw [g0, if_pos rfl]; exact y0
    · dsimp only; rw [g1, if_neg (by omega)]; exact y1
  · rw [Finset.sum_range_succ, Finset.sum_range_one]
    simp only [if_true, pow_zero, mul_one, pow_one, one_ne_zero, if_false]
    exact hm u hu

section
variable {logSlots d : ℕ} {rQ rP : Ring} (K : KeyParams (logSlots + 1 + d) rQ rP)
include K

/-- `Encrypt` of `ckks` into a ciphertext of degree 1 at any level. -/
theorem ckksEncrypt_is {S E : ℕ → ℤ} {pk : PolyQP × PolyQP} {bound : ℕ}
    (hpk : IsPublicKey (logSlots + 1 + d) rQ rP (rQ.subs.length - 1) 0 pk S E)
    (hS : ∀ k, |S k| ≤ 1) (hE : ∀ k < 2 ^ (logSlots + 1 + d), |E k| ≤ bound)
    (hb : ∀ u < rQ.subs.length, bound ≤ rQ.qs u) (hb0 : 2 * bound < rQ.qs 0) (hbp : bound ≤ rP.qs 0)
    {t : EncTape} {U G0 G1 : ℕ → ℤ} (ht : TapeIs (logSlots + 1 + d) rQ bound t U G0 G1)
    {pt : Pt} {z : ℕ → ℤ} {lp lc : ℕ} (hp : PoolOK rQ.n lp pt) (hlp : lp < rQ.subs.length)
    (hz : Holds rQ (logSlots + 1 + d) lp pt.value.coeffs z) {ct : Ct} (hc : CtShape 1 lc ct) :
    ∃ ct', ckksEncrypt rQ rP pk t pt ct = some ct' ∧ ct'.scale = pt.scale ∧
      ∃ D : ℕ → ℤ, (∀ k < 2 ^ (logSlots + 1 + d), |(D k : ℚ)| ≤ encBound (2 ^ (logSlots + 1 + d)) (rP.qs 0) bound) ∧
      CtEnc (logSlots + 1 + d) rQ (min lp lc) rQ.qs 1 ct' (fun u => intR _ _ S) (fun u => intR _ _ fun k => z k + D k) := by
  have R := K.rings
  have hlP := R.lP
  have hc0 : (ct.value.getD 0 default).level = lc := hc.level
  have hlev : min pt.value.level (ct.value.getD 0 default).level = min lp lc := by rw [hp.level, hc0]
  have hl : min lp lc < rQ.subs.length := by omega
  have s0 : (ct.value.getD 0 default).coeffs.length = lc + 1 := hc.size 0 (by omega)
  have s1 : (ct.value.getD 1 default).coeffs.length = lc + 1 := hc.size 1 le_rfl
  have n0 := hc.ntt 0 (by omega)
  have n1 := hc.ntt 1 le_rfl
  set c1 : Poly := ⟨writeLvl (min pt.value.level (ct.value.getD 0 default).level) t.mask.row
    (ct.value.getD 1 default).coeffs, (ct.value.getD 1 default).isNTT⟩ with hc1
  have hP1 : 1 ≤ rP.qs 0 := (R.hP.subAt (show 0 < rP.subs.length by omega)).prime.one_le
  obtain ⟨D, hD, hct⟩ := C32_pkEncrypt (pt := pt.value) (c0 := ct.value.getD 0 default) (c1 := c1)
    (m := fun u => intR (2 ^ (logSlots + 1 + d)) (rQ.qs u) z) (by rw [hlev]; exact K.at hl (by omega))
    (by intro h; rw [h] at s0; simp at s0) (by rw [hlev, hc1]; dsimp only; rw [length_writeLvl, s1]; omega)
    (by rw [hlev]; exact hpk.below (by omega)) (by
      rw [hlev, hp.ntt]
      exact (elt_nttVec R.hQ hlp hz).below (min_le_left _ _))
    (by rw [hlev]; exact ht.u _ hl) (fun k _ => by have := ht.u1 k; omega) (fun u hu => hb u (by omega)) hb0 hbp ht.g0 ht.g1
  have small : ∀ {g : List (UInt64 × Bool)} {G : ℕ → ℤ}, DrawsOK rQ.n bound g G → ∀ k < 2 ^ (logSlots + 1 + d), |G k| ≤ bound := by
    intro g G hg k hk
    rw [← R.hQ.deg] at hk
    have h1 := hg.le k hk
    rw [hg.val k hk]
    split <;> rw [abs_le] <;> omega
  have hne : rP.subs ≠ [] := by intro h; rw [h] at hlP; simp at hlP
  set v := pkEncrypt rQ rP pk t.u t.g0 t.g1 pt.value (ct.value.getD 0 default) c1 with hv
  have key : ckksEncrypt rQ rP pk t pt ct = some ⟨(ct.value.set 0 v.1).set 1 v.2, pt.scale⟩ := by
    unfold ckksEncrypt
    rw [if_neg (by have := hc.len; omega)]
    dsimp only
    rw [if_neg hne]
  refine ⟨_, key, rfl, D, fun k hk => ?_, ?_⟩
  · have := C32_noise_bound hD (fun k _ => ht.u1 k) (fun k _ => hS k) hE (small ht.g0) (small ht.g1) hk
    have hPpos : (0 : ℚ) < (rP.qs 0 : ℚ) := by exact_mod_cast hP1
    have h2 : (2 : ℚ) ^ 42 * ((rP.qs 0 : ℚ) * |(D k : ℚ)|) ≤ 2 ^ 42 * ((2 * ((2 ^ (logSlots + 1 + d) : ℕ) : ℚ) + 1) * bound) +
        (((2 ^ (logSlots + 1 + d) : ℕ) : ℚ) + 1) * ((2 ^ 42 + 1) * (rP.qs 0 : ℚ)) := by exact_mod_cast this
    unfold encBound
    rw [show (2 * ((2 ^ (logSlots + 1 + d) : ℕ) : ℚ) + 1) * bound / (rP.qs 0 : ℚ) +
      (((2 ^ (logSlots + 1 + d) : ℕ) : ℚ) + 1) * (1 + 1 / 2 ^ 42) = (2 ^ 42 * ((2 * ((2 ^ (logSlots + 1 + d) : ℕ) : ℚ) + 1) * bound) +
        (((2 ^ (logSlots + 1 + d) : ℕ) : ℚ) + 1) * ((2 ^ 42 + 1) * (rP.qs 0 : ℚ))) / (2 ^ 42 * (rP.qs 0 : ℚ)) by field_simp]
    rw [le_div_iff₀ (by positivity)]
    linarith
  · rw [hlev, n0] at hct
    obtain ⟨x, a1, a2⟩ := hct.ct hc.len (scale := pt.scale)
    exact ⟨x, a1, fun u hu => (a2 u hu).trans (intR_add _ _)⟩

/-- **C81 (plaintexts).** `EncryptNew` of a plaintext at any level gives a ciphertext of that level and scale that decrypts to the
plaintext plus noise within the bound of C32. -/
theorem C81_encryptNew {S E : ℕ → ℤ} {pk : PolyQP × PolyQP} {bound : ℕ}
    (hpk : IsPublicKey (logSlots + 1 + d) rQ rP (rQ.subs.length - 1) 0 pk S E)
    (hS : ∀ k, |S k| ≤ 1) (hE : ∀ k < 2 ^ (logSlots + 1 + d), |E k| ≤ bound)
    (hb : ∀ u < rQ.subs.length, bound ≤ rQ.qs u) (hb0 : 2 * bound < rQ.qs 0) (hbp : bound ≤ rP.qs 0)
    {t : EncTape} {U G0 G1 : ℕ → ℤ} (ht : TapeIs (logSlots + 1 + d) rQ bound t U G0 G1)
    {pt : Pt} {z : ℕ → ℤ} {lp : ℕ} (hp : PoolOK rQ.n lp pt) (hlp : lp < rQ.subs.length)
    (hz : Holds rQ (logSlots + 1 + d) lp pt.value.coeffs z) :
    ∃ ct', ckksEncryptNew rQ rP pk t pt = some ct' ∧ ct'.scale = pt.scale ∧
      ∃ D : ℕ → ℤ, (∀ k < 2 ^ (logSlots + 1 + d), |(D k : ℚ)| ≤ encBound (2 ^ (logSlots + 1 + d)) (rP.qs 0) bound) ∧
      CtEnc (logSlots + 1 + d) rQ lp rQ.qs 1 ct' (fun u => intR _ _ S) (fun u => intR _ _ fun k => z k + D k) := by
  obtain ⟨ct', h1, h2, D, h3, h4⟩ := ckksEncrypt_is K hpk hS hE hb hb0 hbp ht hp hlp hz
    (newCiphertext_shape rQ.n 1 pt.value.level pt.scale)
  rw [hp.level, min_self] at h4
  refine ⟨{ ct' with scale := pt.scale }, ?_, rfl, D, h3, ?_⟩
  · unfold ckksEncryptNew
    rw [h1, Option.map_some]
  · rw [← h2]
    exact h4

/-- **C81 (encryption).** `EncryptMsg` with a generated public key, any message of at most `2^logSlots` values, into a
ciphertext of degree 1 at any level: it does not panic; the ciphertext gets the scale of the encryptor and decrypts to an
encoding of the message plus noise within the bound of C32; the pool of the encryptor is ready for the next call.
Missing: with fewer than 8 slots, only the first call of `EncryptMsg` is covered (`C81_encryptMsg_violated`), and the
error `δ` of the inverse transform in float64 is a parameter. -/
theorem C81_encryptMsg_partial {S E : ℕ → ℤ} {pk : PolyQP × PolyQP} {bound : ℕ}
    (hpk : IsPublicKey (logSlots + 1 + d) rQ rP (rQ.subs.length - 1) 0 pk S E)
    (hS : ∀ k, |S k| ≤ 1) (hE : ∀ k < 2 ^ (logSlots + 1 + d), |E k| ≤ bound)
    (hb : ∀ u < rQ.subs.length, bound ≤ rQ.qs u) (hb0 : 2 * bound < rQ.qs 0) (hbp : bound ≤ rP.qs 0)
    {t : EncTape} {U G0 G1 : ℕ → ℤ} (ht : TapeIs (logSlots + 1 + d) rQ bound t U G0 G1)
    {mem : List ℂ} (hmem : 2 ^ (logSlots + d) ≤ mem.length ∧ (3 ≤ logSlots → 16 ≤ mem.length))
    {msg : List ℂ} (hmsg : msg.length ≤ 2 ^ logSlots) {pool : Pt} {lp lc : ℕ} (hp : PoolOK rQ.n lp pool)
    (hlp : lp < rQ.subs.length) (hscale : 0 < pool.scale)
    (hzero : 3 ≤ logSlots ∨ ∀ i ≤ lp, ∀ k, 2 ^ (logSlots + 1) ≤ k → k < 16 → (pool.value.coeffs.row i).at k = 0)
    {fl : List ℂ → List (ℚ × ℚ)} {δ : ℝ} {B : ℚ}
    (hfl : ∀ y, encodeFFT rQ.nthRoot (encRoots rQ.nthRoot) mem msg logSlots = some y →
      FloatOK (2 ^ logSlots) pool.scale δ B (fl y) y) {ct : Ct} (hc : CtShape 1 lc ct) :
    ∃ pool' ct', encryptMsg rQ rP (encRoots rQ.nthRoot) fl mem logSlots pk t msg pool ct = some (pool', ct') ∧
      PoolOK rQ.n lp pool' ∧ pool'.scale = pool.scale ∧ ct'.scale = pool.scale ∧
      ∃ z D : ℕ → ℤ, Encodes logSlots d pool.scale msg
        (2 ^ (logSlots + 1) * (δ * pool.scale + ((1 / 2 + (B + 1) / 2 ^ 51 : ℚ) : ℝ))) z ∧
      (∀ k < rQ.n, |(z k : ℚ)| ≤ B + (B + 1) / 2 ^ 51 + 1 / 2) ∧
      (∀ k < 2 ^ (logSlots + 1 + d), |(D k : ℚ)| ≤ encBound (2 ^ (logSlots + 1 + d)) (rP.qs 0) bound) ∧
      CtEnc (logSlots + 1 + d) rQ (min lp lc) rQ.qs 1 ct' (fun u => intR _ _ S) (fun u => intR _ _ fun k => z k + D k) := by
  have R := K.rings
  obtain ⟨y, hy, -, henc⟩ := encode_slotVal (level := lp) R.hQ R.sQ hlp mem hmem msg hmsg hscale
  have F := hfl y hy
  obtain ⟨z, hz1, hz2, hz3, hz4⟩ := henc (fl y) δ B F.len F.close F.ne64 F.le pool.value.coeffs (by rw [hp.len]; omega)
    hp.row hzero
  set pool' : Pt := { pool with value := ⟨rQ.embedPoly pool.value.level logSlots (fl y) pool.scale false pool.value.coeffs,
    pool.value.isNTT⟩ } with hpool'
  have hlev := hp.level
  have ok : PoolOK rQ.n lp pool' := by
    refine ⟨hp.ntt, ?_, fun i hi => ?_⟩
    · rw [hpool', hlev]; exact hz3.len.trans hp.len
    · rw [hpool', hlev]; exact (hz3.is.row i hi).len
  obtain ⟨ct', e1, e2, D, hD, hct⟩ := ckksEncrypt_is K hpk hS hE hb hb0 hbp ht (z := z) ok hlp
    (by rw [hpool', hlev]; exact hz3.is) hc
  refine ⟨pool', ct', ?_, ok, rfl, e2, z, D, ⟨hz1, hz4⟩, hz2, hD, hct⟩
  unfold encryptMsg Ring.encodeSlots
  rw [hy, Option.map_some, Option.bind_some, ← hpool', e1, Option.map_some]

/-- **C81 (encryption, new ciphertext).** `EncryptMsgNew` with the pool at any level: the ciphertext has the level of the pool.  Missing: as above. -/
theorem C81_encryptMsgNew_partial {S E : ℕ → ℤ} {pk : PolyQP × PolyQP} {bound : ℕ}
    (hpk : IsPublicKey (logSlots + 1 + d) rQ rP (rQ.subs.length - 1) 0 pk S E)
    (hS : ∀ k, |S k| ≤ 1) (hE : ∀ k < 2 ^ (logSlots + 1 + d), |E k| ≤ bound)
    (hb : ∀ u < rQ.subs.length, bound ≤ rQ.qs u) (hb0 : 2 * bound < rQ.qs 0) (hbp : bound ≤ rP.qs 0)
    {t : EncTape} {U G0 G1 : ℕ → ℤ} (ht : TapeIs (logSlots + 1 + d) rQ bound t U G0 G1)
    {mem : List ℂ} (hmem : 2 ^ (logSlots + d) ≤ mem.length ∧ (3 ≤ logSlots → 16 ≤ mem.length))
    {msg : List ℂ} (hmsg : msg.length ≤ 2 ^ logSlots) {pool : Pt} {lp : ℕ} (hp : PoolOK rQ.n lp pool)
    (hlp : lp < rQ.subs.length) (hscale : 0 < pool.scale)
    (hzero : 3 ≤ logSlots ∨ ∀ i ≤ lp, ∀ k, 2 ^ (logSlots + 1) ≤ k → k < 16 → (pool.value.coeffs.row i).at k = 0)
    {fl : List ℂ → List (ℚ × ℚ)} {δ : ℝ} {B : ℚ}
    (hfl : ∀ y, encodeFFT rQ.nthRoot (encRoots rQ.nthRoot) mem msg logSlots = some y →
      FloatOK (2 ^ logSlots) pool.scale δ B (fl y) y) (defaultScale : ℚ) :
    ∃ pool' ct', encryptMsgNew rQ rP (encRoots rQ.nthRoot) fl mem logSlots defaultScale pk t msg pool = some (pool', ct') ∧
      PoolOK rQ.n lp pool' ∧ pool'.scale = pool.scale ∧ ct'.scale = pool.scale ∧
      ∃ z D : ℕ → ℤ, Encodes logSlots d pool.scale msg
        (2 ^ (logSlots + 1) * (δ * pool.scale + ((1 / 2 + (B + 1) / 2 ^ 51 : ℚ) : ℝ))) z ∧
      (∀ k < rQ.n, |(z k : ℚ)| ≤ B + (B + 1) / 2 ^ 51 + 1 / 2) ∧
      (∀ k < 2 ^ (logSlots + 1 + d), |(D k : ℚ)| ≤ encBound (2 ^ (logSlots + 1 + d)) (rP.qs 0) bound) ∧
      CtEnc (logSlots + 1 + d) rQ lp rQ.qs 1 ct' (fun u => intR _ _ S) (fun u => intR _ _ fun k => z k + D k) := by
  have h := C81_encryptMsg_partial K hpk hS hE hb hb0 hbp ht hmem hmsg hp hlp hscale hzero hfl
    (newCiphertext_shape rQ.n 1 (rQ.subs.length - 1) defaultScale)
  rwa [show min lp (rQ.subs.length - 1) = lp by omega] at h

end

section
variable {logSlots d : ℕ} {r : Ring}

/-- **C81 (plaintexts).** `DecryptNew` of a ciphertext of any degree and level returns a plaintext in the NTT domain with the level and the
scale of the ciphertext that holds exactly the polynomial the ciphertext decrypts to. -/
theorem C81_decryptNew {n : ℕ} (hr : r.Valid n) (sr : r.Small) {sk : Rows} {S : ℕ → ℤ} {deg level : ℕ}
    {ct : Ct} {Z : ℕ → ℤ} {A : ℕ → ℕ} (h : CtEnc n r level A deg ct (fun u => intR _ _ S) (fun u => intR _ _ Z))
    (hA : (∀ u ≤ level, A u ≤ r.qs u) ∨ (∀ u ≤ level, A u ≤ 6 * r.qs u) ∧ deg % 8 ≠ 7) (hl : level < r.subs.length)
    (hs : EltIs n r level r.qs true sk (fun u => 2 ^ 64 * intR _ _ S)) :
    (ckksDecryptNew r sk ct).scale = ct.scale ∧ PoolOK r.n level (ckksDecryptNew r sk ct) ∧
      Holds r n level (ckksDecryptNew r sk ct).value.coeffs Z := by
  obtain rfl : ct.level = level := h.choose_spec.1.shape.level
  have ok := newPlaintext_ok r.n ct.level ct.scale
  have e := ok.level
  have hne : (newPlaintext r.n ct.level ct.scale).value.coeffs ≠ [] := by intro h; have := ok.len; rw [h] at this; simp at this
  obtain ⟨a1, a2, a3⟩ := CtEnc.decrypt hr sr h hA (sk := sk) (pt := (newPlaintext r.n ct.level ct.scale).value) hne
    (by rw [e, min_self]; exact hl) (by rw [e, min_self]; exact hs)
  rw [e, min_self] at a2 a3
  refine ⟨rfl, ⟨a1, ?_, fun i hi => ?_⟩, EltIs.nttVec hr hl a3 fun _ _ => rfl⟩
  · have := a3.lvl
    unfold Poly.level at a2
    show (decrypt r sk ct.value _).coeffs.length = _
    omega
  · rw [hr.deg]
    exact a3.len i hi

/-- decryption of a polynomial that is known at the level of the pool -/
theorem decryptToMsg_is (hr : r.Valid (logSlots + 1 + d)) (sr : r.Small) {sk : Rows} {S : ℕ → ℤ} {deg level lp : ℕ}
    {ct : Ct} {m : ∀ u, Rq (2 ^ (logSlots + 1 + d)) (r.qs u)} {Z : ℕ → ℤ} {A : ℕ → ℕ}
    (h : CtEnc (logSlots + 1 + d) r level A deg ct (fun u => intR _ _ S) m)
    (hA : (∀ u ≤ level, A u ≤ r.qs u) ∨ (∀ u ≤ level, A u ≤ 6 * r.qs u) ∧ deg % 8 ≠ 7)
    {pool : Pt} (hp : PoolOK r.n lp pool) (hm : ∀ u ≤ min level lp, m u = intR _ _ Z) (hl : min level lp < r.subs.length)
    (hs : EltIs (logSlots + 1 + d) r (min level lp) r.qs true sk (fun u => 2 ^ 64 * intR _ _ S))
    (hscale : 0 < ct.scale) (hZ : Bounded r (min level lp) Z) {B : ℚ}
    (hB : ∀ k < 2 ^ (logSlots + 1), |(Z (k * 2 ^ d) : ℚ)| ≤ B) {mem : List ℂ}
    (hmem : 2 ^ logSlots ≤ mem.length ∧ (3 ≤ logSlots → 16 ≤ mem.length)) {polypool : Rows}
    (hpool : polypool.length = r.subs.length) :
    ∃ s pool', decryptToMsg r (encRoots r.nthRoot) Complex.I mem polypool logSlots sk ct pool = some (s, pool') ∧
      PoolOK r.n (min level lp) pool' ∧ s.length = 2 ^ logSlots ∧
      ∀ j < 2 ^ logSlots, ‖s.getD j 0 - slotVal logSlots d Z j / ((ct.scale : ℚ) : ℂ)‖ ≤
        2 ^ (logSlots + 1) * ((B / 2 ^ 51 / ct.scale : ℚ) : ℝ) := by
  have hne : pool.value.coeffs ≠ [] := by intro h; have := hp.len; rw [h] at this; simp at this
  obtain ⟨a1, a2, a3⟩ := CtEnc.decrypt hr sr h hA (sk := sk) (pt := pool.value) hne
    (by rw [hp.level]; exact hl) (by rw [hp.level]; exact hs)
  rw [hp.level] at a2 a3
  rw [hp.ntt] at a1 a3
  have hH : Holds r (logSlots + 1 + d) (min level lp) (decrypt r sk ct.value pool.value).coeffs Z :=
    EltIs.nttVec hr hl a3 hm
  obtain ⟨s, b1, b2, b3⟩ := decode_slotVal hr sr hl mem hmem hscale Z hZ.inRange hB _ polypool hpool hH
  refine ⟨s, ckksDecrypt r sk ct pool, ?_, ⟨a1, ?_, fun i hi => ?_⟩, b2, b3⟩
  · unfold decryptToMsg
    dsimp only
    have e1 : (ckksDecrypt r sk ct pool).value = decrypt r sk ct.value pool.value := rfl
    have e2 : (ckksDecrypt r sk ct pool).scale = ct.scale := rfl
    rw [e1, e2, a1, a2, b1, Option.map_some]
  · have := a3.lvl
    unfold Poly.level at a2
    show (decrypt r sk ct.value pool.value).coeffs.length = _
    omega
  · rw [hr.deg]
    exact a3.len i hi

/-- **C81 (decryption).** `DecryptToMsg` of a ciphertext of any degree and level that decrypts to a polynomial `Z`, small
compared to the modulus at the lower of the levels of the ciphertext and of the pool of the decryptor: it does not panic and returns
the slots of `Z` divided by the scale of the ciphertext, up to the rounding to float64.  Missing: when the pool has a lower level
than the ciphertext, because an earlier call truncated it, `Z` must be small compared to that level
(`C81_decryptToMsg_violated`). -/
theorem C81_decryptToMsg_partial (hr : r.Valid (logSlots + 1 + d)) (sr : r.Small) {sk : Rows} {S : ℕ → ℤ} {deg level lp : ℕ}
    {ct : Ct} {Z : ℕ → ℤ} (h : CtEnc (logSlots + 1 + d) r level r.qs deg ct (fun u => intR _ _ S) (fun u => intR _ _ Z))
    {pool : Pt} (hp : PoolOK r.n lp pool) (hl : min level lp < r.subs.length)
    (hs : EltIs (logSlots + 1 + d) r (min level lp) r.qs true sk (fun u => 2 ^ 64 * intR _ _ S))
    (hscale : 0 < ct.scale) (hZ : Bounded r (min level lp) Z) {B : ℚ}
    (hB : ∀ k < 2 ^ (logSlots + 1), |(Z (k * 2 ^ d) : ℚ)| ≤ B) {mem : List ℂ}
    (hmem : 2 ^ logSlots ≤ mem.length ∧ (3 ≤ logSlots → 16 ≤ mem.length)) {polypool : Rows}
    (hpool : polypool.length = r.subs.length) :
    ∃ s pool', decryptToMsg r (encRoots r.nthRoot) Complex.I mem polypool logSlots sk ct pool = some (s, pool') ∧
      PoolOK r.n (min level lp) pool' ∧ s.length = 2 ^ logSlots ∧
      ∀ j < 2 ^ logSlots, ‖s.getD j 0 - slotVal logSlots d Z j / ((ct.scale : ℚ) : ℂ)‖ ≤
        2 ^ (logSlots + 1) * ((B / 2 ^ 51 / ct.scale : ℚ) : ℝ) :=
  decryptToMsg_is hr sr h (Or.inl fun u _ => le_rfl) hp (fun _ _ => rfl) hl hs hscale hZ hB hmem hpool

/-- **C81 (decryption, new decryptor).** With the pool that `NewDecryptor` allocates, `Z` need only be small compared to the modulus at
the level of the ciphertext. -/
theorem C81_decryptToMsg_fresh (hr : r.Valid (logSlots + 1 + d)) (sr : r.Small) {sk : Rows} {S : ℕ → ℤ} {deg level : ℕ}
    {ct : Ct} {Z : ℕ → ℤ} (h : CtEnc (logSlots + 1 + d) r level r.qs deg ct (fun u => intR _ _ S) (fun u => intR _ _ Z))
    (hl : level < r.subs.length) (hs : EltIs (logSlots + 1 + d) r level r.qs true sk (fun u => 2 ^ 64 * intR _ _ S))
    (hscale : 0 < ct.scale) (hZ : Bounded r level Z) {B : ℚ}
    (hB : ∀ k < 2 ^ (logSlots + 1), |(Z (k * 2 ^ d) : ℚ)| ≤ B) {mem : List ℂ}
    (hmem : 2 ^ logSlots ≤ mem.length ∧ (3 ≤ logSlots → 16 ≤ mem.length)) {polypool : Rows}
    (hpool : polypool.length = r.subs.length) (defaultScale : ℚ) :
    ∃ s pool', decryptToMsg r (encRoots r.nthRoot) Complex.I mem polypool logSlots sk ct
        (newPlaintext r.n (r.subs.length - 1) defaultScale) = some (s, pool') ∧ s.length = 2 ^ logSlots ∧
      ∀ j < 2 ^ logSlots, ‖s.getD j 0 - slotVal logSlots d Z j / ((ct.scale : ℚ) : ℂ)‖ ≤
        2 ^ (logSlots + 1) * ((B / 2 ^ 51 / ct.scale : ℚ) : ℝ) := by
  have e : min level (r.subs.length - 1) = level := by omega
  obtain ⟨s, pool', a1, -, a3⟩ := C81_decryptToMsg_partial hr sr h (newPlaintext_ok r.n (r.subs.length - 1) defaultScale)
    (by omega) (by rw [e]; exact hs) hscale (by rw [e]; exact hZ) hB hmem hpool
  exact ⟨s, pool', a1, a3⟩

end

/-! ### The round trip -/

/-- noise on the coefficients as noise on the slots -/
theorem slotVal_noise {logSlots d : ℕ} {z D : ℕ → ℤ} {c : ℂ} {ε : ℝ} {β : ℚ} {j : ℕ}
    (h : ‖slotVal logSlots d z j - c‖ ≤ ε) (hD : ∀ k < 2 ^ (logSlots + 1 + d), |(D k : ℚ)| ≤ β) :
    ‖slotVal logSlots d (fun k => z k + D k) j - c‖ ≤ ε + 2 ^ (logSlots + 1) * (β : ℝ) := by
  rw [slotVal_add, show slotVal logSlots d z j + slotVal logSlots d D j - c =
    (slotVal logSlots d z j - c) + slotVal logSlots d D j by ring]
  refine (norm_add_le _ _).trans (add_le_add h (norm_slotVal_le (fun k hk => ?_) j))
  have := hD (k * 2 ^ d) (by
    rw [pow_add 2 (logSlots + 1) d]
    exact Nat.mul_lt_mul_of_pos_right hk (Nat.two_pow_pos d))
  exact_mod_cast this

/-- from the slots of the decrypted polynomial to the message -/
theorem msg_close {s v w : ℂ} {scale : ℚ} {e ε : ℝ} (hs : 0 < scale) (h1 : ‖s - w / ((scale : ℚ) : ℂ)‖ ≤ e)
    (h2 : ‖w - ((scale : ℚ) : ℂ) * v‖ ≤ ε) : ‖s - v‖ ≤ e + ε / scale := by
  have hs' : (0 : ℝ) < scale := by exact_mod_cast hs
  have hne : ((scale : ℚ) : ℂ) ≠ 0 := by exact_mod_cast hs.ne'
  have e1 : s - v = (s - w / ((scale : ℚ) : ℂ)) + (w - ((scale : ℚ) : ℂ) * v) / ((scale : ℚ) : ℂ) := by
    field_simp
    ring
  rw [e1]
  refine (norm_add_le _ _).trans (add_le_add h1 ?_)
  rw [norm_div, show ‖((scale : ℚ) : ℂ)‖ = (scale : ℝ) by
    rw [show ((scale : ℚ) : ℂ) = ((scale : ℝ) : ℂ) by push_cast; rfl, Complex.norm_real, Real.norm_of_nonneg hs'.le]]
  exact div_le_div_of_nonneg_right h2 hs'.le

theorem bounded_of {r : Ring} {n level : ℕ} (hr : r.Valid n) {Z : ℕ → ℤ} {C : ℚ} (h : ∀ k < 2 ^ n, |(Z k : ℚ)| ≤ C)
    (hC : 2 * C + 1 < r.prodQ level) : Bounded r level Z := by
  intro k hk
  rw [hr.deg] at hk
  have h1 := h k hk
  have h2 : 2 * |(Z k : ℚ)| + 1 < r.prodQ level := by linarith
  exact_mod_cast h2

/-- **C81 (round trip).** A message encrypted with the public key of a secret key and decrypted with that key by another pair of
encryptor and decryptor calls, at any levels: both calls return, and each slot differs from the message by at most the
error of the inverse transform plus the rounding and encryption noise divided by the scale.  Missing: as in
`C81_encryptMsg_partial` and `C81_decryptToMsg_partial`. -/
theorem C81_roundtrip_partial {logSlots d : ℕ} {rQ rP : Ring} (K : KeyParams (logSlots + 1 + d) rQ rP) {S E : ℕ → ℤ}
    {sk : PolyQP} {pk : PolyQP × PolyQP} {bound : ℕ}
    (hsk : sk.IsMont (logSlots + 1 + d) rQ rP (rQ.subs.length - 1) (rP.subs.length - 1) S)
    (hpk : IsPublicKey (logSlots + 1 + d) rQ rP (rQ.subs.length - 1) 0 pk S E)
    (hS : ∀ k, |S k| ≤ 1) (hE : ∀ k < 2 ^ (logSlots + 1 + d), |E k| ≤ bound)
    (hb : ∀ u < rQ.subs.length, bound ≤ rQ.qs u) (hb0 : 2 * bound < rQ.qs 0) (hbp : bound ≤ rP.qs 0)
    {t : EncTape} {U G0 G1 : ℕ → ℤ} (ht : TapeIs (logSlots + 1 + d) rQ bound t U G0 G1)
    {mem mem' : List ℂ} (hmem : 2 ^ (logSlots + d) ≤ mem.length ∧ (3 ≤ logSlots → 16 ≤ mem.length))
    (hmem' : 2 ^ logSlots ≤ mem'.length ∧ (3 ≤ logSlots → 16 ≤ mem'.length))
    {polypool : Rows} (hpool : polypool.length = rQ.subs.length)
    {msg : List ℂ} (hmsg : msg.length ≤ 2 ^ logSlots) {pool dpool : Pt} {lp lc ld : ℕ} (hp : PoolOK rQ.n lp pool)
    (hd : PoolOK rQ.n ld dpool) (hlp : lp < rQ.subs.length) (hscale : 0 < pool.scale)
    (hzero : 3 ≤ logSlots ∨ ∀ i ≤ lp, ∀ k, 2 ^ (logSlots + 1) ≤ k → k < 16 → (pool.value.coeffs.row i).at k = 0)
    {fl : List ℂ → List (ℚ × ℚ)} {δ : ℝ} {B C : ℚ}
    (hfl : ∀ y, encodeFFT rQ.nthRoot (encRoots rQ.nthRoot) mem msg logSlots = some y →
      FloatOK (2 ^ logSlots) pool.scale δ B (fl y) y) {ct : Ct} (hc : CtShape 1 lc ct)
    (hC : B + (B + 1) / 2 ^ 51 + 1 / 2 + encBound (2 ^ (logSlots + 1 + d)) (rP.qs 0) bound ≤ C)
    (hsize : 2 * C + 1 < rQ.prodQ (min (min lp lc) ld)) :
    ∃ pool' ct' s dpool', encryptMsg rQ rP (encRoots rQ.nthRoot) fl mem logSlots pk t msg pool ct = some (pool', ct') ∧
      decryptToMsg rQ (encRoots rQ.nthRoot) Complex.I mem' polypool logSlots sk.q ct' dpool = some (s, dpool') ∧
      s.length = 2 ^ logSlots ∧ ∀ j < 2 ^ logSlots, ‖s.getD j 0 - msg.getD j 0‖ ≤
        2 ^ (logSlots + 1) * (δ + ((1 / 2 + (B + 1) / 2 ^ 51 + encBound (2 ^ (logSlots + 1 + d)) (rP.qs 0) bound +
          C / 2 ^ 51) / pool.scale : ℚ)) := by
  have R := K.rings
  obtain ⟨pool', ct', e1, -, -, e4, z, D, hz, hzb, hD, hct⟩ :=
    C81_encryptMsg_partial K hpk hS hE hb hb0 hbp ht hmem hmsg hp hlp hscale hzero hfl hc
  have hl : min (min lp lc) ld < rQ.subs.length := by omega
  have hZ : ∀ k < 2 ^ (logSlots + 1 + d), |((z k + D k : ℤ) : ℚ)| ≤ C := by
    intro k hk
    have h1 := hzb k (by rw [R.hQ.deg]; exact hk)
    have h2 := hD k hk
    push_cast
    exact (abs_add_le _ _).trans (by linarith)
  have hgap : ∀ k < 2 ^ (logSlots + 1), k * 2 ^ d < 2 ^ (logSlots + 1 + d) := by
    intro k hk
    rw [pow_add 2 (logSlots + 1) d]
    exact Nat.mul_lt_mul_of_pos_right hk (Nat.two_pow_pos d)
  obtain ⟨s, dpool', f1, -, f3, f4⟩ := C81_decryptToMsg_partial (Z := fun k => z k + D k) R.hQ R.sQ hct hd hl
    ((elt_mont R.hQ R.lQ hsk.q).below (show min (min lp lc) ld ≤ rQ.subs.length - 1 by omega)) (by rw [e4]; exact hscale)
    (bounded_of R.hQ hZ hsize) (B := C) (fun k hk => hZ _ (hgap k hk)) hmem' hpool
  refine ⟨pool', ct', s, dpool', e1, f1, f3, fun j hj => ?_⟩
  have h1 := f4 j hj
  rw [e4] at h1
  have h2 := msg_close hscale h1 (slotVal_noise (hz.close j hj) hD)
  refine h2.trans (le_of_eq ?_)
  have hs' : (pool.scale : ℝ) ≠ 0 := by exact_mod_cast hscale.ne'
  push_cast
  field_simp
  ring

/-! ### Where it fails -/

theorem exists_elt {r : Ring} {n level : ℕ} (hr : r.Valid n) (sr : r.Small) (hl : level < r.subs.length) (z : ℕ → ℤ) :
    ∃ p : Rows, p.length = level + 1 ∧ EltIs n r level r.qs true p (fun u => intR (2 ^ n) (r.qs u) z) := by
  obtain ⟨p, hp⟩ := exists_poly hr hl z
  have h := nttLvl_is' (p' := newPoly r.n (level + 1)) hr sr hl (hp.mono fun u _ => by omega) (by rw [length_newPoly]; omega)
  exact ⟨_, by rw [h.len, length_newPoly], elt_nttVec hr hl h.is⟩

/-- a ciphertext of degree 1 whose second component is zero -/
theorem exists_trivial {r : Ring} {n level : ℕ} (hr : r.Valid n) (sr : r.Small) (hl : level < r.subs.length) (z : ℕ → ℤ)
    (scale : ℚ) : ∃ ct : Ct, ct.scale = scale ∧ ∀ S : ℕ → ℤ,
      CtEnc n r level r.qs 1 ct (fun u => intR _ _ S) (fun u => intR _ _ z) := by
  obtain ⟨p, hp, h⟩ := exists_elt hr sr hl z
  obtain ⟨p', hp', h'⟩ := exists_elt hr sr hl (fun _ => 0)
  refine ⟨⟨[⟨p, true⟩, ⟨p', true⟩], scale⟩, rfl, fun S => ⟨fun i u => intR _ _ (if i = 0 then z else fun _ => 0),
    ⟨⟨rfl, fun i hi => ?_, fun i hi => ?_⟩, fun i hi => ?_⟩, fun u hu => ?_⟩⟩
  · rcases (by omega : i = 0 ∨ i = 1) with rfl | rfl <;> rfl
  · rcases (by omega : i = 0 ∨ i = 1) with rfl | rfl
    · exact hp
    · exact hp'
  · rcases (by omega : i = 0 ∨ i = 1) with rfl | rfl
    · exact h
    · exact h'
  · rw [Finset.sum_range_succ, Finset.sum_range_one]
    simp only [if_true, pow_zero, mul_one, pow_one, one_ne_zero, if_false]
    have e0 : intR (2 ^ n) (r.qs u) (fun _ => 0) = 0 := by
      have := intR_sub (N := 2 ^ n) (q := r.qs u) (fun _ => 0) (fun _ => 0)
      rw [sub_self] at this
      exact this.symm
    rw [e0, zero_mul, add_zero]

theorem slotVal_const {d : ℕ} (c : ℤ) : slotVal 0 d (fun k => if k = 0 then c else 0) 0 = c := by
  unfold slotVal
  rw [show 2 ^ (0 + 1) = 1 + 1 from rfl, Finset.sum_range_succ, Finset.sum_range_one]
  simp

/-- **C81 fails** for a decryptor that was used before: it keeps the level of the lowest ciphertext it has seen.  Moduli 97 and 193, degree
16, one slot, scale 1, any secret key: after a ciphertext at level 0, a ciphertext of 200 at level 1 is decrypted to 6, which
is 200 modulo 97, although a new decryptor returns 200. -/
theorem C81_decryptToMsg_violated : ∃ (r : Ring) (ct0 ct1 : Ct), newRing 100 16 [97, 193] = .ok r ∧ r.Valid 4 ∧
    ct0.scale = 1 ∧ ct1.scale = 1 ∧ ∀ (sk : Rows) (S : ℕ → ℤ), EltIs 4 r 1 r.qs true sk (fun u => 2 ^ 64 * intR _ _ S) →
    CtEnc 4 r 0 r.qs 1 ct0 (fun u => intR _ _ S) (fun u => intR _ _ fun k => if k = 0 then 5 else 0) ∧
    CtEnc 4 r 1 r.qs 1 ct1 (fun u => intR _ _ S) (fun u => intR _ _ fun k => if k = 0 then 200 else 0) ∧
    ∃ s0 s1 s2 pool1 pool2 pool3,
      decryptToMsg r (encRoots r.nthRoot) Complex.I (List.replicate 8 0) (newPoly 16 2) 0 sk ct0 (newPlaintext r.n 1 1) =
        some (s0, pool1) ∧
      decryptToMsg r (encRoots r.nthRoot) Complex.I (List.replicate 8 0) (newPoly 16 2) 0 sk ct1 pool1 = some (s1, pool2) ∧
      decryptToMsg r (encRoots r.nthRoot) Complex.I (List.replicate 8 0) (newPoly 16 2) 0 sk ct1 (newPlaintext r.n 1 1) =
        some (s2, pool3) ∧
      ‖s0.getD 0 0 - 5‖ ≤ 1 / 1000 ∧ ‖s1.getD 0 0 - 6‖ ≤ 1 / 1000 ∧ ‖s2.getD 0 0 - 200‖ ≤ 1 / 1000 := by
  obtain ⟨r, hnew, hr, sr, hl, hn, h0, h1⟩ := exists_small_ring
  have hQ0 : r.prodQ 0 = 97 := by rw [prodQ_zero, h0]; rfl
  have hQ1 : r.prodQ 1 = 97 * 193 := by rw [prodQ_succ, prodQ_zero, h0, h1]; rfl
  obtain ⟨ct0, c0s, c0⟩ := exists_trivial hr sr (show 0 < r.subs.length by omega) (fun k => if k = 0 then 5 else 0) 1
  obtain ⟨ct1, c1s, c1⟩ := exists_trivial hr sr (show 1 < r.subs.length by omega) (fun k => if k = 0 then 200 else 0) 1
  refine ⟨r, ct0, ct1, hnew, hr, c0s, c1s, fun sk S hs => ⟨c0 S, c1 S, ?_⟩⟩
  have q0 : r.qs 0 = 97 := by unfold Ring.qs; rw [h0]; rfl
  have c1' : CtEnc 4 r 1 r.qs 1 ct1 (fun u => intR _ _ S) (fun u => intR _ _ fun k => if k = 0 then 200 else 0) := c1 S
  have hbd : ∀ {l : ℕ} {c : ℤ}, 2 * |c| + 1 < r.prodQ l → Bounded r l (fun k => if k = 0 then c else 0) := by
    intro l c hc k _
    dsimp only
    split
    · exact hc
    · have := abs_nonneg c
      simp only [abs_zero]
      omega
  have hB : ∀ (c : ℤ), ∀ k < 2 ^ (0 + 1), |(((fun k => if k = 0 then c else 0 : ℕ → ℤ) (k * 2 ^ 3) : ℤ) : ℚ)| ≤ |(c : ℚ)| := by
    intro c k _
    dsimp only
    split
    · exact le_rfl
    · simp
  have hpl : (newPoly 16 2).length = r.subs.length := by rw [length_newPoly, hl]
  obtain ⟨s0, pool1, a1, a2, -, a4⟩ := C81_decryptToMsg_partial (logSlots := 0) (d := 3) hr sr (c0 S)
    (newPlaintext_ok r.n 1 1) (by omega) (hs.below (by omega)) (by rw [c0s]; norm_num) (hbd (by rw [Nat.zero_min, hQ0]; decide))
    (hB 5) (mem := List.replicate 8 0) (by norm_num) hpl
  obtain ⟨s2, pool3, e1, -, -, e4⟩ := C81_decryptToMsg_partial (logSlots := 0) (d := 3) hr sr c1'
    (newPlaintext_ok r.n 1 1) (by omega) (hs.below (by omega)) (by rw [c1s]; norm_num) (hbd (by rw [min_self, hQ1]; decide))
    (hB 200) (mem := List.replicate 8 0) (by norm_num) hpl
  have hz : min 1 (min 0 1) = 0 := rfl
  obtain ⟨s1, pool2, b1, -, -, b4⟩ := decryptToMsg_is (logSlots := 0) (d := 3) (Z := fun k => if k = 0 then 6 else 0) hr sr c1'
    (Or.inl fun u _ => le_rfl) a2 (fun u hu => by
      obtain rfl : u = 0 := by omega
      apply intR_congr
      intro k _
      split
      · rw [q0]; decide
      · rfl) (by omega) (hs.below (by omega)) (by rw [c1s]; norm_num) (hbd (by rw [hz, hQ0]; decide))
    (hB 6) (mem := List.replicate 8 0) (by norm_num) hpl
  refine ⟨s0, s1, s2, pool1, pool2, pool3, a1, b1, e1, ?_, ?_, ?_⟩
  · have := a4 0 (by norm_num)
    rw [slotVal_const, c0s] at this
    norm_num at this ⊢
    linarith
  · have := b4 0 (by norm_num)
    rw [slotVal_const, c1s] at this
    norm_num at this ⊢
    linarith
  · have := e4 0 (by norm_num)
    rw [slotVal_const, c1s] at this
    norm_num at this ⊢
    linarith

set_option maxRecDepth 1000000 in
theorem gen193_reuse : ((genSub 100 (2 * 16) 193).any fun s =>
    (s.sparseNttRow 16 2 false ([1, 0] ++ List.replicate 14 0) == List.replicate 16 1) &&
    (s.sparseNttRow 16 2 false ([1, 0] ++ List.replicate 14 1) != List.replicate 16 1)) = true := by decide +kernel

theorem ring193_reuse : ∃ r : Ring, newRing 100 16 [193] = .ok r ∧
    (r.sub 0).sparseNttRow 16 2 false ([1, 0] ++ List.replicate 14 0) = List.replicate 16 1 ∧
    (r.sub 0).sparseNttRow 16 2 false ([1, 0] ++ List.replicate 14 1) ≠ List.replicate 16 1 := by
  have h := gen193_reuse
  have hp := prime193
  have h1 : ((193 : UInt64) &&& (UInt64.ofNat (2 * 16) - 1)) = 1 := by decide +kernel
  generalize (193 : UInt64) = q at *
  cases hg : genSub 100 (2 * 16) q with
  | none => rw [hg] at h; cases h
  | some s =>
    rw [hg] at h
    obtain ⟨r1, hr1, hs1⟩ := Props.newRing_single 100 16 q s hp (by decide) h1 hg
    have e1 : r1.sub 0 = s := by unfold Ring.sub; rw [hs1]; rfl
    refine ⟨r1, hr1, ?_⟩
    rw [e1]
    simpa using h

/-- **C81 fails** for an encryptor with fewer than 8 slots that is used twice: degree 16, modulus 193, one slot, scale 1.  The message 1 is
encoded into the pool of the encryptor, correctly the first time and to something else the second time; both results
are encrypted. -/
theorem C81_encryptMsg_violated : ∃ (r : Ring), newRing 100 16 [193] = .ok r ∧ r.Valid 4 ∧
    ∀ (rP : Ring) (pk : PolyQP × PolyQP) (t t' : EncTape) (ct ct' : Ct), 2 ≤ ct.value.length → 2 ≤ ct'.value.length →
    ∃ pool1 pool2 c1 c2,
      encryptMsg r rP (encRoots r.nthRoot) (fun _ => [(1, 0)]) (List.replicate 8 0) 0 pk t [1] (newPlaintext 16 0 1) ct =
        some (pool1, c1) ∧
      encryptMsg r rP (encRoots r.nthRoot) (fun _ => [(1, 0)]) (List.replicate 8 0) 0 pk t' [1] pool1 ct' = some (pool2, c2) ∧
      encodeFFT r.nthRoot (encRoots r.nthRoot) (List.replicate 8 0) [1] 0 = some [1] ∧
      pool1.value.coeffs = [List.replicate 16 1] ∧ pool2.value.coeffs ≠ [List.replicate 16 1] := by
  obtain ⟨r, h1, ha, hb⟩ := ring193_reuse
  obtain ⟨n, hn, V, hm, -⟩ := Props.C17_newRing_valid 100 16 (by norm_num) [193] (by simp) r h1
  obtain rfl : n = 4 := Nat.pow_right_injective (le_refl 2) (show 2 ^ n = 2 ^ 4 by omega)
  have hl : 0 < r.subs.length := List.length_pos_of_ne_nil V.ne_nil
  have hq : (r.sub 0).q = 193 := by
    have : (r.sub 0).q ∈ r.moduli := List.mem_map_of_mem (Ring.sub_mem hl)
    rw [hm, List.mem_singleton] at this
    exact this
  have hroot : r.nthRoot = 32 := V.root
  have d1 : r.n = 16 := V.deg
  obtain ⟨f1, f0⟩ := fixedPoint_one hq
  have hfft : encodeFFT r.nthRoot (encRoots r.nthRoot) (List.replicate 8 0) [1] 0 = some [1] := by
    have hM : r.nthRoot / 4 = 8 := by rw [hroot]
    have hc : ∀ x : List ℂ, cSliceBitReverse 1 x = x := fun x => rfl
    have hlen : len64 1 = 1 := by decide
    unfold encodeFFT specialiFFT
    rw [hM]
    simp [hlen, ifftLayers, hc]
    rfl
  have emb : ∀ x y : UInt64, ∀ tl : Row, r.embedPoly 0 0 [(1, 0)] 1 false [x :: y :: tl] =
      [(r.sub 0).sparseNttRow 16 2 false (1 :: 0 :: tl)] := by
    intro x y tl
    have e1 : r.complexToFixedPointCRT 0 [(1, 0)] 1 [x :: y :: tl] = [1 :: 0 :: tl] := by
      simp [Ring.complexToFixedPointCRT, Ring.floatToFixedPointCRT, writeLvl, setRow, Rows.row, f1, f0]
    unfold Ring.embedPoly Ring.nttAndMontgomeryLvl
    rw [e1, hroot, if_neg (by norm_num), d1]
    simp [writeLvl, Rows.row]
  have enc : ∀ {ct : Ct} (rP : Ring) (pk : PolyQP × PolyQP) (t : EncTape) (pt : Pt), 2 ≤ ct.value.length →
      ∃ c, ckksEncrypt r rP pk t pt ct = some c := by
    intro ct rP pk t pt h
    unfold ckksEncrypt
    rw [if_neg (by omega)]
    exact ⟨_, rfl⟩
  refine ⟨r, h1, V, fun rP pk t t' ct ct' hc hc' => ?_⟩
  set p1 : Pt := ⟨⟨[List.replicate 16 1], true⟩, 1⟩ with hp1
  set p2 : Pt := ⟨⟨[(r.sub 0).sparseNttRow 16 2 false ([1, 0] ++ List.replicate 14 1)], true⟩, 1⟩ with hp2
  obtain ⟨c1, e1⟩ := enc rP pk t p1 hc
  obtain ⟨c2, e2⟩ := enc rP pk t' p2 hc'
  refine ⟨p1, p2, c1, c2, ?_, ?_, hfft, rfl, ?_⟩
  · unfold encryptMsg Ring.encodeSlots
    rw [hfft, Option.map_some, Option.bind_some]
    have : ({ newPlaintext 16 0 1 with value := ⟨r.embedPoly (newPlaintext 16 0 1).value.level 0 [(1, 0)] (newPlaintext 16 0 1).scale
        false (newPlaintext 16 0 1).value.coeffs, (newPlaintext 16 0 1).value.isNTT⟩ } : Pt) = p1 := by
      have := emb 0 0 (List.replicate 14 0)
      rw [hp1, ← ha]
      show Pt.mk ⟨r.embedPoly 0 0 [(1, 0)] 1 false [0 :: 0 :: List.replicate 14 0], true⟩ 1 = _
      rw [this]
      rfl
    rw [this, e1, Option.map_some]
  · unfold encryptMsg Ring.encodeSlots
    rw [hfft, Option.map_some, Option.bind_some]
    have : ({ p1 with value := ⟨r.embedPoly p1.value.level 0 [(1, 0)] p1.scale false p1.value.coeffs, p1.value.isNTT⟩ } : Pt) = p2 := by
      have := emb 1 1 (List.replicate 14 1)
      show Pt.mk ⟨r.embedPoly 0 0 [(1, 0)] 1 false [1 :: 1 :: List.replicate 14 1], true⟩ 1 = _
      rw [this]
      rfl
    rw [this, e2, Option.map_some]
  · intro h
    rw [hp2] at h
    exact hb (List.cons.inj h).1

/-- the hypotheses of `C81_roundtrip_partial` are met: one slot in degree 16, moduli 97, 193, 641 and 257, 353, the message `3 + 4i`
with the scale 1024, a secret and a public key with errors up to 3; the ciphertext is at level 1 -/
example : ∃ (rQ rP : Ring) (sk : PolyQP) (pk : PolyQP × PolyQP) (t : EncTape) (pool' dpool' : Pt) (ct' : Ct) (s : List ℂ),
    KeyParams 4 rQ rP ∧ rQ.moduli = [97, 193, 641] ∧
    encryptMsg rQ rP (encRoots rQ.nthRoot) (fun _ => [(3, 4)]) (List.replicate 8 0) 0 pk t [3 + 4 * Complex.I]
      (newPlaintext rQ.n 2 1024) (newCiphertext rQ.n 1 1 1) = some (pool', ct') ∧
    decryptToMsg rQ (encRoots rQ.nthRoot) Complex.I (List.replicate 8 0) (newPoly rQ.n 3) 0 sk.q ct' (newPlaintext rQ.n 2 1024) =
      some (s, dpool') ∧ ‖s.getD 0 0 - (3 + 4 * Complex.I)‖ ≤ 1 / 25 := by
  obtain ⟨rQ, rP, sr, tape, K, mQ, mP, lQ, lP, hq, q0, hsk, -⟩ := exampleRings
  have R := K.rings
  have q1 := sub_of_moduli mQ 1 193 rfl
  have p0 : rP.qs 0 = 257 := by unfold Ring.qs; rw [sub_of_moduli mP 0 257 rfl]; rfl
  have hQ1 : rQ.prodQ 1 = 97 * 193 := by
    rw [prodQ_succ, prodQ_zero, q1]
    have : (rQ.sub 0).q.toNat = 97 := q0
    rw [this]; rfl
  have hS : ∀ k, |exampleS k| ≤ 1 := by
    intro k
    unfold exampleS
    split
    · decide
    · split <;> decide
  have samp : ∀ {X : ℕ → ℤ} {l : ℕ}, l < rQ.subs.length → (∀ k, |X k| ≤ 3) → ∃ x, Sampled rQ l x X := by
    intro X l hl hX
    obtain ⟨x, hx⟩ := exists_poly R.hQ hl X
    exact ⟨x, hx.mono fun u _ => by omega, fun k _ => by have := hX k; omega⟩
  obtain ⟨e, he⟩ := samp (X := fun _ => -2) (l := rQ.subs.length - 1) (by omega) (fun _ => by decide)
  obtain ⟨aq, haq⟩ := exists_poly R.hQ (show rQ.subs.length - 1 < rQ.subs.length by omega) (fun k => 5 * k)
  obtain ⟨ap, hap⟩ := exists_poly R.hP (show rP.subs.length - 1 < rP.subs.length by omega) (fun k => 5 * k)
  have hpk := C32_publicKey K hsk he (fun k _ u hu => by
    rcases (by omega : u = 0 ∨ u = 1) with rfl | rfl
    · rw [p0]; decide
    · unfold Ring.qs; rw [sub_of_moduli mP 1 353 rfl]; decide) (a := ⟨aq, ap⟩) haq hap
    (show rQ.subs.length - 1 < rQ.subs.length by omega) (show 0 < rP.subs.length by omega)
  obtain ⟨u, hu⟩ := samp (X := exampleS) (l := rQ.subs.length - 1) (by omega) (fun k => by have := hS k; omega)
  have hn : rQ.n = 16 := R.hQ.deg
  have hg : DrawsOK rQ.n 3 (List.replicate 16 (2, false)) (fun _ => -2) := by
    refine ⟨by simp [hn], fun k hk => ?_, fun k hk => ?_⟩
    · rw [hn] at hk; revert k; decide
    · rw [hn] at hk; revert k; decide
  have ht : TapeIs (0 + 1 + 3) rQ 3 ⟨[], u, List.replicate 16 (2, false), List.replicate 16 (2, false)⟩ exampleS (fun _ => -2)
      (fun _ => -2) := ⟨fun l hl => ⟨⟨by have := hu.is.lvl; dsimp only; omega, fun i hi => hu.is.row i (by omega)⟩, hu.small⟩, hS, hg, hg⟩
  obtain ⟨pool', ct', s, dpool', a1, a2, -, a4⟩ := C81_roundtrip_partial (logSlots := 0) (d := 3) K hsk hpk hS (fun _ _ => by decide)
    (fun u hu => by have := hq u (by omega); omega) (by omega) (by omega) ht (mem := List.replicate 8 0) (mem' := List.replicate 8 0)
    (by norm_num) (by norm_num) (polypool := newPoly rQ.n 3) (by rw [length_newPoly, lQ]) (msg := [3 + 4 * Complex.I]) (by norm_num)
    (newPlaintext_ok rQ.n 2 1024) (newPlaintext_ok rQ.n 2 1024) (by omega) (by norm_num [newPlaintext])
    (Or.inr fun i hi k _ _ => by
      show Row.at ((newPoly rQ.n 3).row i) k = 0
      rw [row_newPoly (by omega)]
      simp [Row.at, List.getD, List.getElem?_replicate]
      split <;> rfl)
    (fl := fun _ => [(3, 4)]) (δ := 0) (B := 4096) (C := 4116) (fun y hy => by
      have hy : y = [3 + 4 * Complex.I] := by
        have hM : rQ.nthRoot / 4 = 8 := by rw [R.hQ.root]; norm_num
        have hc : ∀ x : List ℂ, cSliceBitReverse 1 x = x := fun x => rfl
        have hlen : len64 1 = 1 := by decide
        unfold encodeFFT specialiFFT at hy
        rw [hM] at hy
        simp [hlen, ifftLayers, hc] at hy
        exact hy.symm
      subst hy
      refine ⟨rfl, fun k hk => ?_, fun v hv => ?_, fun v hv => ?_⟩
      · obtain rfl : k = 0 := by omega
        simp
      · obtain rfl := List.mem_singleton.1 hv
        show f64 |3 * 1024| ≠ 2 ^ 64 ∧ f64 |4 * 1024| ≠ 2 ^ 64
        decide +kernel
      · obtain rfl := List.mem_singleton.1 hv
        show |(3 : ℚ) * 1024| ≤ 4096 ∧ |(4 : ℚ) * 1024| ≤ 4096
        norm_num)
    (newCiphertext_shape rQ.n 1 1 1) (by rw [p0]; norm_num [encBound])
    (by rw [show min (min 2 1) 2 = 1 from rfl, hQ1]; norm_num)
  refine ⟨rQ, rP, _, _, _, pool', dpool', ct', s, K, mQ, a1, a2, le_trans (a4 0 (by norm_num)) ?_⟩
  rw [p0]
  norm_num [encBound, newPlaintext]

end FastKsw.Props
