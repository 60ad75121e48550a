import Verif.Model.RandomNoP
import Verif.Props.RandomPair
import Verif.Props.EndToEndNoP

/-!
# C119: the joint law of key pairs and of public-key encryption without special primes
-/

namespace FastKsw.Props

open MeasureTheory Finset
open scoped ENNReal

/-- the secret key `S` modulo the primes of `Q` only: `2^64 S` in the NTT domain, reduced -/
def IsSecretKeyQ (n : ℕ) (r : Ring) (level : ℕ) (sk : Rows) (S : ℕ → ℤ) : Prop :=
  EltIs n r level r.qs true sk (fun u => 2 ^ 64 * intR (2 ^ n) (r.qs u) S)

/-! ## Key pairs -/

section
variable {n : ℕ} {r : Ring} (hr : r.Valid n) (sr : r.Small) (hn : n < 32)
include hr

theorem two_lt_qs {u : ℕ} (hu : u < r.subs.length) : 2 < r.qs u := by
  have hv := hr.subAt hu
  have h1 := hv.prime.two_le
  have h2 := hv.odd
  unfold Ring.qs
  omega

theorem publicKeyQ_unique {level : ℕ} (hl : level < r.subs.length) {pk : Rows × Rows} {S X Y : ℕ → ℤ} (hX : IsPublicKeyQ n r level pk S X)
    (hY : IsPublicKeyQ n r level pk S Y) {b : ℕ} (hb : 2 * b < r.qs 0) (bX : ∀ t < 2 ^ n, |X t| ≤ b) (bY : ∀ t < 2 ^ n, |Y t| ≤ b) :
    ∀ t < 2 ^ n, X t = Y t := by
  obtain ⟨b1, a1, h1, h2, h3⟩ := hX
  obtain ⟨b2, a2, h1', h2', h3'⟩ := hY
  have h4 := h3 0 (Nat.zero_le _)
  rw [← h1.val 0 (Nat.zero_le _), ← h2.val 0 (Nat.zero_le _), h1'.val 0 (Nat.zero_le _), h2'.val 0 (Nat.zero_le _),
    h3' 0 (Nat.zero_le _)] at h4
  intro t ht
  have := (hr.subAt (i := 0) (by omega)).fact
  exact (eq_of_residue hb (bY t ht) (bX t ht) (toR_inj (by positivity) h4 t ht)).symm

theorem secretKeyQ_unique {level : ℕ} (hl : level < r.subs.length) {sk : Rows} {S T : ℕ → ℤ} (hS : IsSecretKeyQ n r level sk S)
    (hT : IsSecretKeyQ n r level sk T) (bS : ∀ t < 2 ^ n, |S t| ≤ 1) (bT : ∀ t < 2 ^ n, |T t| ≤ 1) : ∀ t < 2 ^ n, S t = T t := by
  have h1 := (hS.val 0 (Nat.zero_le _)).symm.trans (hT.val 0 (Nat.zero_le _))
  have hv := hr.subAt (show 0 < r.subs.length by omega)
  have := hv.fact
  have hm : (algebraMap (ZMod (r.qs 0)) (Rq (2 ^ n) (r.qs 0))) (rinv (r.qs 0)) * 2 ^ 64 = 1 := by
    have := congrArg (algebraMap (ZMod (r.qs 0)) (Rq (2 ^ n) (r.qs 0))) (mul_rinv hv.arith.odd)
    rw [map_mul, map_pow, map_ofNat, map_one] at this
    rw [mul_comm]
    exact this
  have h2 : intR (2 ^ n) (r.qs 0) S = intR (2 ^ n) (r.qs 0) T := by
    have := congrArg ((algebraMap (ZMod (r.qs 0)) (Rq (2 ^ n) (r.qs 0))) (rinv (r.qs 0)) * ·) h1
    rwa [← mul_assoc, ← mul_assoc, hm, one_mul, one_mul] at this
  intro t ht
  have h3 := two_lt_qs hr (show 0 < r.subs.length by omega)
  exact eq_of_residue (b := 1) (by omega) (by exact_mod_cast bS t ht) (by exact_mod_cast bT t ht) (toR_inj (by positivity) h2 t ht)

include sr

/-- a sampled polynomial gives a secret key -/
theorem secretKeyQ_is {x : Rows} {S : ℕ → ℤ}
    (hx : PolyIs r (r.subs.length - 1) r.qs x (r.intVec S)) :
    PolyIs r (r.subs.length - 1) r.qs (genSecretKeyQ r x) (fun u k => r.nttVec n S u k * 2 ^ 64) := by
  have hpos := List.length_pos_of_ne_nil hr.ne_nil
  have hl : r.subs.length - 1 < r.subs.length := by omega
  have q := nttLvl_is' hr sr hl (hx.mono fun u _ => Nat.le_succ _) hx.lvl
  exact (C10_mform (hr.arithLvl hl) q.is q.is.lvl).is

/-- a sampled error and a reduced mask give a public key -/
theorem publicKeyQ_is {sk e a : Rows} {S E : ℕ → ℤ} {bound : ℕ} (hb0 : 2 * bound < r.qs 0)
    (hs : PolyIs r (r.subs.length - 1) r.qs sk (fun u k => r.nttVec n S u k * 2 ^ 64))
    (hE : ∀ t < r.n, |E t| ≤ bound) (he : PolyIs r (r.subs.length - 1) (fun u => r.qs u + 1) e (r.intVec E))
    {v : ∀ u, ℕ → ZMod (r.sub u).q.toNat} (ha : PolyIs r (r.subs.length - 1) r.qs a v) :
    IsPublicKeyQ n r (r.subs.length - 1) (genPublicKeyQ r sk e a) S E := by
  have hpos := List.length_pos_of_ne_nil hr.ne_nil
  obtain ⟨h1, b, h2, h3⟩ := C33_publicKeyQ hr sr hs (e := e) (E := E) ⟨he, fun k hk => by have := hE k hk; omega⟩ ha
  refine ⟨fun u => ofNtt (r.sub u).psi n (b u), fun u => ofNtt (r.sub u).psi n (v u), h2.eltIs hr fun u _ => by simp [Ring.eltOf],
    ?_, fun u hu => h3 u (by omega)⟩
  rw [h1]
  exact ha.eltIs hr fun u _ => by simp [Ring.eltOf]

variable {F : Type} (O : FloatOps F) (sigma : F) {bound : UInt64} (hb0 : 2 * bound.toNat < r.qs 0)
  (hb : ∀ j < r.subs.length, bound.toNat ≤ r.qs j) (h : ℕ)

omit hr sr in
theorem genKeyPairQBytes_eq (bound : UInt64) : (fun k st => genKeyPairQBytes O k r h sigma bound st) = fun k st =>
    (seqStep (seqStep (sparseStep r h (r.subs.length - 1) (newPoly r.n r.subs.length))
      (fun k st => gaussianReadLvl O k r sigma bound (r.subs.length - 1) st (newPoly r.n r.subs.length)))
      (uniStep r (r.subs.length - 1) (newPoly r.n r.subs.length)) k st).map
      fun a => ((genSecretKeyQ r a.1.1.1, genPublicKeyQ r (genSecretKeyQ r a.1.1.1) a.1.1.2 a.1.2), a.2) := by
  funext k st
  rw [genKeyPairQBytes, seqStep, seqStep, sparseStep]
  cases ternarySparse k r false h (r.subs.length - 1) st.prng (newPoly r.n r.subs.length) with
  | none => rfl
  | some a =>
    simp only [Option.map_some, Option.bind_some]
    cases gaussianReadLvl O k r sigma bound (r.subs.length - 1) { st with prng := a.2 } (newPoly r.n r.subs.length) with
    | none => rfl
    | some e =>
      simp only [Option.map_some, Option.bind_some, uniStep, Option.map_map]
      rfl

include hn

/-- what the three samplers write -/
theorem keyPairQ_outcome (hbd : ∀ j < r.subs.length, bound.toNat ≤ r.qs j) {k : ℕ} {st st' : GaussState} (hst : st.Ok) {x e a : Rows}
    (hx : seqStep (seqStep (sparseStep r h (r.subs.length - 1) (newPoly r.n r.subs.length))
      (fun k st => gaussianReadLvl O k r sigma bound (r.subs.length - 1) st (newPoly r.n r.subs.length)))
      (uniStep r (r.subs.length - 1) (newPoly r.n r.subs.length)) k st = some (((x, e), a), st')) :
    a.length = r.subs.length ∧ e.length = r.subs.length ∧ ∃ (S T : ℕ → ℤ) (v : ∀ u, ℕ → ZMod (r.sub u).q.toNat), TernaryWeight r.n (min h r.n) S ∧ (∀ t < r.n, |T t| ≤ bound.toNat) ∧
      PolyIs r (r.subs.length - 1) r.qs x (r.intVec S) ∧ PolyIs r (r.subs.length - 1) (fun u => r.qs u + 1) e (r.intVec T) ∧
      PolyIs r (r.subs.length - 1) r.qs a v := by
  have hpos := List.length_pos_of_ne_nil hr.ne_nil
  have hl : r.subs.length - 1 < r.subs.length := by omega
  have lz : r.subs.length - 1 < (newPoly r.n r.subs.length).length := by rw [length_newPoly]; exact hl
  obtain ⟨y, st2, a', st3, f1, f2, e1⟩ := seqStep_eq.1 hx
  cases e1
  obtain ⟨x', st1, e', st4, f3, f4, e2⟩ := seqStep_eq.1 f1
  cases e2
  have o1 := ((sparseStep_top (hw := h) hr hn hl lz (fun j hj => newPoly_row_length (by omega))).keeps hst f3).1
  obtain ⟨prng', h3, -⟩ := sparseStep_eq.1 f3
  obtain ⟨S, t1, t2, t3⟩ := C43_sparse hr hl (by omega) false h lz (fun j hj => newPoly_row_length (by omega)) h3
  rw [uniStep, Option.map_eq_some_iff] at f2
  obtain ⟨⟨y, prng2⟩, h5, h6⟩ := f2
  cases h6
  obtain ⟨-, v, hv⟩ := C42_uniform hr hl lz h5
  rw [gaussianReadLvl, Option.map_eq_some_iff] at f4
  obtain ⟨⟨gs, st5⟩, h7, h8⟩ := f4
  cases h8
  obtain ⟨⟨s, pos, clk⟩, buf, ptr⟩ := st1
  obtain ⟨l1, b1, -⟩ := gaussCoeffs_runs O sigma bound _ (gaussAt_clock s pos clk o1) h7
  have hg := gaussWrite_is bound (level := r.subs.length - 1) (fun j hj => hbd j (by omega)) l1 b1 (pol := newPoly r.n r.subs.length) lz
  refine ⟨by rw [hv.len, length_newPoly], by rw [hg.len, length_newPoly], S, fun t => drawInt (gs.getD t default), v, ⟨fun k _ => t1 k, t2⟩,
    fun t ht => drawInt_abs bound (b1 _ ?_), t3.is.congr fun u _ k _ => by simp [Ring.intVec], hg.is, hv.is⟩
  rw [getD_lt _ _ (by omega)]
  exact List.getElem_mem _

include hb0 hb

/-- the law of the draws -/
theorem keyPairQ_step {S T : ℕ → ℤ} (hS : TernaryWeight r.n (min h r.n) S) (hT : ∀ t < r.n, |T t| ≤ bound.toNat) {mask : Rows}
    (hml : mask.length = r.subs.length) (hm : ∀ j < r.subs.length, (mask.row j).length = r.n ∧ ∀ x ∈ mask.row j, x < (r.sub j).q) :
    Step (fun k st => genKeyPairQBytes O k r h sigma bound st)
      (fun z => IsSecretKeyQ n r (r.subs.length - 1) z.1 S ∧ IsPublicKeyQ n r (r.subs.length - 1) z.2 S T ∧ z.2.2 = mask)
      (((r.n.choose (min h r.n) * 2 ^ min h r.n : ℕ) : ℝ≥0∞)⁻¹ * (∏ t ∈ range r.n, gaussLaw O sigma bound (T t)) * polyMass r) := by
  have hpos := List.length_pos_of_ne_nil hr.ne_nil
  have hdeg := hr.deg
  have hl : r.subs.length - 1 < r.subs.length := by omega
  have e1 : r.subs.length - 1 + 1 = r.subs.length := by omega
  have lz : r.subs.length - 1 < (newPoly r.n r.subs.length).length := by rw [length_newPoly]; exact hl
  have s1 := sparseStep_step (hw := h) hr hn hl lz (fun j hj => newPoly_row_length (by omega)) hS.tern hS.weight
  have s2 := gaussStep_step O sigma bound hr hl hb0 (fun j hj => hb j (by omega)) lz hT
  have s3 := uniStep_step hr hl lz (vs := mask) (by rw [hml]; omega) (fun j hj => hm j (by omega))
  rw [e1] at s3
  have h2 := ((s1.seq s2).seq s3).map (fun a => (genSecretKeyQ r a.1.1, genPublicKeyQ r (genSecretKeyQ r a.1.1) a.1.2 a.2))
    (B := fun z => IsSecretKeyQ n r (r.subs.length - 1) z.1 S ∧ IsPublicKeyQ n r (r.subs.length - 1) z.2 S T ∧ z.2.2 = mask) (by
      rintro k st ⟨⟨x, e⟩, a⟩ st' hst hh
      obtain ⟨la, le, S', T', v, w', b', ix, ie, ia⟩ := keyPairQ_outcome hr sr hn O sigma h hb hst hh
      have dq : (newPoly r.n r.subs.length).drop r.subs.length = [] := List.drop_eq_nil_of_le (by rw [length_newPoly])
      dsimp only
      rw [dq, List.append_nil]
      have k1 := secretKeyQ_is hr sr ix
      constructor
      · rintro ⟨j1, j2, j3⟩
        have eS := secretKeyQ_unique hr hl (elt_mont hr hl k1) j1 (fun t ht => w'.abs_le (by rw [hdeg]; exact ht))
          (fun t ht => hS.abs_le (by rw [hdeg]; exact ht))
        have ix' : PolyIs r (r.subs.length - 1) r.qs x (r.intVec S) := ix.congr fun u _ t ht => by
          simp only [Ring.intVec]
          rw [eS t (by rw [← hdeg]; exact ht)]
        have k2 := publicKeyQ_is hr sr hb0 (secretKeyQ_is hr sr ix') b' ie ia
        have eT := publicKeyQ_unique hr hl k2 j2 hb0 (fun t ht => b' t (by rw [hdeg]; exact ht)) (fun t ht => hT t (by rw [hdeg]; exact ht))
        refine ⟨⟨ix', (written_full (by rw [length_newPoly, e1])).2 ⟨ie.congr fun u _ t ht => ?_, by omega⟩⟩, j3⟩
        simp only [Ring.intVec]
        rw [eT t (by rw [← hdeg]; exact ht)]
      · rintro ⟨⟨j1, j2⟩, j3⟩
        have k1' := secretKeyQ_is hr sr j1
        exact ⟨elt_mont hr hl k1', publicKeyQ_is hr sr hb0 k1' hT j2.is ia, j3⟩)
  rw [genKeyPairQBytes_eq]
  exact h2

/-- **C119 (key pairs).** `GenKeyPair` without special primes, on random bytes: every triple of a ternary secret of the Hamming weight of the
parameters, an error within the bound and a reduced mask is the outcome with the product of the probability `1 / (N choose h) 2^h` of the
secret, that of the error under the Gaussian sampler and the uniform one of the mask, independently of the bytes that follow. -/
theorem C119_keyPair (pos : ℕ) (clk : UInt64) {buf : List UInt8} {ptr : ℕ} (hlen : buf.length = 1024) (hle : ptr ≤ 1024)
    (hw : ptr % 8 = 0) {S T : ℕ → ℤ} (hS : TernaryWeight r.n (min h r.n) S) (hT : ∀ t < r.n, |T t| ≤ bound.toNat) {mask : Rows}
    (hml : mask.length = r.subs.length) (hm : ∀ j < r.subs.length, (mask.row j).length = r.n ∧ ∀ x ∈ mask.row j, x < (r.sub j).q)
    {E : ℕ → Set (ℕ → UInt8)} {c : ℝ≥0∞} (hE : ∀ k, MeasurableSet (E k)) (hc : ∀ k, randomBytes (E k) = c) :
    randomBytes {s | ∃ fuel sk pk st', genKeyPairQBytes O fuel r h sigma bound ⟨⟨s, pos, clk⟩, buf, ptr⟩ = some ((sk, pk), st') ∧
        (IsSecretKeyQ n r (r.subs.length - 1) sk S ∧ IsPublicKeyQ n r (r.subs.length - 1) pk S T ∧ pk.2 = mask) ∧
        (fun i => s (st'.prng.pos + i)) ∈ E st'.ptr}
      = ((r.n.choose (min h r.n) * 2 ^ min h r.n : ℕ) : ℝ≥0∞)⁻¹ * (∏ t ∈ range r.n, gaussLaw O sigma bound (T t)) * polyMass r * c := by
  have := ((keyPairQ_step hr sr hn O sigma hb0 hb h hS hT hml hm).law pos clk hlen hle hw hE hc).2
  rw [← this, stepEvent]
  congr 1
  ext s
  constructor
  · rintro ⟨fuel, sk, pk, st', h1, h2, h3⟩
    exact ⟨fuel, (sk, pk), st', h1, h2, h3⟩
  · rintro ⟨fuel, ⟨sk, pk⟩, st', h1, h2, h3⟩
    exact ⟨fuel, sk, pk, st', h1, h2, h3⟩

/-- **C119 (key pairs).** Without special primes too `GenKeyPair` ends with probability one and returns a ternary secret of the Hamming
weight of the parameters, and a public key for it with an error within the bound. -/
theorem C119_keyPair_returns (hO : O.Starts sigma bound) (pos : ℕ) (clk : UInt64) {buf : List UInt8} {ptr : ℕ} (hlen : buf.length = 1024)
    (hle : ptr ≤ 1024) (hw : ptr % 8 = 0) :
    randomBytes {s | ∃ fuel sk pk st', genKeyPairQBytes O fuel r h sigma bound ⟨⟨s, pos, clk⟩, buf, ptr⟩ = some ((sk, pk), st') ∧
      ∃ S T : ℕ → ℤ, TernaryWeight r.n (min h r.n) S ∧ (∀ t < r.n, |T t| ≤ bound.toNat) ∧
        IsSecretKeyQ n r (r.subs.length - 1) sk S ∧ IsPublicKeyQ n r (r.subs.length - 1) pk S T} = 1 := by
  have hpos := List.length_pos_of_ne_nil hr.ne_nil
  have hl : r.subs.length - 1 < r.subs.length := by omega
  have lz : r.subs.length - 1 < (newPoly r.n r.subs.length).length := by rw [length_newPoly]; exact hl
  have s1 := sparseStep_top (hw := h) hr hn hl lz (fun j hj => newPoly_row_length (by omega))
  have s2 := gaussStep_top O sigma bound hr hl hO hb0 (fun j hj => hb j (by omega)) lz
  have s3 := uniStep_top hr hl lz
  have h2 := ((s1.seq s2).seq s3).map (fun a => (genSecretKeyQ r a.1.1, genPublicKeyQ r (genSecretKeyQ r a.1.1) a.1.2 a.2))
    (B := fun z => ∃ S T : ℕ → ℤ, TernaryWeight r.n (min h r.n) S ∧ (∀ t < r.n, |T t| ≤ bound.toNat) ∧
        IsSecretKeyQ n r (r.subs.length - 1) z.1 S ∧ IsPublicKeyQ n r (r.subs.length - 1) z.2 S T) (by
      rintro k st ⟨⟨x, e⟩, a⟩ st' hst hh
      obtain ⟨la, le, S', T', v, w', b', ix, ie, ia⟩ := keyPairQ_outcome hr sr hn O sigma h hb hst hh
      simp only [and_self, iff_true]
      have k1 := secretKeyQ_is hr sr ix
      exact ⟨S', T', w', b', elt_mont hr hl k1, publicKeyQ_is hr sr hb0 k1 b' ie ia⟩)
  rw [← genKeyPairQBytes_eq (r := r) O sigma h bound] at h2
  have := (h2.law pos clk hlen hle hw (E := fun _ => Set.univ) (c := 1) (fun _ => MeasurableSet.univ) (fun _ => measure_univ)).2
  simp only [mul_one] at this
  rw [← this, stepEvent]
  congr 1
  ext s
  constructor
  · rintro ⟨fuel, sk, pk, st', h1, h2⟩
    exact ⟨fuel, (sk, pk), st', h1, h2, trivial⟩
  · rintro ⟨fuel, ⟨sk, pk⟩, st', h1, h2, -⟩
    exact ⟨fuel, sk, pk, st', h1, h2⟩

end

/-! ## Public-key encryption -/

/-- the uniform polynomial is as long as the memory it is written to -/
theorem pkDraws_length {F : Type} (O : FloatOps F) (sigma : F) (bound : UInt64) (h : ℕ) {n : ℕ} {r : Ring} {level : ℕ} {poolQ c1 : Rows}
    (hr : r.Valid n) (hl : level < r.subs.length) (hc1 : level < c1.length) {k : ℕ} {st st' : GaussState} {d : PkDraws}
    (hd : pkDraws O k r h sigma bound level poolQ c1 st = some (d, st')) : d.a.length = c1.length := by
  rw [pkDraws, Option.bind_eq_some_iff] at hd
  obtain ⟨a, h1, hd⟩ := hd
  rw [Option.bind_eq_some_iff] at hd
  obtain ⟨u, -, hd⟩ := hd
  rw [Option.bind_eq_some_iff] at hd
  obtain ⟨g0, -, hd⟩ := hd
  rw [Option.map_eq_some_iff] at hd
  obtain ⟨g1, -, hd⟩ := hd
  cases hd
  obtain ⟨-, v, hv⟩ := C42_uniform hr hl hc1 h1
  exact hv.len

section
variable {n : ℕ} {r : Ring} (hr : r.Valid n) (sr : r.Small) {F : Type} (O : FloatOps F) (sigma : F) {bound : UInt64} (h : ℕ)
  {pk : Rows × Rows} {pt c0 c1 : Poly}
  {m : ∀ u, Rq (2 ^ n) (r.qs u)} {S X : ℕ → ℤ} {poolQ : Rows} (hl : min pt.level c0.level < r.subs.length) (hn : n < 32)
  (hc : c0.coeffs ≠ []) (hc1 : c0.level < c1.coeffs.length) (hk : IsPublicKeyQ n r (min pt.level c0.level) pk S X)
  (hm : EltIs n r (min pt.level c0.level) r.qs pt.isNTT pt.coeffs m) (hb : ∀ u ≤ min pt.level c0.level, bound.toNat ≤ r.qs u)
  (hp : min pt.level c0.level < poolQ.length) (hlen : ∀ j ≤ min pt.level c0.level, (poolQ.row j).length = r.n)
include hr sr hl hn hc hc1 hk hm hb hp hlen

/-- the ciphertext for given draws -/
theorem pkEncryptNoP_outcome {k : ℕ} {st st' : GaussState} (hst : st.Ok) {d : PkDraws}
    (hd : pkDraws O k r h sigma bound (min pt.level c0.level) poolQ c1.coeffs st = some (d, st')) {U G0 G1 : ℕ → ℤ}
    (hA : PkDraws.Are r (min pt.level c0.level) d U G0 G1) :
    Encrypts n r (min pt.level c0.level) c0.isNTT (pkEncryptNoP r pk d.u (if c0.isNTT then (d.g1, d.g0) else (d.g0, d.g1)).1
        (if c0.isNTT then (d.g1, d.g0) else (d.g0, d.g1)).2 pt c0 ⟨d.a, c1.isNTT⟩) (fun u => intR (2 ^ n) (r.qs u) S)
      (fun u => m u + intR (2 ^ n) (r.qs u)
        (noPNoise (2 ^ n) U X (if c0.isNTT then G1 else G0) (if c0.isNTT then G0 else G1) S)) := by
  have hle : min pt.level c0.level ≤ c0.level := min_le_right _ _
  obtain ⟨la, U', G0', G1', -, -, -, -, d0, d1, v0, v1⟩ := pkDraws_outcome O sigma bound h hr hn hl hp hlen (by omega) hst hd
  have e0 := (draws_eq_iff d0.len G0).1 hA.g0
  have e1 := (draws_eq_iff d1.len G1).1 hA.g1
  have D0 : DrawsOK r.n bound.toNat d.g0 G0 := ⟨d0.len, d0.le, fun k hk => by rw [← e0 k hk, ← v0 k]; exact d0.val k hk⟩
  have D1 : DrawsOK r.n bound.toNat d.g1 G1 := ⟨d1.len, d1.le, fun k hk => by rw [← e1 k hk, ← v1 k]; exact d1.val k hk⟩
  obtain ⟨b, a, k0, k1, k2⟩ := hk
  have la' : c0.level < (Poly.mk d.a c1.isNTT).coeffs.length := by
    dsimp only
    rw [pkDraws_length O sigma bound h hr hl (by omega) hd]
    exact hc1
  have noise : ∀ A B : ℕ → ℤ, ∀ u, intR (2 ^ n) (r.qs u) U * intR (2 ^ n) (r.qs u) X + intR (2 ^ n) (r.qs u) A
      + intR (2 ^ n) (r.qs u) B * intR (2 ^ n) (r.qs u) S = intR (2 ^ n) (r.qs u) (noPNoise (2 ^ n) U X A B S) := fun A B u => by
    rw [intR_mul, intR_mul, intR_add, intR_add]
    rfl
  cases hcn : c0.isNTT with
  | true =>
    have := C32_pkEncryptNoP hr sr (pk := pk) hl hc la' k0 k1 k2 hm (hA.u.mono fun u _ => by omega) hb D1 D0
    simp only [noise] at this
    rw [hcn] at this
    simpa using this
  | false =>
    have := C32_pkEncryptNoP hr sr (pk := pk) hl hc la' k0 k1 k2 hm (hA.u.mono fun u _ => by omega) hb D0 D1
    simp only [noise] at this
    rw [hcn] at this
    simpa using this

/-- **C119 (public-key encryption).** Without special primes, on random bytes: every triple of a ternary polynomial of the Hamming weight of
the parameters and of two errors is drawn with the product of their probabilities, whatever the message, the key and the memory,
independently of the bytes that follow, and the ciphertext is then the message plus `U X + G0 + G1 S`, exactly; in the NTT domain the
roles of the two errors are exchanged. -/
theorem C119_pkEncrypt (pos : ℕ) (clk : UInt64) {buf : List UInt8} {ptr : ℕ} (hbuf : buf.length = 1024) (hle : ptr ≤ 1024)
    (hw : ptr % 8 = 0) {U G0 G1 : ℕ → ℤ} (hU : TernaryWeight r.n (min h r.n) U) {E : ℕ → Set (ℕ → UInt8)} {c : ℝ≥0∞}
    (hE : ∀ k, MeasurableSet (E k)) (hc' : ∀ k, randomBytes (E k) = c) :
    randomBytes {x | ∃ fuel d ct st',
        pkDraws O fuel r h sigma bound (min pt.level c0.level) poolQ c1.coeffs ⟨⟨x, pos, clk⟩, buf, ptr⟩ = some (d, st') ∧
        pkEncryptNoPBytes O fuel r h sigma bound poolQ pk pt c0 c1 ⟨⟨x, pos, clk⟩, buf, ptr⟩ = some (ct, st') ∧
        (PkDraws.Are r (min pt.level c0.level) d U G0 G1 ∧
          Encrypts n r (min pt.level c0.level) c0.isNTT ct (fun u => intR (2 ^ n) (r.qs u) S) (fun u => m u + intR (2 ^ n) (r.qs u)
            (noPNoise (2 ^ n) U X (if c0.isNTT then G1 else G0) (if c0.isNTT then G0 else G1) S))) ∧
        (fun i => x (st'.prng.pos + i)) ∈ E st'.ptr}
      = ((r.n.choose (min h r.n) * 2 ^ min h r.n : ℕ) : ℝ≥0∞)⁻¹ * (∏ t ∈ range r.n, gaussLaw O sigma bound (G0 t)) *
        (∏ t ∈ range r.n, gaussLaw O sigma bound (G1 t)) * c := by
  have hle' : min pt.level c0.level ≤ c0.level := min_le_right _ _
  rw [← ((pkDraws_step O sigma bound h hr hn hl hp hlen (show _ < c1.coeffs.length by omega) (G0 := G0) (G1 := G1) hU).law pos clk hbuf hle hw hE
    hc').2, stepEvent]
  congr 1
  ext x
  constructor
  · rintro ⟨fuel, d, ct, st', h1, -, ⟨h2, -⟩, h3⟩
    exact ⟨fuel, d, st', h1, h2, h3⟩
  · rintro ⟨fuel, d, st', h1, h2, h3⟩
    exact ⟨fuel, d, _, st', h1, by rw [pkEncryptNoPBytes, h1, Option.map_some],
      ⟨h2, pkEncryptNoP_outcome hr sr O sigma h hl hn hc hc1 hk hm hb hp hlen ⟨hbuf, hle, hw⟩ h1 h2⟩, h3⟩

/-- **C119 (round trip).** With probability one encryption without special primes ends, and if secret and error of the key are as `GenKeyPair`
makes them, decryption at any level gives the message up to an error of at most `(2 N + 1) bound` per coefficient. -/
theorem C119_decrypt (hO : O.Starts sigma bound) {sk : Rows} {out : Poly} (ho : out.coeffs ≠ [])
    (hs : IsSecretKeyQ n r (min pt.level c0.level) sk S)
    (hS : ∀ k < 2 ^ n, |S k| ≤ 1) (hX : ∀ k < 2 ^ n, |X k| ≤ bound.toNat) (pos : ℕ) (clk : UInt64) {buf : List UInt8} {ptr : ℕ}
    (hbuf : buf.length = 1024) (hle : ptr ≤ 1024) (hw : ptr % 8 = 0) :
    randomBytes {x | ∃ fuel ct st',
        pkEncryptNoPBytes O fuel r h sigma bound poolQ pk pt c0 c1 ⟨⟨x, pos, clk⟩, buf, ptr⟩ = some (ct, st') ∧ ∃ D : ℕ → ℤ,
        (∀ k < 2 ^ n, |D k| ≤ (2 * 2 ^ n + 1) * bound.toNat) ∧
        EltIs n r (min (min pt.level c0.level) out.level) r.qs out.isNTT (decrypt r sk [ct.1, ct.2] out).coeffs
          (fun u => m u + intR (2 ^ n) (r.qs u) D)} = 1 := by
  have hle' : min pt.level c0.level ≤ c0.level := min_le_right _ _
  have hdeg := hr.deg
  have := ((pkDraws_top O sigma bound h hr hn hl hp hlen (show _ < c1.coeffs.length by omega) hO).law pos clk hbuf hle hw
    (E := fun _ => Set.univ) (c := 1) (fun _ => MeasurableSet.univ) (fun _ => measure_univ)).2
  rw [mul_one] at this
  rw [← this, stepEvent]
  congr 1
  ext x
  constructor
  · rintro ⟨fuel, ct, st', h1, -⟩
    rw [pkEncryptNoPBytes, Option.map_eq_some_iff] at h1
    obtain ⟨⟨d, st1⟩, h2, h3⟩ := h1
    exact ⟨fuel, d, st1, h2, trivial, trivial⟩
  · rintro ⟨fuel, d, st', h1, -, -⟩
    obtain ⟨-, U, G0, G1, w, b0, b1, hu, d0, d1, v0, v1⟩ := pkDraws_outcome O sigma bound h hr hn hl hp hlen
      (show _ < c1.coeffs.length by omega) ⟨hbuf, hle, hw⟩ h1
    have hA : PkDraws.Are r (min pt.level c0.level) d U G0 G1 := ⟨hu, (draws_eq_iff d0.len G0).2 fun t _ => (v0 t).symm,
      (draws_eq_iff d1.len G1).2 fun t _ => (v1 t).symm⟩
    have hE := pkEncryptNoP_outcome hr sr O sigma h hl hn hc hc1 hk hm hb hp hlen ⟨hbuf, hle, hw⟩ h1 hA
    rw [hdeg] at b0 b1
    refine ⟨fuel, _, st', by rw [pkEncryptNoPBytes, h1, Option.map_some], _, fun k hk' => ?_,
      (C32_decrypt hr sr hE ho (by omega) (hs.below (by omega))).2.2⟩
    have wU : ∀ k < 2 ^ n, |U k| ≤ 1 := fun k hk => w.abs_le (by rw [hdeg]; exact hk)
    cases c0.isNTT with
    | true => exact_mod_cast noPNoise_le wU hS hX b1 b0 hk'
    | false => exact_mod_cast noPNoise_le wU hS hX b0 b1 hk'

end

/-- moduli 97, 193, 641, no special prime, degree 16, Hamming weight 11, `sigma = 3.2`, bound 19: the key pair with the secret of the examples,
the error `2 - t mod 5` and the mask that is constantly 5 has probability `(4368 · 2^11)⁻¹` times that of the error times the inverse of the
number of masks; generation ends with probability one; an encryption of `k ↦ 5 k` at level 1 under such a key, into a ciphertext in the NTT
domain, draws the secret of the examples, the error `2 - t mod 5` and the error 1 with the product of the probabilities; and, into a
ciphertext in the coefficient domain, with probability one it decrypts with an error of at most `33 · 19` -/
example : ∃ (r : Ring) (sk : Rows) (pk : Rows × Rows) (p : Rows), r.moduli = [97, 193, 641] ∧
    EltIs 4 r 1 r.qs false p (fun u => intR _ (r.qs u) fun k => 5 * k) ∧
    let mask : Rows := List.replicate 3 (List.replicate 16 5)
    let st : (ℕ → UInt8) → GaussState := fun s => ⟨⟨s, 7, 0⟩, List.replicate 1024 1, 1016⟩
    let c : Bool → Poly := fun b => ⟨List.replicate 3 [7], b⟩
    let pool : Rows := List.replicate 3 (List.replicate 16 7)
    let G : ℕ → ℤ := fun t => 2 - t % 5
    let μ := ∏ t ∈ range 16, gaussLaw realOps 3.2 19 (2 - t % 5)
    randomBytes {s | ∃ fuel sk pk st', genKeyPairQBytes realOps fuel r 11 3.2 19 (st s) = some ((sk, pk), st') ∧
      (IsSecretKeyQ 4 r 2 sk exampleS ∧ IsPublicKeyQ 4 r 2 pk exampleS G ∧ pk.2 = mask) ∧
        (fun i => s (st'.prng.pos + i)) ∈ (Set.univ : Set (ℕ → UInt8))}
      = ((4368 * 2 ^ 11 : ℕ) : ℝ≥0∞)⁻¹ * μ * polyMass r ∧
    randomBytes {s | ∃ fuel sk pk st', genKeyPairQBytes realOps fuel r 11 3.2 19 (st s) = some ((sk, pk), st') ∧
      ∃ S T : ℕ → ℤ, TernaryWeight 16 11 S ∧ (∀ t < 16, |T t| ≤ 19) ∧ IsSecretKeyQ 4 r 2 sk S ∧ IsPublicKeyQ 4 r 2 pk S T} = 1 ∧
    randomBytes {x | ∃ fuel d ct st', pkDraws realOps fuel r 11 3.2 19 1 pool (c true).coeffs (st x) = some (d, st') ∧
      pkEncryptNoPBytes realOps fuel r 11 3.2 19 pool pk ⟨p, false⟩ (c true) (c true) (st x) = some (ct, st') ∧
        (PkDraws.Are r 1 d exampleS G (fun _ => 1) ∧ Encrypts 4 r 1 true ct (fun u => intR _ _ exampleS)
          (fun u => intR _ (r.qs u) (fun k => 5 * k) + intR _ _ (noPNoise 16 exampleS G (fun _ => 1) G exampleS))) ∧
        (fun i => x (st'.prng.pos + i)) ∈ (Set.univ : Set (ℕ → UInt8))}
      = ((4368 * 2 ^ 11 : ℕ) : ℝ≥0∞)⁻¹ * μ * ∏ t ∈ range 16, gaussLaw realOps 3.2 19 1 ∧
    randomBytes {x | ∃ fuel ct st', pkEncryptNoPBytes realOps fuel r 11 3.2 19 pool pk ⟨p, false⟩ (c false) (c false) (st x) = some (ct, st') ∧
      ∃ D : ℕ → ℤ, (∀ k < 16, |D k| ≤ 33 * 19) ∧ EltIs 4 r 0 r.qs true (decrypt r sk [ct.1, ct.2] ⟨[[7]], true⟩).coeffs
        (fun u => intR _ (r.qs u) (fun k => 5 * k) + intR _ _ D)} = 1 := by
  obtain ⟨rQ, rP, sr, tape, K, m1, m2, l3, l2, hq, q0, hsk, ht⟩ := exampleRings
  have hQ := K.rings.hQ
  have a0 := sub_of_moduli m1 0 97 rfl
  have a1 := sub_of_moduli m1 1 193 rfl
  have a2 := sub_of_moduli m1 2 641 rfl
  have hn : rQ.n = 16 := hQ.deg
  have hb0 : 2 * (19 : UInt64).toNat < rQ.qs 0 := by rw [q0]; decide
  have hb : ∀ j < rQ.subs.length, (19 : UInt64).toNat ≤ rQ.qs j := fun j hj => by
    have := hq j (by omega)
    have : (19 : UInt64).toNat = 19 := rfl
    omega
  have rep : ∀ {k j : ℕ} {x : UInt64}, j < k → Rows.row (List.replicate k (List.replicate 16 x)) j = List.replicate 16 x := fun h => by
    rw [Rows.row, List.getD_eq_getElem _ _ (by simpa using h), List.getElem_replicate]
  have hm : ∀ j < rQ.subs.length, (Rows.row (List.replicate 3 (List.replicate 16 5)) j).length = rQ.n ∧
      ∀ x ∈ Rows.row (List.replicate 3 (List.replicate 16 5)) j, x < (rQ.sub j).q := fun j hj => by
    rw [rep (by omega)]
    refine ⟨by rw [hn, List.length_replicate], fun x hx => ?_⟩
    rw [List.eq_of_mem_replicate hx]
    obtain rfl | rfl | rfl : j = 0 ∨ j = 1 ∨ j = 2 := by omega
    · rw [a0]; decide
    · rw [a1]; decide
    · rw [a2]; decide
  have hT : ∀ t : ℕ, t < 16 → |(2 : ℤ) - (t : ℤ) % 5| ≤ ((19 : UInt64).toNat : ℤ) := fun t _ => by
    have : ((19 : UInt64).toNat : ℤ) = 19 := rfl
    rw [this, abs_le]
    omega
  have hch : rQ.n.choose (min 11 rQ.n) * 2 ^ min 11 rQ.n = 4368 * 2 ^ 11 := by rw [hn]; decide +kernel
  have hS : TernaryWeight rQ.n (min 11 rQ.n) exampleS := by rw [hn]; exact exampleS_weight
  obtain ⟨p, hp⟩ := exists_poly hQ (show 1 < rQ.subs.length by omega) (fun k => 5 * k)
  have hmsg := (elt_intVec hQ hp).take (m := 2) (by omega)
  have hpl : (p.take 2).length = 2 := by have := hp.lvl; simp; omega
  have hlev : (Poly.mk (p.take 2) false).level = 1 := by rw [Poly.level, hpl]
  have hmin : ∀ b, min (Poly.mk (p.take 2) false).level (Poly.mk (List.replicate 3 [7]) b).level = 1 := fun b => by rw [hlev]; rfl
  have hs := (elt_mont hQ (by omega) hsk.q).below (l := 1) (by omega)
  have hpk : IsPublicKeyQ 4 rQ 1 ((genPublicKey rQ rP (genSecretKey rQ rP sr) (tape 0).e (tape 0).a).1.q,
      (genPublicKey rQ rP (genSecretKey rQ rP sr) (tape 0).e (tape 0).a).2.q) exampleS (fun t => 2 - t % 5) := by
    obtain ⟨v, w, hv, hw⟩ := ht.mask 0 (by omega)
    exact (C32_publicKey K hsk (ht.err 0 (by omega)) (fun k hk u hu => ht.small 0 (by omega) k hk u (by omega)) hv hw (lP := 0)
      (by omega) (by omega)).q
  generalize ((genPublicKey rQ rP (genSecretKey rQ rP sr) (tape 0).e (tape 0).a).1.q,
    (genPublicKey rQ rP (genSecretKey rQ rP sr) (tape 0).e (tape 0).a).2.q) = pk at hpk
  refine ⟨rQ, (genSecretKey rQ rP sr).q, pk, p.take 2, m1, hmsg, ?_, ?_, ?_, ?_⟩
  rotate_left 2
  · have := C119_pkEncrypt hQ K.rings.sQ realOps 3.2 (bound := 19) 11 (pt := ⟨p.take 2, false⟩) (c0 := ⟨List.replicate 3 [7], true⟩)
      (c1 := ⟨List.replicate 3 [7], true⟩) (poolQ := List.replicate 3 (List.replicate 16 7)) (by rw [hmin]; omega)
      (by norm_num) (by simp) (by simp [Poly.level]) (by rw [hmin]; exact hpk) (by rw [hmin]; exact hmsg)
      (fun u hu => hb u (by rw [hmin] at hu; omega)) (by rw [hmin]; simp)
      (fun j hj => by rw [hmin] at hj; rw [rep (by omega), hn]; rfl) 7 0 (buf := List.replicate 1024 1) (ptr := 1016) List.length_replicate
      (by norm_num) rfl hS (G0 := fun t => 2 - t % 5) (G1 := fun _ => 1) (E := fun _ => Set.univ) (fun _ => MeasurableSet.univ)
      (fun _ => measure_univ)
    rw [mul_one, hch, hmin, hn] at this
    exact this
  · have := C119_decrypt hQ K.rings.sQ realOps 3.2 (bound := 19) 11 (pt := ⟨p.take 2, false⟩) (c0 := ⟨List.replicate 3 [7], false⟩)
      (c1 := ⟨List.replicate 3 [7], false⟩) (poolQ := List.replicate 3 (List.replicate 16 7)) (by rw [hmin]; omega)
      (by norm_num) (by simp) (by simp [Poly.level]) (by rw [hmin]; exact hpk) (by rw [hmin]; exact hmsg)
      (fun u hu => hb u (by rw [hmin] at hu; omega)) (by rw [hmin]; simp)
      (fun j hj => by rw [hmin] at hj; rw [rep (by omega), hn]; rfl) (realOps_starts _ _) (sk := (genSecretKey rQ rP sr).q)
      (out := ⟨[[7]], true⟩) (by simp) (by rw [hmin]; exact hs) (fun k hk => exampleS_weight.abs_le (by simpa using hk))
      (fun k hk => hT k (by simpa using hk)) 7 0 (buf := List.replicate 1024 1) (ptr := 1016) List.length_replicate (by norm_num) rfl
    rw [hmin] at this
    refine le_antisymm prob_le_one (this.symm.le.trans (measure_mono ?_))
    rintro x ⟨fuel, ct, st', h1, D, h2, h3⟩
    refine ⟨fuel, ct, st', h1, D, fun k hk => (h2 k (by simpa using hk)).trans (by decide), h3⟩
  · have := C119_keyPair hQ K.rings.sQ (by norm_num) realOps 3.2 hb0 hb 11 7 0 (buf := List.replicate 1024 1) (ptr := 1016)
      List.length_replicate (by norm_num) rfl hS (T := fun t => 2 - t % 5) (by rw [hn]; exact hT)
      (mask := List.replicate 3 (List.replicate 16 5)) (by simp [l3]) hm (E := fun _ => Set.univ) (fun _ => MeasurableSet.univ)
      (fun _ => measure_univ)
    rw [mul_one, hch, hn, l3] at this
    exact this
  · have := C119_keyPair_returns hQ K.rings.sQ (by norm_num) realOps 3.2 hb0 hb 11 (realOps_starts _ _) 7 0 (buf := List.replicate 1024 1)
      (ptr := 1016) List.length_replicate (by norm_num) rfl
    rw [hn, l3] at this
    exact this

end FastKsw.Props
