import Verif.Model.RandomPair
import Verif.Lemmas.RandomTernary
import Verif.Props.RandomKeys
import Verif.Props.RandomEncrypt
import Verif.Lemmas.ConstCt

/-!
# C117: the joint law of key pairs, and public-key encryption on random bytes
-/

namespace FastKsw.Props

open MeasureTheory Finset
open scoped ENNReal

/-- a ternary vector of length `N` and Hamming weight `h` -/
structure TernaryWeight (N h : ℕ) (S : ℕ → ℤ) : Prop where
  tern : ∀ k < N, S k = 0 ∨ S k = 1 ∨ S k = -1
  weight : #{k ∈ range N | S k ≠ 0} = h

theorem TernaryWeight.abs_le {N h : ℕ} {S : ℕ → ℤ} (hS : TernaryWeight N h S) {k : ℕ} (hk : k < N) : |S k| ≤ 1 := by
  rcases hS.tern k hk with e | e | e <;> simp [e]

theorem newPoly_row_length {N m j : ℕ} (hj : j < m) : (Rows.row (newPoly N m) j).length = N := by
  rw [Rows.row, newPoly, List.getD_eq_getElem _ _ (by simpa using hj), List.getElem_replicate, List.length_replicate]

/-! ## Key pairs -/

section
variable {n : ℕ} {rQ rP : Ring} (K : KeyParams n rQ rP) (hn : n < 32)
include K hn

/-- what the sampler of the secret key writes -/
theorem secret_outcome {h k : ℕ} {st st' : GaussState} {x : Rows}
    (hx : sparseStep rQ h (rQ.subs.length - 1) (newPoly rQ.n rQ.subs.length) k st = some (x, st')) :
    ∃ S : ℕ → ℤ, TernaryWeight rQ.n (min h rQ.n) S ∧ PolyIs rQ (rQ.subs.length - 1) rQ.qs x (rQ.intVec S) := by
  have lq := K.rings.lQ
  obtain ⟨prng', h3, -⟩ := sparseStep_eq.1 hx
  obtain ⟨T, t1, t2, t3⟩ := C43_sparse K.rings.hQ lq (by omega) false h (by rw [length_newPoly]; exact lq)
    (fun j hj => newPoly_row_length (by omega)) h3
  exact ⟨T, ⟨fun k _ => t1 k, t2⟩, t3.is.congr fun u _ k _ => by simp [Ring.intVec]⟩

/-- a polynomial of the sampler gives a secret key -/
theorem secretKey_is {h : ℕ} {x : Rows} {S : ℕ → ℤ} (hS : TernaryWeight rQ.n h S)
    (hx : PolyIs rQ (rQ.subs.length - 1) rQ.qs x (rQ.intVec S)) :
    (genSecretKey rQ rP x).IsMont n rQ rP (rQ.subs.length - 1) (rP.subs.length - 1) S := by
  have lq := K.rings.lQ
  have hdeg := K.rings.hQ.deg
  refine C33_secretKey K ⟨hx.mono fun u _ => by omega, fun k hk => ?_⟩ fun k hk u hu => ?_
  · have hv := K.rings.hQ.subAt (show 0 < rQ.subs.length by omega)
    have h1 := hv.prime.two_le
    have h2 := hv.odd
    have h3 := hS.abs_le hk
    have : 2 < rQ.qs 0 := by unfold Ring.qs; omega
    omega
  · have h3 := hS.abs_le (k := k) (by rw [hdeg]; exact hk)
    have h1 := (K.rings.hP.subAt hu).prime.two_le
    have : 2 ≤ rP.qs u := h1
    omega

/-- the secret key determines the ternary vector -/
theorem secretKey_iff {h k : ℕ} {st st' : GaussState} {x : Rows}
    (hx : sparseStep rQ h (rQ.subs.length - 1) (newPoly rQ.n rQ.subs.length) k st = some (x, st')) {S : ℕ → ℤ}
    (hS : TernaryWeight rQ.n (min h rQ.n) S) :
    (genSecretKey rQ rP x).IsMont n rQ rP (rQ.subs.length - 1) (rP.subs.length - 1) S ↔
      PolyIs rQ (rQ.subs.length - 1) rQ.qs x (rQ.intVec S) := by
  have lq := K.rings.lQ
  have hdeg := K.rings.hQ.deg
  obtain ⟨S', w, is'⟩ := secret_outcome K hn hx
  constructor
  · intro hs
    have h1 := isMont_unique K.rings.hQ lq (secretKey_is K hn w is') hs (Nat.zero_le _)
    have hv := K.rings.hQ.subAt (show 0 < rQ.subs.length by omega)
    refine is'.congr fun u _ t ht => ?_
    have e : S' t = S t := by
      have h2 := toR_inj (by positivity) h1 t (by rw [← hdeg]; exact ht)
      refine eq_of_residue (b := 1) ?_ (w.abs_le ht) (hS.abs_le ht) h2
      have h3 := hv.prime.two_le
      have h4 := hv.odd
      unfold Ring.qs
      omega
    simp only [Ring.intVec, e]
  · exact secretKey_is K hn hS

variable {F : Type} (O : FloatOps F) (sigma : F) {bound : UInt64} (hb0 : 2 * bound.toNat < rQ.qs 0)
  (hb : ∀ j < rQ.subs.length, bound.toNat ≤ rQ.qs j) (hb' : ∀ j < rP.subs.length, bound.toNat ≤ rP.qs j) (h : ℕ)

omit K hn in
theorem genKeyPairBytes_eq (bound : UInt64) : (fun k st => genKeyPairBytes O k rQ rP h sigma bound st) = fun k st =>
    (seqStep (sparseStep rQ h (rQ.subs.length - 1) (newPoly rQ.n rQ.subs.length)) (fun k st => readDigit O k rQ rP sigma bound
      (rQ.subs.length - 1) (rP.subs.length - 1) (⟨newPoly rQ.n rQ.subs.length, newPoly rP.n rP.subs.length⟩,
        ⟨newPoly rQ.n rQ.subs.length, newPoly rP.n rP.subs.length⟩) st) k st).map
      fun a => ((genSecretKey rQ rP a.1.1, genPublicKey rQ rP (genSecretKey rQ rP a.1.1) a.1.2.e a.1.2.a), a.2) := by
  funext k st
  rw [genKeyPairBytes, genSecretKeyBytes, seqStep, sparseStep]
  cases ternarySparse k rQ false h (rQ.subs.length - 1) st.prng (newPoly rQ.n rQ.subs.length) with
  | none => rfl
  | some a =>
    simp only [Option.map_some, Option.bind_some, genPublicKeyBytes, Option.map_map]
    rfl

include hb0 hb hb'

/-- the law of the draws, for any events of the samplers -/
theorem keyPair_step {S T : ℕ → ℤ} (hS : TernaryWeight rQ.n (min h rQ.n) S) (hT : ∀ t < rQ.n, |T t| ≤ bound.toNat) {mask : PolyQP}
    (hm : MaskOK rQ rP mask) :
    Step (fun k st => genKeyPairBytes O k rQ rP h sigma bound st)
      (fun z => z.1.IsMont n rQ rP (rQ.subs.length - 1) (rP.subs.length - 1) S ∧ PublicKeyFor n rQ rP z.2 S T ∧ z.2.2 = mask)
      (((rQ.n.choose (min h rQ.n) * 2 ^ min h rQ.n : ℕ) : ℝ≥0∞)⁻¹ *
        ((∏ t ∈ range rQ.n, gaussLaw O sigma bound (T t)) * polyMass rQ * polyMass rP)) := by
  have lq := K.rings.lQ
  have lp := K.rings.lP
  have e1 : rQ.subs.length - 1 + 1 = rQ.subs.length := by omega
  have e2 : rP.subs.length - 1 + 1 = rP.subs.length := by omega
  have hz : DigitShape (rQ.subs.length - 1) (rP.subs.length - 1) ((⟨newPoly rQ.n rQ.subs.length, newPoly rP.n rP.subs.length⟩,
      ⟨newPoly rQ.n rQ.subs.length, newPoly rP.n rP.subs.length⟩) : PolyQP × PolyQP) := by
    constructor <;> simp only [length_newPoly] <;> omega
  have h1 := readDigit_step O sigma bound (rQ := rQ) (rP := rP) (lQ := rQ.subs.length - 1) (lP := rP.subs.length - 1)
    (old := (⟨newPoly rQ.n rQ.subs.length, newPoly rP.n rP.subs.length⟩, ⟨newPoly rQ.n rQ.subs.length, newPoly rP.n rP.subs.length⟩))
    (gaussStep_step O sigma bound K.rings.hQ lq hb0 (fun j hj => hb j (by omega)) (by rw [hz.bq]; omega) hT)
    (uniStep_step K.rings.hQ lq (by rw [hz.aq]; omega) (vs := mask.q) (by rw [hm.lq]; omega) (fun j hj => hm.q j (by omega)))
    (uniStep_step K.rings.hP lp (by rw [hz.ap]; omega) (vs := mask.p) (by rw [hm.lp]; omega) (fun j hj => hm.p j (by omega)))
  rw [e1, e2] at h1
  have h0 := sparseStep_step (hw := h) K.rings.hQ hn lq (pol := newPoly rQ.n rQ.subs.length) (by rw [length_newPoly]; exact lq)
    (fun j hj => newPoly_row_length (by omega)) hS.tern hS.weight
  have h2 := (h0.seq h1).map (fun a => (genSecretKey rQ rP a.1, genPublicKey rQ rP (genSecretKey rQ rP a.1) a.2.e a.2.a))
    (B := fun z => z.1.IsMont n rQ rP (rQ.subs.length - 1) (rP.subs.length - 1) S ∧ PublicKeyFor n rQ rP z.2 S T ∧ z.2.2 = mask) (by
      rintro k st ⟨x, t⟩ st' hst hh
      obtain ⟨x', st1, t', st2, g1, g2, e⟩ := seqStep_eq.1 hh
      cases e
      have hst1 := (h0.keeps hst g1).1
      have dq : (newPoly rQ.n rQ.subs.length).drop rQ.subs.length = [] := List.drop_eq_nil_of_le (by rw [length_newPoly])
      have dp : (newPoly rP.n rP.subs.length).drop rP.subs.length = [] := List.drop_eq_nil_of_le (by rw [length_newPoly])
      dsimp only
      rw [dq, dp, List.append_nil, List.append_nil, secretKey_iff K hn g1 hS]
      exact and_congr_right fun hs => publicKey_iff K O sigma hb0 hb hb' (secretKey_is K hn hS hs) hz hst1 g2 hT)
  have := genKeyPairBytes_eq (rQ := rQ) (rP := rP) O sigma h bound
  rw [this]
  exact h2

/-- **C117 (key pairs).** `GenKeyPair` on random bytes: every triple of a ternary secret of the Hamming weight of the parameters, an error
within the bound and a reduced mask is the outcome with the probability `1 / (N choose h) 2^h` of the secret, times that of the error under the
Gaussian sampler, times the uniform probability of the mask, independently of the bytes that follow. -/
theorem C117_keyPair (pos : ℕ) (clk : UInt64) {buf : List UInt8} {ptr : ℕ} (hlen : buf.length = 1024) (hle : ptr ≤ 1024)
    (hw : ptr % 8 = 0) {S T : ℕ → ℤ} (hS : TernaryWeight rQ.n (min h rQ.n) S) (hT : ∀ t < rQ.n, |T t| ≤ bound.toNat) {mask : PolyQP}
    (hm : MaskOK rQ rP mask) {E : ℕ → Set (ℕ → UInt8)} {c : ℝ≥0∞} (hE : ∀ k, MeasurableSet (E k)) (hc : ∀ k, randomBytes (E k) = c) :
    randomBytes {s | ∃ fuel sk pk st', genKeyPairBytes O fuel rQ rP h sigma bound ⟨⟨s, pos, clk⟩, buf, ptr⟩ = some ((sk, pk), st') ∧
        (sk.IsMont n rQ rP (rQ.subs.length - 1) (rP.subs.length - 1) S ∧ PublicKeyFor n rQ rP pk S T ∧ pk.2 = mask) ∧
        (fun i => s (st'.prng.pos + i)) ∈ E st'.ptr}
      = ((rQ.n.choose (min h rQ.n) * 2 ^ min h rQ.n : ℕ) : ℝ≥0∞)⁻¹ *
          ((∏ t ∈ range rQ.n, gaussLaw O sigma bound (T t)) * polyMass rQ * polyMass rP) * c := by
  have := ((keyPair_step K hn O sigma hb0 hb hb' h hS hT hm).law pos clk hlen hle hw hE hc).2
  rw [← this, stepEvent]
  congr 1
  ext s
  constructor
  · rintro ⟨fuel, sk, pk, st', h1, h2, h3⟩
    exact ⟨fuel, (sk, pk), st', h1, h2, h3⟩
  · rintro ⟨fuel, ⟨sk, pk⟩, st', h1, h2, h3⟩
    exact ⟨fuel, sk, pk, st', h1, h2, h3⟩

/-- **C117 (key pairs).** `GenKeyPair` ends with probability one and returns a ternary secret of the Hamming weight of the parameters, and
a public key for it with an error within the bound. -/
theorem C117_keyPair_returns (hO : O.Starts sigma bound) (pos : ℕ) (clk : UInt64) {buf : List UInt8} {ptr : ℕ} (hlen : buf.length = 1024)
    (hle : ptr ≤ 1024) (hw : ptr % 8 = 0) :
    randomBytes {s | ∃ fuel sk pk st', genKeyPairBytes O fuel rQ rP h sigma bound ⟨⟨s, pos, clk⟩, buf, ptr⟩ = some ((sk, pk), st') ∧
      ∃ S T : ℕ → ℤ, TernaryWeight rQ.n (min h rQ.n) S ∧ (∀ t < rQ.n, |T t| ≤ bound.toNat) ∧
        sk.IsMont n rQ rP (rQ.subs.length - 1) (rP.subs.length - 1) S ∧ PublicKeyFor n rQ rP pk S T} = 1 := by
  have lq := K.rings.lQ
  have lp := K.rings.lP
  have hz : DigitShape (rQ.subs.length - 1) (rP.subs.length - 1) ((⟨newPoly rQ.n rQ.subs.length, newPoly rP.n rP.subs.length⟩,
      ⟨newPoly rQ.n rQ.subs.length, newPoly rP.n rP.subs.length⟩) : PolyQP × PolyQP) := by
    constructor <;> simp only [length_newPoly] <;> omega
  have h1 := readDigit_step O sigma bound (rQ := rQ) (rP := rP) (lQ := rQ.subs.length - 1) (lP := rP.subs.length - 1)
    (old := (⟨newPoly rQ.n rQ.subs.length, newPoly rP.n rP.subs.length⟩, ⟨newPoly rQ.n rQ.subs.length, newPoly rP.n rP.subs.length⟩))
    (gaussStep_top O sigma bound K.rings.hQ lq hO hb0 (fun j hj => hb j (by omega)) (by rw [hz.bq]; omega))
    (uniStep_top K.rings.hQ lq (by rw [hz.aq]; omega)) (uniStep_top K.rings.hP lp (by rw [hz.ap]; omega))
  have h0 := sparseStep_top (hw := h) K.rings.hQ hn lq (pol := newPoly rQ.n rQ.subs.length) (by rw [length_newPoly]; exact lq)
    (fun j hj => newPoly_row_length (by omega))
  have h2 := (h0.seq h1).map (fun a => (genSecretKey rQ rP a.1, genPublicKey rQ rP (genSecretKey rQ rP a.1) a.2.e a.2.a))
    (B := fun z => ∃ S T : ℕ → ℤ, TernaryWeight rQ.n (min h rQ.n) S ∧ (∀ t < rQ.n, |T t| ≤ bound.toNat) ∧
        z.1.IsMont n rQ rP (rQ.subs.length - 1) (rP.subs.length - 1) S ∧ PublicKeyFor n rQ rP z.2 S T) (by
      rintro k st ⟨x, t⟩ st' hst hh
      obtain ⟨x', st1, t', st2, g1, g2, e⟩ := seqStep_eq.1 hh
      cases e
      have hst1 := (h0.keeps hst g1).1
      obtain ⟨S, w, is'⟩ := secret_outcome K hn g1
      obtain ⟨m, l, T, b', ie⟩ := readDigit_outcome K O sigma hb0 hb hz hst1 g2
      simp only [and_self, iff_true]
      have hsk := secretKey_is K hn w is'
      exact ⟨S, T, w, b', hsk, ((publicKey_iff K O sigma hb0 hb hb' hsk hz hst1 g2 b' (mask := t.a)).2
        ⟨(written_full hz.bq).2 ⟨ie, by omega⟩, rfl, rfl⟩).1⟩)
  have e := genKeyPairBytes_eq (rQ := rQ) (rP := rP) O sigma h bound
  rw [← e] at h2
  have := (h2.law pos clk hlen hle hw (E := fun _ => Set.univ) (c := 1) (fun _ => MeasurableSet.univ) (fun _ => measure_univ)).2
  rw [mul_one, mul_one, mul_one, mul_one] at this
  rw [← this, stepEvent]
  congr 1
  ext s
  constructor
  · rintro ⟨fuel, sk, pk, st', h1, h2⟩
    exact ⟨fuel, (sk, pk), st', h1, h2, trivial⟩
  · rintro ⟨fuel, ⟨sk, pk⟩, st', h1, h2, -⟩
    exact ⟨fuel, sk, pk, st', h1, h2⟩

end

/-! ## Public-key encryption -/

/-- the draws have the values `U`, `G0`, `G1` -/
structure PkDraws.Are (r : Ring) (level : ℕ) (d : PkDraws) (U G0 G1 : ℕ → ℤ) : Prop where
  u : PolyIs r level r.qs d.u (r.intVec U)
  g0 : d.g0.map drawInt = (List.range r.n).map G0
  g1 : d.g1.map drawInt = (List.range r.n).map G1

section
variable {F : Type} (O : FloatOps F) (sigma : F) (bound : UInt64) (h : ℕ) {n : ℕ} {r : Ring} {level : ℕ} {poolQ c1 : Rows}

theorem pkDraws_eq : (fun k st => pkDraws O k r h sigma bound level poolQ c1 st) = fun k st =>
    (seqStep (seqStep (seqStep (uniStep r level c1) (sparseStep r h level poolQ))
      (fun k st => gaussCoeffs O sigma bound k r.n st.clock)) (fun k st => gaussCoeffs O sigma bound k r.n st.clock) k st).map
      fun a => (⟨a.1.1.1.1, a.1.1.1.2, a.1.1.2, a.1.2⟩, a.2) := by
  funext k st
  rw [pkDraws, seqStep, seqStep, seqStep, uniStep]
  cases uniformReadLvl k r level st.prng c1 with
  | none => rfl
  | some a =>
    simp only [Option.map_some, Option.bind_some, sparseStep]
    cases ternarySparse k r false h level a.2 poolQ with
    | none => rfl
    | some u =>
      simp only [Option.map_some, Option.bind_some]
      cases gaussCoeffs O sigma bound k r.n (GaussState.clock { st with prng := u.2 }) with
      | none => rfl
      | some g0 =>
        simp only [Option.map_some, Option.bind_some, Option.map_map]
        rfl

variable (hr : r.Valid n) (hn : n < 32) (hl : level < r.subs.length) (hp : level < poolQ.length)
  (hlen : ∀ j ≤ level, (poolQ.row j).length = r.n) (hc1 : level < c1.length)
include hr hn hl hp hlen hc1

/-- the law of the draws -/
theorem pkDraws_step {U G0 G1 : ℕ → ℤ} (hU : TernaryWeight r.n (min h r.n) U) :
    Step (fun k st => pkDraws O k r h sigma bound level poolQ c1 st) (fun d => PkDraws.Are r level d U G0 G1)
      (((r.n.choose (min h r.n) * 2 ^ min h r.n : ℕ) : ℝ≥0∞)⁻¹ * (∏ t ∈ range r.n, gaussLaw O sigma bound (G0 t)) *
        ∏ t ∈ range r.n, gaussLaw O sigma bound (G1 t)) := by
  have := ((((uniStep_top hr hl hc1).seq (sparseStep_step (hw := h) hr hn hl hp hlen hU.tern hU.weight)).seq
    (drawStep_step O sigma bound r.n G0)).seq (drawStep_step O sigma bound r.n G1)).map
      (fun a => (⟨a.1.1.1, a.1.1.2, a.1.2, a.2⟩ : PkDraws)) (B := fun d => PkDraws.Are r level d U G0 G1) (by
        intro k st x st' _ _
        constructor
        · intro H; exact ⟨⟨⟨trivial, H.u⟩, H.g0⟩, H.g1⟩
        · rintro ⟨⟨⟨-, a⟩, b⟩, c⟩; exact ⟨a, b, c⟩)
  rw [one_mul] at this
  rw [pkDraws_eq]
  exact this

/-- the draws end with probability one -/
theorem pkDraws_top (hO : O.Starts sigma bound) : Step (fun k st => pkDraws O k r h sigma bound level poolQ c1 st) (fun _ => True) 1 := by
  have := ((((uniStep_top hr hl hc1).seq (sparseStep_top (hw := h) hr hn hl hp hlen)).seq
    (drawStep_top O sigma bound r.n hO)).seq (drawStep_top O sigma bound r.n hO)).map
      (fun a => (⟨a.1.1.1, a.1.1.2, a.1.2, a.2⟩ : PkDraws)) (B := fun _ => True) (by simp)
  simp only [one_mul] at this
  rw [pkDraws_eq]
  exact this

/-- what the draws are -/
theorem pkDraws_outcome {k : ℕ} {st st' : GaussState} (hst : st.Ok) {d : PkDraws}
    (hd : pkDraws O k r h sigma bound level poolQ c1 st = some (d, st')) :
    level < d.a.length ∧ ∃ U G0 G1 : ℕ → ℤ, TernaryWeight r.n (min h r.n) U ∧ (∀ t < r.n, |G0 t| ≤ bound.toNat) ∧
      (∀ t < r.n, |G1 t| ≤ bound.toNat) ∧ PolyIs r level r.qs d.u (r.intVec U) ∧
      DrawsOK r.n bound.toNat d.g0 G0 ∧ DrawsOK r.n bound.toNat d.g1 G1 ∧
      (∀ t, G0 t = drawInt (d.g0.getD t default)) ∧ (∀ t, G1 t = drawInt (d.g1.getD t default)) := by
  have e := congrFun (congrFun (pkDraws_eq O sigma bound h (r := r) (level := level) (poolQ := poolQ) (c1 := c1)) k) st
  rw [hd] at e
  have e := e.symm
  rw [Option.map_eq_some_iff] at e
  obtain ⟨⟨⟨⟨⟨a, u⟩, g0⟩, g1⟩, st4⟩, e1, e2⟩ := e
  cases e2
  obtain ⟨x, st3, y, st5, f1, f2, e3⟩ := seqStep_eq.1 e1
  cases e3
  obtain ⟨x, st2, y, st6, f3, f4, e3⟩ := seqStep_eq.1 f1
  cases e3
  obtain ⟨x, st1, y, st7, f5, f6, e3⟩ := seqStep_eq.1 f3
  cases e3
  have o1 := ((uniStep_top hr hl hc1).keeps hst f5).1
  have o2 := ((sparseStep_top (hw := h) hr hn hl hp hlen).keeps o1 f6).1
  have o3 := ((drawStep_step O sigma bound r.n (fun _ => 0)).keeps o2 f4).1
  obtain ⟨prng', h3, -⟩ := sparseStep_eq.1 f6
  obtain ⟨T, t1, t2, t3⟩ := C43_sparse hr hl (by omega) false h hp hlen h3
  rw [uniStep, Option.map_eq_some_iff] at f5
  obtain ⟨⟨y, prng2⟩, h5, h6⟩ := f5
  cases h6
  obtain ⟨-, v, hv⟩ := C42_uniform hr hl hc1 h5
  obtain ⟨d0, b0⟩ := draws_outcome O sigma bound o2 f4
  obtain ⟨d1, b1⟩ := draws_outcome O sigma bound o3 f2
  exact ⟨by rw [hv.len]; exact hc1, T, _, _, ⟨fun k _ => t1 k, t2⟩, b0, b1, t3.is.congr fun u _ k _ => by simp [Ring.intVec], d0, d1,
    fun _ => rfl, fun _ => rfl⟩

end

section
variable {n : ℕ} {rQ rP : Ring} {F : Type} (O : FloatOps F) (sigma : F) {bound : UInt64} (h : ℕ) {pk : PolyQP × PolyQP} {pt c0 c1 : Poly}
  {m : ∀ u, Rq (2 ^ n) (rQ.qs u)} {S X : ℕ → ℤ} {poolQ : Rows} (K : KeyRings n rQ rP (min pt.level c0.level) 0) (hn : n < 32)
  (hc : c0.coeffs ≠ []) (hc1 : min pt.level c0.level < c1.coeffs.length) (hk : IsPublicKey n rQ rP (min pt.level c0.level) 0 pk S X)
  (hm : EltIs n rQ (min pt.level c0.level) rQ.qs pt.isNTT pt.coeffs m) (hb : ∀ u ≤ min pt.level c0.level, bound.toNat ≤ rQ.qs u)
  (hb0 : 2 * bound.toNat < rQ.qs 0) (hbp : bound.toNat ≤ rP.qs 0) (hp : min pt.level c0.level < poolQ.length)
  (hlen : ∀ j ≤ min pt.level c0.level, (poolQ.row j).length = rQ.n)
include K hn hc hc1 hk hm hb hb0 hbp hp hlen

/-- the ciphertext for given draws -/
theorem pkEncrypt_outcome {k : ℕ} {st st' : GaussState} (hst : st.Ok) {d : PkDraws}
    (hd : pkDraws O k rQ h sigma bound (min pt.level c0.level) poolQ c1.coeffs st = some (d, st')) {U G0 G1 : ℕ → ℤ}
    (hU : TernaryWeight rQ.n (min h rQ.n) U) (hA : PkDraws.Are rQ (min pt.level c0.level) d U G0 G1) :
    ∃ D : ℕ → ℤ, PkNoise (2 ^ n) (rP.qs 0) U X G0 G1 S D ∧
      Encrypts n rQ (min pt.level c0.level) c0.isNTT (pkEncrypt rQ rP pk d.u d.g0 d.g1 pt c0 ⟨d.a, c1.isNTT⟩)
        (fun u => intR (2 ^ n) (rQ.qs u) S) (fun u => m u + intR (2 ^ n) (rQ.qs u) D) := by
  have hdeg := K.hQ.deg
  obtain ⟨la, U', G0', G1', -, -, -, -, d0, d1, v0, v1⟩ := pkDraws_outcome O sigma bound h K.hQ hn K.lQ hp hlen hc1 hst hd
  have e0 := (draws_eq_iff d0.len G0).1 hA.g0
  have e1 := (draws_eq_iff d1.len G1).1 hA.g1
  refine C32_pkEncrypt K hc la hk hm (bound := bound.toNat) ⟨hA.u.mono fun u _ => by omega, fun k hk => ?_⟩ (fun k hk => ?_) hb hb0 hbp
    ⟨d0.len, d0.le, fun k hk => ?_⟩ ⟨d1.len, d1.le, fun k hk => ?_⟩
  · have hv := K.hQ.subAt (show 0 < rQ.subs.length from lt_of_le_of_lt (Nat.zero_le _) K.lQ)
    have h1 := hv.prime.two_le
    have h2 := hv.odd
    have h3 := hU.abs_le hk
    have : 2 < rQ.qs 0 := by unfold Ring.qs; omega
    omega
  · have h3 := hU.abs_le (k := k) (by rw [hdeg]; exact hk)
    have h1 := (K.hP.subAt K.lP).prime.two_le
    have : 2 ≤ rP.qs 0 := h1
    omega
  · rw [← e0 k hk, ← v0 k]
    exact d0.val k hk
  · rw [← e1 k hk, ← v1 k]
    exact d1.val k hk

/-- **C117 (public-key encryption).** On random bytes, every triple of a ternary polynomial of the Hamming weight of the parameters and of two
errors is drawn with the product of their probabilities, whatever the message, the key and the memory, independently of the bytes that
follow, and the ciphertext is then the message with the noise that these draws and the error of the key determine. -/
theorem C117_pkEncrypt (pos : ℕ) (clk : UInt64) {buf : List UInt8} {ptr : ℕ} (hbuf : buf.length = 1024) (hle : ptr ≤ 1024)
    (hw : ptr % 8 = 0) {U G0 G1 : ℕ → ℤ} (hU : TernaryWeight rQ.n (min h rQ.n) U) {E : ℕ → Set (ℕ → UInt8)} {c : ℝ≥0∞}
    (hE : ∀ k, MeasurableSet (E k)) (hc' : ∀ k, randomBytes (E k) = c) :
    randomBytes {x | ∃ fuel d ct st',
        pkDraws O fuel rQ h sigma bound (min pt.level c0.level) poolQ c1.coeffs ⟨⟨x, pos, clk⟩, buf, ptr⟩ = some (d, st') ∧
        pkEncryptBytes O fuel rQ rP h sigma bound poolQ pk pt c0 c1 ⟨⟨x, pos, clk⟩, buf, ptr⟩ = some (ct, st') ∧
        (PkDraws.Are rQ (min pt.level c0.level) d U G0 G1 ∧ ∃ D : ℕ → ℤ, PkNoise (2 ^ n) (rP.qs 0) U X G0 G1 S D ∧
          Encrypts n rQ (min pt.level c0.level) c0.isNTT ct (fun u => intR (2 ^ n) (rQ.qs u) S)
            (fun u => m u + intR (2 ^ n) (rQ.qs u) D)) ∧ (fun i => x (st'.prng.pos + i)) ∈ E st'.ptr}
      = ((rQ.n.choose (min h rQ.n) * 2 ^ min h rQ.n : ℕ) : ℝ≥0∞)⁻¹ * (∏ t ∈ range rQ.n, gaussLaw O sigma bound (G0 t)) *
        (∏ t ∈ range rQ.n, gaussLaw O sigma bound (G1 t)) * c := by
  rw [← ((pkDraws_step O sigma bound h K.hQ hn K.lQ hp hlen hc1 (G0 := G0) (G1 := G1) hU).law pos clk hbuf hle hw hE hc').2, stepEvent]
  congr 1
  ext x
  constructor
  · rintro ⟨fuel, d, ct, st', h1, -, ⟨h2, -⟩, h3⟩
    exact ⟨fuel, d, st', h1, h2, h3⟩
  · rintro ⟨fuel, d, st', h1, h2, h3⟩
    exact ⟨fuel, d, _, st', h1, by rw [pkEncryptBytes, h1, Option.map_some],
      ⟨h2, pkEncrypt_outcome O sigma h K hn hc hc1 hk hm hb hb0 hbp hp hlen ⟨hbuf, hle, hw⟩ h1 hU h2⟩, h3⟩

/-- **C117 (public-key encryption, round trip).** With probability one encryption ends, and if secret and error of the key are as `GenKeyPair`
makes them, decryption at any level gives the message up to an error of about `((2 N + 1) bound) / P + N + 1` per coefficient. -/
theorem C117_decrypt (hO : O.Starts sigma bound) {sk : Rows} {out : Poly} (ho : out.coeffs ≠ [])
    (hs : EltIs n rQ (min pt.level c0.level) rQ.qs true sk (fun u => 2 ^ 64 * intR (2 ^ n) (rQ.qs u) S))
    (hS : ∀ k < 2 ^ n, |S k| ≤ 1) (hX : ∀ k < 2 ^ n, |X k| ≤ bound.toNat) (pos : ℕ) (clk : UInt64) {buf : List UInt8} {ptr : ℕ}
    (hbuf : buf.length = 1024) (hle : ptr ≤ 1024) (hw : ptr % 8 = 0) :
    randomBytes {x | ∃ fuel ct st',
        pkEncryptBytes O fuel rQ rP h sigma bound poolQ pk pt c0 c1 ⟨⟨x, pos, clk⟩, buf, ptr⟩ = some (ct, st') ∧ ∃ D : ℕ → ℤ,
        (∀ k < 2 ^ n, 2 ^ 42 * (rP.qs 0 * |D k|) ≤ 2 ^ 42 * ((2 * (2 ^ n : ℕ) + 1) * bound.toNat) + ((2 ^ n : ℕ) + 1) * ((2 ^ 42 + 1) * rP.qs 0)) ∧
        EltIs n rQ (min (min pt.level c0.level) out.level) rQ.qs out.isNTT (decrypt rQ sk [ct.1, ct.2] out).coeffs
          (fun u => m u + intR (2 ^ n) (rQ.qs u) D)} = 1 := by
  have hdeg := K.hQ.deg
  have lq := K.lQ
  have := ((pkDraws_top O sigma bound h K.hQ hn K.lQ hp hlen hc1 hO).law pos clk hbuf hle hw (E := fun _ => Set.univ) (c := 1)
    (fun _ => MeasurableSet.univ) (fun _ => measure_univ)).2
  rw [mul_one] at this
  rw [← this, stepEvent]
  congr 1
  ext x
  constructor
  · rintro ⟨fuel, ct, st', h1, -⟩
    rw [pkEncryptBytes, Option.map_eq_some_iff] at h1
    obtain ⟨⟨d, st1⟩, h2, h3⟩ := h1
    exact ⟨fuel, d, st1, h2, trivial, trivial⟩
  · rintro ⟨fuel, d, st', h1, -, -⟩
    obtain ⟨-, U, G0, G1, w, b0, b1, hu, d0, d1, v0, v1⟩ := pkDraws_outcome O sigma bound h K.hQ hn lq hp hlen hc1 ⟨hbuf, hle, hw⟩ h1
    have hA : PkDraws.Are rQ (min pt.level c0.level) d U G0 G1 := ⟨hu, (draws_eq_iff d0.len G0).2 fun t _ => (v0 t).symm,
      (draws_eq_iff d1.len G1).2 fun t _ => (v1 t).symm⟩
    obtain ⟨D, hD, hE⟩ := pkEncrypt_outcome O sigma h K hn hc hc1 hk hm hb hb0 hbp hp hlen ⟨hbuf, hle, hw⟩ h1 w hA
    rw [hdeg] at b0 b1
    refine ⟨fuel, _, st', by rw [pkEncryptBytes, h1, Option.map_some], D, fun k hk' => ?_, ?_⟩
    · exact C32_noise_bound hD (fun k hk => w.abs_le (by rw [hdeg]; exact hk)) hS hX b0 b1 hk'
    · exact (C32_decrypt K.hQ K.sQ hE ho (by omega) (hs.below (by omega))).2.2

end

theorem exampleS_weight : TernaryWeight 16 (min 11 16) exampleS :=
  ⟨fun k _ => by unfold exampleS; split_ifs <;> simp, by decide +kernel⟩

/-- moduli 97, 193, 641 and 257, 353, degree 16, Hamming weight 11, `sigma = 3.2`, bound 19: the key pair with the secret of the examples, the
error `2 - t mod 5` and the mask that is constantly 5 has probability `(4368 · 2^11)⁻¹` times that of the error times the inverse of the number of
masks; generation ends with probability one; an encryption of `k ↦ 5 k` at level 1 draws the secret of the examples and these errors with
the product of the probabilities, and with probability one decrypts with an error of at most 20 -/
example : ∃ (rQ rP : Ring) (sk : PolyQP) (pk : PolyQP × PolyQP) (p : Rows), rQ.moduli = [97, 193, 641] ∧ rP.moduli = [257, 353] ∧
    EltIs 4 rQ 1 rQ.qs false p (fun u => intR _ (rQ.qs u) fun k => 5 * k) ∧
    let mask : PolyQP := ⟨List.replicate 3 (List.replicate 16 5), List.replicate 2 (List.replicate 16 5)⟩
    let st : (ℕ → UInt8) → GaussState := fun s => ⟨⟨s, 7, 0⟩, List.replicate 1024 1, 1016⟩
    let c : Poly := ⟨List.replicate 3 [7], true⟩
    let pool : Rows := List.replicate 3 (List.replicate 16 7)
    let G : ℕ → ℤ := fun t => 2 - t % 5
    let μ := ∏ t ∈ range 16, gaussLaw realOps 3.2 19 (2 - t % 5)
    randomBytes {s | ∃ fuel sk pk st', genKeyPairBytes realOps fuel rQ rP 11 3.2 19 (st s) = some ((sk, pk), st') ∧
      (sk.IsMont 4 rQ rP 2 1 exampleS ∧ PublicKeyFor 4 rQ rP pk exampleS G ∧ pk.2 = mask) ∧
        (fun i => s (st'.prng.pos + i)) ∈ (Set.univ : Set (ℕ → UInt8))}
      = ((4368 * 2 ^ 11 : ℕ) : ℝ≥0∞)⁻¹ * (μ * polyMass rQ * polyMass rP) ∧
    randomBytes {s | ∃ fuel sk pk st', genKeyPairBytes realOps fuel rQ rP 11 3.2 19 (st s) = some ((sk, pk), st') ∧
      ∃ S T : ℕ → ℤ, TernaryWeight 16 11 S ∧ (∀ t < 16, |T t| ≤ 19) ∧ sk.IsMont 4 rQ rP 2 1 S ∧ PublicKeyFor 4 rQ rP pk S T} = 1 ∧
    randomBytes {x | ∃ fuel d ct st', pkDraws realOps fuel rQ 11 3.2 19 1 pool c.coeffs (st x) = some (d, st') ∧
      pkEncryptBytes realOps fuel rQ rP 11 3.2 19 pool pk ⟨p, false⟩ c c (st x) = some (ct, st') ∧
        (PkDraws.Are rQ 1 d exampleS G G ∧ ∃ D : ℕ → ℤ, PkNoise 16 257 exampleS G G G exampleS D ∧
          Encrypts 4 rQ 1 true ct (fun u => intR _ _ exampleS) (fun u => intR _ (rQ.qs u) (fun k => 5 * k) + intR _ _ D)) ∧
        (fun i => x (st'.prng.pos + i)) ∈ (Set.univ : Set (ℕ → UInt8))}
      = ((4368 * 2 ^ 11 : ℕ) : ℝ≥0∞)⁻¹ * μ * μ ∧
    randomBytes {x | ∃ fuel ct st', pkEncryptBytes realOps fuel rQ rP 11 3.2 19 pool pk ⟨p, false⟩ c c (st x) = some (ct, st') ∧
      ∃ D : ℕ → ℤ, (∀ k < 16, |D k| < 20) ∧ EltIs 4 rQ 0 rQ.qs true (decrypt rQ sk.q [ct.1, ct.2] ⟨[[7]], true⟩).coeffs
        (fun u => intR _ (rQ.qs u) (fun k => 5 * k) + intR _ _ D)} = 1 := by
  obtain ⟨rQ, rP, sr, tape, K, m1, m2, l3, l2, hq, q0, hsk, ht⟩ := exampleRings
  have hQ := K.rings.hQ
  have hP := K.rings.hP
  have a0 := sub_of_moduli m1 0 97 rfl
  have a1 := sub_of_moduli m1 1 193 rfl
  have a2 := sub_of_moduli m1 2 641 rfl
  have b0 := sub_of_moduli m2 0 257 rfl
  have b1 := sub_of_moduli m2 1 353 rfl
  have hn : rQ.n = 16 := hQ.deg
  have hn' : rP.n = 16 := hP.deg
  have p0 : rP.qs 0 = 257 := by unfold Ring.qs; rw [b0]; rfl
  have h19 : (19 : UInt64).toNat = 19 := rfl
  have hb0 : 2 * (19 : UInt64).toNat < rQ.qs 0 := by rw [q0]; decide
  have hb : ∀ j < rQ.subs.length, (19 : UInt64).toNat ≤ rQ.qs j := fun j hj => by
    have := hq j (by omega)
    omega
  have hb' : ∀ j < rP.subs.length, (19 : UInt64).toNat ≤ rP.qs j := fun j hj => by
    unfold Ring.qs
    obtain rfl | rfl : j = 0 ∨ j = 1 := by omega
    · rw [b0]; decide
    · rw [b1]; decide
  have rep : ∀ {k j : ℕ} {x : UInt64}, j < k → Rows.row (List.replicate k (List.replicate 16 x)) j = List.replicate 16 x := fun h => by
    rw [Rows.row, List.getD_eq_getElem _ _ (by simpa using h), List.getElem_replicate]
  have hm : MaskOK rQ rP ⟨List.replicate 3 (List.replicate 16 5), List.replicate 2 (List.replicate 16 5)⟩ := by
    refine ⟨by simp [l3], by simp [l2], fun j hj => ?_, fun j hj => ?_⟩
    · rw [rep (by omega)]
      refine ⟨by rw [hn, List.length_replicate], fun x hx => ?_⟩
      rw [List.eq_of_mem_replicate hx]
      obtain rfl | rfl | rfl : j = 0 ∨ j = 1 ∨ j = 2 := by omega
      · rw [a0]; decide
      · rw [a1]; decide
      · rw [a2]; decide
    · rw [rep (by omega)]
      refine ⟨by rw [hn', List.length_replicate], fun x hx => ?_⟩
      rw [List.eq_of_mem_replicate hx]
      obtain rfl | rfl : j = 0 ∨ j = 1 := by omega
      · rw [b0]; decide
      · rw [b1]; decide
  have hT : ∀ t : ℕ, t < 16 → |(2 : ℤ) - (t : ℤ) % 5| ≤ ((19 : UInt64).toNat : ℤ) := fun t _ => by
    have : ((19 : UInt64).toNat : ℤ) = 19 := rfl
    rw [this, abs_le]
    omega
  have hch : rQ.n.choose (min 11 rQ.n) * 2 ^ min 11 rQ.n = 4368 * 2 ^ 11 := by rw [hn]; decide +kernel
  have hS : TernaryWeight rQ.n (min 11 rQ.n) exampleS := by rw [hn]; exact exampleS_weight
  obtain ⟨p, hp⟩ := exists_poly hQ (show 1 < rQ.subs.length by omega) (fun k => 5 * k)
  have hmsg := (elt_intVec hQ hp).take (m := 2) (by omega)
  have hpl : (p.take 2).length = 2 := by have := hp.lvl; simp; omega
  have hlev : (Poly.mk (p.take 2) false).level = 1 := by rw [Poly.level, hpl]
  have hmin : min (Poly.mk (p.take 2) false).level (Poly.mk (List.replicate 3 [7]) true).level = 1 := by rw [hlev]; rfl
  have hs := (elt_mont hQ (by omega) hsk.q).below (l := 1) (by omega)
  have hpk : IsPublicKey 4 rQ rP 1 0 (genPublicKey rQ rP (genSecretKey rQ rP sr) (tape 0).e (tape 0).a) exampleS (fun t => 2 - t % 5) := by
    obtain ⟨v, w, hv, hw⟩ := ht.mask 0 (by omega)
    exact C32_publicKey K hsk (ht.err 0 (by omega)) (fun k hk u hu => ht.small 0 (by omega) k hk u (by omega)) hv hw (by omega) (by omega)
  refine ⟨rQ, rP, genSecretKey rQ rP sr, genPublicKey rQ rP (genSecretKey rQ rP sr) (tape 0).e (tape 0).a, p.take 2, m1, m2, hmsg,
    ?_, ?_, ?_, ?_⟩
  · have := C117_keyPair K (by norm_num) realOps 3.2 hb0 hb hb' 11 7 0 (buf := List.replicate 1024 1) (ptr := 1016) List.length_replicate
      (by norm_num) rfl hS (T := fun t => 2 - t % 5) (by rw [hn]; exact hT) hm (E := fun _ => Set.univ) (fun _ => MeasurableSet.univ)
      (fun _ => measure_univ)
    rw [mul_one, hch, hn, l3, l2] at this
    exact this
  · have := C117_keyPair_returns K (by norm_num) realOps 3.2 hb0 hb hb' 11 (realOps_starts _ _) 7 0 (buf := List.replicate 1024 1) (ptr := 1016)
      List.length_replicate (by norm_num) rfl
    rw [hn, l3, l2] at this
    exact this
  · have := C117_pkEncrypt realOps 3.2 (bound := 19) 11 (pt := ⟨p.take 2, false⟩) (c0 := ⟨List.replicate 3 [7], true⟩)
      (c1 := ⟨List.replicate 3 [7], true⟩) (poolQ := List.replicate 3 (List.replicate 16 7)) (n := 4) (by rw [hmin]; exact K.at (by omega) (by omega))
      (by norm_num) (by simp) (by rw [hmin]; simp) (by rw [hmin]; exact hpk) (by rw [hmin]; exact hmsg)
      (fun u hu => hb u (by rw [hmin] at hu; omega)) hb0 (hb' 0 (by omega)) (by rw [hmin]; simp)
      (fun j hj => by rw [hmin] at hj; rw [rep (by omega), hn]; rfl) 7 0 (buf := List.replicate 1024 1) (ptr := 1016) List.length_replicate
      (by norm_num) rfl hS (G0 := fun t => 2 - t % 5) (G1 := fun t => 2 - t % 5) (E := fun _ => Set.univ) (fun _ => MeasurableSet.univ)
      (fun _ => measure_univ)
    rw [mul_one, hch, hmin, hn, p0] at this
    exact this
  · have := C117_decrypt realOps 3.2 (bound := 19) 11 (pt := ⟨p.take 2, false⟩) (c0 := ⟨List.replicate 3 [7], true⟩)
      (c1 := ⟨List.replicate 3 [7], true⟩) (poolQ := List.replicate 3 (List.replicate 16 7)) (n := 4) (by rw [hmin]; exact K.at (by omega) (by omega))
      (by norm_num) (by simp) (by rw [hmin]; simp) (by rw [hmin]; exact hpk) (by rw [hmin]; exact hmsg)
      (fun u hu => hb u (by rw [hmin] at hu; omega)) hb0 (hb' 0 (by omega)) (by rw [hmin]; simp)
      (fun j hj => by rw [hmin] at hj; rw [rep (by omega), hn]; rfl) (realOps_starts _ _) (sk := (genSecretKey rQ rP sr).q)
      (out := ⟨[[7]], true⟩) (by simp) (by rw [hmin]; exact hs) (fun k hk => exampleS_weight.abs_le (by simpa using hk))
      (fun k hk => hT k (by simpa using hk)) 7 0 (buf := List.replicate 1024 1) (ptr := 1016) List.length_replicate (by norm_num) rfl
    rw [hmin] at this
    refine le_antisymm prob_le_one (this.symm.le.trans (measure_mono ?_))
    rintro x ⟨fuel, ct, st', h1, D, h2, h3⟩
    refine ⟨fuel, ct, st', h1, D, fun k hk => ?_, h3⟩
    have := h2 k (by simpa using hk)
    rw [p0, h19] at this
    push_cast at this
    omega

end FastKsw.Props
