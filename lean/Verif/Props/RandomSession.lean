import Verif.Model.RandomSession
import Verif.Props.RandomPair
import Verif.Props.RandomFKeys
import Verif.Props.FEvaluator
import Verif.Props.Homomorphic

/-!
# C122: a product of fresh ciphertexts, on random bytes from end to end
-/

namespace FastKsw.Props

open MeasureTheory Finset
open scoped ENNReal

/-- two computations that end with probability one, the second of which uses the result of the first, but not to draw -/
theorem Step.dep {X Y Z : Type} {f : ℕ → GaussState → Option (X × GaussState)} {g0 : ℕ → GaussState → Option (Y × GaussState)}
    {g : X → ℕ → GaussState → Option (Z × GaussState)} {φ : X → Y → Z} (hf : Step f (fun _ => True) 1) (hg : Step g0 (fun _ => True) 1)
    (e : ∀ x k st, g x k st = (g0 k st).map fun b => (φ x b.1, b.2)) {B : X × Z → Prop}
    (hB : ∀ {k st x st1 z st2}, st.Ok → st1.Ok → f k st = some (x, st1) → g x k st1 = some (z, st2) → B (x, z)) :
    Step (fun k st => (f k st).bind fun a => (g a.1 k a.2).map fun b => ((a.1, b.1), b.2)) B 1 := by
  have := (hf.seq hg).map (fun a => (a.1, φ a.1 a.2)) (B := B) (by
    rintro k st ⟨x, y⟩ st' hst hh
    obtain ⟨x', st1, y', st2, g1, g2, e1⟩ := seqStep_eq.1 hh
    cases e1
    have hst1 := (hf.keeps hst g1).1
    simp only [and_self, iff_true]
    exact hB hst hst1 g1 (by rw [e, g2, Option.map_some]))
  rw [one_mul] at this
  convert this using 1
  funext k st
  rw [seqStep]
  cases f k st with
  | none => rfl
  | some a =>
    simp only [Option.bind_some, e, Option.map_map]
    rfl

section
variable {n : ℕ} {rQ rP : Ring} (K : KeyParams n rQ rP) (hn : n < 32) {F : Type} (O : FloatOps F) (sigma : F) {bound : UInt64}
  (hb0 : 2 * bound.toNat < rQ.qs 0) (hb : ∀ j < rQ.subs.length, bound.toNat ≤ rQ.qs j)
  (hb' : ∀ j < rP.subs.length, bound.toNat ≤ rP.qs j) (h : ℕ)
include K hn hb0 hb

theorem keyPair_top (hO : O.Starts sigma bound) : Step (fun k st => genKeyPairBytes O k rQ rP h sigma bound st) (fun _ => True) 1 := by
  have lq := K.rings.lQ
  have lp := K.rings.lP
  have h1 := readDigit_step O sigma bound (rQ := rQ) (rP := rP) (lQ := rQ.subs.length - 1) (lP := rP.subs.length - 1)
    (old := (⟨newPoly rQ.n rQ.subs.length, newPoly rP.n rP.subs.length⟩, ⟨newPoly rQ.n rQ.subs.length, newPoly rP.n rP.subs.length⟩))
    (gaussStep_top O sigma bound K.rings.hQ lq hO hb0 (fun j hj => hb j (by omega)) (by simp only [length_newPoly]; omega))
    (uniStep_top K.rings.hQ lq (by simp only [length_newPoly]; omega)) (uniStep_top K.rings.hP lp (by simp only [length_newPoly]; omega))
  have h0 := sparseStep_top (hw := h) K.rings.hQ hn lq (pol := newPoly rQ.n rQ.subs.length) (by rw [length_newPoly]; exact lq)
    (fun j hj => newPoly_row_length (by omega))
  have h2 := (h0.seq h1).map (fun a => (genSecretKey rQ rP a.1, genPublicKey rQ rP (genSecretKey rQ rP a.1) a.2.e a.2.a))
    (B := fun _ => True) (by simp)
  rw [genKeyPairBytes_eq]
  simpa using h2

include hb'

theorem keyPair_outcome {k : ℕ} {st st' : GaussState} (hst : st.Ok) {sk : PolyQP} {pk : PolyQP × PolyQP}
    (hk : genKeyPairBytes O k rQ rP h sigma bound st = some ((sk, pk), st')) :
    ∃ S X : ℕ → ℤ, TernaryWeight rQ.n (min h rQ.n) S ∧ (∀ t < rQ.n, |X t| ≤ bound.toNat) ∧
      sk.IsMont n rQ rP (rQ.subs.length - 1) (rP.subs.length - 1) S ∧ IsPublicKey n rQ rP (rQ.subs.length - 1) 0 pk S X := by
  have lq := K.rings.lQ
  have lp := K.rings.lP
  have hdeg := K.rings.hQ.deg
  have hz : DigitShape (rQ.subs.length - 1) (rP.subs.length - 1) ((⟨newPoly rQ.n rQ.subs.length, newPoly rP.n rP.subs.length⟩,
      ⟨newPoly rQ.n rQ.subs.length, newPoly rP.n rP.subs.length⟩) : PolyQP × PolyQP) := by
    constructor <;> simp only [length_newPoly] <;> omega
  have h0 := sparseStep_top (hw := h) K.rings.hQ hn lq (pol := newPoly rQ.n rQ.subs.length) (by rw [length_newPoly]; exact lq)
    (fun j hj => newPoly_row_length (by omega))
  have e := congrFun (congrFun (genKeyPairBytes_eq (rQ := rQ) (rP := rP) O sigma h bound) k) st
  rw [hk] at e
  have e := e.symm
  rw [Option.map_eq_some_iff] at e
  obtain ⟨⟨⟨x, t⟩, st2⟩, e1, e2⟩ := e
  obtain ⟨x', st1, t', st3, g1, g2, e3⟩ := seqStep_eq.1 e1
  cases e3
  cases e2
  have hst1 := (h0.keeps hst g1).1
  obtain ⟨S, w, is'⟩ := secret_outcome K hn g1
  obtain ⟨m, l, T, b', ie⟩ := readDigit_outcome K O sigma hb0 hb hz hst1 g2
  have hsk := secretKey_is K hn w is'
  have mq := polyIs_of_reduced (r := rQ) (level := rQ.subs.length - 1) (m := t.a.q) (by rw [m.lq]; omega) (fun j hj => m.q j (by omega))
  have mp := polyIs_of_reduced (r := rP) (level := rP.subs.length - 1) (m := t.a.p) (by rw [m.lp]; omega) (fun j hj => m.p j (by omega))
  exact ⟨S, T, w, b', hsk, C32_publicKey K hsk (e := t.e) (E := T) ⟨ie, fun k hk => by have := b' k hk; omega⟩
    (fun k hk u hu => by
      have := b' k (by rw [hdeg]; exact hk)
      have := hb' u hu
      omega) mq mp (by omega) (by omega)⟩

end

/-! ## Keys of a session -/

section
variable {fuel n : ℕ} {p : FParams} {kg : FKeyGenerator} {ksw : FKeySwitcher} (h : p.OK fuel n) (hF : p.Fits) (hn : n < 32)
  (hg : newFKeyGenerator fuel p = some kg) {F : Type} (O : FloatOps F) (sigma : F) {bound : UInt64}
  (hb0 : 2 * bound.toNat < p.ringQ.qs 0) (hb : ∀ j < p.ringQ.subs.length, bound.toNat ≤ p.ringQ.qs j)
  (hb' : ∀ j < p.ringP.subs.length, bound.toNat ≤ p.ringP.qs j) {pools : KgPools} (hpool : pools.poolQ.length = p.ringQ.subs.length)
  (hw : ℕ)

/-- what the keys of a session are: a ternary secret of the Hamming weight, a public key and a fast relinearization key for it, with errors
within the bound -/
structure SessionKeys (n : ℕ) (p : FParams) (ksw : FKeySwitcher) (hw b : ℕ) (z : (PolyQP × (PolyQP × PolyQP)) × (FSwitchingKey × FSwitchingKey))
    (S X : ℕ → ℤ) (T : ℕ → ℕ → ℤ) : Prop where
  secret : TernaryWeight p.ringQ.n (min hw p.ringQ.n) S
  errPk : ∀ t < p.ringQ.n, |X t| ≤ b
  errRlk : ∀ i < p.beta, ∀ t < p.ringQ.n, |T i t| ≤ b
  sk : z.1.1.IsMont n p.ringQ p.ringP (p.ringQ.subs.length - 1) (p.ringP.subs.length - 1) S
  pk : IsPublicKey n p.ringQ p.ringP (p.ringQ.subs.length - 1) 0 z.1.2 S X
  rlk : ∀ levelQ < p.ringQ.subs.length, FSwitches n p ksw levelQ z.2 (negPow (2 ^ n) S 2) S T

include h hF hn hg hb0 hb hb' hpool

omit hF hn hb' hpool in
theorem relinDraws_eq (x : PolyQP) (k : ℕ) (st : GaussState) : kg.genRelinKeyBytes O k sigma bound pools x st =
    (readDigits O k p.ringQ p.ringP sigma bound (p.ringQ.subs.length - 1) (p.ringP.subs.length - 1)
      (newSwitchingKey p.ringQ p.ringP (p.ringQ.subs.length - 1) (p.ringP.subs.length - 1)) st).map fun ts =>
      (kg.convertKey (genSwitchingKeyInto p.ringQ p.ringP pools.poolQ (relinPower p.ringQ x.q 1) x
        (fun i => ts.1.getD i ⟨[], ⟨[], []⟩⟩) (newSwitchingKey p.ringQ p.ringP (p.ringQ.subs.length - 1) (p.ringP.subs.length - 1))).2,
        ts.2) := by
  have K := FParams.OK.keyParams h
  have h0 := swkShape_zero K (newSwitchingKey_shape K p.ringQ p.ringP (p.ringQ.subs.length - 1) (p.ringP.subs.length - 1))
  unfold FKeyGenerator.genRelinKeyBytes genSwitchingKeyBytes
  dsimp only
  rw [(kg_ok h hg).params, h0.bq, h0.bp, Nat.add_sub_cancel, Nat.add_sub_cancel, Option.map_map]
  generalize newSwitchingKey p.ringQ p.ringP (p.ringQ.subs.length - 1) (p.ringP.subs.length - 1) = key
  cases readDigits O k p.ringQ p.ringP sigma bound (p.ringQ.subs.length - 1) (p.ringP.subs.length - 1) key st with
  | none => rfl
  | some a => simp only [Option.map_some, Function.comp_apply]

omit hF hn hg hb' hpool in
theorem relinDraws_top (hO : O.Starts sigma bound) : Step (fun k st => readDigits O k p.ringQ p.ringP sigma bound
    (p.ringQ.subs.length - 1) (p.ringP.subs.length - 1)
    (newSwitchingKey p.ringQ p.ringP (p.ringQ.subs.length - 1) (p.ringP.subs.length - 1)) st) (fun _ => True) 1 := by
  have K := FParams.OK.keyParams h
  have lq := K.rings.lQ
  have lp := K.rings.lP
  have hsh := newSwitchingKey_shape K p.ringQ p.ringP (p.ringQ.subs.length - 1) (p.ringP.subs.length - 1)
  generalize newSwitchingKey p.ringQ p.ringP (p.ringQ.subs.length - 1) (p.ringP.subs.length - 1) = key at hsh
  have hs := readDigits_step O sigma bound key
    (rQ := p.ringQ) (rP := p.ringP) (lQ := p.ringQ.subs.length - 1) (lP := p.ringP.subs.length - 1)
    (Ae := fun _ _ => True) (pe := fun _ => 1) (Aq := fun _ _ => True) (pq := fun _ => 1) (Ap := fun _ _ => True) (pp := fun _ => 1)
    (fun i hi => gaussStep_top O sigma bound K.rings.hQ lq hO hb0 (fun j hj => hb j (by omega)) (by rw [(hsh.digit i hi).bq]; omega))
    (fun i hi => uniStep_top K.rings.hQ lq (by rw [(hsh.digit i hi).aq]; omega))
    (fun i hi => uniStep_top K.rings.hP lp (by rw [(hsh.digit i hi).ap]; omega))
  rw [prod_const, mul_one, mul_one, one_pow] at hs
  exact hs.congr (B := fun _ => True) fun {k st ts st'} hst hx =>
    ⟨fun _ => ⟨(readDigits_outcome K O sigma hb0 hb _ hsh.digit hst hx).1, fun _ _ => ⟨trivial, trivial, trivial⟩⟩, fun _ => trivial⟩

theorem sessionKeys_outcome (hov : p.alpha ≤ 16 ∨ ∀ t ≤ p.levelT, 10 * p.ringT.qs t + 2 ^ 15 ≤ 2 ^ 64)
    (hk : newFKeySwitcher fuel p = some ksw) {k : ℕ} {st st1 st2 : GaussState} {x : PolyQP × (PolyQP × PolyQP)}
    {z : FSwitchingKey × FSwitchingKey} (hst : st.Ok) (hst1 : st1.Ok) (hx : genKeyPairBytes O k p.ringQ p.ringP hw sigma bound st = some (x, st1))
    (hz : kg.genRelinKeyBytes O k sigma bound pools x.1 st1 = some (z, st2)) : ∃ S X T, SessionKeys n p ksw hw bound.toNat (x, z) S X T := by
  have K := FParams.OK.keyParams h
  have hl := newKey_beta h
  have hsh := newSwitchingKey_shape K p.ringQ p.ringP (p.ringQ.subs.length - 1) (p.ringP.subs.length - 1)
  obtain ⟨sk, pk⟩ := x
  obtain ⟨S, X, w, bX, hsk, hpk⟩ := keyPair_outcome K hn O sigma hb0 hb hb' hw hst hx
  unfold FKeyGenerator.genRelinKeyBytes at hz
  dsimp only at hz
  rw [(kg_ok h hg).params, Option.map_eq_some_iff] at hz
  obtain ⟨⟨key, st3⟩, hz1, hz2⟩ := hz
  rw [Prod.mk.injEq] at hz2
  obtain ⟨rfl, rfl⟩ := hz2
  obtain ⟨⟨T, t1, o1⟩, -⟩ := switchingKey_outcome K O sigma hb0 hb hb' hsh hpool (relinPower_is K hsk.q 1) hsk hst1 hz1
  rw [hl] at t1
  exact ⟨S, X, T, w, bX, t1, hsk, hpk, fun levelQ hlQ => fswitches_of_key h hF hov hk hg hlQ o1⟩

omit hF hb' hpool in
theorem sessionKeys_of (hO : O.Starts sigma bound) {B : (PolyQP × (PolyQP × PolyQP)) × (FSwitchingKey × FSwitchingKey) → Prop}
    (out : ∀ {k st x st1 z st2}, st.Ok → st1.Ok → genKeyPairBytes O k p.ringQ p.ringP hw sigma bound st = some (x, st1) →
      kg.genRelinKeyBytes O k sigma bound pools x.1 st1 = some (z, st2) → B (x, z)) :
    Step (fun k st => kg.genKeysBytes O k hw sigma bound pools st) B 1 := by
  have K := FParams.OK.keyParams h
  have s1 := keyPair_top K hn O sigma hb0 hb hw hO
  have s2 := relinDraws_top h O sigma hb0 hb hO
  have e := fun (x : PolyQP × (PolyQP × PolyQP)) k st => relinDraws_eq h hg O sigma hb0 hb (pools := pools) x.1 k st
  generalize newSwitchingKey p.ringQ p.ringP (p.ringQ.subs.length - 1) (p.ringP.subs.length - 1) = key at s2 e
  generalize hf : (fun k st => genKeyPairBytes O k p.ringQ p.ringP hw sigma bound st) = f at s1
  generalize hr : (fun k st => readDigits O k p.ringQ p.ringP sigma bound (p.ringQ.subs.length - 1) (p.ringP.subs.length - 1) key st) = r at s2
  have s3 := s1.dep s2 (g := fun (x : PolyQP × (PolyQP × PolyQP)) k st => kg.genRelinKeyBytes O k sigma bound pools x.1 st)
    (φ := fun (x : PolyQP × (PolyQP × PolyQP)) (ts : List KeyTape) => kg.convertKey
      (genSwitchingKeyInto p.ringQ p.ringP pools.poolQ (relinPower p.ringQ x.1.q 1) x.1 (fun i => ts.getD i ⟨[], ⟨[], []⟩⟩) key).2)
    (B := B) (by subst hr; exact e) (by subst hf; exact out)
  subst hf
  unfold FKeyGenerator.genKeysBytes
  rw [(kg_ok h hg).params]
  exact s3

theorem sessionKeys_step (hO : O.Starts sigma bound)
    (hov : p.alpha ≤ 16 ∨ ∀ t ≤ p.levelT, 10 * p.ringT.qs t + 2 ^ 15 ≤ 2 ^ 64) (hk : newFKeySwitcher fuel p = some ksw) :
    Step (fun k st => kg.genKeysBytes O k hw sigma bound pools st) (fun z => ∃ S X T, SessionKeys n p ksw hw bound.toNat z S X T) 1 :=
  sessionKeys_of h hn hg O sigma hb0 hb hw hO fun hst hst1 hx hz =>
    sessionKeys_outcome h hF hn hg O sigma hb0 hb hb' hpool hw hov hk hst hst1 hx hz

end

/-! ## The joint law of the keys -/

/-- the draws behind a result -/
theorem Step.unmap {X Y : Type} {f : ℕ → GaussState → Option (X × GaussState)} {h : X → Y} {B : Y → Prop} {p : ℝ≥0∞}
    (hf : Step (fun k st => (f k st).map fun a => (h a.1, a.2)) B p) {A : X → Prop} {q : ℝ≥0∞} (h0 : Step f A q) :
    Step f (fun x => B (h x)) p := by
  have key : ∀ {k st y st'}, (f k st).map (fun a => (h a.1, a.2)) = some (y, st') ↔ ∃ x, f k st = some (x, st') ∧ h x = y := by
    intro k st y st'
    rw [Option.map_eq_some_iff]
    constructor
    · rintro ⟨⟨x, st1⟩, h1, h2⟩
      cases h2
      exact ⟨x, h1, rfl⟩
    · rintro ⟨x, h1, rfl⟩
      exact ⟨(x, st'), h1, rfl⟩
  refine ⟨h0.mono, h0.keeps, fun {k st st2 x st'} hs h1 hb => ?_, fun pos clk {buf ptr} hlen hle hw {E c} hE hc => ?_⟩
  · obtain ⟨k', y', st2', c1, c2, c3⟩ := hf.shift hs (key.2 ⟨x, h1, rfl⟩) hb
    obtain ⟨x', d1, rfl⟩ := key.1 c1
    exact ⟨k', x', st2', d1, c2, c3⟩
  · have e : stepEvent f (fun x => B (h x)) E pos clk buf ptr
        = stepEvent (fun k st => (f k st).map fun a => (h a.1, a.2)) B E pos clk buf ptr := by
      ext s
      simp only [stepEvent, Set.mem_ofPred_eq]
      constructor
      · rintro ⟨k, x, st', h1, ha, he⟩
        exact ⟨k, h x, st', key.2 ⟨x, h1, rfl⟩, ha, he⟩
      · rintro ⟨k, y, st', h1, hb, he⟩
        obtain ⟨x, h2, rfl⟩ := key.1 h1
        exact ⟨k, x, st', h2, hb, he⟩
    rw [e]
    exact hf.law pos clk hlen hle hw hE hc

/-- two computations, the second of which uses the result of the first, but not to draw, when the result of the first is determined as
far as the second uses it -/
theorem Step.depLaw {X Y Z : Type} {f : ℕ → GaussState → Option (X × GaussState)} {g0 : ℕ → GaussState → Option (Y × GaussState)}
    {g : X → ℕ → GaussState → Option (Z × GaussState)} {φ : X → Y → Z} {A : X → Prop} {R : Z → Prop} {p q : ℝ≥0∞} (hf : Step f A p)
    (h0 : Step g0 (fun _ => True) 1) (e : ∀ x k st, g x k st = (g0 k st).map fun b => (φ x b.1, b.2)) {x0 : X} (hg : Step (g x0) R q)
    (hx : ∀ {k st x st'}, st.Ok → f k st = some (x, st') → A x → φ x = φ x0) :
    Step (fun k st => (f k st).bind fun a => (g a.1 k a.2).map fun b => ((a.1, b.1), b.2)) (fun z => A z.1 ∧ R z.2) (p * q) := by
  have e0 : g x0 = fun k st => (g0 k st).map fun b => (φ x0 b.1, b.2) := by
    funext k st
    exact e x0 k st
  rw [e0] at hg
  have := (hf.seq (hg.unmap h0)).map (fun a => (a.1, φ a.1 a.2)) (B := fun z => A z.1 ∧ R z.2) (by
    rintro k st ⟨x, y⟩ st' hst hh
    obtain ⟨x', st1, y', st2, g1, g2, e1⟩ := seqStep_eq.1 hh
    cases e1
    dsimp only
    refine and_congr_right fun ha => ?_
    rw [hx hst g1 ha])
  convert this using 1
  funext k st
  rw [seqStep]
  cases f k st with
  | none => rfl
  | some a =>
    simp only [Option.bind_some, e, Option.map_map]
    rfl

section
variable {n : ℕ} {rQ rP : Ring} (K : KeyParams n rQ rP) (hn : n < 32)
include K hn

/-- the secret key is determined by the secret -/
theorem keyPair_secret {F : Type} (O : FloatOps F) (sigma : F) {bound : UInt64} {h : ℕ} {S : ℕ → ℤ} (hS : TernaryWeight rQ.n (min h rQ.n) S) {x0 : Rows}
    (h0 : PolyIs rQ (rQ.subs.length - 1) rQ.qs x0 (rQ.intVec S)) (l0 : x0.length = rQ.subs.length) {k : ℕ} {st st' : GaussState}
    {sk : PolyQP} {pk : PolyQP × PolyQP} (hk : genKeyPairBytes O k rQ rP h sigma bound st = some ((sk, pk), st'))
    (hs : sk.IsMont n rQ rP (rQ.subs.length - 1) (rP.subs.length - 1) S) : sk = genSecretKey rQ rP x0 := by
  have lq := K.rings.lQ
  have e := congrFun (congrFun (genKeyPairBytes_eq (rQ := rQ) (rP := rP) O sigma h bound) k) st
  rw [hk] at e
  have e := e.symm
  rw [Option.map_eq_some_iff] at e
  obtain ⟨⟨⟨x, t⟩, st2⟩, e1, e2⟩ := e
  obtain ⟨x', st1, t', st3, g1, g2, e3⟩ := seqStep_eq.1 e1
  cases e3
  cases e2
  have hx := (secretKey_iff K hn g1 hS).1 hs
  obtain ⟨prng', h3, -⟩ := sparseStep_eq.1 g1
  obtain ⟨T, -, -, t3⟩ := C43_sparse K.rings.hQ lq (by omega) false h (by rw [length_newPoly]; exact lq)
    (fun j hj => newPoly_row_length (by omega)) h3
  have lx := t3.len
  rw [length_newPoly] at lx
  rw [rows_ext K.rings.hQ (l := rQ.subs.length - 1) (by omega) (by omega) hx h0 (fun _ _ _ _ => rfl) lq]

end

section
variable {fuel n : ℕ} {p : FParams} {kg : FKeyGenerator} (h : p.OK fuel n) (hF : p.Fits) (hn : n < 32)
  (hg : newFKeyGenerator fuel p = some kg) {F : Type} (O : FloatOps F) (sigma : F) {bound : UInt64} (hO : O.Starts sigma bound)
  (hb0 : 2 * bound.toNat < p.ringQ.qs 0) (hb : ∀ j < p.ringQ.subs.length, bound.toNat ≤ p.ringQ.qs j)
  (hb' : ∀ j < p.ringP.subs.length, bound.toNat ≤ p.ringP.qs j) {pools : KgPools} (hpool : pools.poolQ.length = p.ringQ.subs.length)
  (hw : ℕ)
include h hF hn hg hO hb0 hb hb' hpool

/-- **C122 (joint law of the keys).** Key pair and relinearization key of one generator on random bytes: every choice of a ternary secret of
the Hamming weight, of errors within the bound and of masks, for the public key and for each digit of the relinearization key, has the
product of its probabilities, independently of the bytes that follow. -/
theorem C122_keys {S X : ℕ → ℤ} (hS : TernaryWeight p.ringQ.n (min hw p.ringQ.n) S) (hX : ∀ t < p.ringQ.n, |X t| ≤ bound.toNat) {mask : PolyQP}
    (hm : MaskOK p.ringQ p.ringP mask) {T : ℕ → ℕ → ℤ} (hT : ∀ i < p.beta, ∀ t < p.ringQ.n, |T i t| ≤ bound.toNat) {masks : ℕ → PolyQP}
    (hms : ∀ i < p.beta, MaskOK p.ringQ p.ringP (masks i)) (pos : ℕ) (clk : UInt64) {buf : List UInt8} {ptr : ℕ}
    (hlen : buf.length = 1024) (hle : ptr ≤ 1024) (hptr : ptr % 8 = 0) {E : ℕ → Set (ℕ → UInt8)} {c : ℝ≥0∞} (hE : ∀ k, MeasurableSet (E k))
    (hc : ∀ k, randomBytes (E k) = c) :
    randomBytes {s | ∃ k z st', kg.genKeysBytes O k hw sigma bound pools ⟨⟨s, pos, clk⟩, buf, ptr⟩ = some (z, st') ∧
        ((z.1.1.IsMont n p.ringQ p.ringP (p.ringQ.subs.length - 1) (p.ringP.subs.length - 1) S ∧
            PublicKeyFor n p.ringQ p.ringP z.1.2 S X ∧ z.1.2.2 = mask) ∧
          FastKeyFor n p z.2 (negPow (2 ^ n) S 2) S T masks) ∧ (fun i => s (st'.prng.pos + i)) ∈ E st'.ptr}
      = ((p.ringQ.n.choose (min hw p.ringQ.n) * 2 ^ min hw p.ringQ.n : ℕ) : ℝ≥0∞)⁻¹ *
          ((∏ t ∈ range p.ringQ.n, gaussLaw O sigma bound (X t)) * polyMass p.ringQ * polyMass p.ringP) *
          (∏ i ∈ range p.beta, (∏ t ∈ range p.ringQ.n, gaussLaw O sigma bound (T i t)) * polyMass p.ringQ * polyMass p.ringP) * c := by
  have K := FParams.OK.keyParams h
  have lq := K.rings.lQ
  obtain ⟨x, hx⟩ := exists_poly h.hQ lq S
  have hx0 := (PolyIs.take hx).1
  have l0 := (PolyIs.take hx).2
  rw [show p.ringQ.subs.length - 1 + 1 = p.ringQ.subs.length by omega] at hx0 l0
  have hsk := secretKey_is K hn hS hx0
  have s1 := keyPair_step K hn O sigma hb0 hb hb' hw hS hX hm
  have s2 := relinDraws_top h O sigma hb0 hb hO
  have e := fun (x : PolyQP × (PolyQP × PolyQP)) k st => relinDraws_eq h hg O sigma hb0 hb (pools := pools) x.1 k st
  have s4 : Step (fun k st => kg.genRelinKeyBytes O k sigma bound pools (genSecretKey p.ringQ p.ringP (x.take p.ringQ.subs.length)) st)
      (fun fk => FastKeyFor n p fk (negPow (2 ^ n) S 2) S T masks)
      (∏ i ∈ range p.beta, (∏ t ∈ range p.ringQ.n, gaussLaw O sigma bound (T i t)) * polyMass p.ringQ * polyMass p.ringP) := by
    unfold FKeyGenerator.genRelinKeyBytes
    rw [(kg_ok h hg).params]
    exact fastKey_step h hF hg O sigma hb0 hb hb' hpool (relinPower_is K hsk.q 1) hsk hT hms
  have out : ∀ {k : ℕ} {st : GaussState} {x' : PolyQP × (PolyQP × PolyQP)} {st' : GaussState}, st.Ok →
      genKeyPairBytes O k p.ringQ p.ringP hw sigma bound st = some (x', st') →
      (x'.1.IsMont n p.ringQ p.ringP (p.ringQ.subs.length - 1) (p.ringP.subs.length - 1) S ∧
        PublicKeyFor n p.ringQ p.ringP x'.2 S X ∧ x'.2.2 = mask) → x'.1 = genSecretKey p.ringQ p.ringP (x.take p.ringQ.subs.length) :=
    fun {k st x' st'} _ h1 h2 => keyPair_secret K hn O sigma hS hx0 l0 (sk := x'.1) (pk := x'.2) h1 h2.1
  generalize newSwitchingKey p.ringQ p.ringP (p.ringQ.subs.length - 1) (p.ringP.subs.length - 1) = key at s2 e
  generalize hf : (fun k st => genKeyPairBytes O k p.ringQ p.ringP hw sigma bound st) = f at s1
  generalize hr : (fun k st => readDigits O k p.ringQ p.ringP sigma bound (p.ringQ.subs.length - 1) (p.ringP.subs.length - 1) key st) = r at s2
  have s3 := s1.depLaw s2 (g := fun (x : PolyQP × (PolyQP × PolyQP)) k st => kg.genRelinKeyBytes O k sigma bound pools x.1 st)
    (φ := fun (x : PolyQP × (PolyQP × PolyQP)) (ts : List KeyTape) => kg.convertKey
      (genSwitchingKeyInto p.ringQ p.ringP pools.poolQ (relinPower p.ringQ x.1.q 1) x.1 (fun i => ts.getD i ⟨[], ⟨[], []⟩⟩) key).2)
    (x0 := (genSecretKey p.ringQ p.ringP (x.take p.ringQ.subs.length), default)) (by subst hr; exact e) s4
    (fun {k st x' st'} hst h1 h2 => by
      subst hf
      rw [out hst h1 h2])
  subst hf
  have := (s3.law pos clk hlen hle hptr hE hc).2
  unfold FKeyGenerator.genKeysBytes
  rw [(kg_ok h hg).params]
  exact this

end

/-- moduli 97, 193, 641 and 257, 353, `T = 449·577·673·769·1153`, `gamma = 2`, degree 16, Hamming weight 11, `sigma = 3.2`, bound 19, pools of ones:
the keys for one secret, the errors `2 - t mod 5` and the masks that are constantly 5 -/
example : ∃ (p : FParams) (kg : FKeyGenerator),
    newFParams 100 4 [97, 193, 641] [257, 353] [449, 577, 673, 769, 1153] 5 0x4009999999999999 2 = some p ∧ newFKeyGenerator 100 p = some kg ∧
    let pools : KgPools := ⟨List.replicate 3 [1], ⟨List.replicate 3 [1], List.replicate 2 [1]⟩⟩
    let mask : PolyQP := ⟨List.replicate 3 (List.replicate 16 5), List.replicate 2 (List.replicate 16 5)⟩
    randomBytes {s | ∃ k z st', kg.genKeysBytes realOps k 11 3.2 19 pools ⟨⟨s, 7, 0⟩, List.replicate 1024 1, 1016⟩ = some (z, st') ∧
        ((z.1.1.IsMont 4 p.ringQ p.ringP (p.ringQ.subs.length - 1) (p.ringP.subs.length - 1) exampleS ∧
            PublicKeyFor 4 p.ringQ p.ringP z.1.2 exampleS (fun t => 2 - t % 5) ∧ z.1.2.2 = mask) ∧
          FastKeyFor 4 p z.2 (negPow (2 ^ 4) exampleS 2) exampleS (fun _ t => 2 - t % 5) (fun _ => mask)) ∧
        (fun i => s (st'.prng.pos + i)) ∈ (Set.univ : Set (ℕ → UInt8))}
      = ((p.ringQ.n.choose (min 11 p.ringQ.n) * 2 ^ min 11 p.ringQ.n : ℕ) : ℝ≥0∞)⁻¹ *
          ((∏ t ∈ range p.ringQ.n, gaussLaw realOps 3.2 19 (2 - t % 5)) * polyMass p.ringQ * polyMass p.ringP) *
          (∏ _i ∈ range p.beta, (∏ t ∈ range p.ringQ.n, gaussLaw realOps 3.2 19 (2 - t % 5)) * polyMass p.ringQ * polyMass p.ringP) * 1 := by
  obtain ⟨p, ksw, kg, sr, tape, h1, h, hF, ha, lQ, hk, hg, hQ, hP, hsam, hsk, ht⟩ := exampleKeys
  have l2 : p.ringP.subs.length = 2 := ha
  have a0 := sub_of_moduli hQ 0 97 rfl
  have a1 := sub_of_moduli hQ 1 193 rfl
  have a2 := sub_of_moduli hQ 2 641 rfl
  have b0 := sub_of_moduli hP 0 257 rfl
  have b1 := sub_of_moduli hP 1 353 rfl
  have hn : p.ringQ.n = 16 := h.hQ.deg
  have hn' : p.ringP.n = 16 := h.hP.deg
  have hb : ∀ j < p.ringQ.subs.length, (19 : UInt64).toNat ≤ p.ringQ.qs j ∧ (5 : UInt64) < (p.ringQ.sub j).q := fun j hj => by
    unfold Ring.qs
    obtain rfl | rfl | rfl : j = 0 ∨ j = 1 ∨ j = 2 := by omega
    · rw [a0]; decide
    · rw [a1]; decide
    · rw [a2]; decide
  have hb' : ∀ j < p.ringP.subs.length, (19 : UInt64).toNat ≤ p.ringP.qs j ∧ (5 : UInt64) < (p.ringP.sub j).q := fun j hj => by
    unfold Ring.qs
    obtain rfl | rfl : j = 0 ∨ j = 1 := by omega
    · rw [b0]; decide
    · rw [b1]; decide
  have hb0 : 2 * (19 : UInt64).toNat < p.ringQ.qs 0 := by unfold Ring.qs; rw [a0]; decide
  have rep : ∀ {k j : ℕ} {x : UInt64}, j < k → Rows.row (List.replicate k (List.replicate 16 x)) j = List.replicate 16 x := fun h => by
    rw [Rows.row, List.getD_eq_getElem _ _ (by simpa using h), List.getElem_replicate]
  have hm : MaskOK p.ringQ p.ringP ⟨List.replicate 3 (List.replicate 16 5), List.replicate 2 (List.replicate 16 5)⟩ := by
    refine ⟨by simp [lQ], by simp [l2], fun j hj => ?_, fun j hj => ?_⟩
    · rw [rep (by omega)]
      exact ⟨by rw [hn, List.length_replicate], fun x hx => by rw [List.eq_of_mem_replicate hx]; exact (hb j hj).2⟩
    · rw [rep (by omega)]
      exact ⟨by rw [hn', List.length_replicate], fun x hx => by rw [List.eq_of_mem_replicate hx]; exact (hb' j hj).2⟩
  have hT : ∀ t < p.ringQ.n, |(2 : ℤ) - (t : ℤ) % 5| ≤ ((19 : UInt64).toNat : ℤ) := fun t _ => by
    have : ((19 : UInt64).toNat : ℤ) = 19 := rfl
    rw [this, abs_le]
    omega
  have hpool : (⟨List.replicate 3 [1], ⟨List.replicate 3 [1], List.replicate 2 [1]⟩⟩ : KgPools).poolQ.length = p.ringQ.subs.length := by
    rw [lQ]; rfl
  have hS : TernaryWeight p.ringQ.n (min 11 p.ringQ.n) exampleS := by rw [hn]; exact exampleS_weight
  exact ⟨p, kg, h1, hg, C122_keys h hF (by norm_num) hg realOps 3.2 (realOps_starts _ _) hb0 (fun j hj => (hb j hj).1) (fun j hj => (hb' j hj).1)
    hpool 11 hS (X := fun t => 2 - t % 5) hT hm (T := fun _ t => 2 - t % 5) (fun _ _ => hT) (masks := fun _ => _) (fun _ _ => hm) 7 0
    List.length_replicate (by norm_num) rfl (E := fun _ => Set.univ) (fun _ => MeasurableSet.univ) (fun _ => measure_univ)⟩

/-! ## Encryption -/

section
variable {n : ℕ} {rQ rP : Ring} {F : Type} (O : FloatOps F) (sigma : F) {bound : UInt64} (h : ℕ) {pk : PolyQP × PolyQP} {pt c0 c1 : Poly}
  {m : ∀ u, Rq (2 ^ n) (rQ.qs u)} {S X : ℕ → ℤ} {poolQ : Rows} (K : KeyRings n rQ rP (min pt.level c0.level) 0) (hn : n < 32)
  (hc : c0.coeffs ≠ []) (hc1 : min pt.level c0.level < c1.coeffs.length) (hk : IsPublicKey n rQ rP (min pt.level c0.level) 0 pk S X)
  (hm : EltIs n rQ (min pt.level c0.level) rQ.qs pt.isNTT pt.coeffs m) (hb : ∀ u ≤ min pt.level c0.level, bound.toNat ≤ rQ.qs u)
  (hb0 : 2 * bound.toNat < rQ.qs 0) (hbp : bound.toNat ≤ rP.qs 0) (hp : min pt.level c0.level < poolQ.length)
  (hlen : ∀ j ≤ min pt.level c0.level, (poolQ.row j).length = rQ.n)
include K hn hc hc1 hk hm hb hb0 hbp hp hlen

theorem pkEncrypt_step (hO : O.Starts sigma bound) (hS : ∀ k < 2 ^ n, |S k| ≤ 1) (hX : ∀ k < 2 ^ n, |X k| ≤ bound.toNat) :
    Step (fun k st => pkEncryptBytes O k rQ rP h sigma bound poolQ pk pt c0 c1 st) (fun ct => ∃ D : ℕ → ℤ,
      (∀ k < 2 ^ n, 2 ^ 42 * (rP.qs 0 * |D k|) ≤ 2 ^ 42 * ((2 * (2 ^ n : ℕ) + 1) * bound.toNat) + ((2 ^ n : ℕ) + 1) * ((2 ^ 42 + 1) * rP.qs 0)) ∧
      Encrypts n rQ (min pt.level c0.level) c0.isNTT ct (fun u => intR (2 ^ n) (rQ.qs u) S)
        (fun u => m u + intR (2 ^ n) (rQ.qs u) D)) 1 := by
  have hdeg := K.hQ.deg
  refine (pkDraws_top O sigma bound h K.hQ hn K.lQ hp hlen hc1 hO).map
    (fun d => pkEncrypt rQ rP pk d.u d.g0 d.g1 pt c0 ⟨d.a, c1.isNTT⟩) fun {k st d st'} hst h1 => iff_true_right trivial |>.2 ?_
  obtain ⟨-, U, G0, G1, w, b0, b1, hu, d0, d1, v0, v1⟩ := pkDraws_outcome O sigma bound h K.hQ hn K.lQ hp hlen hc1 hst h1
  have hA : PkDraws.Are rQ (min pt.level c0.level) d U G0 G1 := ⟨hu, (draws_eq_iff d0.len G0).2 fun t _ => (v0 t).symm,
    (draws_eq_iff d1.len G1).2 fun t _ => (v1 t).symm⟩
  obtain ⟨D, hD, hE⟩ := pkEncrypt_outcome O sigma h K hn hc hc1 hk hm hb hb0 hbp hp hlen hst h1 w hA
  rw [hdeg] at b0 b1
  exact ⟨D, fun k hk' => C32_noise_bound hD (fun k hk => w.abs_le (by rw [hdeg]; exact hk)) hS hX b0 b1 hk', hE⟩

end

/-- `MulRelin` with any key that switches from `s^2` to `s` -/
theorem mulRelin_switches {fuel n : ℕ} {p : FParams} {ev : FEvaluator} {pool : Ref} (h : p.OK fuel n)
    (hev : newFEvaluator fuel p pool = some ev) {S : ℕ → ℤ} {e : ℕ → ℕ → ℤ} {rlk : FSwitchingKey × FSwitchingKey} {H : Heap}
    {ct0 ct1 out : Ref} {deg l0 l1 lo : ℕ} {x y : ∀ u, Rq (2 ^ n) (p.ringQ.qs u)} {A B : ℕ → ℕ}
    (h0 : CtEnc n p.ringQ l0 A 1 (H ct0) (fun u => intR _ _ S) x) (h1 : CtEnc n p.ringQ l1 B 1 (H ct1) (fun u => intR _ _ S) y)
    (ho : CtShape deg lo (H out)) (hdeg : 1 ≤ deg) {level : ℕ} (hlev : level = min (min l0 l1) lo) (hl : level < p.ringQ.subs.length)
    (hsw : FSwitches n p ev.ksw level rlk (negPow (2 ^ n) S 2) S e) :
    ∃ H', ev.mulRelin H ct0 ct1 rlk out = some H' ∧ (∀ b ≠ out, H' b = H b) ∧
      (H' out).scale = f64 ((H ct0).scale * (H ct1).scale) ∧ ∃ a d0 d1 E,
      KeySwitched n p.ringQ p.ringP level (p.alpha - 1) a d0 d1 (negPow (2 ^ n) S 2) S e E ∧
      CtEnc n p.ringQ level p.ringQ.qs 1 (H' out) (fun u => intR _ _ S) (fun u => x u * y u + intR _ _ E) := by
  obtain ⟨hr, hk⟩ := newFEvaluator_eq hev
  obtain ⟨x', h0, hx⟩ := h0
  obtain ⟨y', h1, hy⟩ := h1
  unfold FEvaluator.mulRelin
  clear hev
  obtain ⟨⟨rQ, ks, k0, k1, cp⟩, ksw⟩ := ev
  dsimp only at hr
  subst hr
  obtain ⟨H1, m1, m2, m3, m4, z0, z1, z2⟩ := mul_is (ev := ⟨p.ringQ, ks, k0, k1, cp⟩) h.hQ h0.any h1.any ho hdeg hlev hl
  obtain ⟨c', t1, t2, d0, d1, E, hE, hc⟩ := relinTail_is (ev := ⟨⟨p.ringQ, ks, k0, k1, cp⟩, ksw⟩) h rfl hl hsw m2 (by omega)
    z0 z1 z2
  rw [m1, Option.bind_some, t1, Option.map_some]
  refine ⟨_, rfl, fun b hb => by rw [Heap.set_ne _ _ _ _ hb, m4 b hb], by rw [Heap.set_self, t2, m3], _, d0, d1, E, hE, _,
    by rw [Heap.set_self]; exact hc, fun u hu => ?_⟩
  have hrel := hE.rel u hu
  have e0 := hx u (by omega)
  have e1 := hy u (by omega)
  rw [sum_range_succ, sum_range_one, pow_zero, pow_one, mul_one] at e0 e1
  rw [intR_negPow_two (by positivity)] at hrel
  rw [sum_range_succ, sum_range_one, if_pos rfl, if_neg (by omega)]
  dsimp only at hrel ⊢
  rw [← e0, ← e1]
  linear_combination hrel

/-! ## The session -/

theorem encBound_of {n b P : ℕ} (hP : 0 < P) {D : ℕ → ℤ} (h : ∀ k < 2 ^ n,
    2 ^ 42 * (P * |D k|) ≤ 2 ^ 42 * ((2 * (2 ^ n : ℕ) + 1) * b) + ((2 ^ n : ℕ) + 1) * ((2 ^ 42 + 1) * P)) :
    AbsLe n D (encBound (2 ^ n) P b) := by
  intro k hk
  have hPpos : (0 : ℚ) < (P : ℚ) := by exact_mod_cast hP
  have h2 : (2 : ℚ) ^ 42 * ((P : ℚ) * |(D k : ℚ)|) ≤ 2 ^ 42 * ((2 * ((2 ^ n : ℕ) : ℚ) + 1) * b) +
      (((2 ^ n : ℕ) : ℚ) + 1) * ((2 ^ 42 + 1) * (P : ℚ)) := by exact_mod_cast h k hk
  unfold encBound
  rw [show (2 * ((2 ^ n : ℕ) : ℚ) + 1) * b / (P : ℚ) + (((2 ^ n : ℕ) : ℚ) + 1) * (1 + 1 / 2 ^ 42) =
    (2 ^ 42 * ((2 * ((2 ^ n : ℕ) : ℚ) + 1) * b) + (((2 ^ n : ℕ) : ℚ) + 1) * ((2 ^ 42 + 1) * (P : ℚ))) / (2 ^ 42 * (P : ℚ)) by field_simp]
  rw [le_div_iff₀ (by positivity)]
  linarith

theorem ksErr_of {fuel n : ℕ} {p : FParams} (hp : p.OK fuel n) {level : ℕ} {a d0 d1 : ∀ u, Rq (2 ^ n) (p.ringQ.qs u)} {sIn sOut E : ℕ → ℤ}
    {e : ℕ → ℕ → ℤ} (h : KeySwitched n p.ringQ p.ringP level (p.alpha - 1) a d0 d1 sIn sOut e E) {digit Be : ℕ}
    (hd : ∀ i, i * p.alpha ≤ level → p.ringQ.blockQ p.alpha (level + 1) i ≤ digit)
    (he : ∀ i, i * p.alpha ≤ level → ∀ k < 2 ^ n, |e i k| ≤ Be) (hs : ∀ k < 2 ^ n, |sOut k| ≤ 1) :
    AbsLe n E (ksErr p n digit Be level) := by
  intro k hk
  have ha : 0 < p.alpha := hp.lenP
  have ha' : p.alpha - 1 + 1 = p.alpha := by omega
  have := h.noise (M := digit) (Be := Be) (Bs := 1) (fun i hi => by rw [ha'] at hi ⊢; exact hd i hi)
    (fun i hi => he i (by rw [ha'] at hi; omega)) hs hk
  rw [ha', show level + (p.alpha - 1) + 1 = level + p.alpha by omega] at this
  have hP : (0 : ℚ) < (p.ringP.prodQ (p.alpha - 1) : ℚ) := by
    exact_mod_cast prodQ_pos hp.hP (show p.alpha - 1 < p.ringP.subs.length by unfold FParams.alpha at ha ⊢; omega)
  have h2 : (2 : ℚ) ^ 42 * ((p.ringP.prodQ (p.alpha - 1) : ℚ) * |(E k : ℚ)|) ≤ (2 ^ 42 + 1) *
      ((((level + p.alpha) / p.alpha : ℕ) : ℚ) * (2 ^ n * (digit * Be)) + (p.ringP.prodQ (p.alpha - 1) : ℚ) * (1 + 2 ^ n * 1)) := by
    generalize (level + p.alpha) / p.alpha = c at this ⊢
    have := (Int.cast_le (R := ℚ)).2 this
    push_cast at this ⊢
    norm_num at this ⊢
    exact this
  unfold ksErr
  generalize (((level + p.alpha) / p.alpha : ℕ) : ℚ) = c at *
  generalize (p.ringP.prodQ (p.alpha - 1) : ℚ) = P at *
  rw [show (1 + 1 / 2 ^ 42) * (c * (2 ^ n * (digit * Be)) / P + (1 + 2 ^ n)) =
    ((2 ^ 42 + 1) * (c * (2 ^ n * (digit * Be)) + P * (1 + 2 ^ n * 1))) / (2 ^ 42 * P) by field_simp, le_div_iff₀ (by positivity)]
  linarith

/-- a property that follows from one of probability one -/
theorem Step.almost {X : Type} {f : ℕ → GaussState → Option (X × GaussState)} {A : X → Prop} (hf : Step f A 1) {Q : X → Prop}
    (hQ : ∀ x, A x → Q x) (pos : ℕ) (clk : UInt64) {buf : List UInt8} {ptr : ℕ} (hlen : buf.length = 1024) (hle : ptr ≤ 1024)
    (hw : ptr % 8 = 0) : randomBytes {s | ∃ k x st', f k ⟨⟨s, pos, clk⟩, buf, ptr⟩ = some (x, st') ∧ Q x} = 1 := by
  have := (hf.law pos clk hlen hle hw (E := fun _ => Set.univ) (c := 1) (fun _ => MeasurableSet.univ) (fun _ => measure_univ)).2
  rw [mul_one] at this
  refine le_antisymm prob_le_one (this ▸ measure_mono ?_)
  rintro s ⟨k, x, st', h1, h2, -⟩
  exact ⟨k, x, st', h1, hQ x h2⟩

/-- what a caller of `Encrypt` provides: a plaintext that holds `m`, the two polynomials of the receiver, transformed and of any content,
and the pool of the encryptor; the ciphertext is at level `level` -/
structure EncInput (n : ℕ) (r : Ring) (level : ℕ) (pt c0 c1 : Poly) (poolQ : Rows) (m : ∀ u, Rq (2 ^ n) (r.qs u)) : Prop where
  lvl : min pt.level c0.level = level
  lt : level < r.subs.length
  ne : c0.coeffs ≠ []
  ntt : c0.isNTT = true
  rows : level < c1.coeffs.length
  msg : EltIs n r level r.qs pt.isNTT pt.coeffs m
  pool : level < poolQ.length
  row : ∀ j ≤ level, (poolQ.row j).length = r.n

section
variable {fuel n : ℕ} {p : FParams} {kg : FKeyGenerator} {ev : FEvaluator} {pool : Ref} (h : p.OK fuel n) (hF : p.Fits) (hn : n < 32)
  (hov : p.alpha ≤ 16 ∨ ∀ t ≤ p.levelT, 10 * p.ringT.qs t + 2 ^ 15 ≤ 2 ^ 64)
  (hg : newFKeyGenerator fuel p = some kg) (hev : newFEvaluator fuel p pool = some ev) {F : Type} (O : FloatOps F) (sigma : F)
  {bound : UInt64} (hO : O.Starts sigma bound)
  (hb0 : 2 * bound.toNat < p.ringQ.qs 0) (hb : ∀ j < p.ringQ.subs.length, bound.toNat ≤ p.ringQ.qs j)
  (hb' : ∀ j < p.ringP.subs.length, bound.toNat ≤ p.ringP.qs j) {pools : KgPools} (hpool : pools.poolQ.length = p.ringQ.subs.length)
  (hw : ℕ) {pt0 c00 c01 pt1 c10 c11 : Poly} {pool0 pool1 : Rows} {l0 l1 : ℕ} {m0 m1 : ∀ u, Rq (2 ^ n) (p.ringQ.qs u)}
  (i0 : EncInput n p.ringQ l0 pt0 c00 c01 pool0 m0) (i1 : EncInput n p.ringQ l1 pt1 c10 c11 pool1 m1)
include h hb0 hb hb' hn hO

include i0 in
/-- an encryption with the public key of a session -/
theorem session_encrypt {z : (PolyQP × (PolyQP × PolyQP)) × (FSwitchingKey × FSwitchingKey)} {ksw : FKeySwitcher} {S X : ℕ → ℤ}
    {T : ℕ → ℕ → ℤ} (hz : SessionKeys n p ksw hw bound.toNat z S X T) {Q : Poly × Poly → Prop}
    (hQ : ∀ ct (D : ℕ → ℤ), AbsLe n D (encBound (2 ^ n) (p.ringP.qs 0) bound.toNat) → Encrypts n p.ringQ l0 true ct
      (fun u => intR (2 ^ n) (p.ringQ.qs u) S) (fun u => m0 u + intR (2 ^ n) (p.ringQ.qs u) D) → Q ct)
    (pos : ℕ) (clk : UInt64) {buf : List UInt8} {ptr : ℕ} (hlen : buf.length = 1024) (hle : ptr ≤ 1024) (hptr : ptr % 8 = 0) :
    randomBytes {s | ∃ k ct st', pkEncryptBytes O k p.ringQ p.ringP hw sigma bound pool0 z.1.2 pt0 c00 c01 ⟨⟨s, pos, clk⟩, buf, ptr⟩
      = some (ct, st') ∧ Q ct} = 1 := by
  have K := FParams.OK.keyParams h
  have hdeg := K.rings.hQ.deg
  have lp := K.rings.lP
  obtain ⟨e, lt, hc, ntt, hc1, hm, hp, row⟩ := i0
  subst e
  have hst := pkEncrypt_step O sigma hw (K.at lt (by omega)) hn hc hc1 (hz.pk.below (by omega)) hm (fun u hu => hb u (by omega)) hb0
    (hb' 0 (by omega)) hp row hO (fun k hk => hz.secret.abs_le (by rw [hdeg]; exact hk)) (fun k hk => hz.errPk k (by rw [hdeg]; exact hk))
  refine hst.almost ?_ pos clk hlen hle hptr
  rintro x ⟨D, hD, hE⟩
  rw [ntt] at hE
  exact hQ x D (encBound_of (K.rings.hP.subAt (by omega)).prime.pos hD) hE

include hF hov hg hev hpool i0 i1

/-- **C122.** A session on random bytes: key pair and relinearization key from one generator, then two encryptions under the public key by
encryptors with generators of their own, then `MulRelin`, then `Decrypt`, whatever the pools, the receivers and the states of the samplers.
With probability one the key generation ends, and then with probability one the first and the second encryption end, and then
`MulRelin` succeeds for every placement of the ciphertexts in memory, aliased or not, and decryption at any level gives
`(m0 + D0) (m1 + D1) + E` with errors within the bounds for fresh ciphertexts and for one key switch. -/
theorem C122_product {digit : ℕ} (hd : ∀ level ≤ p.maxLevel, ∀ i, i * p.alpha ≤ level → p.ringQ.blockQ p.alpha (level + 1) i ≤ digit)
    (pos pos0 pos1 : ℕ) (clk clk0 clk1 : UInt64) {buf buf0 buf1 : List UInt8} {ptr ptr0 ptr1 : ℕ} (hlen : buf.length = 1024)
    (hle : ptr ≤ 1024) (hptr : ptr % 8 = 0) (hlen0 : buf0.length = 1024) (hle0 : ptr0 ≤ 1024) (hptr0 : ptr0 % 8 = 0)
    (hlen1 : buf1.length = 1024) (hle1 : ptr1 ≤ 1024) (hptr1 : ptr1 % 8 = 0) :
    randomBytes {s | ∃ k z st', kg.genKeysBytes O k hw sigma bound pools ⟨⟨s, pos, clk⟩, buf, ptr⟩ = some (z, st') ∧
      randomBytes {s0 | ∃ k ct0 st', pkEncryptBytes O k p.ringQ p.ringP hw sigma bound pool0 z.1.2 pt0 c00 c01 ⟨⟨s0, pos0, clk0⟩, buf0, ptr0⟩
          = some (ct0, st') ∧ (∀ scale, CtShape 1 l0 ⟨[ct0.1, ct0.2], scale⟩) ∧
        randomBytes {s1 | ∃ k ct1 st', pkEncryptBytes O k p.ringQ p.ringP hw sigma bound pool1 z.1.2 pt1 c10 c11
            ⟨⟨s1, pos1, clk1⟩, buf1, ptr1⟩ = some (ct1, st') ∧ (∀ scale, CtShape 1 l1 ⟨[ct1.1, ct1.2], scale⟩) ∧
          ∀ (H : Heap) (a0 a1 out : Ref) (scale0 scale1 : ℚ) (deg lo : ℕ), H a0 = ⟨[ct0.1, ct0.2], scale0⟩ →
            H a1 = ⟨[ct1.1, ct1.2], scale1⟩ → CtShape deg lo (H out) → 1 ≤ deg →
            ∃ H', ev.mulRelin H a0 a1 z.2 out = some H' ∧ (∀ b ≠ out, H' b = H b) ∧ (H' out).scale = f64 (scale0 * scale1) ∧
              ∃ D0 D1 E : ℕ → ℤ, AbsLe n D0 (encBound (2 ^ n) (p.ringP.qs 0) bound.toNat) ∧
                AbsLe n D1 (encBound (2 ^ n) (p.ringP.qs 0) bound.toNat) ∧
                AbsLe n E (ksErr p n digit bound.toNat (min (min l0 l1) lo)) ∧ ∀ dst : Poly, dst.coeffs ≠ [] →
                (decrypt p.ringQ z.1.1.q (H' out).value dst).isNTT = dst.isNTT ∧
                (decrypt p.ringQ z.1.1.q (H' out).value dst).level = min (min (min l0 l1) lo) dst.level ∧
                EltIs n p.ringQ (min (min (min l0 l1) lo) dst.level) p.ringQ.qs dst.isNTT
                  (decrypt p.ringQ z.1.1.q (H' out).value dst).coeffs
                  (fun u => (m0 u + intR _ _ D0) * (m1 u + intR _ _ D1) + intR _ _ E)} = 1} = 1} = 1 := by
  have K := FParams.OK.keyParams h
  have hdeg := K.rings.hQ.deg
  have hk := (newFEvaluator_eq hev).2
  refine (sessionKeys_step h hF hn hg O sigma hb0 hb hb' hpool hw hO hov hk).almost ?_ pos clk hlen hle hptr
  rintro z ⟨S, X, T, hz⟩
  refine session_encrypt h hn O sigma hO hb0 hb hb' hw i0 hz (fun ct0 D0 b0 e0 => ?_) pos0 clk0 hlen0 hle0 hptr0
  have g0 : ∀ scale, CtEnc n p.ringQ l0 p.ringQ.qs 1 ⟨[ct0.1, ct0.2], scale⟩ _ _ := fun scale =>
    e0.ct (value := [default, default]) rfl (scale := scale)
  refine ⟨fun scale => (g0 scale).choose_spec.1.shape, ?_⟩
  refine session_encrypt h hn O sigma hO hb0 hb hb' hw i1 hz (fun ct1 D1 b1 e1 => ?_) pos1 clk1 hlen1 hle1 hptr1
  have g1 : ∀ scale, CtEnc n p.ringQ l1 p.ringQ.qs 1 ⟨[ct1.1, ct1.2], scale⟩ _ _ := fun scale =>
    e1.ct (value := [default, default]) rfl (scale := scale)
  refine ⟨fun scale => (g1 scale).choose_spec.1.shape, ?_⟩
  intro H a0 a1 out scale0 scale1 deg lo h0 h1 ho hdeg1
  have hl : min (min l0 l1) lo < p.ringQ.subs.length := by have := i0.lt; omega
  have hS : ∀ k < 2 ^ n, |S k| ≤ 1 := fun k hk => hz.secret.abs_le (by rw [hdeg]; exact hk)
  have g0 := g0 scale0
  have g1 := g1 scale1
  rw [← h0] at g0
  rw [← h1] at g1
  obtain ⟨H', r1, r2, r3, a, d0, d1, E, hE, hc⟩ := mulRelin_switches h hev g0 g1 ho hdeg1 rfl hl (hz.rlk _ hl)
  have hb := beta_iff h
  have ha : 0 < p.alpha := h.lenP
  have hml : p.maxLevel = p.ringQ.subs.length - 1 := rfl
  refine ⟨H', r1, r2, by rw [r3, h0, h1], D0, D1, E, b0, b1, ksErr_of h hE (hd _ (by omega)) (fun i hi k hk => ?_) hS, fun dst hdst => ?_⟩
  · refine hz.errRlk i ((hb i).2 ?_) k (by rw [hdeg]; exact hk)
    rw [Nat.sub_add_cancel (by omega)]
    omega
  · exact hc.decrypt K.rings.hQ K.rings.sQ (Or.inl fun _ _ => le_rfl) hdst (by omega)
      ((elt_mont K.rings.hQ K.rings.lQ hz.sk.q).below (by omega))

end

/-- moduli 97, 193, 641 and 257, 353, `T = 449·577·673·769·1153`, `gamma = 2`, degree 16, Hamming weight 11, `sigma = 3.2`, bound 19, pools and
receivers of sevens: with probability one the keys are made, two encryptions of `k ↦ 5 k` at level 1 succeed, and their product, written
over the first, decrypts to `(5 k + D0) (5 k + D1) + E` with `D0`, `D1` below 20 and `E` below 80 -/
example : ∃ (p : FParams) (ev : FEvaluator) (kg : FKeyGenerator) (msg : Rows),
    newFParams 100 4 [97, 193, 641] [257, 353] [449, 577, 673, 769, 1153] 5 0x4009999999999999 2 = some p ∧
    newFEvaluator 100 p 7 = some ev ∧ newFKeyGenerator 100 p = some kg ∧
    EltIs 4 p.ringQ 1 p.ringQ.qs false msg (fun u => intR _ (p.ringQ.qs u) fun k => 5 * k) ∧
    let pools : KgPools := ⟨List.replicate 3 [1], ⟨List.replicate 3 [1], List.replicate 2 [1]⟩⟩
    let c : Poly := ⟨List.replicate 3 [7], true⟩
    let pool : Rows := List.replicate 3 (List.replicate 16 7)
    let st : (ℕ → UInt8) → GaussState := fun s => ⟨⟨s, 7, 0⟩, List.replicate 1024 1, 1016⟩
    randomBytes {s | ∃ k z st', kg.genKeysBytes realOps k 11 3.2 19 pools (st s) = some (z, st') ∧
      randomBytes {s0 | ∃ k ct0 st', pkEncryptBytes realOps k p.ringQ p.ringP 11 3.2 19 pool z.1.2 ⟨msg, false⟩ c c (st s0) = some (ct0, st') ∧
        randomBytes {s1 | ∃ k ct1 st', pkEncryptBytes realOps k p.ringQ p.ringP 11 3.2 19 pool z.1.2 ⟨msg, false⟩ c c (st s1) = some (ct1, st') ∧
          ∃ H', ev.mulRelin (fun a => if a = 0 then ⟨[ct0.1, ct0.2], 8⟩ else ⟨[ct1.1, ct1.2], 4⟩) 0 1 z.2 0 = some H' ∧
            (H' 0).scale = 32 ∧ ∃ D0 D1 E : ℕ → ℤ, (∀ k < 16, |D0 k| < 20 ∧ |D1 k| < 20 ∧ |E k| < 80) ∧
              EltIs 4 p.ringQ 1 p.ringQ.qs false (decrypt p.ringQ z.1.1.q (H' 0).value ⟨List.replicate 3 [7], false⟩).coeffs
                (fun u => (intR _ (p.ringQ.qs u) (fun k => 5 * k) + intR _ _ D0) * (intR _ (p.ringQ.qs u) (fun k => 5 * k) + intR _ _ D1)
                  + intR _ _ E)} = 1} = 1} = 1 := by
  obtain ⟨p, ksw, kg, sr, tape, h1, h, hF, ha, lQ, hk, hg, hQ, hP, hsam, hsk, ht⟩ := exampleKeys
  have l2 : p.ringP.subs.length = 2 := ha
  have a0 := sub_of_moduli hQ 0 97 rfl
  have a1 := sub_of_moduli hQ 1 193 rfl
  have a2 := sub_of_moduli hQ 2 641 rfl
  have b0 := sub_of_moduli hP 0 257 rfl
  have b1 := sub_of_moduli hP 1 353 rfl
  have hn : p.ringQ.n = 16 := h.hQ.deg
  have hmax : p.maxLevel = 2 := by unfold FParams.maxLevel; omega
  have p0 : p.ringP.qs 0 = 257 := by unfold Ring.qs; rw [b0]; rfl
  have hb : ∀ j < p.ringQ.subs.length, (19 : UInt64).toNat ≤ p.ringQ.qs j := fun j hj => by
    unfold Ring.qs
    obtain rfl | rfl | rfl : j = 0 ∨ j = 1 ∨ j = 2 := by omega
    · rw [a0]; decide
    · rw [a1]; decide
    · rw [a2]; decide
  have hb' : ∀ j < p.ringP.subs.length, (19 : UInt64).toNat ≤ p.ringP.qs j := fun j hj => by
    unfold Ring.qs
    obtain rfl | rfl : j = 0 ∨ j = 1 := by omega
    · rw [b0]; decide
    · rw [b1]; decide
  have hb0 : 2 * (19 : UInt64).toNat < p.ringQ.qs 0 := by unfold Ring.qs; rw [a0]; decide
  have rep : ∀ {k j : ℕ} {x : UInt64}, j < k → Rows.row (List.replicate k (List.replicate 16 x)) j = List.replicate 16 x := fun h => by
    rw [Rows.row, List.getD_eq_getElem _ _ (by simpa using h), List.getElem_replicate]
  have hev : newFEvaluator 100 p 7 = some ⟨newEvaluator p.ringQ p.ringP none (fun _ => none) 7, ksw⟩ := by
    rw [newFEvaluator, hk]; rfl
  obtain ⟨msg, hp⟩ := exists_poly h.hQ (show 1 < p.ringQ.subs.length by omega) (fun k => 5 * k)
  have hmsg := (elt_intVec h.hQ hp).take (m := 2) (by omega)
  have hpl : (msg.take 2).length = 2 := by have := hp.lvl; simp; omega
  have hlev : (Poly.mk (msg.take 2) false).level = 1 := by rw [Poly.level, hpl]
  have i0 : EncInput 4 p.ringQ 1 ⟨msg.take 2, false⟩ ⟨List.replicate 3 [7], true⟩ ⟨List.replicate 3 [7], true⟩
      (List.replicate 3 (List.replicate 16 7)) (fun u => intR _ (p.ringQ.qs u) fun k => 5 * k) :=
    ⟨by rw [hlev]; rfl, by omega, by simp, rfl, by simp, hmsg, by simp, fun j hj => by rw [rep (by omega), hn]; rfl⟩
  refine ⟨p, _, kg, msg.take 2, h1, hev, hg, hmsg, ?_⟩
  have hd : ∀ level ≤ p.maxLevel, ∀ i, i * p.alpha ≤ level → p.ringQ.blockQ p.alpha (level + 1) i ≤ 18721 := by
    intro level hl i hi
    rw [ha] at hi ⊢
    refine (blockQ_mono (cnt' := 3) h.hQ (by omega) (by omega)).trans ?_
    obtain rfl | rfl : i = 0 ∨ i = 1 := by omega
    · rw [Ring.blockQ, show min 2 (3 - 0 * 2) = 2 from rfl, Finset.prod_range_succ, Finset.prod_range_one, a0, a1]
      decide
    · rw [Ring.blockQ, show min 2 (3 - 1 * 2) = 1 from rfl, Finset.prod_range_one, a2]
      decide
  have main := C122_product h hF (by norm_num) (Or.inl (by omega)) hg hev realOps 3.2 (bound := 19) (realOps_starts _ _) hb0 hb hb'
    (pools := ⟨List.replicate 3 [1], ⟨List.replicate 3 [1], List.replicate 2 [1]⟩⟩) (by rw [lQ]; rfl) 11 i0 i0 hd 7 7 7 0 0 0
    (buf := List.replicate 1024 1) (buf0 := List.replicate 1024 1) (buf1 := List.replicate 1024 1) (ptr := 1016) (ptr0 := 1016)
    (ptr1 := 1016) List.length_replicate (by norm_num) rfl List.length_replicate (by norm_num) rfl List.length_replicate (by norm_num) rfl
  have h19 : (19 : UInt64).toNat = 19 := rfl
  refine le_antisymm prob_le_one (main.symm.le.trans (measure_mono ?_))
  rintro s ⟨k, z, st', hz, h2⟩
  refine ⟨k, z, st', hz, le_antisymm prob_le_one (h2.symm.le.trans (measure_mono ?_))⟩
  rintro s0 ⟨k, ct0, st', hc0, hsh, h3⟩
  refine ⟨k, ct0, st', hc0, le_antisymm prob_le_one (h3.symm.le.trans (measure_mono ?_))⟩
  rintro s1 ⟨k, ct1, st', hc1, -, h4⟩
  obtain ⟨H', r1, -, r2, D0, D1, E, d0, d1, e, hdec⟩ := h4 (fun a => if a = 0 then ⟨[ct0.1, ct0.2], 8⟩ else ⟨[ct1.1, ct1.2], 4⟩) 0 1 0 8 4 1 1
    rfl rfl (hsh 8) le_rfl
  have t0 : encBound (2 ^ 4) (p.ringP.qs 0) (19 : UInt64).toNat < 20 := by rw [p0, h19]; norm_num [encBound]
  have t1 : ksErr p 4 18721 (19 : UInt64).toNat (min (min 1 1) 1) < 80 := by
    have hpr : p.ringP.prodQ (2 - 1) = 90721 := by
      rw [Ring.prodQ, Finset.prod_range_succ, Finset.prod_range_one, b0, b1]
      decide
    rw [ksErr, h19, ha, hpr]
    norm_num
  refine ⟨k, ct1, st', hc1, H', r1, ?_, D0, D1, E, fun k hk => ⟨?_, ?_, ?_⟩, (hdec ⟨List.replicate 3 [7], false⟩ (by simp)).2.2⟩
  · rw [r2]; norm_num; decide +kernel
  · exact_mod_cast (d0 k (by simpa using hk)).trans_lt t0
  · exact_mod_cast (d1 k (by simpa using hk)).trans_lt t0
  · exact_mod_cast (e k (by simpa using hk)).trans_lt t1

end FastKsw.Props
