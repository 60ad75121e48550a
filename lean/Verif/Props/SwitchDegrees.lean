import Verif.Model.SwitchDegrees
import Verif.Props.KeySwitch
import Verif.Props.ConjInv
import Verif.Lemmas.Encrypt
import Verif.Props.Sparse

/-!
# C89: switching keys between ring degrees
-/

namespace FastKsw.Props

open FastKsw Finset Polynomial

/-- rings of degrees `2^m` and `2^(m+d)` over the same moduli, with matching roots of unity -/
structure DegPair (m d : ℕ) (r1 r2 : Ring) : Prop where
  small : r1.Valid m
  large : r2.Valid (m + d)
  len : r1.subs.length = r2.subs.length
  q : ∀ i < r2.subs.length, (r1.sub i).q = (r2.sub i).q
  root : ∀ i < r2.subs.length, ((r1.sub i).psiMont.toNat : ZMod (r2.sub i).q.toNat) = (r2.sub i).psi ^ 2 ^ d * 2 ^ 64

/-- `NewRing` with the same moduli gives such rings. -/
theorem C89_rings {fuel m d : ℕ} {moduli : List UInt64} {r1 r2 : Ring} (hmd : m + d < 62)
    (hq : ∀ q ∈ moduli, q.toNat < 2 ^ 63)
    (h1 : newRing fuel (2 ^ m) moduli = .ok r1) (h2 : newRing fuel (2 ^ (m + d)) moduli = .ok r2) : DegPair m d r1 r2 := by
  have hlt : ∀ k, k ≤ m + d → (2 : ℕ) ^ k < 2 ^ 62 := fun k hk => Nat.pow_lt_pow_right (by omega) (by omega)
  obtain ⟨n1, e1, V1, -⟩ := C17_newRing_valid fuel _ (hlt m (by omega)) moduli hq r1 h1
  obtain ⟨n2, e2, V2, -⟩ := C17_newRing_valid fuel _ (hlt (m + d) le_rfl) moduli hq r2 h2
  obtain rfl : n1 = m := (Nat.pow_right_injective le_rfl e1).symm
  obtain rfl : n2 = n1 + d := (Nat.pow_right_injective le_rfl e2).symm
  obtain ⟨m1, -⟩ := newRingCustom_valid (n := n1) (m := n1) le_rfl (by omega) rfl hq h1
  obtain ⟨m2, -⟩ := newRingCustom_valid (n := n1 + d) (m := n1 + d) le_rfl (by omega) rfl hq h2
  have l1 : r1.subs.length = moduli.length := by rw [← m1]; simp [Ring.moduli]
  have l2 : r2.subs.length = moduli.length := by rw [← m2]; simp [Ring.moduli]
  refine ⟨V1, V2, by omega, fun i hi => ?_, fun i hi => ?_⟩
  · exact (newRing_roots hmd hq h1 h2 (i := i) (by omega)).2.2.1
  · exact (newRing_roots hmd hq h1 h2 (i := i) (by omega)).2.2.2

/-- change of the name of the modulus and of the root of unity -/
theorem row_transport {q1 q2 N A m : ℕ} (h : q1 = q2) {p1 : ZMod q1} {p2 : ZMod q2} {w : ℕ}
    (h1 : (w : ZMod q1) = p1 * 2 ^ 64) (h2 : (w : ZMod q2) = p2 * 2 ^ 64) (hodd : q2 % 2 = 1) {x : Row} {S : ℕ → ℤ}
    (hx : RowIs N q1 A x (evals p1 m fun k => (S k : ZMod q1))) : RowIs N q2 A x (evals p2 m fun k => (S k : ZMod q2)) := by
  subst h
  have := mul_rinv hodd
  have e : p1 = p2 := by
    have h3 := h1.symm.trans h2
    linear_combination (- p1 + p2) * this + rinv q1 * h3
  rw [← e]
  exact hx

theorem intVec_spread {r : Ring} (g : ℕ) (S : ℕ → ℤ) (u : ℕ) : r.intVec (spread g S) u = spread g (r.intVec S u) := by
  funext k
  unfold Ring.intVec spread
  split <;> simp

/-- `MapSmallDimensionToLargerDimensionNTT` of the transform of `S` is the transform of `S(X^(2^d))` -/
theorem mapSmall_is {m d : ℕ} {r1 r2 : Ring} (D : DegPair m d r1 r2) {l : ℕ} (hl : l < r2.subs.length) {x large : Rows}
    {S : ℕ → ℤ} (hx : PolyIs r1 l r1.qs x (r1.nttVec m S)) (hxl : x.length = l + 1) (hL : l < large.length)
    (hw : ∀ u ≤ l, (large.row u).length = 2 ^ (m + d)) :
    PolyWritten r2 l r2.qs large (mapSmallToLarge x large) (r2.nttVec (m + d) (spread (2 ^ d) S)) := by
  unfold mapSmallToLarge
  rw [hxl, Nat.add_sub_cancel]
  refine writeLvl_is hL fun u hu => ?_
  have hu' : u < r2.subs.length := by omega
  have V1 := D.small.subAt (i := u) (by rw [D.len]; exact hu')
  have V2 := D.large.subAt hu'
  have hr := hx.row u hu
  rw [D.small.deg] at hr
  rw [D.large.deg]
  have hr2 : RowIs (2 ^ m) (r2.sub u).q.toNat (r2.sub u).q.toNat (x.row u)
      (evals ((r2.sub u).psi ^ 2 ^ d) m fun k => (S k : ZMod (r2.sub u).q.toNat)) := by
    have e := congrArg UInt64.toNat (D.q u hu')
    have := row_transport (A := (r1.sub u).q.toNat) e V1.psiMont.2 (D.root u hu') V2.odd hr
    rwa [e] at this
  obtain ⟨s1, s2⟩ := mapSmallToLargeRow_spec (x.row u) (large.row u) (2 ^ d)
    (by rw [hr2.len]; positivity) (by rw [hw u hu, hr2.len, pow_add])
  have hdiv : ∀ k < 2 ^ (m + d), k / 2 ^ d < 2 ^ m := by
    intro k hk
    rw [Nat.div_lt_iff_lt_mul (by positivity), ← pow_add]; exact hk
  refine ⟨by rw [s1, hw u hu], fun k hk => ?_, fun k hk => ?_⟩
  · rw [s2 k (by rw [hw u hu]; exact hk)]
    exact hr2.lt _ (hdiv k hk)
  · have := hr2.val _ (hdiv k hk)
    unfold zval at this ⊢
    rw [s2 k (by rw [hw u hu]; exact hk), this]
    unfold Ring.nttVec
    rw [intVec_spread, evals_spread V2.psi_pow]
    rfl

/-- the same for secrets in Montgomery form -/
theorem mapSmall_mont {m d : ℕ} {r1 r2 : Ring} (D : DegPair m d r1 r2) {l : ℕ} (hl : l < r2.subs.length) {x large : Rows}
    {S : ℕ → ℤ} (hx : PolyIs r1 l r1.qs x (fun u k => r1.nttVec m S u k * 2 ^ 64)) (hxl : x.length = l + 1) (hL : l < large.length)
    (hw : ∀ u ≤ l, (large.row u).length = 2 ^ (m + d)) :
    PolyWritten r2 l r2.qs large (mapSmallToLarge x large) (fun u k => r2.nttVec (m + d) (spread (2 ^ d) S) u k * 2 ^ 64) := by
  have h1 : PolyIs r1 l r1.qs x (r1.nttVec m fun k => 2 ^ 64 * S k) := hx.congr fun u _ k _ => by
    rw [nttVec_smul]
    push_cast
    ring
  have h2 := mapSmall_is D hl h1 hxl hL hw
  refine ⟨h2.is.congr fun u _ k _ => ?_, h2.len, h2.above⟩
  have e : spread (2 ^ d) (fun k => 2 ^ 64 * S k) = fun k => 2 ^ 64 * spread (2 ^ d) S k := by
    funext k
    unfold spread
    split <;> simp
  rw [e, nttVec_smul]
  push_cast
  ring

/-! ### The pools -/

/-- the pools of a key generator: polynomials over all primes, whatever they hold -/
structure PoolsOK (n : ℕ) (rQ rP : Ring) (pools : KeyPools) : Prop where
  q : pools.q.length = rQ.subs.length
  qRow : ∀ u < rQ.subs.length, (pools.q.row u).length = 2 ^ n
  qp : pools.qp.q.length = rQ.subs.length
  qpRow : ∀ u < rQ.subs.length, (pools.qp.q.row u).length = 2 ^ n
  p : pools.qp.p.length = rP.subs.length
  pRow : ∀ u < rP.subs.length, (pools.qp.p.row u).length = 2 ^ n

theorem genSwitchingDigit_congr {rQ rP : Ring} {lQ lP : ℕ} {pool pool' : Rows} (h : ∀ u ≤ lQ, pool.row u = pool'.row u)
    (skOut : PolyQP) (i : ℕ) (t : KeyTape) :
    genSwitchingDigit rQ rP lQ lP pool skOut i t = genSwitchingDigit rQ rP lQ lP pool' skOut i t := by
  unfold genSwitchingDigit
  have : (fun (bQ : Rows) j =>
      let index := i * (lP + 1) + j
      if index ≥ lQ + 1 then bQ
      else bQ.set index ((List.range rQ.n).map fun w =>
        cred ((bQ.row index).at w + (pool.row index).at w) (rQ.sub index).q)) =
      fun (bQ : Rows) j =>
      let index := i * (lP + 1) + j
      if index ≥ lQ + 1 then bQ
      else bQ.set index ((List.range rQ.n).map fun w =>
        cred ((bQ.row index).at w + (pool'.row index).at w) (rQ.sub index).q) := by
    funext bQ j
    dsimp only
    split
    · rfl
    · rename_i c
      rw [h _ (by omega)]
  dsimp only at this ⊢
  rw [this]

theorem genSwitchingKeyPool_eq {rQ rP : Ring} {lQ lP : ℕ} (skIn : Rows) (skOut : PolyQP) (tape : ℕ → KeyTape) {pool : Rows}
    (h : lQ < pool.length) (hl : lQ < rQ.subs.length) :
    (genSwitchingKeyPool rQ rP lQ lP skIn skOut tape pool).1 = genSwitchingKeyCore rQ rP lQ lP skIn skOut tape := by
  unfold genSwitchingKeyPool genSwitchingKeyCore
  dsimp only
  refine List.map_congr_left fun i _ => genSwitchingDigit_congr (fun u hu => ?_) _ _ _
  unfold Ring.mulScalarBigintLvl
  rw [row_writeLvl hu h, row_writeLvl hu (by simp [newPoly]; omega)]

theorem liftSecretPool_eq {rQ : Ring} {lIn lOut : ℕ} {pools : KeyPools} (h : 0 < pools.qp.q.length) (h' : 0 < rQ.subs.length) :
    (liftSecretPool rQ lIn lOut pools).q = liftSecret rQ lIn lOut pools.q := by
  unfold liftSecretPool liftSecret
  have hr : ∀ z : Rows, 0 < z.length → (rQ.invMformLvl 0 (rQ.invNttLvl 0 pools.q z) (rQ.invNttLvl 0 pools.q z)).row 0 =
      invMformVec ((rQ.sub 0).invNtt rQ.n (pools.q.row 0)) (rQ.sub 0).q (rQ.sub 0).mred := by
    intro z hz
    have hl : 0 < (rQ.invNttLvl 0 pools.q z).length := by unfold Ring.invNttLvl; rw [length_writeLvl]; exact hz
    unfold Ring.invMformLvl
    rw [row_writeLvl le_rfl hl]
    unfold Ring.invNttLvl
    rw [row_writeLvl le_rfl hz]
  have e := (hr _ h).trans (hr (newPoly rQ.n rQ.subs.length) (by simp [newPoly]; omega)).symm
  dsimp only
  rw [e]

/-- `genSwitchingKey` leaves a pool of the same shape -/
theorem poolShape {rQ rP : Ring} {n lQ lP : ℕ} {skIn : Rows} (skOut : PolyQP) (tape : ℕ → KeyTape) {pool : Rows}
    (hl : lQ < rQ.subs.length) (hp : pool.length = rQ.subs.length) (hr : ∀ u < rQ.subs.length, (pool.row u).length = 2 ^ n)
    (hs : ∀ u ≤ lQ, (skIn.row u).length = 2 ^ n) :
    (genSwitchingKeyPool rQ rP lQ lP skIn skOut tape pool).2.length = rQ.subs.length ∧
    ∀ u < rQ.subs.length, ((genSwitchingKeyPool rQ rP lQ lP skIn skOut tape pool).2.row u).length = 2 ^ n := by
  have e : (genSwitchingKeyPool rQ rP lQ lP skIn skOut tape pool).2 = rQ.mulScalarBigintLvl lQ (keyPBig rP lP) skIn pool := rfl
  rw [e]
  unfold Ring.mulScalarBigintLvl
  refine ⟨by rw [length_writeLvl, hp], fun u hu => ?_⟩
  by_cases h : u ≤ lQ
  · rw [row_writeLvl h (by omega)]
    unfold mulScalarMontgomeryVec
    rw [List.length_map, hs u h]
  · rw [row_writeLvl_above (by omega), hr u hu]

section
variable {n : ℕ} {rQ rP : Ring} (K : KeyParams n rQ rP) {pools : KeyPools} (hpool : PoolsOK n rQ rP pools)
include K hpool

/-- the lift of the secret through the pools -/
theorem liftSecretPool_is {lIn lOut : ℕ} (c : lIn < lOut) (hlO : lOut < rQ.subs.length) {S : ℕ → ℤ}
    (hx : PolyIs rQ lIn rQ.qs pools.q (fun u k => rQ.nttVec n S u k * 2 ^ 64))
    (h0 : ∀ k < 2 ^ n, 2 * |S k| < rQ.qs 0) (hS : ∀ k < 2 ^ n, ∀ u ≤ lOut, |S k| ≤ rQ.qs u) :
    PoolsOK n rQ rP (liftSecretPool rQ lIn lOut pools) ∧
      PolyIs rQ lOut rQ.qs (liftSecretPool rQ lIn lOut pools).q (fun u k => rQ.nttVec n S u k * 2 ^ 64) := by
  have hpos : 0 < rQ.subs.length := by omega
  have hlift := liftSecret_is K c hlO hx (by rw [hpool.q]; exact hlO) h0 hS
  have e := liftSecretPool_eq (rQ := rQ) (lIn := lIn) (lOut := lOut) (pools := pools) (by rw [hpool.qp]; exact hpos) hpos
  rw [e]
  have hll : (liftSecret rQ lIn lOut pools.q).length = rQ.subs.length := by
    unfold liftSecret
    simp [hpool.q]
  have h1 : PolyIs rQ 0 (fun i => 2 * rQ.qs i) pools.q (rQ.nttVec n (fun k => 2 ^ 64 * S k)) := by
    refine ⟨by rw [hpool.q]; exact hpos, fun u hu => ?_⟩
    refine ((hx.row u (by omega)).mono (by unfold Ring.qs; omega)).congr (fun k _ => ?_)
    rw [nttVec_smul]
    push_cast
    ring
  have h2 := invNttLvl_is K.rings.hQ K.rings.sQ hpos h1 (p' := pools.qp.q) (by rw [hpool.qp]; exact hpos)
  have hq : (liftSecretPool rQ lIn lOut pools).qp.q =
    rQ.invMformLvl 0 (rQ.invNttLvl 0 pools.q pools.qp.q) (rQ.invNttLvl 0 pools.q pools.qp.q) := rfl
  refine ⟨⟨by rw [e, hll], fun u hu => ?_, ?_, fun u hu => ?_, hpool.p, hpool.pRow⟩, hlift⟩
  · rw [e]
    by_cases h : u ≤ lOut
    · rw [(hlift.row u h).len, K.rings.hQ.deg]
    · unfold liftSecret
      dsimp only
      rw [row_mapIdx _ _ _ (by rw [hpool.q]; exact hu), if_neg (by omega), hpool.qRow u hu]
  · rw [hq]
    unfold Ring.invMformLvl
    rw [length_writeLvl, h2.len, hpool.qp]
  · rw [hq]
    unfold Ring.invMformLvl
    by_cases h : u = 0
    · subst h
      rw [row_writeLvl le_rfl (by rw [h2.len, hpool.qp]; exact hpos)]
      unfold invMformVec
      rw [List.length_map, (h2.is.row 0 le_rfl).len, K.rings.hQ.deg]
    · rw [row_writeLvl_above (by omega), h2.above u (by omega), hpool.qpRow u hu]

/-- `GenSwitchingKey` from a smaller or equal degree; the output secret may be in the pools if no lift is needed -/
theorem up_core {m d : ℕ} (hn : n = m + d) {r1 : Ring} (D : DegPair m d r1 rQ) {skIn : PolyQP} {skOut : KeyPools → PolyQP}
    {sIn sOut : ℕ → ℤ} {E : ℕ → ℕ → ℤ} {tape : ℕ → KeyTape} {lIn lOut lP : ℕ} (h1 : skIn.q.length = lIn + 1)
    (h2 : (skOut pools).q.length = lOut + 1) (h3 : (skOut pools).p.length = lP + 1) (hlI : lIn < rQ.subs.length)
    (hlO : lOut < rQ.subs.length) (hlP : lP < rP.subs.length)
    (hi : PolyIs r1 lIn r1.qs skIn.q (fun u k => r1.nttVec m sIn u k * 2 ^ 64))
    (hsm : lIn < lOut → ∀ k < 2 ^ m, 2 * |sIn k| < rQ.qs 0 ∧ ∀ u ≤ lOut, |sIn k| ≤ rQ.qs u)
    (ho : (skOut pools).IsMont n rQ rP lOut lP sOut) (ht : TapeOK n rQ rP lOut lP tape E)
    (hc1 : lIn < lOut → ∀ pl, skOut pl = skOut pools) (hc2 : ∀ b, skOut ⟨b, pools.qp⟩ = skOut pools) :
    IsSwitchKey n rQ rP lOut lP (genSwitchingKeyDeg rQ rP skIn skOut tape pools).1 (spread (2 ^ d) sIn) sOut E ∧
    PoolsOK n rQ rP (genSwitchingKeyDeg rQ rP skIn skOut tape pools).2 ∧
    (¬ lIn < lOut → (genSwitchingKeyDeg rQ rP skIn skOut tape pools).2.qp = pools.qp) := by
  subst hn
  have hw1 : (skIn.q.row 0).length = 2 ^ m := by rw [(hi.row 0 (by omega)).len, D.small.deg]
  have hw2 : ((skOut pools).q.row 0).length = 2 ^ (m + d) := by rw [(ho.q.row 0 (by omega)).len, K.rings.hQ.deg]
  have hle : 2 ^ m ≤ 2 ^ (m + d) := Nat.pow_le_pow_right (by omega) (by omega)
  have hmap := mapSmall_mont D hlI hi h1 (large := pools.q) (by rw [hpool.q]; exact hlI)
    fun u hu => hpool.qRow u (by omega)
  set big := mapSmallToLarge skIn.q pools.q with hbig
  have hbl : big.length = rQ.subs.length := hmap.len.trans hpool.q
  have hbr : ∀ u < rQ.subs.length, (big.row u).length = 2 ^ (m + d) := by
    intro u hu
    by_cases h : u ≤ lIn
    · rw [(hmap.is.row u h).len, K.rings.hQ.deg]
    · rw [hmap.above u (by omega), hpool.qRow u hu]
  have hB : PoolsOK (m + d) rQ rP ⟨big, pools.qp⟩ := ⟨hbl, hbr, hpool.qp, hpool.qpRow, hpool.p, hpool.pRow⟩
  have hpos : 0 < rQ.subs.length := by omega
  set pools' : KeyPools := if lIn < lOut then liftSecretPool rQ lIn lOut ⟨big, pools.qp⟩ else ⟨big, pools.qp⟩ with hp'
  have hP : PoolsOK (m + d) rQ rP pools' ∧
      PolyIs rQ lOut rQ.qs pools'.q (fun u k => rQ.nttVec (m + d) (spread (2 ^ d) sIn) u k * 2 ^ 64) ∧
      skOut pools' = skOut pools ∧ (¬ lIn < lOut → pools'.qp = pools.qp) := by
    rw [hp']
    split
    · rename_i c
      have hs : ∀ k < 2 ^ (m + d), spread (2 ^ d) sIn k = 0 ∨ ∃ j < 2 ^ m, spread (2 ^ d) sIn k = sIn j := by
        intro k hk
        unfold spread
        split
        · refine Or.inr ⟨k / 2 ^ d, ?_, rfl⟩
          rw [Nat.div_lt_iff_lt_mul (by positivity), ← pow_add]
          exact hk
        · exact Or.inl rfl
      have hq0 : 0 < rQ.qs 0 := by have := (K.rings.hQ.subAt hpos).odd; unfold Ring.qs; omega
      obtain ⟨l1, l2⟩ := liftSecretPool_is K hB c hlO hmap.is
        (fun k hk => by
          rcases hs k hk with h | ⟨j, hj, h⟩
          · rw [h]; simpa using hq0
          · rw [h]; exact (hsm c j hj).1)
        (fun k hk u hu => by
          rcases hs k hk with h | ⟨j, hj, h⟩
          · rw [h]; simp
          · rw [h]; exact (hsm c j hj).2 u hu)
      exact ⟨l1, l2, hc1 c _, fun h => absurd c h⟩
    · rename_i c
      exact ⟨hB, ⟨by dsimp only; rw [hbl]; exact hlO, fun u hu => hmap.is.row u (by omega)⟩, hc2 _, fun _ => rfl⟩
  have E1 : genSwitchingKeyDeg rQ rP skIn skOut tape pools =
      ((genSwitchingKeyPool rQ rP lOut lP pools'.q (skOut pools') tape pools'.q).1,
        ⟨(genSwitchingKeyPool rQ rP lOut lP pools'.q (skOut pools') tape pools'.q).2, pools'.qp⟩) := by
    unfold genSwitchingKeyDeg
    dsimp only
    rw [hw1, hw2, if_neg (by omega), h1, h2, h3]
    rfl
  rw [E1, hP.2.2.1]
  have hs := poolShape (lP := lP) (skIn := pools'.q) (rP := rP) (skOut pools) tape hlO hP.1.q hP.1.qRow fun u hu => hP.1.qRow u (by omega)
  refine ⟨?_, ⟨hs.1, hs.2, hP.1.qp, hP.1.qpRow, hP.1.p, hP.1.pRow⟩, hP.2.2.2⟩
  dsimp only
  rw [genSwitchingKeyPool_eq _ _ _ (by rw [hP.1.q]; exact hlO) hlO]
  exact C33_switchingKey K hlO hlP hP.2.1 ho ht

/-- **C89 (from a smaller ring, or the same).** `GenSwitchingKey` for an input secret of degree `2^m` and an output secret of degree `2^n`,
`n = m + d`: whatever the pools hold, the result is a switching key from `sIn(X^(2^d))` to `sOut`, and the pools stay usable.  The
input secret may have fewer primes than the output secret if it is small. -/
theorem C89_up {m d : ℕ} (hn : n = m + d) {r1 : Ring} (D : DegPair m d r1 rQ) {skIn skOut : PolyQP} {sIn sOut : ℕ → ℤ}
    {E : ℕ → ℕ → ℤ} {tape : ℕ → KeyTape} {lIn lOut lP : ℕ} (h1 : skIn.q.length = lIn + 1) (h2 : skOut.q.length = lOut + 1)
    (h3 : skOut.p.length = lP + 1) (hlI : lIn < rQ.subs.length) (hlO : lOut < rQ.subs.length) (hlP : lP < rP.subs.length)
    (hi : PolyIs r1 lIn r1.qs skIn.q (fun u k => r1.nttVec m sIn u k * 2 ^ 64))
    (hsm : lIn < lOut → ∀ k < 2 ^ m, 2 * |sIn k| < rQ.qs 0 ∧ ∀ u ≤ lOut, |sIn k| ≤ rQ.qs u)
    (ho : skOut.IsMont n rQ rP lOut lP sOut) (ht : TapeOK n rQ rP lOut lP tape E) :
    IsSwitchKey n rQ rP lOut lP (genSwitchingKeyDeg rQ rP skIn (fun _ => skOut) tape pools).1 (spread (2 ^ d) sIn) sOut E ∧
    PoolsOK n rQ rP (genSwitchingKeyDeg rQ rP skIn (fun _ => skOut) tape pools).2 := by
  obtain ⟨a, b, -⟩ := up_core K hpool hn D (skOut := fun _ => skOut) h1 h2 h3 hlI hlO hlP hi hsm ho ht (fun _ _ => rfl) fun _ => rfl
  exact ⟨a, b⟩

/-- **C89 (to a smaller ring).** `GenSwitchingKey` for an input secret of degree `2^n` and an output secret of degree `2^m`, `n = m + d`,
`d > 0`: the result is a switching key from `sIn` to `sOut(X^(2^d))` in the larger ring, with the moduli of the output secret. -/
theorem C89_down {m d : ℕ} (hn : n = m + d) (hd : 0 < d) {r1 r1P : Ring} (D : DegPair m d r1 rQ) (DP : DegPair m d r1P rP)
    {skIn skOut : PolyQP} {sIn sOut : ℕ → ℤ} {E : ℕ → ℕ → ℤ} {tape : ℕ → KeyTape} {lOut lP : ℕ}
    (h2 : skOut.q.length = lOut + 1) (h3 : skOut.p.length = lP + 1) (hlO : lOut < rQ.subs.length) (hlP : lP < rP.subs.length)
    (hi : PolyIs rQ lOut rQ.qs skIn.q (fun u k => rQ.nttVec n sIn u k * 2 ^ 64))
    (ho : skOut.IsMont m r1 r1P lOut lP sOut) (ht : TapeOK n rQ rP lOut lP tape E) :
    IsSwitchKey n rQ rP lOut lP (genSwitchingKeyDeg rQ rP skIn (fun _ => skOut) tape pools).1 sIn (spread (2 ^ d) sOut) E ∧
    PoolsOK n rQ rP (genSwitchingKeyDeg rQ rP skIn (fun _ => skOut) tape pools).2 := by
  subst hn
  have hw1 : (skIn.q.row 0).length = 2 ^ (m + d) := by rw [(hi.row 0 (by omega)).len, K.rings.hQ.deg]
  have hw2 : (skOut.q.row 0).length = 2 ^ m := by rw [(ho.q.row 0 (by omega)).len, D.small.deg]
  have hlt : 2 ^ m < 2 ^ (m + d) := Nat.pow_lt_pow_right (by omega) (by omega)
  have mq := mapSmall_mont D hlO ho.q h2 (large := pools.qp.q) (by rw [hpool.qp]; exact hlO) fun u hu => hpool.qpRow u (by omega)
  have mp := mapSmall_mont DP hlP ho.p h3 (large := pools.qp.p) (by rw [hpool.p]; exact hlP) fun u hu => hpool.pRow u (by omega)
  set qp : PolyQP := ⟨mapSmallToLarge skOut.q pools.qp.q, mapSmallToLarge skOut.p pools.qp.p⟩ with hqp
  have E1 : genSwitchingKeyDeg rQ rP skIn (fun _ => skOut) tape pools =
      ((genSwitchingKeyPool rQ rP lOut lP skIn.q qp tape pools.q).1, ⟨(genSwitchingKeyPool rQ rP lOut lP skIn.q qp tape pools.q).2, qp⟩) := by
    unfold genSwitchingKeyDeg
    dsimp only
    rw [hw1, hw2, if_pos hlt, h2, h3]
    rfl
  rw [E1]
  have hs := poolShape (lP := lP) (skIn := skIn.q) (rP := rP) qp tape hlO hpool.q hpool.qRow fun u hu => by
    rw [(hi.row u hu).len, K.rings.hQ.deg]
  refine ⟨?_, hs.1, hs.2, mq.len.trans hpool.qp, fun u hu => ?_, mp.len.trans hpool.p, fun u hu => ?_⟩
  · dsimp only
    rw [genSwitchingKeyPool_eq _ _ _ (by rw [hpool.q]; exact hlO) hlO]
    exact C33_switchingKey K hlO hlP hi ⟨mq.is, mp.is⟩ ht
  · by_cases h : u ≤ lOut
    · rw [(mq.is.row u h).len, K.rings.hQ.deg]
    · rw [mq.above u (by omega), hpool.qpRow u hu]
  · by_cases h : u ≤ lP
    · rw [(mp.is.row u h).len, K.rings.hP.deg]
    · rw [mp.above u (by omega), hpool.pRow u hu]

end

/-! ### Standard and conjugate-invariant rings -/

theorem intVec_symm {r : Ring} (N : ℕ) (S : ℕ → ℤ) (u : ℕ) : r.intVec (symm N S) u = symm N (r.intVec S u) := by
  funext k
  unfold Ring.intVec symm
  split
  · rfl
  · split <;> simp

/-- a secret `S` of the conjugate-invariant ring in NTT and Montgomery form, as `GenSecretKey` makes it: its transform is that of the
symmetric polynomial `S_0 + Σ S_j (X^j + X^-j)` -/
def IsMontCI (n : ℕ) (r : Ring) (l : ℕ) (x : Rows) (S : ℕ → ℤ) : Prop :=
  PolyIs r l r.qs x (fun u k => evals (r.sub u).psi (n + 1) (symm (2 ^ n) (r.intVec S u)) k * 2 ^ 64)

theorem unfold_mont {n : ℕ} {r rS : Ring} (hr : CIPair n r rS) {l : ℕ} (hl : l < r.subs.length) {x large : Rows} {S : ℕ → ℤ}
    (hx : IsMontCI n r l x S) (hL : l < large.length) (hw : ∀ u ≤ l, (large.row u).length = 2 ^ (n + 1)) :
    ∃ y, unfold l x large = some y ∧
      PolyWritten rS l rS.qs large y (fun u k => rS.nttVec (n + 1) (symm (2 ^ n) S) u k * 2 ^ 64) := by
  have e2 : 2 ^ (n + 1) = 2 * 2 ^ n := by ring
  have h4 := hr.ci.four_le
  have his := fun u (hu : u ≤ l) => hr.ci.deg ▸ hx.row u hu
  have hlen := (his 0 (by omega)).len
  refine ⟨_, by unfold unfold; rw [if_neg (by rw [hlen, hw 0 (by omega), e2]; simp)], writeLvl_is hL fun u hu => ?_⟩
  obtain ⟨es, V⟩ := hr.at (show u < r.subs.length by omega)
  rw [hlen, hr.std.deg]
  obtain ⟨u1, u2, u3⟩ := unfoldRow_spec (his u hu).len ((hw u hu).trans e2)
  have hat : ∀ k < 2 ^ (n + 1), ∃ k' < 2 ^ n, (unfoldRow (2 ^ n) (x.row u) (large.row u)).at k =
      (x.row u).at k' ∧ (k' = k ∨ k = 2 ^ (n + 1) - 1 - k') := by
    intro k hk
    by_cases hk' : k < 2 ^ n
    · exact ⟨k, hk', u2 k hk', Or.inl rfl⟩
    · refine ⟨2 ^ (n + 1) - 1 - k, by omega, ?_, Or.inr (by omega)⟩
      rw [← u3 _ (by omega)]
      congr 1
      omega
  unfold Ring.nttVec Ring.qs
  rw [intVec_symm]
  unfold Ring.intVec
  rw [es]
  refine ⟨u1.trans e2.symm, fun k hk => ?_, fun k hk => ?_⟩
  · obtain ⟨k', hk', e, -⟩ := hat k hk
    rw [e]
    exact (his u hu).lt k' hk'
  · obtain ⟨k', hk', e, hc⟩ := hat k hk
    unfold zval
    rw [e]
    refine ((his u hu).val k' hk').trans ?_
    rcases hc with rfl | rfl
    · rfl
    · rw [evals_symm_compl V (by omega) _ (by omega)]
      rfl

theorem DegPair.refl {n : ℕ} {r : Ring} (h : r.Valid n) : DegPair n 0 r r :=
  ⟨h, h, rfl, fun _ _ => rfl, fun i hi => by rw [pow_zero, pow_one]; exact (h.subAt hi).psiMont.2⟩

theorem spread_one {K : Type*} [Zero K] (S : ℕ → K) : spread (2 ^ 0) S = S := by
  funext k
  unfold spread
  rw [pow_zero, Nat.mod_one, Nat.div_one, if_pos rfl]

/-- **C89 (ring swap).** `GenSwitchingKeysForRingSwap`, for secrets over all primes of the parameters: whatever the pools hold, the
results are switching keys in the standard ring from the standard secret to the unfolded conjugate-invariant secret and back, although the
generator passes its own pool as a secret key. -/
theorem C89_ringSwap {n : ℕ} {rQ rP cQ cP : Ring} (K : KeyParams (n + 1) rQ rP) (hQ : CIPair n cQ rQ) (hP : CIPair n cP rP)
    {pools : KeyPools} (hpool : PoolsOK (n + 1) rQ rP pools) {skStd skCI : PolyQP} {sStd sCI : ℕ → ℤ} {E E' : ℕ → ℕ → ℤ}
    {tape tape' : ℕ → KeyTape} (l1 : skStd.q.length = rQ.subs.length) (l2 : skStd.p.length = rP.subs.length)
    (l3 : skCI.q.length = rQ.subs.length) (l4 : skCI.p.length = rP.subs.length)
    (hs : skStd.IsMont (n + 1) rQ rP (rQ.subs.length - 1) (rP.subs.length - 1) sStd)
    (hc : IsMontCI n cQ (rQ.subs.length - 1) skCI.q sCI) (hc' : IsMontCI n cP (rP.subs.length - 1) skCI.p sCI)
    (ht : TapeOK (n + 1) rQ rP (rQ.subs.length - 1) (rP.subs.length - 1) tape E)
    (ht' : TapeOK (n + 1) rQ rP (rQ.subs.length - 1) (rP.subs.length - 1) tape' E') :
    ∃ toCI toStd pools', genSwitchingKeysForRingSwap rQ rP skStd skCI tape tape' pools = some (toCI, toStd, pools') ∧
      IsSwitchKey (n + 1) rQ rP (rQ.subs.length - 1) (rP.subs.length - 1) toCI sStd (symm (2 ^ n) sCI) E' ∧
      IsSwitchKey (n + 1) rQ rP (rQ.subs.length - 1) (rP.subs.length - 1) toStd (symm (2 ^ n) sCI) sStd E ∧
      PoolsOK (n + 1) rQ rP pools' := by
  have hlQ := K.rings.lQ
  have hlP := K.rings.lP
  have hsQ : cQ.subs.length = rQ.subs.length := by rw [hQ.subs]
  have hsP : cP.subs.length = rP.subs.length := by rw [hP.subs]
  obtain ⟨q, q1, q2⟩ := unfold_mont hQ (by omega) hc (large := pools.qp.q) (by rw [hpool.qp]; omega)
    fun u hu => hpool.qpRow u (by omega)
  obtain ⟨p, p1, p2⟩ := unfold_mont hP (by omega) hc' (large := pools.qp.p) (by rw [hpool.p]; omega)
    fun u hu => hpool.pRow u (by omega)
  have hpool1 : PoolsOK (n + 1) rQ rP ⟨pools.q, ⟨q, p⟩⟩ := by
    refine ⟨hpool.q, hpool.qRow, q2.len.trans hpool.qp, fun u hu => ?_, p2.len.trans hpool.p, fun u hu => ?_⟩
    · rw [(q2.is.row u (by omega)).len, K.rings.hQ.deg]
    · rw [(p2.is.row u (by omega)).len, K.rings.hP.deg]
  have hm : PolyQP.IsMont (n + 1) rQ rP (rQ.subs.length - 1) (rP.subs.length - 1) ⟨q, p⟩ (symm (2 ^ n) sCI) := ⟨q2.is, p2.is⟩
  have D := DegPair.refl K.rings.hQ
  obtain ⟨a1, a2, a3⟩ := up_core K hpool1 (m := n + 1) (d := 0) rfl D (skIn := ⟨q, p⟩) (skOut := fun _ => skStd) (lIn := rQ.subs.length - 1)
    (lOut := rQ.subs.length - 1) (lP := rP.subs.length - 1) (by rw [hpool1.qp]; omega) (by rw [l1]; omega) (by rw [l2]; omega) hlQ hlQ hlP
    hm.q (fun h => absurd h (lt_irrefl _)) hs ht (fun _ _ => rfl) fun _ => rfl
  set first := genSwitchingKeyDeg rQ rP ⟨q, p⟩ (fun _ => skStd) tape ⟨pools.q, ⟨q, p⟩⟩ with hfirst
  have a4 : first.2.qp = ⟨q, p⟩ := a3 (lt_irrefl _)
  obtain ⟨b1, b2, -⟩ := up_core K a2 (m := n + 1) (d := 0) rfl D (skIn := skStd) (skOut := fun pools => pools.qp)
    (lIn := rQ.subs.length - 1) (lOut := rQ.subs.length - 1) (lP := rP.subs.length - 1) (by rw [l1]; omega)
    (by rw [a2.qp]; omega) (by rw [a2.p]; omega) hlQ hlQ hlP
    hs.q (fun h => absurd h (lt_irrefl _)) (by rw [a4]; exact hm) ht' (fun h => absurd h (lt_irrefl _)) fun _ => rfl
  rw [spread_one] at a1 b1
  refine ⟨_, _, _, ?_, b1, a1, b2⟩
  unfold genSwitchingKeysForRingSwap
  rw [l3, l4, q1, p1]
  rfl

/-! ### Ciphertexts -/

/-- the substitution `X ↦ X^(2^d)` between the rings -/
noncomputable def spreadHom (m d q : ℕ) : Rq (2 ^ m) q →+* Rq (2 ^ (m + d)) q :=
  AdjoinRoot.lift (AdjoinRoot.of _) (AdjoinRoot.root _ ^ 2 ^ d) (by
    rw [eval₂_add, eval₂_pow, eval₂_X, eval₂_one, ← pow_mul, ← pow_add, add_comm d m]
    have := AdjoinRoot.eval₂_root ((X : (ZMod q)[X]) ^ 2 ^ (m + d) + 1)
    rwa [eval₂_add, eval₂_pow, eval₂_X, eval₂_one] at this)

theorem spreadHom_intR (m d q : ℕ) (S : ℕ → ℤ) : spreadHom m d q (intR (2 ^ m) q S) = intR (2 ^ (m + d)) q (spread (2 ^ d) S) := by
  unfold intR toR
  rw [map_sum]
  have := sum_spread (2 ^ m) (2 ^ d) (by positivity) (fun j => AdjoinRoot.of ((X : (ZMod q)[X]) ^ 2 ^ (m + d) + 1) (S j : ZMod q))
    (AdjoinRoot.root _)
  rw [← pow_add] at this
  refine Eq.trans ?_ (this.symm.trans ?_)
  · refine sum_congr rfl fun j _ => ?_
    rw [map_mul, map_pow]
    unfold spreadHom
    rw [AdjoinRoot.lift_of, AdjoinRoot.lift_root]
  · refine sum_congr rfl fun k _ => ?_
    congr 1
    by_cases h : k % 2 ^ d = 0 <;> simp [spread, h]

theorem genSwitchingKeyPool_alpha {rQ rP : Ring} {lQ lP : ℕ} (hq : lQ < 2 ^ 20) (hp : lP < 2 ^ 20) (skIn : Rows) (skOut : PolyQP)
    (tape : ℕ → KeyTape) (pool : Rows) : SwitchingKey.alpha (genSwitchingKeyPool rQ rP lQ lP skIn skOut tape pool).1 = lP + 1 := by
  unfold SwitchingKey.alpha genSwitchingKeyPool
  simp only
  rw [getD_map_range' _ _ _ (by
    rw [ceilDivF_eq (by omega) (by omega) (by omega)]
    exact Nat.div_pos (by omega) (by omega))]
  unfold genSwitchingDigit extendBasisSmallNorm
  simp [Ring.mulCoeffsMontgomeryAndSubLvl, Ring.mformLvl, Ring.nttLazyLvl, length_writeLvl, newPoly]

theorem genSwitchingKeyDeg_alpha {rQ rP : Ring} {lQ lP : ℕ} (hq : lQ < 2 ^ 20) (hp : lP < 2 ^ 20) (skIn skOut : PolyQP)
    (h1 : skOut.q.length = lQ + 1) (h2 : skOut.p.length = lP + 1) (tape : ℕ → KeyTape) (pools : KeyPools) :
    SwitchingKey.alpha (genSwitchingKeyDeg rQ rP skIn (fun _ => skOut) tape pools).1 = lP + 1 := by
  unfold genSwitchingKeyDeg
  simp only [h1, h2, Nat.add_sub_cancel]
  split <;> exact genSwitchingKeyPool_alpha hq hp _ _ _ _

section
variable {m d : ℕ} {rQ rP r1 : Ring} (K : KeyParams (m + d) rQ rP) (h32 : rP.subs.length ≤ 32) {lQ lOut : ℕ}
  (hov : DigitRoom rQ rP lQ (rP.subs.length - 1)) (D : DegPair m d r1 rQ) {pools : KeyPools} (hpool : PoolsOK (m + d) rQ rP pools)
  {skIn skOut : PolyQP} {sIn sOut : ℕ → ℤ} {E : ℕ → ℕ → ℤ} {tape : ℕ → KeyTape} (h2 : skOut.q.length = lOut + 1)
  (h3 : skOut.p.length = rP.subs.length) (hlO : lOut < rQ.subs.length) (hlQ : lQ ≤ lOut)
  (ht : TapeOK (m + d) rQ rP lOut (rP.subs.length - 1) tape E) {p0 p1 c0 : Rows} (g0 : lQ < p0.length) (g1 : lQ < p1.length)
  (g2 : lQ < c0.length)
include K h32 hov D hpool h2 h3 hlO hlQ ht g0 g1 g2

/-- **C89 (a ciphertext moves to a larger ring).** An encryption of `M` under `sIn` in the ring of degree `2^m` is mapped by
`SwitchCiphertextRingDegreeNTT`, its second part is switched with the key of `GenSwitchingKey` and the first output is added to the first
part.  The result decrypts under `sOut` in the ring of degree `2^(m+d)` to `M(X^(2^d))` plus the error of one key switch. -/
theorem C89_ciphertext_up {lIn : ℕ} (h1 : skIn.q.length = lIn + 1) (hlI : lIn < rQ.subs.length)
    (hi : PolyIs r1 lIn r1.qs skIn.q (fun u k => r1.nttVec m sIn u k * 2 ^ 64))
    (hsm : lIn < lOut → ∀ k < 2 ^ m, 2 * |sIn k| < rQ.qs 0 ∧ ∀ u ≤ lOut, |sIn k| ≤ rQ.qs u)
    (ho : skOut.IsMont (m + d) rQ rP lOut (rP.subs.length - 1) sOut) {x0 x1 y0 y1 : Rows} {C0 C1 M : ℕ → ℤ}
    (hx0 : PolyIs r1 lQ r1.qs x0 (r1.nttVec m C0)) (hx1 : PolyIs r1 lQ r1.qs x1 (r1.nttVec m C1)) (hn0 : x0.length = lQ + 1)
    (hn1 : x1.length = lQ + 1)
    (hM : ∀ u ≤ lQ, intR (2 ^ m) (rQ.qs u) C0 + intR (2 ^ m) (rQ.qs u) C1 * intR (2 ^ m) (rQ.qs u) sIn = intR (2 ^ m) (rQ.qs u) M)
    (hy0 : lQ < y0.length) (hy1 : lQ < y1.length) (hw0 : ∀ u ≤ lQ, (y0.row u).length = 2 ^ (m + d))
    (hw1 : ∀ u ≤ lQ, (y1.row u).length = 2 ^ (m + d)) (any any' : Ring) :
    let big := (switchRingDegreeNTT [x0, x1] any any' [y0, y1]).2
    let key := (genSwitchingKeyDeg rQ rP skIn (fun _ => skOut) tape pools).1
    let sw := (newKeySwitcher rQ rP).switchKeysInPlace lQ true (big.getD 1 []) key p0 p1
    ∃ e, KeySwitched (m + d) rQ rP lQ (rP.subs.length - 1) (rQ.elt (m + d) true (big.getD 1 [])) (rQ.elt (m + d) true sw.1)
        (rQ.elt (m + d) true sw.2) (spread (2 ^ d) sIn) sOut E e ∧
      ∀ u ≤ lQ, rQ.elt (m + d) true (rQ.addLvl lQ (big.getD 0 []) sw.1 c0) u +
        rQ.elt (m + d) true sw.2 u * intR (2 ^ (m + d)) (rQ.qs u) sOut =
          intR (2 ^ (m + d)) (rQ.qs u) (spread (2 ^ d) M) + intR (2 ^ (m + d)) (rQ.qs u) e := by
  intro big key sw
  have hlP := K.rings.lP
  have h1q := K.q100
  have h1p := K.p100
  have hl : lQ < rQ.subs.length := by omega
  have hbig : big = [mapSmallToLarge x0 y0, mapSmallToLarge x1 y1] := by
    have e1 : (x0.row 0).length = 2 ^ m := by rw [(hx0.row 0 (by omega)).len, D.small.deg]
    have e2 : (y0.row 0).length = 2 ^ (m + d) := hw0 0 (by omega)
    have hle : 2 ^ m ≤ 2 ^ (m + d) := Nat.pow_le_pow_right (by omega) (by omega)
    show (switchRingDegreeNTT _ _ _ _).2 = _
    unfold switchRingDegreeNTT
    simp only [List.getD_cons_zero, e1, e2]
    rw [if_neg (by omega)]
    rfl
  have w0 := mapSmall_is D hl hx0 hn0 hy0 hw0
  have w1 := mapSmall_is D hl hx1 hn1 hy1 hw1
  have b0 : big.getD 0 [] = mapSmallToLarge x0 y0 := by rw [hbig]; rfl
  have b1 : big.getD 1 [] = mapSmallToLarge x1 y1 := by rw [hbig]; rfl
  obtain ⟨hkey, -⟩ := C89_up K hpool rfl D h1 h2 (lP := rP.subs.length - 1) (by omega) hlI hlO hlP hi hsm ho ht
  have hk : (rP.subs.length - 1) + 1 = rP.subs.length := by omega
  obtain ⟨⟨e, he⟩, ⟨s0, s1, q0, q1⟩⟩ := C28_switchKeys (K.at hl hlP) (by omega) (by omega) (by omega)
    (genSwitchingKeyDeg_alpha (by omega) (by omega) skIn skOut h2 (by omega) tape pools) hkey hlQ hov true
    (cx := big.getD 1 []) (p0 := p0) (p1 := p1) (by rw [b1]; exact w1.is) g0 g1
  refine ⟨e, he, fun u hu => ?_⟩
  obtain ⟨-, -, -, -, -, -, -, hrel⟩ := he
  have hQ := K.rings.hQ
  have i0 := elt_nttVec hQ hl w0.is
  have i1 := elt_nttVec hQ hl w1.is
  have j0 : EltIs (m + d) rQ lQ rQ.qs true sw.1 (fun u => rQ.elt (m + d) true sw.1 u) := q0.is.eltIs hQ fun u hu => by
    rw [Ring.elt_eq]
    refine Ring.eltOf_congr fun k hk => ((q0.is.row u hu).val k ?_).symm
    rw [hQ.deg]
    exact hk
  have hadd := (addLvl_elt hQ hl i0 j0 (fun u _ => by omega) g2).is.val u hu
  rw [b0, hadd, add_assoc, hrel u hu, b1, i1.val u hu, ← spreadHom_intR, ← spreadHom_intR, ← spreadHom_intR, ← spreadHom_intR,
    ← hM u hu, map_add, map_mul]
  ring

end

/-- the coefficients whose index is a multiple of the gap -/
def sample (gap : ℕ) (X : ℕ → ℤ) : ℕ → ℤ := fun k => X (k * gap)

theorem negConv_sample (m d : ℕ) (A S : ℕ → ℤ) (k : ℕ) :
    negConv (2 ^ (m + d)) A (spread (2 ^ d) S) (k * 2 ^ d) = negConv (2 ^ m) (sample (2 ^ d) A) S k := by
  have hg : 0 < 2 ^ d := by positivity
  generalize hgg : 2 ^ d = g at hg ⊢
  have hs : ∀ j, spread g S (j * g) = S j := by
    intro j
    unfold spread
    rw [if_pos (Nat.mul_mod_left _ _), Nat.mul_div_cancel _ hg]
  have hz : ∀ t, ¬ g ∣ t → spread g S t = 0 := by
    intro t ht
    unfold spread
    rw [if_neg fun h => ht (Nat.dvd_of_mod_eq_zero h)]
  have hN : 2 ^ (m + d) = 2 ^ m * g := by rw [pow_add, hgg]
  rw [hN]
  unfold negConv
  have key := sum_spread (2 ^ m) g hg
    (fun j => if j ≤ k then sample g A j * S (k - j) else -(sample g A j * S (2 ^ m + k - j))) (1 : ℤ)
  simp only [one_pow, mul_one] at key
  rw [← key]
  refine sum_congr rfl fun i hi => ?_
  have hi := mem_range.1 hi
  by_cases h : g ∣ i
  · obtain ⟨j, rfl⟩ := h
    rw [mul_comm g j] at hi ⊢
    have hj : j < 2 ^ m := lt_of_mul_lt_mul_right hi (by omega)
    unfold spread
    rw [if_pos (Nat.mul_mod_left _ _), Nat.mul_div_cancel _ hg, ← Nat.sub_mul, ← Nat.add_mul, ← Nat.sub_mul]
    have e1 : (j * g ≤ k * g) ↔ j ≤ k := ⟨fun h => le_of_mul_le_mul_right h hg, fun h => Nat.mul_le_mul_right _ h⟩
    simp only [e1]
    have h1 := hs (k - j)
    have h2 := hs (2 ^ m + k - j)
    unfold spread at h1 h2
    rw [h1, h2]
    rfl
  · have h1 : spread g (fun j => if j ≤ k then sample g A j * S (k - j) else -(sample g A j * S (2 ^ m + k - j))) i = 0 := by
      unfold spread
      rw [if_neg fun hh => h (Nat.dvd_of_mod_eq_zero hh)]
    rw [h1]
    split
    · rename_i hle
      rw [hz, mul_zero]
      exact fun hd => h ((Nat.dvd_sub_iff_right hle (Nat.dvd_mul_left g k)).1 hd)
    · rw [hz, mul_zero, neg_zero]
      intro hd
      rw [← Nat.add_mul] at hd
      exact h ((Nat.dvd_sub_iff_right (by rw [Nat.add_mul]; omega) (Nat.dvd_mul_left g _)).1 hd)

section
variable {m d : ℕ} {rQ rP r1 r1P : Ring} (K : KeyParams (m + d) rQ rP) (h32 : rP.subs.length ≤ 32) {lQ lOut : ℕ}
  (hov : DigitRoom rQ rP lQ (rP.subs.length - 1)) (D : DegPair m d r1 rQ) (DP : DegPair m d r1P rP) (hd : 0 < d) {pools : KeyPools}
  (hpool : PoolsOK (m + d) rQ rP pools)
  {skIn skOut : PolyQP} {sIn sOut : ℕ → ℤ} {E : ℕ → ℕ → ℤ} {tape : ℕ → KeyTape} (h2 : skOut.q.length = lOut + 1)
  (h3 : skOut.p.length = rP.subs.length) (hlO : lOut < rQ.subs.length) (hlQ : lQ ≤ lOut)
  (ht : TapeOK (m + d) rQ rP lOut (rP.subs.length - 1) tape E) {p0 p1 t0 t1 : Rows} (g0 : lQ < p0.length) (g1 : lQ < p1.length)
  (g2 : lQ < t0.length) (g3 : lQ < t1.length)
include K h32 hov D DP hd hpool h2 h3 hlO hlQ ht g0 g1 g2 g3

/-- **C89 (a ciphertext moves to a smaller ring).** An encryption of `M` under `sIn` in the ring of degree `2^(m+d)` is switched with the
key of `GenSwitchingKey`, brought to coefficient form and mapped by `SwitchCiphertextRingDegree`.  The result decrypts under the small
secret `sOut` in the ring of degree `2^m` to the coefficients of `M` at the multiples of `2^d`, plus those of the error of one key
switch.  (`SwitchCiphertextRingDegreeNTT` does not do this, see `C57_down_violated`.) -/
theorem C89_ciphertext_down (hi : PolyIs rQ lOut rQ.qs skIn.q (fun u k => rQ.nttVec (m + d) sIn u k * 2 ^ 64))
    (ho : skOut.IsMont m r1 r1P lOut (rP.subs.length - 1) sOut) {c0 c1 z0 z1 : Rows} {C0 C1 M : ℕ → ℤ}
    (hc0 : PolyIs rQ lQ rQ.qs c0 (rQ.nttVec (m + d) C0)) (hc1 : PolyIs rQ lQ rQ.qs c1 (rQ.nttVec (m + d) C1))
    (hM : ∀ u ≤ lQ, intR (2 ^ (m + d)) (rQ.qs u) C0 + intR (2 ^ (m + d)) (rQ.qs u) C1 * intR (2 ^ (m + d)) (rQ.qs u) sIn =
      intR (2 ^ (m + d)) (rQ.qs u) M)
    (hz0 : z0.length = lQ + 1) (hz1 : z1.length = lQ + 1) (hw0 : ∀ row ∈ z0, row.length = 2 ^ m) (hw1 : ∀ row ∈ z1, row.length = 2 ^ m) :
    let key := (genSwitchingKeyDeg rQ rP skIn (fun _ => skOut) tape pools).1
    let sw := (newKeySwitcher rQ rP).switchKeysInPlace lQ true c1 key p0 p1
    let big := [rQ.invNttLvl lQ (rQ.addLvl lQ c0 sw.1 c0) t0, rQ.invNttLvl lQ sw.2 t1]
    let small := switchRingDegree big [z0, z1]
    ∃ e, KeySwitched (m + d) rQ rP lQ (rP.subs.length - 1) (rQ.elt (m + d) true c1) (rQ.elt (m + d) true sw.1)
        (rQ.elt (m + d) true sw.2) sIn (spread (2 ^ d) sOut) E e ∧
      ∀ u ≤ lQ, r1.elt m false (small.getD 0 []) u + r1.elt m false (small.getD 1 []) u * intR (2 ^ m) (r1.qs u) sOut =
          intR (2 ^ m) (r1.qs u) (sample (2 ^ d) M) + intR (2 ^ m) (r1.qs u) (sample (2 ^ d) e) := by
  intro key sw big small
  have hlP := K.rings.lP
  have h1q := K.q100
  have h1p := K.p100
  have hQ := K.rings.hQ
  have hl : lQ < rQ.subs.length := by omega
  have hk : (rP.subs.length - 1) + 1 = rP.subs.length := by omega
  obtain ⟨hkey, -⟩ := C89_down K hpool rfl hd D DP h2 (lP := rP.subs.length - 1) (by omega) hlO hlP hi ho ht
  obtain ⟨⟨e, he⟩, ⟨s0, s1, q0, q1⟩⟩ := C28_switchKeys (K.at hl hlP) (by omega) (by omega) (by omega)
    (genSwitchingKeyDeg_alpha (by omega) (by omega) skIn skOut h2 (by omega) tape pools) hkey hlQ hov true
    (cx := c1) (p0 := p0) (p1 := p1) hc1 g0 g1
  refine ⟨e, he, fun u hu => ?_⟩
  obtain ⟨-, -, -, -, -, -, -, hrel⟩ := he
  have i0 := elt_nttVec hQ hl hc0
  have i1 := elt_nttVec hQ hl hc1
  have self : ∀ {p p' : Rows} {v}, PolyWritten rQ lQ rQ.qs p p' v → EltIs (m + d) rQ lQ rQ.qs true p' (fun u => rQ.elt (m + d) true p' u) :=
    fun {p p' v} h => h.is.eltIs hQ fun u hu => by
      rw [Ring.elt_eq]
      refine Ring.eltOf_congr fun k hk => ((h.is.row u hu).val k ?_).symm
      rw [hQ.deg]
      exact hk
  have hadd := (addLvl_elt hQ hl i0 (self q0) (fun u _ => by omega) hc0.lvl).is
  have f0 := (invNttLvl_elt hQ hl K.rings.sQ (fun u _ => by omega) hadd g2).is
  have f1 := (invNttLvl_elt hQ hl K.rings.sQ (fun u _ => by omega) (self q1) g3).is
  -- the two parts as integer vectors
  have hmain : rQ.elt (m + d) false (big.getD 0 []) u + rQ.elt (m + d) false (big.getD 1 []) u * intR _ (rQ.qs u) (spread (2 ^ d) sOut) =
      intR (2 ^ (m + d)) (rQ.qs u) M + intR (2 ^ (m + d)) (rQ.qs u) e := by
    show rQ.elt (m + d) false (rQ.invNttLvl lQ (rQ.addLvl lQ c0 sw.1 c0) t0) u + rQ.elt (m + d) false (rQ.invNttLvl lQ sw.2 t1) u * _ = _
    rw [f0.val u hu, f1.val u hu, add_assoc, hrel u hu, i1.val u hu, ← hM u hu]
    ring
  have hnat : ∀ (N q : ℕ) (x : Row), rowR N q x = intR N q (fun k => ((x.at k).toNat : ℤ)) := by
    intro N q x
    unfold rowR intR
    exact toR_congr fun k _ => by unfold zval; push_cast; rfl
  rw [show rQ.elt (m + d) false (big.getD 0 []) u = rowR _ _ ((big.getD 0 []).row u) from rfl,
    show rQ.elt (m + d) false (big.getD 1 []) u = rowR _ _ ((big.getD 1 []).row u) from rfl, hnat, hnat, intR_mul, intR_add,
    intR_add] at hmain
  have hco := toR_inj (by positivity) hmain
  have hsmall : ∀ i, i = 0 ∨ i = 1 → (small.getD i []).row u = sampleRow (2 ^ m) (2 ^ d) ((big.getD i []).row u) := by
    have hgap : 1 < 2 ^ d := Nat.one_lt_two_pow (by omega)
    have e1 : ((big.getD 0 []).row 0).length = 2 ^ m * 2 ^ d := by
      rw [← pow_add]
      exact f0.len 0 (by omega)
    have hrow0 : (([z0, z1] : List Rows).getD 0 [] |>.row 0).length = 2 ^ m := by
      show ((z0 : Rows).row 0).length = _
      unfold Rows.row
      rw [List.getD_eq_getElem _ _ (by omega)]
      exact hw0 _ (List.getElem_mem _)
    have := C57_coeff_down big [z0, z1] (2 ^ m) (2 ^ d) hgap (by positivity) e1
      (by
        intro p hp row hrow
        simp only [List.mem_cons, List.not_mem_nil, or_false] at hp
        rcases hp with rfl | rfl
        · exact hw0 row hrow
        · exact hw1 row hrow) hrow0
    intro i hi'
    show ((switchRingDegree big [z0, z1]).getD i []).row u = _
    rw [this]
    rcases hi' with rfl | rfl
    · show Rows.row (z0.mapIdx _) u = _
      rw [row_mapIdx _ _ _ (by omega)]
      rfl
    · show Rows.row (z1.mapIdx _) u = _
      rw [row_mapIdx _ _ _ (by omega)]
      rfl
  have hqq : r1.qs u = rQ.qs u := by
    unfold Ring.qs
    rw [D.q u (by omega)]
  rw [show r1.elt m false (small.getD 0 []) u = rowR _ _ ((small.getD 0 []).row u) from rfl,
    show r1.elt m false (small.getD 1 []) u = rowR _ _ ((small.getD 1 []).row u) from rfl, hnat, hnat, intR_mul, intR_add, intR_add]
  refine toR_congr fun k hk => ?_
  have hkd : k * 2 ^ d < 2 ^ (m + d) := by
    rw [pow_add]
    exact Nat.mul_lt_mul_of_pos_right hk (by positivity)
  have := hco (k * 2 ^ d) hkd
  dsimp only at this ⊢
  rw [negConv_sample] at this
  rw [hqq]
  refine Eq.trans ?_ this
  have e0 : ∀ j < 2 ^ m, ((((small.getD 0 []).row u).at j).toNat : ℤ) = ((((big.getD 0 []).row u).at (j * 2 ^ d)).toNat : ℤ) := by
    intro j hj
    rw [hsmall 0 (Or.inl rfl), sampleRow_at _ _ _ hj]
  have e1 : ∀ j < 2 ^ m, ((((small.getD 1 []).row u).at j).toNat : ℤ) = ((((big.getD 1 []).row u).at (j * 2 ^ d)).toNat : ℤ) := by
    intro j hj
    rw [hsmall 1 (Or.inr rfl), sampleRow_at _ _ _ hj]
  rw [e0 k hk]
  congr 2
  unfold negConv
  refine sum_congr rfl fun j hj => ?_
  dsimp only
  rw [e1 j (mem_range.1 hj)]
  rfl

end

/-! ### The hypotheses are met -/

theorem exists_nttPolyLen {n : ℕ} {r : Ring} (hr : r.Valid n) (sr : r.Small) {l : ℕ} (hl : l < r.subs.length) (X : ℕ → ℤ) :
    ∃ p : Rows, PolyIs r l r.qs p (r.nttVec n X) ∧ p.length = l + 1 := by
  obtain ⟨p, hp⟩ := exists_nttPoly hr sr hl X
  have hlv := hp.lvl
  refine ⟨p.take (l + 1), ⟨by rw [List.length_take]; omega, fun u hu => ?_⟩, by rw [List.length_take]; omega⟩
  have : Rows.row (p.take (l + 1)) u = p.row u := by
    unfold Rows.row
    rw [List.getD_eq_getElem _ _ (by rw [List.length_take]; omega), List.getD_eq_getElem _ _ (by omega), List.getElem_take]
  rw [this]
  exact hp.row u hu

theorem exists_montSk {n : ℕ} {rQ rP : Ring} (K : KeyParams n rQ rP) (S : ℕ → ℤ) :
    ∃ sk : PolyQP, sk.IsMont n rQ rP (rQ.subs.length - 1) (rP.subs.length - 1) S ∧ sk.q.length = rQ.subs.length ∧
      sk.p.length = rP.subs.length := by
  have R := K.rings
  have h1 := R.lQ
  have h2 := R.lP
  obtain ⟨q, q1, q2⟩ := exists_nttPolyLen R.hQ R.sQ R.lQ (fun k => 2 ^ 64 * S k)
  obtain ⟨p, p1, p2⟩ := exists_nttPolyLen R.hP R.sP R.lP (fun k => 2 ^ 64 * S k)
  refine ⟨⟨q, p⟩, ⟨q1.congr fun u _ k _ => ?_, p1.congr fun u _ k _ => ?_⟩, by show q.length = _; omega, by show p.length = _; omega⟩ <;>
  · rw [nttVec_smul]
    push_cast
    ring

theorem exampleDegRing (n : ℕ) (hn : n < 61) (Q : List UInt64) (h : (newRing 100 (2 ^ n) Q).toOption.isSome = true)
    (hq : ∀ q ∈ Q, q.toNat < 2 ^ 61) : ∃ r, newRing 100 (2 ^ n) Q = .ok r ∧ r.Valid n ∧ r.Small ∧ r.moduli = Q := by
  cases hr : newRing 100 (2 ^ n) Q with
  | error e => rw [hr] at h; cases h
  | ok r =>
    obtain ⟨n', h1, h2, h3, -⟩ := C17_newRing_valid 100 (2 ^ n) (Nat.pow_lt_pow_right (by omega) (by omega)) Q
      (fun q h => by have := hq q h; omega) r hr
    obtain rfl : n' = n := (Nat.pow_right_injective (le_refl 2) h1).symm
    exact ⟨r, rfl, h2, fun s hs => hq _ (h3 ▸ List.mem_map_of_mem hs), h3⟩

set_option maxRecDepth 1000000 in
theorem exampleDeg_isSome : (newRing 100 16 [193, 257]).toOption.isSome = true ∧ (newRing 100 16 [449]).toOption.isSome = true ∧
    (newRing 100 32 [193, 257]).toOption.isSome = true ∧ (newRing 100 32 [449]).toOption.isSome = true := by decide +kernel

theorem exampleDeg : ∃ r1 r1P r2 r2P : Ring, KeyParams 4 r1 r1P ∧ KeyParams 5 r2 r2P ∧ DegPair 4 1 r1 r2 ∧ DegPair 4 1 r1P r2P ∧
    r2.moduli = [193, 257] ∧ r2P.moduli = [449] := by
  have hQ : ∀ q ∈ ([193, 257] : List UInt64), q.toNat < 2 ^ 61 := by decide
  have hP : ∀ q ∈ ([449] : List UInt64), q.toNat < 2 ^ 61 := by decide
  obtain ⟨r1, a1, a2, a3, a4⟩ := exampleDegRing 4 (by omega) [193, 257] exampleDeg_isSome.1 hQ
  obtain ⟨r1P, b1, b2, b3, b4⟩ := exampleDegRing 4 (by omega) [449] exampleDeg_isSome.2.1 hP
  obtain ⟨r2, c1, c2, c3, c4⟩ := exampleDegRing 5 (by omega) [193, 257] exampleDeg_isSome.2.2.1 hQ
  obtain ⟨r2P, d1, d2, d3, d4⟩ := exampleDegRing 5 (by omega) [449] exampleDeg_isSome.2.2.2 hP
  have key : ∀ {n : ℕ} {rQ rP : Ring}, rQ.Valid n → rQ.Small → rP.Valid n → rP.Small → rQ.moduli = [193, 257] → rP.moduli = [449] →
      KeyParams n rQ rP := by
    intro n rQ rP h1 h2 h3 h4 h5 h6
    have l1 : rQ.subs.length = 2 := by simpa [Ring.moduli] using congrArg List.length h5
    have l2 : rP.subs.length = 1 := by simpa [Ring.moduli] using congrArg List.length h6
    have q0 := sub_of_moduli h5 0 193 rfl
    have q1 := sub_of_moduli h5 1 257 rfl
    have p0 := sub_of_moduli h6 0 449 rfl
    refine ⟨⟨h1, h2, h3, h4, fun i hi j hj => ?_, by omega, by omega⟩, by omega, by omega⟩
    obtain rfl : j = 0 := by omega
    rcases (by omega : i = 0 ∨ i = 1) with rfl | rfl
    · rw [q0, p0]; decide
    · rw [q1, p0]; decide
  exact ⟨r1, r1P, r2, r2P, key a2 a3 b2 b3 a4 b4, key c2 c3 d2 d3 c4 d4,
    C89_rings (d := 1) (by omega) (fun q h => by have := hQ q h; omega) a1 c1,
    C89_rings (d := 1) (by omega) (fun q h => by have := hP q h; omega) b1 d1, c4, d4⟩

theorem poolsZero {n : ℕ} {rQ rP : Ring} (K : KeyParams n rQ rP) :
    PoolsOK n rQ rP ⟨newPoly rQ.n rQ.subs.length, ⟨newPoly rQ.n rQ.subs.length, newPoly rP.n rP.subs.length⟩⟩ := by
  have e : ∀ {r : Ring}, r.Valid n → ∀ u < r.subs.length, (Rows.row (newPoly r.n r.subs.length) u).length = 2 ^ n := by
    intro r hr u hu
    simp [newPoly, Rows.row, List.getD, hu, hr.deg]
  exact ⟨length_newPoly _ _, e K.rings.hQ, length_newPoly _ _, e K.rings.hQ, length_newPoly _ _, e K.rings.hP⟩

/-- a ciphertext of degree 16 over `193·257` goes to degree 32 and decrypts to the message in `X^2` -/
example : ∃ (rQ rP r1 : Ring) (skIn skOut : PolyQP) (tape : ℕ → KeyTape) (x0 x1 c0 c1 : Rows) (e : ℕ → ℤ),
    rQ.moduli = [193, 257] ∧ rP.moduli = [449] ∧ x0.length = 2 ∧ r1.n = 16 ∧ rQ.n = 32 ∧
    let key := (genSwitchingKeyDeg rQ rP skIn (fun _ => skOut) tape ⟨newPoly 32 2, ⟨newPoly 32 2, newPoly 32 1⟩⟩).1
    let big := (switchRingDegreeNTT [x0, x1] r1 rQ [newPoly 32 2, newPoly 32 2]).2
    let sw := (newKeySwitcher rQ rP).switchKeysInPlace 1 true (big.getD 1 []) key (newPoly 32 2) (newPoly 32 2)
    c0 = rQ.addLvl 1 (big.getD 0 []) sw.1 (newPoly 32 2) ∧ c1 = sw.2 ∧
    ∀ u ≤ 1, rQ.elt 5 true c0 u + rQ.elt 5 true c1 u * intR (2 ^ 5) (rQ.qs u) exampleS =
      intR (2 ^ 5) (rQ.qs u) (spread 2 fun k => 3 * k + 1) + intR (2 ^ 5) (rQ.qs u) e := by
  obtain ⟨r1, r1P, rQ, rP, K1, K2, D, DP, hQ, hP⟩ := exampleDeg
  have lQ : rQ.subs.length = 2 := by simpa [Ring.moduli] using congrArg List.length hQ
  have lP : rP.subs.length = 1 := by simpa [Ring.moduli] using congrArg List.length hP
  have l1 : r1.subs.length = 2 := D.len.trans lQ
  have dQ : rQ.n = 32 := K2.rings.hQ.deg
  have dP : rP.n = 32 := K2.rings.hP.deg
  have q0 : rQ.qs 0 = 193 := by unfold Ring.qs; rw [sub_of_moduli hQ 0 193 rfl]; rfl
  have p0 : rP.qs 0 = 449 := by unfold Ring.qs; rw [sub_of_moduli hP 0 449 rfl]; rfl
  obtain ⟨skIn, i1, i2, -⟩ := exists_montSk K1 (fun k => 1 - k % 3)
  obtain ⟨skOut, o1, o2, o3⟩ := exists_montSk K2 exampleS
  have bE : ∀ k : ℕ, |(2 - (k : ℤ) % 5)| ≤ 2 := by
    intro k
    rw [abs_le]
    omega
  obtain ⟨tape, ht⟩ := exists_tape K2 (lQ := 1) (lP := 0) (E := fun k => 2 - k % 5) (by omega) (by omega)
    (fun k _ => by have := bE k; rw [q0]; omega)
    (fun k _ u hu => by have := bE k; obtain rfl : u = 0 := by omega
                        rw [p0]; omega)
  have hpool := poolsZero K2
  rw [lQ, lP, dQ, dP] at hpool
  rw [lQ, lP] at o1
  rw [l1] at i1
  set C1 : ℕ → ℤ := fun k => 5 * k * k - 7
  set M : ℕ → ℤ := fun k => 3 * k + 1
  obtain ⟨x1, hx1, hn1⟩ := exists_nttPolyLen D.small K1.rings.sQ (l := 1) (by omega) C1
  obtain ⟨x0, hx0, hn0⟩ := exists_nttPolyLen D.small K1.rings.sQ (l := 1) (by omega)
    (fun k => M k - negConv (2 ^ 4) C1 (fun k => 1 - k % 3) k)
  have hnew : ∀ u ≤ 1, (Rows.row (newPoly 32 2) u).length = 2 ^ (4 + 1) := by
    intro u hu
    rcases (by omega : u = 0 ∨ u = 1) with rfl | rfl <;> rfl
  have hlen : 1 < (newPoly 32 2).length := by rw [length_newPoly]; omega
  obtain ⟨e, -, he⟩ := C89_ciphertext_up (m := 4) (d := 1) K2 (by omega) (lQ := 1) (lOut := 1) (Or.inl (by omega)) D hpool
    (by omega) o3 (by omega) le_rfl (by rw [lP]; exact ht) hlen hlen hlen (lIn := 1) (by omega) (by omega) i1.q (fun h => absurd h (lt_irrefl _))
    (by rw [lP]; exact o1) hx0 hx1 hn0 hn1 (M := M) (fun u _ => by
      rw [intR_mul, intR_add]
      exact intR_congr fun k _ => by simp) hlen hlen hnew hnew r1 rQ
  exact ⟨rQ, rP, r1, skIn, skOut, tape, x0, x1, _, _, e, hQ, hP, hn0, K1.rings.hQ.deg, dQ, rfl, rfl, he⟩

end FastKsw.Props
