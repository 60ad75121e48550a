import Verif.Model.Hoisted
import Verif.Props.Rotate

/-!
# C80: hoisted rotations

`PermuteNTTHoisted` on the digits of `DecomposeNTT` decrypts as `Rotate` does; `PermuteNTTHoistedNoModDown` leaves `P` times the rotated
message modulo `Q P`.
-/

namespace FastKsw.Props

open FastKsw Finset

/-- the index table is the same for both rings -/
theorem permuteNTTIndex_congr {n : ℕ} {rQ rP : Ring} (hQ : rQ.Valid n) (hP : rP.Valid n) (g : UInt64) :
    rQ.permuteNTTIndex g = rP.permuteNTTIndex g := by
  unfold Ring.permuteNTTIndex
  rw [hQ.root, hP.root, hQ.deg, hP.deg]

theorem permuteNTTWithIndexLvl_congr {n : ℕ} {rQ rP : Ring} (hQ : rQ.Valid n) (hP : rP.Valid n) (g : UInt64) (level : ℕ)
    (p out : Rows) : rQ.permuteNTTWithIndexLvl level p (rQ.permuteNTTIndex g) out = rP.permuteNTTLvl level p g out := by
  unfold Ring.permuteNTTLvl Ring.permuteNTTWithIndexLvl
  rw [hQ.deg, hP.deg, permuteNTTIndex_congr hQ hP]

/-- rows that hold the transform of an integer vector -/
theorem eltWritten_nttVec {n : ℕ} {r : Ring} (hr : r.Valid n) {level : ℕ} (hl : level < r.subs.length) {A : ℕ → ℕ} {p p' : Rows}
    {X : ℕ → ℤ} (h : PolyWritten r level A p p' (r.nttVec n X)) :
    EltWritten n r level A true p p' (fun u => intR (2 ^ n) (r.qs u) X) :=
  h.eltWritten hr fun u hu => by
    unfold Ring.eltOf
    rw [if_pos rfl]
    exact ofNtt_nttVec hr (show u < r.subs.length by omega) X

/-- The pair `(o0, o1)` over `Q P`, written into `(out0, out1)`, decrypts under `S` modulo the primes of `Q` to the image of
`P (x0 + x1 s) + ∑ digit_i e_i` under the automorphism `g`, and modulo those of `P` to the image of `∑ digit_i e_i`, for digits of `x1`
as in the key-switching relation. -/
def RotatedQP (n : ℕ) (rQ rP : Ring) (level : ℕ) (S : ℕ → ℤ) (e : ℕ → ℕ → ℤ) (x0 x1 : ∀ u, Rq (2 ^ n) (rQ.qs u)) {g : ℕ}
    (hg : g % 2 = 1) (out0 out1 o0 o1 : PolyQP) : Prop :=
  ∃ (A : ℕ → ℕ → ℤ) (y0 y1 : ∀ u, Rq (2 ^ n) (rQ.qs u)) (z0 z1 : ∀ u, Rq (2 ^ n) (rP.qs u)),
    (∀ i, i * rP.subs.length ≤ level →
      (∀ k < 2 ^ n, NearRep (rQ.blockQ rP.subs.length (level + 1) i) (A i k)) ∧
      ∀ u ≤ level, u / rP.subs.length = i → intR (2 ^ n) (rQ.qs u) (A i) = x1 u) ∧
    EltWritten n rQ level rQ.qs true out0.q o0.q y0 ∧ EltWritten n rQ level rQ.qs true out1.q o1.q y1 ∧
    EltWritten n rP (rP.subs.length - 1) rP.qs true out0.p o0.p z0 ∧
    EltWritten n rP (rP.subs.length - 1) rP.qs true out1.p o1.p z1 ∧
    (∀ u ≤ level, y0 u + y1 u * intR _ _ S = aut (2 ^ n) (rQ.qs u) hg
      ((rP.prodQ (rP.subs.length - 1) : Rq (2 ^ n) (rQ.qs u)) * (x0 u + x1 u * intR _ _ S)
        + intR _ _ (convSum (2 ^ n) ((level + rP.subs.length) / rP.subs.length) A e))) ∧
    ∀ u < rP.subs.length, z0 u + z1 u * intR _ _ S = aut (2 ^ n) (rP.qs u) hg
      (intR _ _ (convSum (2 ^ n) ((level + rP.subs.length) / rP.subs.length) A e))

section
variable {n : ℕ} {ev : Evaluator} {rP : Ring} (K : KeyParams n ev.ringQ rP) (h32 : rP.subs.length ≤ 32)
  (hks : ev.ks = newKeySwitcher ev.ringQ rP) {sk : PolyQP} {S : ℕ → ℤ}
  (hs : sk.IsMont n ev.ringQ rP (ev.ringQ.subs.length - 1) (rP.subs.length - 1) S)
  {tape : ℕ → KeyTape} {e : ℕ → ℕ → ℤ}
  (ht : TapeOK n ev.ringQ rP (ev.ringQ.subs.length - 1) (rP.subs.length - 1) tape e)
  {level : ℕ} {x0 x1 : ∀ u, Rq (2 ^ n) (ev.ringQ.qs u)}
  (hl : level < ev.ringQ.subs.length) (hov : DigitRoom ev.ringQ rP level (rP.subs.length - 1))
  {b : Bool} {c1 : Rows} (h1 : EltIs n ev.ringQ level ev.ringQ.qs b c1 x1) {k : ℤ}
  (hrtk : ev.rtks (ev.ringQ.galoisElementForColumnRotationBy k)
      = some (genSwitchingKeyForGalois ev.ringQ rP (ev.ringQ.galoisElementForColumnRotationBy k) sk tape))
  {pool2 pool3 : PolyQP} (p2q : level < pool2.q.length) (p2p : rP.subs.length ≤ pool2.p.length) (p3q : level < pool3.q.length)
  (p3p : rP.subs.length ≤ pool3.p.length)
include K h32 hks hs ht hl hov h1 hrtk p2q p2p p3q p3p

/-- **C80 (`PermuteNTTHoisted`).** For `k ≠ 0`, on the digits of `DecomposeNTT` of component 1 (given in either form) and whatever the
pools hold: the two receivers, in NTT form and reduced, decrypt under `s` to the image of `c0 + c1 s + E` under the automorphism of the
rotation, `E` the key-switching error; rows above the level and the flags stay. -/
theorem C80_hoisted {c0 c1' out0 out1 : Poly} (hk : k ≠ 0)
    (h0 : EltIs n ev.ringQ level (fun u => ev.ringQ.qs u + 1) true c0.coeffs x0)
    (l0 : level < out0.coeffs.length) (l1 : level < out1.coeffs.length) :
    ∃ o0 o1, ev.permuteNTTHoisted level c0 c1'
        (ev.ks.decomposeNTT level (rP.subs.length - 1) rP.subs.length b c1) k pool2 pool3 out0 out1
        = some (⟨o0, out0.isNTT⟩, ⟨o1, out1.isNTT⟩) ∧
      ∃ y0 y1, EltWritten n ev.ringQ level ev.ringQ.qs true out0.coeffs o0 y0 ∧
        EltWritten n ev.ringQ level ev.ringQ.qs true out1.coeffs o1 y1 ∧
      ∃ g', g' % 2 = 1 ∧ g' * (ev.ringQ.galoisElementForColumnRotationBy k).toNat % (2 * 2 ^ n) = 1 ∧
      ∃ d0 d1 E, KeySwitched n ev.ringQ rP level (rP.subs.length - 1) x1 d0 d1 S (autInt (2 ^ n) g' S) e E ∧
      ∀ u ≤ level, y0 u + y1 u * intR _ _ S
        = aut (2 ^ n) (ev.ringQ.qs u) (C25_rotation_odd K.rings.hQ k).1 (x0 u + x1 u * intR _ _ S + intR _ _ E) := by
  have hQ := K.rings.hQ
  have hlP := K.rings.lP
  have h1q := K.q100
  have h1p := K.p100
  have hpos : 0 < rP.subs.length := by omega
  set go := (C25_rotation_odd hQ k).1
  obtain ⟨g', hg1, hg2, hkey⟩ := C33_galois K hs go ht
  obtain ⟨⟨E, hE⟩, y0, y1, w0, w1⟩ := C28_hoisted (K.at hl hlP) (by omega) (by omega) (by omega)
    (genSwitchingKeyCore_alpha (by omega) (by omega) _ _ _) hkey (by omega) hov b (h1.polyIs hQ) (c0 := pool2) (c1 := pool3)
    p2q (by omega) p3q (by omega)
  rw [show rP.subs.length - 1 + 1 = rP.subs.length by omega] at hE w0 w1
  have v0 := w0.eltWritten hQ (b := true) (x := fun u => ev.ringQ.eltOf n true u (y0 u)) fun _ _ => rfl
  have v1 := w1.eltWritten hQ (b := true) (x := fun u => ev.ringQ.eltOf n true u (y1 u)) fun _ _ => rfl
  unfold Evaluator.permuteNTTHoisted
  rw [if_neg hk]
  dsimp only
  rw [hrtk, Option.map_some, hks]
  have a0 := addLvl_elt hQ hl v0.is h0 (fun u _ => by omega) v0.is.lvl
  have b0 := permuteNTTLvl_elt hQ hl (out := out0.coeffs) l0 go a0.is
  have b1 := permuteNTTLvl_elt hQ hl (out := out1.coeffs) l1 go v1.is
  refine ⟨_, _, rfl, _, _, b0, b1, g', hg1, hg2, _, _, E, hE.congr h1.val, fun u hu => ?_⟩
  have hrel := congrArg (aut (2 ^ n) (ev.ringQ.qs u) go) ((hE.congr h1.val).rel u hu)
  rw [← v0.is.val u hu, ← v1.is.val u hu]
  rw [intR_autInt (by positivity) hg1, map_add, map_mul, C24_inverse _ _ _ _ (by positivity) hg1 go hg2] at hrel
  simp only [map_add, map_mul] at hrel ⊢
  linear_combination hrel

/-- **C80 (`PermuteNTTHoistedNoModDown`).** The receivers satisfy the relation above; the pools keep their lengths. -/
theorem C80_noModDown {c0 : Rows} {out0 out1 : PolyQP}
    (h0 : EltIs n ev.ringQ level (fun u => ev.ringQ.qs u + 1) true c0 x0)
    (l0 : level < out0.q.length) (l1 : level < out1.q.length) (m0 : rP.subs.length ≤ out0.p.length)
    (m1 : rP.subs.length ≤ out1.p.length) :
    ∃ o0 o1 p2 p3, ev.permuteNTTHoistedNoModDown level c0
        (ev.ks.decomposeNTT level (rP.subs.length - 1) rP.subs.length b c1) k pool2 pool3 out0 out1 = some ((o0, o1), p2, p3) ∧
      RotatedQP n ev.ringQ rP level S e x0 x1 (C25_rotation_odd K.rings.hQ k).1 out0 out1 o0 o1 ∧
      p2.q.length = pool2.q.length ∧ p2.p.length = pool2.p.length ∧ p3.q.length = pool3.q.length ∧
      p3.p.length = pool3.p.length := by
  have hQ := K.rings.hQ
  have hP := K.rings.hP
  have hlP := K.rings.lP
  have h1q := K.q100
  have h1p := K.p100
  have hpos : 0 < rP.subs.length := by omega
  have es : rP.subs.length - 1 + 1 = rP.subs.length := by omega
  set go := (C25_rotation_odd hQ k).1
  obtain ⟨g', hg1, hg2, hkey⟩ := C33_galois K hs go ht
  have hal := genSwitchingKeyCore_alpha (rQ := ev.ringQ) (rP := rP) (lQ := ev.ringQ.subs.length - 1) (lP := rP.subs.length - 1)
    (by omega) (by omega)
  obtain ⟨A, X0, X1, hA, w0, v0, w1, v1, g1, g2⟩ := C28_noModDown (K.at hl hlP) (by omega) (by omega) (by omega)
    (hal _ _ _) hkey (by omega) hov b (h1.polyIs hQ) (c0 := pool2) (c1 := pool3)
    p2q (by omega) p3q (by omega)
  rw [switchKeysNoModDown_eq (hal _ _ _) (ceil_lvl (K.at hl hlP) (by omega) (by omega))] at w0 v0 w1 v1
  simp only [es] at hA w0 v0 w1 v1 g1 g2
  have q0 := eltWritten_nttVec hQ hl w0
  have q1 := eltWritten_nttVec hQ hl w1
  have r0 := eltWritten_nttVec hP hlP v0
  have r1 := eltWritten_nttVec hP hlP v1
  unfold Evaluator.permuteNTTHoistedNoModDown
  dsimp only
  rw [hrtk, Option.map_some, hks]
  have e0 := (C10_mulScalarBigint (hQ.arithLvl hl) (h0.polyIs hQ) rP.modulusBigint q1.is.lvl).eltWritten hQ (b := true)
    (x := fun u => (rP.prodQ (rP.subs.length - 1) : Rq (2 ^ n) (ev.ringQ.qs u)) * x0 u) fun u hu => by
      rw [← h0.eltOf hQ hu, Ring.eltOf_congr (fun j _ => mul_comm _ _), eltOf_smul hQ hl hu]
      have := keyPBig_eq hP hlP
      unfold keyPBig at this
      rw [if_pos rfl] at this
      rw [this]
      simp
  have a0 := addLvl_elt hQ hl q0.is e0.is (fun u _ => by omega) q0.is.lvl
  have b0 := permuteNTTLvl_elt hQ hl (out := out0.q) l0 go a0.is
  have b1 := permuteNTTLvl_elt hQ hl (out := out1.q) l1 go q1.is
  have b2 := permuteNTTLvl_elt hP hlP (out := out0.p) (by omega) go r0.is
  have b3 := permuteNTTLvl_elt hP hlP (out := out1.p) (by omega) go r1.is
  refine ⟨_, _, _, _, rfl, ⟨A, _, _, fun u => aut (2 ^ n) (rP.qs u) go (intR (2 ^ n) (rP.qs u) X0),
    fun u => aut (2 ^ n) (rP.qs u) go (intR (2 ^ n) (rP.qs u) X1), ?_, b0, b1, ?_, ?_, fun u hu => ?_, fun u hu => ?_⟩,
    a0.len.trans q0.len, r0.len, e0.len.trans q1.len, r1.len⟩
  · intro i hi
    obtain ⟨hA1, hA2⟩ := hA i hi
    exact ⟨hA1, fun u hu hui => (hA2 u hu hui).trans (h1.val u hu)⟩
  · dsimp only
    rw [newKeySwitcher_ringP, permuteNTTWithIndexLvl_congr hQ hP]
    exact b2
  · dsimp only
    rw [newKeySwitcher_ringP, permuteNTTWithIndexLvl_congr hQ hP]
    exact b3
  · have hrel := congrArg (aut (2 ^ n) (ev.ringQ.qs u) go) (g1 u hu)
    rw [h1.val u hu] at hrel
    rw [intR_autInt (by positivity) hg1, map_add, map_mul, C24_inverse _ _ _ _ (by positivity) hg1 go hg2] at hrel
    rw [show level + rP.subs.length = level + (rP.subs.length - 1) + 1 by omega]
    simp only [map_add, map_mul] at hrel ⊢
    linear_combination hrel
  · have hrel := congrArg (aut (2 ^ n) (rP.qs u) go) (g2 u (by omega))
    rw [intR_autInt (by positivity) hg1, map_add, map_mul, C24_inverse _ _ _ _ (by positivity) hg1 go hg2] at hrel
    rw [show level + rP.subs.length = level + (rP.subs.length - 1) + 1 by omega]
    exact hrel

end

/-- **C80 (rotation by 0).** `PermuteNTTHoisted` with `k = 0` copies both components with their flags. -/
theorem C80_hoisted_zero {n : ℕ} {ev : Evaluator} {level : ℕ} {c0 c1 out0 out1 : Poly} (dig : List PolyQP) (pool2 pool3 : PolyQP)
    {A : ℕ → ℕ} {x0 x1 : ∀ u, Rq (2 ^ n) (ev.ringQ.qs u)} {b0 b1 : Bool} (h0 : EltIs n ev.ringQ level A b0 c0.coeffs x0)
    (h1 : EltIs n ev.ringQ level A b1 c1.coeffs x1) (l0 : level < out0.coeffs.length) (l1 : level < out1.coeffs.length) :
    ∃ o0 o1, ev.permuteNTTHoisted level c0 c1 dig 0 pool2 pool3 out0 out1 = some (o0, o1) ∧
      EltIs n ev.ringQ level A b0 o0.coeffs x0 ∧ EltIs n ev.ringQ level A b1 o1.coeffs x1 ∧
      o0.isNTT = c0.isNTT ∧ o1.isNTT = c1.isNTT := by
  have key : ∀ {c out : Poly} {b : Bool} {x : ∀ u, Rq (2 ^ n) (ev.ringQ.qs u)}, EltIs n ev.ringQ level A b c.coeffs x →
      level < out.coeffs.length → EltIs n ev.ringQ level A b (out.copy c).coeffs x := by
    intro c out b x h l
    have hc := h.lvl
    have er : ∀ u ≤ level, Rows.row (out.copy c).coeffs u = Rows.row c.coeffs u := fun u hu =>
      row_writeLvl (by unfold Poly.level; omega) (by unfold Poly.level; omega)
    refine ⟨by show level < (writeLvl _ _ _).length; rw [length_writeLvl]; exact l, fun u hu => ?_, fun u hu => ?_, fun u hu => ?_⟩
    · rw [er u hu]; exact h.len u hu
    · rw [er u hu]; exact h.lt u hu
    · rw [← h.val u hu]
      unfold Ring.elt
      rw [er u hu]
  exact ⟨_, _, rfl, key h0 l0, key h1 l1, rfl, rfl⟩

section
variable {n : ℕ} {ev : Evaluator} {rP : Ring} (K : KeyParams n ev.ringQ rP) (h32 : rP.subs.length ≤ 32)
  (hks : ev.ks = newKeySwitcher ev.ringQ rP) {sk : PolyQP} {S : ℕ → ℤ}
  (hs : sk.IsMont n ev.ringQ rP (ev.ringQ.subs.length - 1) (rP.subs.length - 1) S)
  {tape : ℤ → ℕ → KeyTape} {e : ℤ → ℕ → ℕ → ℤ}
  {level : ℕ} {x0 x1 : ∀ u, Rq (2 ^ n) (ev.ringQ.qs u)}
  (hl : level < ev.ringQ.subs.length) (hov : DigitRoom ev.ringQ rP level (rP.subs.length - 1))
  {b : Bool} {c1 : Rows} (h1 : EltIs n ev.ringQ level ev.ringQ.qs b c1 x1) {rotations : List ℤ}
  (ht : ∀ k ∈ rotations, k ≠ 0 → TapeOK n ev.ringQ rP (ev.ringQ.subs.length - 1) (rP.subs.length - 1) (tape k) (e k))
  (hrtk : ∀ k ∈ rotations, k ≠ 0 → ev.rtks (ev.ringQ.galoisElementForColumnRotationBy k)
      = some (genSwitchingKeyForGalois ev.ringQ rP (ev.ringQ.galoisElementForColumnRotationBy k) sk (tape k)))
  {pools : PolyQP × PolyQP} (p2q : level < pools.1.q.length) (p2p : rP.subs.length ≤ pools.1.p.length)
  (p3q : level < pools.2.q.length) (p3p : rP.subs.length ≤ pools.2.p.length)
include K h32 hks hs ht hl hov h1 hrtk p2q p2p p3q p3p

/-- **C80 (`RotateHoistedNoModDownNew`).** With the keys of all rotations but 0 the call returns a map with exactly those rotations, each
entry, in new polynomials, as `PermuteNTTHoistedNoModDown` promises. -/
theorem C80_rotateHoisted {c0 : Rows} (h0 : EltIs n ev.ringQ level (fun u => ev.ringQ.qs u + 1) true c0 x0) :
    ∃ m pools', ev.rotateHoistedNoModDownNew level rotations c0
        (ev.ks.decomposeNTT level (rP.subs.length - 1) rP.subs.length b c1) pools = some (m, pools') ∧
      (∀ k, (m k).isSome ↔ k ∈ rotations ∧ k ≠ 0) ∧
      ∀ k o0 o1, m k = some (o0, o1) →
        RotatedQP n ev.ringQ rP level S (e k) x0 x1 (C25_rotation_odd K.rings.hQ k).1
          ⟨newPoly ev.ringQ.n (level + 1), newPoly rP.n rP.subs.length⟩ ⟨newPoly ev.ringQ.n (level + 1), newPoly rP.n rP.subs.length⟩
          o0 o1 := by
  unfold Evaluator.rotateHoistedNoModDownNew
  rw [show ev.ks.ringP = rP by rw [hks]; rfl]
  dsimp only
  set fresh : PolyQP := ⟨newPoly ev.ringQ.n (level + 1), newPoly rP.n rP.subs.length⟩ with hfresh
  set dig := ev.ks.decomposeNTT level (rP.subs.length - 1) rP.subs.length b c1 with hdig
  set F : ((ℤ → Option (PolyQP × PolyQP)) × PolyQP × PolyQP) → ℤ → Option ((ℤ → Option (PolyQP × PolyQP)) × PolyQP × PolyQP) :=
    fun st i => if i = 0 then some st
      else (ev.permuteNTTHoistedNoModDown level c0 dig i st.2.1 st.2.2 fresh fresh).map fun d =>
        (fun j => if j = i then some d.1 else st.1 j, d.2) with hF
  have key : ∀ (l : List ℤ), (∀ k ∈ l, k ∈ rotations) → ∀ st : (ℤ → Option (PolyQP × PolyQP)) × PolyQP × PolyQP,
      level < st.2.1.q.length → rP.subs.length ≤ st.2.1.p.length → level < st.2.2.q.length → rP.subs.length ≤ st.2.2.p.length →
      (∀ k o0 o1, st.1 k = some (o0, o1) →
        RotatedQP n ev.ringQ rP level S (e k) x0 x1 (C25_rotation_odd K.rings.hQ k).1 fresh fresh o0 o1) →
      ∃ m pools', l.foldlM F st = some (m, pools') ∧ (∀ k, (m k).isSome ↔ (k ∈ l ∧ k ≠ 0) ∨ (st.1 k).isSome) ∧
        ∀ k o0 o1, m k = some (o0, o1) →
          RotatedQP n ev.ringQ rP level S (e k) x0 x1 (C25_rotation_odd K.rings.hQ k).1 fresh fresh o0 o1 := by
    intro l
    induction l with
    | nil => exact fun _ st _ _ _ _ hst => ⟨st.1, st.2, rfl, by simp, hst⟩
    | cons i l ih =>
      intro hsub st q2 r2 q3 r3 hst
      rw [List.foldlM_cons]
      by_cases hi : i = 0
      · obtain ⟨m, p', a1, a2, a3⟩ := ih (fun k hk => hsub k (List.mem_cons_of_mem _ hk)) st q2 r2 q3 r3 hst
        refine ⟨m, p', ?_, fun k => ?_, a3⟩
        · rw [hF]
          dsimp only
          rw [if_pos hi]
          exact a1
        · rw [a2 k, List.mem_cons, hi]
          constructor
          · rintro (h | h)
            · exact Or.inl ⟨Or.inr h.1, h.2⟩
            · exact Or.inr h
          · rintro (⟨h | h, h'⟩ | h)
            · exact absurd h h'
            · exact Or.inl ⟨h, h'⟩
            · exact Or.inr h
      · have hmem := hsub i List.mem_cons_self
        obtain ⟨o0, o1, p2, p3, b1, b2, b3, b4, b5, b6⟩ := C80_noModDown K h32 hks hs (ht i hmem hi) hl hov h1 (hrtk i hmem hi)
          q2 r2 q3 r3 h0 (out0 := fresh) (out1 := fresh) (by rw [hfresh]; simp [length_newPoly]) (by rw [hfresh]; simp [length_newPoly])
          (by rw [hfresh]; simp [length_newPoly]) (by rw [hfresh]; simp [length_newPoly])
        rw [← hdig] at b1
        obtain ⟨m, p', a1, a2, a3⟩ := ih (fun k hk => hsub k (List.mem_cons_of_mem _ hk))
          (fun j => if j = i then some (o0, o1) else st.1 j, p2, p3) (by rw [b3]; exact q2) (by rw [b4]; exact r2) (by rw [b5]; exact q3)
          (by rw [b6]; exact r3) (fun k u0 u1 hk => by
            dsimp only at hk
            by_cases hki : k = i
            · subst hki
              rw [if_pos rfl] at hk
              obtain ⟨rfl, rfl⟩ := Prod.mk.inj (Option.some.inj hk)
              exact b2
            · rw [if_neg hki] at hk
              exact hst k u0 u1 hk)
        refine ⟨m, p', ?_, fun k => ?_, a3⟩
        · rw [hF]
          dsimp only
          rw [if_neg hi, b1]
          exact a1
        · rw [a2 k, List.mem_cons]
          dsimp only
          by_cases hki : k = i
          · subst hki; simp [hi]
          · rw [if_neg hki]; simp [hki]
  obtain ⟨m, p', a1, a2, a3⟩ := key rotations (fun _ h => h) (fun _ => none, pools) p2q p2p p3q p3p (fun k o0 o1 h => by simp at h)
  exact ⟨m, p', a1, fun k => by rw [a2 k]; simp, a3⟩

end

/-- The hypotheses are satisfiable: degree 16, moduli 97, 193, 641 and 257, 353, generated keys, the ciphertext `(5, 7)` at level 2,
rotations by 1, -3 and 0. -/
example : ∃ (ev : Evaluator) (rP : Ring) (K : KeyParams 4 ev.ringQ rP) (c : Ct) (m : ℤ → Option (PolyQP × PolyQP)) (pools : PolyQP × PolyQP)
    (e : ℕ → ℕ → ℤ),
    ev.rotateHoistedNoModDownNew 2 [1, -3, 0] (c.rows 0) (ev.ks.decomposeNTT 2 1 2 true (c.rows 1)) (ev.ks.newPolyQP, ev.ks.newPolyQP)
      = some (m, pools) ∧ m 0 = none ∧ ∃ o0 o1 f, m (-3) = some (o0, o1) ∧
      RotatedQP 4 ev.ringQ rP 2 exampleS e (fun _ => (5 : ℕ)) (fun _ => (7 : ℕ)) (C25_rotation_odd K.rings.hQ (-3)).1 f f o0 o1 := by
  obtain ⟨rQ, rP, sk, tape, K, -, -, l3, l2, hq, q0, hsk, ht⟩ := exampleRings
  obtain ⟨ev, rfl, hks, hrt⟩ : ∃ ev : Evaluator, ev.ringQ = rQ ∧ ev.ks = newKeySwitcher rQ rP ∧ ∀ g, ev.rtks g
      = some (genSwitchingKeyForGalois rQ rP g (genSecretKey rQ rP sk) tape) :=
    ⟨newEvaluator rQ rP none (fun g => some (genSwitchingKeyForGalois rQ rP g (genSecretKey rQ rP sk) tape)) 7, rfl, rfl,
      fun _ => rfl⟩
  have hl : 2 < ev.ringQ.subs.length := by omega
  have c0 := constCt_is K.rings.hQ hl 1 (cs := [5, 7]) (by simp) (fun c hc u hu => by
    have hc' : c.toNat < 96 := by revert c; decide
    have := hq u hu
    omega)
  have z0 := c0.elt 0 (by simp)
  have z1 := c0.elt 1 (by simp)
  have lq : ev.ks.newPolyQP.q.length = 3 := by rw [hks]; show (newPoly _ _).length = 3; rw [length_newPoly]; exact l3
  have lp : ev.ks.newPolyQP.p.length = 2 := by rw [hks]; show (newPoly _ _).length = 2; rw [length_newPoly]; exact l2
  obtain ⟨m, pools, a1, a2, a3⟩ := C80_rotateHoisted K (by omega) hks hsk hl (Or.inl (by omega)) z1 (rotations := [1, -3, 0])
    (tape := fun _ => tape) (e := fun _ _ k => 2 - k % 5) (fun _ _ _ => ht) (fun k _ _ => hrt _)
    (pools := (ev.ks.newPolyQP, ev.ks.newPolyQP)) (by dsimp only; omega) (by dsimp only; omega) (by dsimp only; omega) (by dsimp only; omega)
    (z0.mono fun u _ => Nat.le_succ _)
  rw [l2] at a1
  have n0 : m 0 = none := by
    have := (a2 0).not.2 (by simp)
    simpa using this
  obtain ⟨⟨o0, o1⟩, ho⟩ := Option.isSome_iff_exists.1 ((a2 (-3)).2 (by decide))
  exact ⟨ev, rP, K, _, m, pools, _, a1, n0, o0, o1, _, ho, a3 _ _ _ ho⟩

end FastKsw.Props
