import Verif.Lemmas.ExternalProduct

/-!
# Digits of the decomposition and key blocks of the fast key-switcher
-/

namespace FastKsw

open Finset

theorem poolFold (base cnt size : ℕ) (f : ℕ → Row) (z : Rows) (hz : min size (cnt - base) ≤ z.length) :
    ((List.range size).foldl (fun pool i => if base + i < cnt then pool.set i (f i) else pool) z).length
      = z.length ∧
    ∀ j < min size (cnt - base),
      Rows.row ((List.range size).foldl (fun pool i => if base + i < cnt then pool.set i (f i) else pool) z) j
        = f j := by
  induction size with
  | zero => simp
  | succ s ih =>
    obtain ⟨i1, i2⟩ := ih (by omega)
    rw [List.range_succ, List.foldl_append, List.foldl_cons, List.foldl_nil]
    split
    · refine ⟨by rw [List.length_set, i1], fun j hj => ?_⟩
      rw [row_set _ _ (by rw [i1]; omega)]
      split
      · rename_i he; rw [he]
      · exact i2 j (by omega)
    · exact ⟨i1, fun j hj => i2 j (by omega)⟩

/-- basis extension out of a block ring, in terms of the moduli of the whole ring -/
theorem blockUp {n size cnt i : ℕ} {r b rT : Ring} (hr : r.Valid n) (hb : BlockRing n r size i b)
    (hT : rT.Valid n) (sT : rT.Small) (hcnt : cnt ≤ r.subs.length) (hi : i * size < cnt) (hsz : 0 < size)
    (h32 : min size (cnt - i * size) ≤ 32) {pool : Rows}
    {A : ℕ → ℕ} {v : ∀ u, ℕ → ZMod (r.sub u).q.toNat} (hlen : min size (cnt - i * size) ≤ pool.length)
    (hv : ∀ j < min size (cnt - i * size),
      RowIs (2 ^ n) (r.sub (i * size + j)).q.toNat (A j) (pool.row j) (v (i * size + j))) :
    ∃ Z : ℕ → ℤ, BlockRep r size cnt i v Z ∧
      ∀ levelT < rT.subs.length, ∀ p2 : Rows, levelT < p2.length →
        PolyWritten rT levelT (fun j => ((min size (cnt - i * size) + 7) / 8 + 2) * rT.qs j) p2
          ((newBasisExtender b rT).modUpQtoP (min size (cnt - i * size) - 1) levelT pool p2) (rT.intVec Z) := by
  set m := min size (cnt - i * size) with hm
  have hm0 : 0 < m := by omega
  have hbl : m - 1 < b.subs.length := by rw [hb.len]; omega
  have hq : ∀ j < m, (b.sub j).q = (r.sub (i * size + j)).q := fun j hj => hb.q j (by omega)
  have hp : PolyIs b (m - 1) (fun _ => 2 ^ 64) pool (fun j => zval _ (pool.row j)) := by
    refine ⟨by omega, fun j hj => RowIs.any _ ?_⟩
    rw [hb.valid.deg]
    exact (hv j (by omega)).len
  obtain ⟨Z, hZ, hw⟩ := modUpQtoP_is hb.valid hb.small hT sT hbl (by omega) hp
  have hn : b.n = r.n := by rw [hb.valid.deg, hr.deg]
  refine ⟨Z, ⟨fun k hk => ?_, fun k hk u hu1 hu2 hu3 => ?_⟩, fun levelT lT p2 hp2 => ?_⟩
  · have h1 := hZ.near k (by rw [hn]; exact hk)
    have e : b.prodQ (m - 1) = r.blockQ size cnt i := by
      unfold Ring.prodQ Ring.blockQ
      rw [show m - 1 + 1 = m by omega, ← hm]
      exact prod_congr rfl (fun j hj => by rw [hq j (mem_range.1 hj)])
    rwa [e] at h1
  · have hj : u - i * size < m := by omega
    have h1 := hZ.cong k (by rw [hn]; exact hk) (u - i * size) (by omega)
    have h2 := (hv _ hj).val k (by rw [← hr.deg]; exact hk)
    have e : i * size + (u - i * size) = u := by omega
    have hq' := hq _ hj
    rw [e] at h2 hq'
    unfold zval at h1 h2
    rw [hq'] at h1
    exact h1.trans h2
  · have := hw levelT lT p2 hp2
    rw [show m - 1 + 8 = m + 7 by omega] at this
    exact this

section
variable {fuel n : ℕ} {p : FParams} (h : p.OK fuel n) {ksw : FKeySwitcher} (hk : ksw.OK n p)
include h hk

/-- number of source moduli of a digit, and moduli of `T`, for which the lazy transform of a digit
cannot overflow -/
theorem digit_is {levelQ : ℕ} (hl : levelQ < p.ringQ.subs.length)
    (hov : p.alpha ≤ 16 ∨ ∀ t ≤ p.levelT, 10 * p.ringT.qs t + 2 ^ 15 ≤ 2 ^ 64)
    {a : Rows} {v : ∀ u, ℕ → ZMod (p.ringQ.sub u).q.toNat} (ha : PolyIs p.ringQ levelQ p.ringQ.qs a v)
    {j : ℕ} (hj : j * p.alpha < levelQ + 1) :
    ∃ Z : ℕ → ℤ, BlockRep p.ringQ p.alpha (levelQ + 1) j v Z ∧
      PolyIs p.ringT p.levelT (fun t => max (6 * p.ringT.qs t) (if p.alpha ≤ 16 then 2 ^ 61 + 2 * p.ringT.qs t
          else 8 * p.ringT.qs t)) (ksw.digit levelQ a j) (p.ringT.nttVec n Z) := by
  have hlenP := h.lenP
  have h32 := h.alpha32
  have hT := h.lenT
  have hal : p.alpha = p.ringP.subs.length := rfl
  have hlT : p.levelT < p.ringT.subs.length := by unfold FParams.levelT; omega
  have h4 := h.hT.four_le
  obtain ⟨b, hb, hconv⟩ := hk.ringQj j (by omega)
  obtain ⟨f1, f2⟩ := poolFold (j * p.alpha) (levelQ + 1) p.alpha (fun i => a.row (j * p.alpha + i))
    (newPoly p.ringQ.n p.ringQ.subs.length) (by rw [length_newPoly]; omega)
  have hc := blockCount_eq p.alpha (levelQ + 1) j
  have hv : ∀ i < min p.alpha (levelQ + 1 - j * p.alpha),
      RowIs (2 ^ n) (p.ringQ.sub (j * p.alpha + i)).q.toNat (p.ringQ.qs (j * p.alpha + i))
        (a.row (j * p.alpha + i)) (v (j * p.alpha + i)) := by
    intro i hi
    have := ha.row (j * p.alpha + i) (by omega)
    rwa [h.hQ.deg] at this
  -- the digit before the transform
  have key : ∃ Z : ℕ → ℤ, BlockRep p.ringQ p.alpha (levelQ + 1) j v Z ∧
      ∃ t : Rows, ksw.digit levelQ a j = p.ringT.nttLazyLvl p.levelT t t ∧
      PolyIs p.ringT p.levelT (fun t => if p.alpha = 1 then 2 ^ 61 else
        ((min p.alpha (levelQ + 1 - j * p.alpha) + 7) / 8 + 2) * p.ringT.qs t) t (p.ringT.intVec Z) := by
    by_cases h1 : p.alpha = 1
    · refine ⟨fun k => (((a.row j).at k).toNat : ℤ), ⟨fun k hk' => ?_, fun k hk' u hu1 hu2 hu3 => ?_⟩,
        writeLvl p.levelT (fun _ => a.row j) (newPoly p.ringT.n p.ringT.subs.length), ?_, ?_⟩
      · have hlt := (ha.row j (by rw [h1] at hj; omega)).lt k hk'
        have e : p.ringQ.blockQ p.alpha (levelQ + 1) j = p.ringQ.qs j := by
          unfold Ring.blockQ
          rw [h1, show min 1 (levelQ + 1 - j * 1) = 1 by rw [h1] at hj; omega]
          simp
        rw [e]
        generalize p.ringQ.qs j = q at *
        constructor <;> omega
      · have : u = j := by rw [h1] at hu1 hu2; omega
        subst this
        have := (ha.row u (by omega)).val k hk'
        unfold zval at this
        push_cast
        exact this
      · unfold FKeySwitcher.digit
        simp only [hk.params]
        rw [if_pos h1, f2 0 (by omega)]
        simp [h1]
      · refine (writeLvl_is (by rw [length_newPoly]; exact hlT) (fun t ht => ?_)).is
        rw [if_pos h1]
        have hrow := ha.row j (by rw [h1] at hj; omega)
        have hlt := h.sQ _ (Ring.sub_mem (show j < p.ringQ.subs.length by rw [h1] at hj; omega))
        have e : p.ringT.n = p.ringQ.n := by rw [h.hT.deg, h.hQ.deg]
        rw [e]
        exact (hrow.asInt (q' := (p.ringT.sub t).q.toNat)).mono (by unfold Ring.qs; omega)
    · obtain ⟨Z, hZ, hw⟩ := blockUp h.hQ hb h.hT h.sT (cnt := levelQ + 1) (by omega) hj (by omega) (by omega)
        (A := fun i => p.ringQ.qs (j * p.alpha + i)) (v := v) (by rw [f1, length_newPoly]; omega)
        (fun i hi => by rw [f2 i hi]; exact hv i hi)
      have h' := (hw p.levelT hlT (newPoly p.ringT.n p.ringT.subs.length)
        (by rw [length_newPoly]; exact hlT)).is
      refine ⟨Z, hZ, ?_⟩
      simp only [if_neg h1]
      refine ⟨_, ?_, h'⟩
      unfold FKeySwitcher.digit
      simp only [hk.params]
      rw [if_neg h1, hconv, hc]
  obtain ⟨Z, hZ, t, ht, hp⟩ := key
  refine ⟨Z, hZ, ?_⟩
  rw [ht]
  refine (writeLvl_is hp.lvl (fun u hu => ?_)).is
  have V := h.hT.subAt (show u < p.ringT.subs.length by omega)
  have hlt := h.sT _ (Ring.sub_mem (show u < p.ringT.subs.length by omega))
  have hrow := hp.row u hu
  have hm8 : (min p.alpha (levelQ + 1 - j * p.alpha) + 7) / 8 ≤ 4 := by omega
  rw [h.hT.deg] at hrow ⊢
  unfold Ring.qs at hrow hov ⊢
  by_cases h16 : p.alpha ≤ 16
  · have hB : (if p.alpha = 1 then 2 ^ 61 else
        ((min p.alpha (levelQ + 1 - j * p.alpha) + 7) / 8 + 2) * (p.ringT.sub u).q.toNat)
        ≤ max (4 * (p.ringT.sub u).q.toNat) (2 ^ 61) := by
      split
      · omega
      · have : ((min p.alpha (levelQ + 1 - j * p.alpha) + 7) / 8 + 2) * (p.ringT.sub u).q.toNat
            ≤ 4 * (p.ringT.sub u).q.toNat := Nat.mul_le_mul_right _ (by omega)
        omega
    refine (nttLazy_is V (by omega) hlt (B := max (4 * (p.ringT.sub u).q.toNat) (2 ^ 61)) (by omega) (by omega)
      (hrow.mono hB)).mono ?_
    rw [if_pos h16]
    omega
  · have h10 := (hov.resolve_left h16) u hu
    have hB : (if p.alpha = 1 then 2 ^ 61 else
        ((min p.alpha (levelQ + 1 - j * p.alpha) + 7) / 8 + 2) * (p.ringT.sub u).q.toNat)
        ≤ 6 * (p.ringT.sub u).q.toNat := by
      rw [if_neg (by omega)]
      exact Nat.mul_le_mul_right _ (by omega)
    refine (nttLazy_is V (by omega) hlt (B := 6 * (p.ringT.sub u).q.toNat) (by omega) (by omega)
      (hrow.mono hB)).mono ?_
    rw [if_neg h16]
    omega

end

/-! ## Key blocks -/

/-- the objects a `KeyGenerator` holds -/
structure FKeyGenerator.OK (n : ℕ) (p : FParams) (kg : FKeyGenerator) : Prop where
  params : kg.params = p
  conv : ∀ i, i * p.gamma < p.ringR.subs.length →
    ∃ b, BlockRing n p.ringR p.gamma i b ∧
      kg.convRiT.getD i (newBasisExtender p.ringQ p.ringP) = newBasisExtender b p.ringT

section
variable {fuel n : ℕ} {p : FParams} (h : p.OK fuel n)
include h

theorem newFKeyGenerator_ok : ∃ kg, newFKeyGenerator fuel p = some kg ∧ kg.OK n p := by
  have hg := h.gamma_pos
  have hg2 := h.gamma32
  have ha2 := h.alpha32
  have hq := h.q100
  have hR := h.lenR
  have e1 : ceilDivF p.ringR.subs.length p.gamma = (p.ringR.subs.length + p.gamma - 1) / p.gamma :=
    ceilDivF_small hg (by omega) (by omega)
  obtain ⟨gR, r1, r2⟩ := blockRings_ok (len := (p.ringR.subs.length + p.gamma - 1) / p.gamma)
    h.n_lt h.sR h.bR hg (fun i hi => (ceil_block hg).1 hi)
  have hN : p.ringQ.n = 2 ^ n := h.hQ.deg
  unfold newFKeyGenerator
  simp only
  rw [h.cntR, e1, hN, r1]
  refine ⟨_, rfl, rfl, fun i hi => ?_⟩
  have hi' := (ceil_block hg).2 hi
  refine ⟨gR i, r2 i hi', ?_⟩
  simp only [List.map_map]
  rw [getD_map_range' _ _ _ hi']; rfl

theorem polyT_is {kg : FKeyGenerator} (hk : kg.OK n p) {x : PolyQP} {A : ℕ → ℕ}
    {w : ∀ u, ℕ → ZMod (p.ringR.sub u).q.toNat}
    (hx : ∀ u < p.ringR.subs.length, RowIs (2 ^ n) (p.ringR.sub u).q.toNat (A u) (x.getR p.alpha u) (w u))
    {i : ℕ} (hi : i * p.gamma < p.ringR.subs.length) :
    ∃ Z : ℕ → ℤ, BlockRep p.ringR p.gamma p.ringR.subs.length i w Z ∧
      PolyIs p.ringT p.levelT p.ringT.qs (kg.polyT x i) (fun t k => p.ringT.nttVec n Z t k * 2 ^ 64) := by
  have hg := h.gamma_pos
  have h32 := h.gamma32
  have hT := h.lenT
  have hlT : p.levelT < p.ringT.subs.length := by unfold FParams.levelT; omega
  have h4 := h.hT.four_le
  obtain ⟨b, hb, hconv⟩ := hk.conv i hi
  obtain ⟨f1, f2⟩ := poolFold (i * p.gamma) p.ringR.subs.length p.gamma
    (fun j => x.getR p.alpha (i * p.gamma + j)) (newPoly p.ringR.n p.gamma) (by rw [length_newPoly]; omega)
  have hc := blockCount_eq p.gamma p.ringR.subs.length i
  obtain ⟨Z, hZ, hw⟩ := blockUp h.hR hb h.hT h.sT (cnt := p.ringR.subs.length) le_rfl hi hg (by omega)
    (A := fun j => A (i * p.gamma + j)) (v := w) (by rw [f1, length_newPoly]; omega)
    (fun j hj => by rw [f2 j hj]; exact hx _ (by omega))
  refine ⟨Z, hZ, ?_⟩
  unfold FKeyGenerator.polyT
  simp only [hk.params, h.cntR]
  rw [hconv, hc]
  have h1 := (hw p.levelT hlT (newPoly p.ringT.n p.ringT.subs.length) (by rw [length_newPoly]; exact hlT)).is
  have h2 : PolyIs p.ringT p.levelT p.ringT.qs (p.ringT.reduceLvl p.levelT _ _) (p.ringT.intVec Z) :=
    (writeLvl_is h1.lvl (fun t ht => reduceVec_is ((h.hT.arithLvl hlT) t ht) (h1.row t ht))).is
  have h3 := (nttLvl_is h.hT h.sT hlT h2 h2.lvl).is
  exact (writeLvl_is h3.lvl (fun t ht => mformVec_is ((h.hT.arithLvl hlT) t ht) (h3.row t ht))).is

end

end FastKsw
