import Verif.Lemmas.Blocks

/-!
# What the constructors of `frlwe` build
-/

namespace FastKsw

open Finset

/-- parameters the fast key-switcher is meant for -/
structure FParams.OK (fuel n : ℕ) (p : FParams) : Prop where
  n_lt : n < 62
  hQ : p.ringQ.Valid n
  hP : p.ringP.Valid n
  hR : p.ringR.Valid n
  hT : p.ringT.Valid n
  sQ : p.ringQ.Small
  sP : p.ringP.Small
  sR : p.ringR.Small
  sT : p.ringT.Small
  bQ : newRing fuel (2 ^ n) p.ringQ.moduli = .ok p.ringQ
  bR : newRing fuel (2 ^ n) p.ringR.moduli = .ok p.ringR
  mR : p.ringR.moduli = p.ringP.moduli ++ p.ringQ.moduli
  gamma_pos : 0 < p.gamma
  gamma32 : p.gamma ≤ 32
  alpha32 : p.ringP.subs.length ≤ 32
  t32 : p.ringT.subs.length ≤ 32
  q100 : p.ringQ.subs.length ≤ 100

namespace FParams.OK
variable {fuel n : ℕ} {p : FParams} (h : p.OK fuel n)
include h

theorem lenQ : 0 < p.ringQ.subs.length := List.length_pos_iff.2 h.hQ.ne_nil
theorem lenP : 0 < p.ringP.subs.length := List.length_pos_iff.2 h.hP.ne_nil
theorem lenT : 0 < p.ringT.subs.length := List.length_pos_iff.2 h.hT.ne_nil

theorem lenR : p.ringR.subs.length = p.ringP.subs.length + p.ringQ.subs.length := by
  have := congrArg List.length h.mR
  simpa [Ring.moduli] using this

theorem cntR : p.maxLevel + p.alpha + 1 = p.ringR.subs.length := by
  have := h.lenQ
  rw [h.lenR]; unfold FParams.maxLevel FParams.alpha; omega

theorem cntQ : p.maxLevel + 1 = p.ringQ.subs.length := by
  have := h.lenQ
  unfold FParams.maxLevel; omega

theorem qP {u : ℕ} (hu : u < p.ringP.subs.length) : (p.ringR.sub u).q = (p.ringP.sub u).q := by
  have hl := h.lenR
  rw [← at_moduli _ hu, ← at_moduli _ (show u < p.ringR.subs.length by omega), h.mR]
  have : u < p.ringP.moduli.length := by simpa [Ring.moduli] using hu
  simp [Row.at, List.getD, List.getElem?_append_left this]

theorem qQ {u : ℕ} (hu : u < p.ringQ.subs.length) :
    (p.ringR.sub (u + p.alpha)).q = (p.ringQ.sub u).q := by
  have hl := h.lenR
  have ha : p.alpha = p.ringP.subs.length := rfl
  rw [← at_moduli _ hu, ← at_moduli _ (show u + p.alpha < p.ringR.subs.length by omega), h.mR]
  have e : p.ringP.moduli.length = p.alpha := by simp [Ring.moduli, ha]
  have : p.ringP.moduli.length ≤ u + p.alpha := by omega
  simp [Row.at, List.getD, List.getElem?_append_right this, e]

theorem disjoint : p.ringQ.Disjoint p.ringP := by
  intro i hi j hj he
  have hl := h.lenR
  have ha : p.alpha = p.ringP.subs.length := rfl
  have := h.hR.q_inj (i := i + p.alpha) (j := j) (by omega) (by omega)
    (by rw [h.qQ hi, h.qP hj, he])
  omega

end FParams.OK

theorem ceilDivF_small {a b : ℕ} (hb : 0 < b) (ha : a ≤ 200) (hb' : b ≤ 200) :
    ceilDivF a b = (a + b - 1) / b := ceilDivF_eq hb (by omega) (by omega)

theorem ceil_block {a b i : ℕ} (hb : 0 < b) : i < (a + b - 1) / b ↔ i * b < a := by
  rw [Nat.lt_div_iff_mul_lt hb]
  omega

/-- the objects a `KeySwitcher` holds -/
structure FKeySwitcher.OK (n : ℕ) (p : FParams) (ksw : FKeySwitcher) : Prop where
  params : ksw.params = p
  convQP : ksw.convQP = newBasisExtender p.ringQ p.ringP
  lenRi : ∀ i, i < ksw.ringRi.length ↔ i * p.gamma < p.ringR.subs.length
  ringRi : ∀ i, i * p.gamma < p.ringR.subs.length →
    BlockRing n p.ringR p.gamma i (ksw.ringRi.getD i p.ringR) ∧
    ksw.convTRi.getD i ksw.convQP = newBasisExtender p.ringT (ksw.ringRi.getD i p.ringR)
  ringQj : ∀ i, i * p.alpha < p.ringQ.subs.length →
    ∃ b, BlockRing n p.ringQ p.alpha i b ∧ ksw.convQjT.getD i ksw.convQP = newBasisExtender b p.ringT
  halfQ : PolyIs p.ringQ (p.ringQ.subs.length - 1) p.ringQ.qs ksw.halfTPolyQP.q
    (p.ringQ.intVec fun _ => p.ringT.modulusBigint / 2)
  halfP : PolyIs p.ringP (p.ringP.subs.length - 1) p.ringP.qs ksw.halfTPolyQP.p
    (p.ringP.intVec fun _ => p.ringT.modulusBigint / 2)
  halfT : PolyIs p.ringT (p.ringT.subs.length - 1) p.ringT.qs ksw.halfTPolyT
    (p.ringT.intVec fun _ => p.ringT.modulusBigint / 2)

theorem row_newPoly {N m i : ℕ} (hi : i < m) : Rows.row (newPoly N m) i = List.replicate N 0 := by
  simp [newPoly, Rows.row, List.getD, hi]

theorem newPoly_is {n : ℕ} {r : Ring} (hr : r.Valid n) {level : ℕ} (hl : level < r.subs.length) :
    PolyIs r level r.qs (newPoly r.n r.subs.length) (fun _ _ => 0) := by
  refine ⟨by rw [length_newPoly]; exact hl, fun i hi => ?_⟩
  rw [row_newPoly (by omega)]
  refine ⟨by simp, fun k hk => ?_, fun k hk => ?_⟩
  · have := (hr.subAt (show i < r.subs.length by omega)).prime.pos
    simpa [Row.at, List.getD, hk] using this
  · simp [zval, Row.at, List.getD, hk]

theorem scalarPoly_is {n : ℕ} {r : Ring} (hr : r.Valid n) (c : ℤ) :
    PolyIs r (r.subs.length - 1) r.qs
      (r.addScalarBigintLvl ((newPoly r.n r.subs.length).length - 1) (newPoly r.n r.subs.length) c
        (newPoly r.n r.subs.length)).1 (r.intVec fun _ => c) := by
  have h0 := List.length_pos_iff.2 hr.ne_nil
  rw [length_newPoly]
  have hz := newPoly_is hr (show r.subs.length - 1 < r.subs.length by omega)
  refine (Props.C11_inPlace_partial (hr.arithLvl (by omega)) hz 0 (fun i hi => ?_) c).2.2.1.is.congr ?_
  · exact (hr.subAt (show i < r.subs.length by omega)).prime.pos
  · intro i _ k _
    simp [Ring.intVec]

theorem getD_map_range' {α : Type*} (m : ℕ) (f : ℕ → α) (d : α) {i : ℕ} (hi : i < m) :
    ((List.range m).map f).getD i d = f i := by
  simp [List.getD, hi]

theorem newFKeySwitcher_ok {fuel n : ℕ} {p : FParams} (h : p.OK fuel n) :
    ∃ ksw, newFKeySwitcher fuel p = some ksw ∧ ksw.OK n p := by
  have hg := h.gamma_pos
  have hg2 := h.gamma32
  have ha := h.lenP
  have ha2 := h.alpha32
  have hq := h.q100
  have hR := h.lenR
  have hal : p.alpha = p.ringP.subs.length := rfl
  have e1 : ceilDivF p.ringR.subs.length p.gamma = (p.ringR.subs.length + p.gamma - 1) / p.gamma :=
    ceilDivF_small hg (by omega) (by omega)
  have e2 : p.beta = (p.ringQ.subs.length + p.alpha - 1) / p.alpha := by
    unfold FParams.beta
    rw [if_pos (by omega), ceilDivF_small (by omega) (by omega) (by omega)]
  obtain ⟨gR, r1, r2⟩ := blockRings_ok (len := (p.ringR.subs.length + p.gamma - 1) / p.gamma)
    h.n_lt h.sR h.bR hg (fun i hi => (ceil_block hg).1 hi)
  obtain ⟨gQ, q1, q2⟩ := blockRings_ok (len := (p.ringQ.subs.length + p.alpha - 1) / p.alpha)
    h.n_lt h.sQ h.bQ (size := p.alpha) (by omega) (fun i hi => (ceil_block (by omega)).1 hi)
  have hN : p.ringQ.n = 2 ^ n := h.hQ.deg
  unfold newFKeySwitcher
  simp only
  rw [h.cntR, h.cntQ, e1, e2, hN, r1, q1]
  refine ⟨_, rfl, ?_⟩
  refine ⟨rfl, rfl, fun i => ?_, fun i hi => ?_, fun i hi => ?_, ?_, ?_, ?_⟩
  · simp only [List.length_map, List.length_range]
    exact ceil_block hg
  · have hi' := (ceil_block hg).2 hi
    rw [getD_map_range' _ _ _ hi']
    refine ⟨r2 i hi', ?_⟩
    simp only [List.map_map]
    rw [getD_map_range' _ _ _ hi']; rfl
  · have hi' := (ceil_block (show 0 < p.alpha by omega)).2 hi
    refine ⟨gQ i, q2 i hi', ?_⟩
    simp only [List.map_map]
    rw [getD_map_range' _ _ _ hi']; rfl
  · have := scalarPoly_is h.hQ (p.ringT.modulusBigint / 2)
    rw [hN] at this
    exact this
  · exact scalarPoly_is h.hP _
  · exact scalarPoly_is h.hT _

end FastKsw
