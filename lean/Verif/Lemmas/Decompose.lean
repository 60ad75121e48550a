import Verif.Lemmas.KeyGen

/-!
# The decomposer of the classical key-switcher
-/

namespace FastKsw

open Finset

/-- number of moduli of block `i` among the first `cnt` -/
abbrev blockLen (alpha cnt i : ℕ) : ℕ := min alpha (cnt - i * alpha)

theorem decompLvl_eq {levelQ alpha i : ℕ} (ha : 0 < alpha) (hi : i * alpha ≤ levelQ) :
    decompLvl levelQ alpha i = (blockLen alpha (levelQ + 1) i : ℤ) - 2 := by
  unfold decompLvl blockLen
  have e : (alpha : ℤ) * (i + 1) = ((i * alpha : ℕ) : ℤ) + alpha := by push_cast; ring
  rw [e]
  split
  · omega
  · rename_i h
    have h1 : levelQ = (levelQ - i * alpha) + alpha * i := by rw [mul_comm alpha]; omega
    have h2 : levelQ % alpha = levelQ - i * alpha := by
      conv_lhs => rw [h1]
      rw [Nat.add_mul_mod_self_left]
      exact Nat.mod_eq_of_lt (by omega)
    rw [h2]
    omega

/-- the moduli of a block -/
theorem blockSrcOK {n : ℕ} {r : Ring} (hr : r.Valid n) (sr : r.Small) {s m : ℕ} (h0 : 0 < m)
    (h32 : m ≤ 32) (hm : s + m ≤ r.subs.length) :
    SrcOK ((List.range m).map fun k => Row.at r.moduli (s + k)) := by
  have hat : ∀ i < m, Row.at ((List.range m).map fun k => Row.at r.moduli (s + k)) i = (r.sub (s + i)).q := by
    intro i hi
    rw [at_map_range _ _ hi, at_moduli r (by omega)]
  refine ⟨?_, ?_, ?_, ?_, by simpa using h0, by simpa using h32⟩
  · intro i hi
    simp only [List.length_map, List.length_range] at hi
    rw [hat i hi]
    exact (hr.subAt (by omega)).prime
  · intro i hi
    simp only [List.length_map, List.length_range] at hi
    rw [hat i hi]
    exact (hr.subAt (by omega)).odd
  · intro i hi
    simp only [List.length_map, List.length_range] at hi
    rw [hat i hi]
    exact sr _ (Ring.sub_mem (by omega))
  · intro i hi j hj
    simp only [List.length_map, List.length_range] at hi hj
    rw [hat i hi, hat j hj]
    intro he
    have := hr.q_inj (by omega) (by omega) he
    omega

theorem modUpParams_at {rQ rP : Ring} {alpha i m : ℕ} (ha : 2 ≤ alpha) (hal : alpha ≤ rP.subs.length)
    (hq : rQ.subs.length ≤ 2 ^ 20) (hp : rP.subs.length ≤ 2 ^ 20)
    (hm2 : 2 ≤ m) (hma : m ≤ alpha) (hmq : i * alpha + m ≤ rQ.subs.length) :
    (((newDecomposer rQ rP).modUpParams.getD (alpha - 2) []).getD i []).getD (m - 2) default
      = basisExtenderParameters ((List.range m).map fun k => Row.at rQ.moduli (i * alpha + k))
          (rQ.moduli ++ rP.moduli.take alpha) := by
  unfold newDecomposer
  simp only
  rw [getD_map_range' _ _ _ (show alpha - 2 < rP.subs.length - 1 by omega)]
  simp only [show alpha - 2 + 2 = alpha by omega]
  have hc : ceilDivF rQ.subs.length alpha = (rQ.subs.length + alpha - 1) / alpha :=
    ceilDivF_eq (by omega) hq (by omega)
  have hi : i < ceilDivF rQ.subs.length alpha := by
    rw [hc]; exact (ceil_block (by omega)).2 (by omega)
  rw [getD_map_range' _ _ _ hi]
  have hx : m - 2 < (if i = ceilDivF rQ.subs.length alpha - 1 ∧ rQ.subs.length % alpha ≠ 0 then
      rQ.subs.length % alpha else alpha) - 1 := by
    split
    · rename_i h
      obtain ⟨h1, h2⟩ := h
      have h3 : rQ.subs.length < (i + 1) * alpha := by
        by_contra hcon
        push Not at hcon
        rcases Nat.lt_or_ge ((i + 1) * alpha) rQ.subs.length with h5 | h5
        · have := (ceil_block (a := rQ.subs.length) (b := alpha) (i := i + 1) (by omega)).2 h5
          omega
        · have : rQ.subs.length = (i + 1) * alpha := by omega
          rw [this] at h2
          simp at h2
      rw [add_mul, one_mul] at h3
      have h4 : rQ.subs.length % alpha = rQ.subs.length - i * alpha := by
        have h1 : rQ.subs.length = (rQ.subs.length - i * alpha) + alpha * i := by rw [mul_comm alpha]; omega
        conv_lhs => rw [h1]
        rw [Nat.add_mul_mod_self_left]
        exact Nat.mod_eq_of_lt (by omega)
      omega
    · omega
  rw [getD_map_range' _ _ _ hx]
  rw [show m - 2 + 2 = m by omega]

/-- bound on the digits before the transform -/
def splitBound (alpha levelQ i q0 q : ℕ) : ℕ :=
  if blockLen alpha (levelQ + 1) i = 1 then q0 else ((blockLen alpha (levelQ + 1) i + 7) / 8 + 2) * q

section
variable {n : ℕ} {rQ rP : Ring} {lQ lP : ℕ} (K : KeyRings n rQ rP lQ lP) (hq : rQ.subs.length ≤ 2 ^ 20)
  (hp : rP.subs.length ≤ 2 ^ 20) (h32 : lP < 32)
include K hq hp h32

theorem decomposeAndSplit_is {i : ℕ} (hi : i * (lP + 1) ≤ lQ) {p0 : Rows}
    {v : ∀ u, ℕ → ZMod (rQ.sub u).q.toNat} (h0 : PolyIs rQ lQ rQ.qs p0 v) :
    ∃ Z : ℕ → ℤ, BlockRep rQ (lP + 1) (lQ + 1) i v Z ∧
      ∀ p1 : PolyQP, lQ < p1.q.length → lP < p1.p.length →
        PolyWritten rQ lQ (fun u => splitBound (lP + 1) lQ i (rQ.qs (i * (lP + 1))) (rQ.qs u)) p1.q
          ((newDecomposer rQ rP).decomposeAndSplit lQ lP (lP + 1) i p0 p1).q (rQ.intVec Z) ∧
        PolyWritten rP lP (fun u => splitBound (lP + 1) lQ i (rQ.qs (i * (lP + 1))) (rP.qs u)) p1.p
          ((newDecomposer rQ rP).decomposeAndSplit lQ lP (lP + 1) i p0 p1).p (rP.intVec Z) := by
  have hlQ := K.lQ
  have hlP := K.lP
  have hNP : rP.n = rQ.n := by rw [K.hP.deg, K.hQ.deg]
  have hdl := decompLvl_eq (levelQ := lQ) (i := i) (Nat.succ_pos lP) hi
  set m := blockLen (lP + 1) (lQ + 1) i with hm
  have hm1 : 1 ≤ m := by unfold blockLen at hm; omega
  by_cases hm' : m = 1
  · have hdl' : decompLvl lQ (lP + 1) i = -1 := by rw [hdl, hm']; rfl
    refine ⟨fun k => (((p0.row (i * (lP + 1))).at k).toNat : ℤ), ⟨fun k hk => ?_, fun k hk u h1 h2 h3 => ?_⟩,
      fun p1 hl1 hl2 => ?_⟩
    · have hlt := (h0.row (i * (lP + 1)) hi).lt k hk
      have e : rQ.blockQ (lP + 1) (lQ + 1) i = rQ.qs (i * (lP + 1)) := by
        unfold Ring.blockQ
        rw [show min (lP + 1) (lQ + 1 - i * (lP + 1)) = 1 from hm.symm.trans hm']
        simp
      rw [e]
      generalize rQ.qs (i * (lP + 1)) = q at *
      constructor <;> omega
    · have : u = i * (lP + 1) := by unfold blockLen at hm; omega
      subst this
      have := (h0.row _ hi).val k hk
      unfold zval at this
      push_cast
      exact this
    · unfold Decomposer.decomposeAndSplit
      simp only [if_pos hdl']
      refine ⟨writeLvl_is hl1 (fun u hu => ?_), writeLvl_is hl2 (fun u hu => ?_)⟩
      · have := (h0.row (i * (lP + 1)) hi).asInt (q' := (rQ.sub u).q.toNat)
        unfold splitBound
        rw [if_pos (hm.symm.trans hm')]
        exact this
      · have := (h0.row (i * (lP + 1)) hi).asInt (q' := (rP.sub u).q.toNat)
        unfold splitBound
        rw [if_pos (hm.symm.trans hm'), hNP]
        exact this
  · have hm2 : 2 ≤ m := by omega
    have hma : m ≤ lP + 1 := by unfold blockLen at hm; omega
    have hmq : i * (lP + 1) + m ≤ lQ + 1 := by unfold blockLen at hm; omega
    have hdl' : ¬ decompLvl lQ (lP + 1) i = -1 := by rw [hdl]; omega
    have hpar := modUpParams_at (rQ := rQ) (rP := rP) (alpha := lP + 1) (i := i) (m := m) (by omega) (by omega)
      hq hp hm2 hma (by omega)
    have src := blockSrcOK K.hQ K.sQ (s := i * (lP + 1)) (m := m) (by omega) (by omega) (by omega)
    set Q := (List.range m).map fun k => Row.at rQ.moduli (i * (lP + 1) + k) with hQd
    have hlen : Q.length = m := by rw [hQd]; simp
    have hat : ∀ j < m, Row.at Q j = (rQ.sub (i * (lP + 1) + j)).q := by
      intro j hj
      rw [hQd, at_map_range _ _ hj, at_moduli rQ (by omega)]
    have key := fun k => modUp_int src (fun j => (rQ.sub (i * (lP + 1) + j)).mred)
      (fun j hj => by rw [hat j (by omega)]; exact (K.hQ.subAt (by omega)).mred)
      (fun j => (p0.row (i * (lP + 1) + j)).at k) (fun j => (rQ.sub (i * (lP + 1) + j)).q)
      (fun j hj => (hat j (by omega)).symm)
    choose Z z1 z2 z3 using key
    rw [hlen] at z2 z3
    refine ⟨Z, ⟨fun k hk => ?_, fun k hk u h1 h2 h3 => ?_⟩, fun p1 hl1 hl2 => ?_⟩
    · have e : prodL Q = rQ.blockQ (lP + 1) (lQ + 1) i := by
        unfold prodL Ring.blockQ
        rw [hlen]
        exact prod_congr rfl (fun j hj => by rw [hat j (mem_range.1 hj)])
      rw [← e]; exact z1 k
    · have hj : u - i * (lP + 1) < m := by unfold blockLen at hm; omega
      have h4 := z2 k _ hj
      have e : i * (lP + 1) + (u - i * (lP + 1)) = u := by omega
      rw [hat _ hj, e] at h4
      exact h4.trans ((h0.row u (by omega)).val k hk)
    · have hl0 : (p0.row 0).length = rQ.n := (h0.row 0 (Nat.zero_le _)).len
      have hpr : decompLvl lQ (lP + 1) i = (m : ℤ) - 2 := hdl
      have t1 : (decompLvl lQ (lP + 1) i).toNat = m - 2 := by rw [hpr]; omega
      have t2 : (decompLvl lQ (lP + 1) i + 2).toNat = m := by rw [hpr]; omega
      unfold Decomposer.decomposeAndSplit
      simp only [if_neg hdl', t1, t2, hl0]
      rw [show lP + 1 - 2 = (lP + 1) - 2 from rfl, hpar]
      have hql : rQ.moduli.length = rQ.subs.length := by simp [Ring.moduli]
      have hpl : (rP.moduli.take (lP + 1)).length = lP + 1 := length_take_moduli rP hlP
      have hrow : ∀ (j : ℕ) (s : SubRing), j < rQ.subs.length + (lP + 1) →
          Row.at (rQ.moduli ++ rP.moduli.take (lP + 1)) j = s.q → DstOK s.q s.mred → ∀ k,
          (modUpCoeff m (fun t => (p0.row (i * (lP + 1) + t)).at k) (fun t => (rQ.sub (i * (lP + 1) + t)).q)
            (fun t => (rQ.sub (i * (lP + 1) + t)).mred)
            (basisExtenderParameters Q (rQ.moduli ++ rP.moduli.take (lP + 1))) j s.q s.mred).toNat
              < ((m + 7) / 8 + 2) * s.q.toNat ∧
          ((modUpCoeff m (fun t => (p0.row (i * (lP + 1) + t)).at k) (fun t => (rQ.sub (i * (lP + 1) + t)).q)
            (fun t => (rQ.sub (i * (lP + 1) + t)).mred)
            (basisExtenderParameters Q (rQ.moduli ++ rP.moduli.take (lP + 1))) j s.q s.mred).toNat
              : ZMod s.q.toNat) = Z k := by
        intro j s hj hs hdst k
        have hj' : j < (rQ.moduli ++ rP.moduli.take (lP + 1)).length := by
          rw [List.length_append, hql, hpl]; exact hj
        refine z3 k _ j s.q s.mred hdst ?_ ?_ ?_
        · show (List.range Q.length).map _ = _
          rw [hlen]
        · show Rows.row (List.map _ _) j = _
          rw [row_params hj', hs, hlen]
        · show Rows.row (List.map _ _) j = _
          rw [row_params hj', hs]
      have hb : ∀ q, splitBound (lP + 1) lQ i (rQ.qs (i * (lP + 1))) q = ((m + 7) / 8 + 2) * q := by
        intro q
        unfold splitBound
        rw [← hm, if_neg hm']
      refine ⟨writeLvl_is hl1 (fun u hu => ?_), writeLvl_is hl2 (fun u hu => ?_)⟩
      · have w := hrow u (rQ.sub u) (by omega) (by
          rw [← at_moduli rQ (show u < rQ.subs.length by omega)]
          unfold Row.at List.getD
          rw [List.getElem?_append_left (by rw [hql]; omega)]) (K.hQ.dstOK K.sQ (by omega))
        rw [hb]
        refine ⟨by simp, fun k hk => ?_, fun k hk => ?_⟩
        · rw [at_map_range _ _ hk]; exact (w k).1
        · unfold zval; rw [at_map_range _ _ hk]; exact (w k).2
      · have w := hrow (rQ.subs.length + u) (rP.sub u) (by omega) (by
          rw [← at_take_moduli rP (show u ≤ lP by omega) hlP]
          unfold Row.at List.getD
          rw [List.getElem?_append_right (by rw [hql]; omega), hql, Nat.add_sub_cancel_left])
          (K.hP.dstOK K.sP (by omega))
        rw [hb, hNP]
        refine ⟨by simp, fun k hk => ?_, fun k hk => ?_⟩
        · rw [at_map_range _ _ hk]; exact (w k).1
        · unfold zval; rw [at_map_range _ _ hk]; exact (w k).2

/-- bound on the digits after the lazy transform -/
def digitBound (alpha q : ℕ) : ℕ := max (2 ^ 61 + 2 * q) (if alpha ≤ 16 then 6 * q else 8 * q)

omit K hq hp h32 in
/-- moduli for which the lazy transform of a digit cannot overflow -/
theorem digit_ntt {r : Ring} (hr : r.Valid n) (sr : r.Small) {alpha levelQ i q0 u : ℕ} (ha : alpha ≤ 32)
    (hu : u < r.subs.length) (hq0 : q0 < 2 ^ 61) (hov : alpha ≤ 16 ∨ 10 * r.qs u + 2 ^ 15 ≤ 2 ^ 64)
    {x : Row} {Z : ℕ → ℤ} (hx : RowIs r.n (r.qs u) (splitBound alpha levelQ i q0 (r.qs u)) x (r.intVec Z u)) :
    RowIs r.n (r.qs u) (digitBound alpha (r.qs u)) ((r.sub u).nttLazy r.n x) (r.nttVec n Z u) := by
  have h4 := hr.four_le
  have V := hr.subAt hu
  have hlt := sr _ (Ring.sub_mem hu)
  rw [hr.deg] at hx ⊢
  unfold Ring.qs at *
  have hm : (blockLen alpha (levelQ + 1) i + 7) / 8 ≤ 4 := by unfold blockLen; omega
  have hB : splitBound alpha levelQ i q0 (r.sub u).q.toNat
      ≤ max (2 ^ 61) ((if alpha ≤ 16 then 4 else 6) * (r.sub u).q.toNat) := by
    unfold splitBound
    split
    · omega
    · have : ((blockLen alpha (levelQ + 1) i + 7) / 8 + 2) * (r.sub u).q.toNat
          ≤ (if alpha ≤ 16 then 4 else 6) * (r.sub u).q.toNat :=
        Nat.mul_le_mul_right _ (by unfold blockLen at *; split <;> omega)
      omega
  refine (nttLazy_is V (by omega) hlt (B := max (2 ^ 61) ((if alpha ≤ 16 then 4 else 6) * (r.sub u).q.toNat))
    ?_ ?_ (hx.mono hB)).mono ?_
  · split <;> omega
  · split <;> omega
  · unfold digitBound
    split <;> omega

/-- digit `i` of `DecomposeSingleNTT`; `v` are the residues of the polynomial -/
theorem decomposeSingleNTT_is (hov : lP < 16 ∨
      (∀ u ≤ lQ, 10 * rQ.qs u + 2 ^ 15 ≤ 2 ^ 64) ∧ ∀ u ≤ lP, 10 * rP.qs u + 2 ^ 15 ≤ 2 ^ 64)
    {i : ℕ} (hi : i * (lP + 1) ≤ lQ) {c2NTT c2 : Rows} {v : ∀ u, ℕ → ZMod (rQ.sub u).q.toNat}
    (h0 : PolyIs rQ lQ rQ.qs c2NTT (fun u => evals (rQ.sub u).psi n (v u)))
    (h1 : PolyIs rQ lQ rQ.qs c2 v) :
    ∃ Z : ℕ → ℤ, BlockRep rQ (lP + 1) (lQ + 1) i v Z ∧
      ∀ p1 : PolyQP, lQ < p1.q.length → lP < p1.p.length →
        PolyWritten rQ lQ (fun u => digitBound (lP + 1) (rQ.qs u)) p1.q
          ((newDecomposer rQ rP).decomposeSingleNTT lQ lP (lP + 1) i c2NTT c2 p1).q (rQ.nttVec n Z) ∧
        PolyWritten rP lP (fun u => digitBound (lP + 1) (rP.qs u)) p1.p
          ((newDecomposer rQ rP).decomposeSingleNTT lQ lP (lP + 1) i c2NTT c2 p1).p (rP.nttVec n Z) := by
  have hlQ := K.lQ
  have hlP := K.lP
  obtain ⟨Z, hZ, hw⟩ := decomposeAndSplit_is K hq hp h32 hi h1
  refine ⟨Z, hZ, fun p1 hl1 hl2 => ?_⟩
  obtain ⟨w1, w2⟩ := hw p1 hl1 hl2
  have hq0 : rQ.qs (i * (lP + 1)) < 2 ^ 61 := K.sQ _ (Ring.sub_mem (by omega))
  unfold Decomposer.decomposeSingleNTT
  simp only
  set t := (newDecomposer rQ rP).decomposeAndSplit lQ lP (lP + 1) i c2 p1 with ht
  have g1 := writeLvl_is (r := rQ) (level := lQ) (A := fun u => digitBound (lP + 1) (rQ.qs u))
    (v := rQ.nttVec n Z) (out := t.q)
    (f := fun x => if i * (lP + 1) ≤ x ∧ x < i * (lP + 1) + 1 then c2NTT.row x
      else ((newDecomposer rQ rP).ringQ.sub x).nttLazy (newDecomposer rQ rP).ringQ.n (t.q.row x))
    (by rw [w1.len]; exact hl1) (fun u hu => ?_)
  have g2 := writeLvl_is (r := rP) (level := lP) (A := fun u => digitBound (lP + 1) (rP.qs u))
    (v := rP.nttVec n Z) (out := t.p)
    (f := fun x => (rP.sub x).nttLazy rP.n (t.p.row x))
    (by rw [w2.len]; exact hl2) (fun u hu => ?_)
  · exact ⟨⟨g1.is, g1.len.trans w1.len, fun u hu => (g1.above u hu).trans (w1.above u hu)⟩,
      ⟨g2.is, g2.len.trans w2.len, fun u hu => (g2.above u hu).trans (w2.above u hu)⟩⟩
  · exact digit_ntt K.hP K.sP (by omega) (by omega) hq0 (hov.imp (by omega) (fun h => h.2 u hu))
      (w2.is.row u hu)
  · split
    · rename_i hc
      have hu' : u = i * (lP + 1) := by omega
      refine ((h0.row u hu).mono ?_).congr (fun k hk => ?_)
      · unfold digitBound Ring.qs; omega
      · refine evals_congr _ _ (fun j hj => ?_) k
        rw [← K.hQ.deg] at hj
        exact (hZ.cong j hj u (by omega) (by omega) (by omega)).symm
    · exact digit_ntt K.hQ K.sQ (by omega) (by omega) hq0 (hov.imp (by omega) (fun h => h.1 u hu))
        (w1.is.row u hu)

end

/-! ## Input of the key-switcher -/

section
variable {n : ℕ} {rQ rP : Ring} (hQ : rQ.Valid n) (sQ : rQ.Small)
include hQ sQ

/-- both forms of the input -/
theorem bothForms_is {levelQ : ℕ} (hl : levelQ < rQ.subs.length) (isNTT : Bool) {cx : Rows}
    {w : ∀ u, ℕ → ZMod (rQ.sub u).q.toNat} (hc : PolyIs rQ levelQ rQ.qs cx w) :
    ∃ v : ∀ u, ℕ → ZMod (rQ.sub u).q.toNat,
      PolyIs rQ levelQ rQ.qs ((newKeySwitcher rQ rP).bothForms levelQ isNTT cx).1
        (fun u => evals (rQ.sub u).psi n (v u)) ∧
      PolyIs rQ levelQ rQ.qs ((newKeySwitcher rQ rP).bothForms levelQ isNTT cx).2 v ∧
      ∀ u ≤ levelQ, toR (2 ^ n) (rQ.qs u) (v u) = rQ.elt n isNTT cx u := by
  have h4 := hQ.four_le
  have hnew : levelQ < (newPoly rQ.n rQ.subs.length).length := by rw [length_newPoly]; exact hl
  cases isNTT
  · refine ⟨w, ?_, hc, fun u hu => ?_⟩
    · refine (writeLvl_is hnew (fun u hu => ?_)).is
      have V := hQ.subAt (show u < rQ.subs.length by omega)
      have hlt := sQ _ (Ring.sub_mem (show u < rQ.subs.length by omega))
      have h1 := hc.row u hu
      show RowIs _ _ _ ((rQ.sub u).ntt rQ.n _) _
      rw [hQ.deg] at h1 ⊢
      exact ntt_is V (by omega) hlt (by unfold Ring.qs; omega) h1
    · unfold Ring.elt
      simp only [Bool.false_eq_true, if_false]
      unfold rowR
      refine toR_congr (fun k hk => ?_)
      rw [← hQ.deg] at hk
      exact ((hc.row u hu).val k hk).symm
  · refine ⟨fun u => coeffsOf (rQ.sub u).psi n (w u), hc.congr (fun u hu k hk => ?_), ?_, fun u hu => ?_⟩
    · rw [hQ.deg] at hk
      exact (evals_coeffsOf (hQ.subAt (by omega)) (by omega) _ k hk).symm
    · refine (writeLvl_is hnew (fun u hu => ?_)).is
      have V := hQ.subAt (show u < rQ.subs.length by omega)
      have hlt := sQ _ (Ring.sub_mem (show u < rQ.subs.length by omega))
      have h1 := hc.row u hu
      show RowIs _ _ _ ((rQ.sub u).invNtt rQ.n _) _
      rw [hQ.deg] at h1 ⊢
      exact invNtt_is V (by omega) hlt (h1.mono (by unfold Ring.qs; omega))
    · unfold Ring.elt
      simp only [if_true]
      unfold nttR
      refine ofNtt_congr (fun k hk => ?_)
      rw [← hQ.deg] at hk
      exact ((hc.row u hu).val k hk).symm

end

end FastKsw
