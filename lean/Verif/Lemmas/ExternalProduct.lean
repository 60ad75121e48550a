import Verif.Lemmas.FKeySwitchBuild
import Verif.Spec.KeySwitch

/-!
# The external product of the fast key-switcher
-/

namespace FastKsw

open Finset

/-! ## Evaluations of products and sums -/

theorem evals_negConv {n : ℕ} {s : SubRing} (V : s.Valid n) (hn : 1 ≤ n) (a b : ℕ → ℤ) {k : ℕ}
    (hk : k < 2 ^ n) :
    evals s.psi n (fun k => ((negConv (2 ^ n) a b k : ℤ) : ZMod s.q.toNat)) k
      = evals s.psi n (fun k => (a k : ZMod s.q.toNat)) k * evals s.psi n (fun k => (b k : ZMod s.q.toNat)) k := by
  have := V.fact
  exact negConv_eval (Int.castRingHom (ZMod s.q.toNat)) (2 ^ n) _ (nttPoint_pow (V.psiOK hn) hk) a b

theorem evals_sum {q : ℕ} (psi : ZMod q) (n m : ℕ) (a : ℕ → ℕ → ZMod q) (i : ℕ) :
    evals psi n (fun k => ∑ j ∈ range m, a j k) i = ∑ j ∈ range m, evals psi n (a j) i := by
  simp only [evals, sum_mul]
  rw [sum_comm]

theorem nttVec_convSum {n : ℕ} {r : Ring} (hr : r.Valid n) {t : ℕ} (ht : t < r.subs.length) (m : ℕ)
    (a b : ℕ → ℕ → ℤ) {k : ℕ} (hk : k < 2 ^ n) :
    r.nttVec n (convSum (2 ^ n) m a b) t k = ∑ i ∈ range m, r.nttVec n (a i) t k * r.nttVec n (b i) t k := by
  have V := hr.subAt ht
  have h4 := hr.four_le
  have e : r.nttVec n (convSum (2 ^ n) m a b) t k = evals (r.sub t).psi n
      (fun k => ∑ i ∈ range m, ((negConv (2 ^ n) (a i) (b i) k : ℤ) : ZMod (r.sub t).q.toNat)) k := by
    unfold Ring.nttVec Ring.intVec convSum
    congr 1
    funext k
    push_cast
    rfl
  rw [e, evals_sum]
  exact sum_congr rfl (fun i _ => evals_negConv V (by omega) _ _ hk)

theorem modulusBigint_prodQ {n : ℕ} {r : Ring} (_ : r.Valid n) {l : ℕ} (hl : l + 1 = r.subs.length) :
    r.modulusBigint = (r.prodQ l : ℤ) := by
  rw [modulusBigint_eq, ← hl]
  unfold Ring.prodQ
  push_cast
  rfl

/-! ## Sum with one conditional subtraction on lazy inputs -/

theorem addVec_lazy {N q A B : ℕ} {x y : Row} {m : UInt64} (hm : m.toNat = q) {v w : ℕ → ZMod q}
    (hx : RowIs N q A x v) (hy : RowIs N q B y w) (hAB : A + B ≤ 2 ^ 64) :
    RowIs N q (A + B) (addVec x y m) (fun k => v k + w k) := by
  subst hm
  refine RowIs.zipWith (F := fun a b => a + b) hx hy (fun u u' h h' => ?_)
  have e : (u + u').toNat = u.toNat + u'.toNat := by rw [UInt64.toNat_add]; omega
  have h2 := toNat_cred_modEq (u + u') m
  constructor
  · have : (cred (u + u') m).toNat ≤ (u + u').toNat := by
      rw [toNat_cred]
      split <;> omega
    omega
  · rw [cast_of_modEq h2, e]; push_cast; rfl

theorem RowIs.castInt {N N' q q' : ℕ} (hN : N = N') (hq : q = q') {x : Row} {Z : ℕ → ℤ}
    (h : RowIs N q q x (fun k => (Z k : ZMod q))) : RowIs N' q' q' x (fun k => (Z k : ZMod q')) := by
  subst hN hq; exact h

/-! ## Accumulators over all blocks -/

theorem foldl_mapIdx {α : Type*} (bl : ℕ) (f : ℕ → ℕ → α → α) (ps : List α) (b : ℕ) :
    (List.range b).foldl (fun ps i => ps.mapIdx fun j a => if j < bl then f i j a else a) ps
      = ps.mapIdx fun j a => if j < bl then (List.range b).foldl (fun a i => f i j a) a else a := by
  induction b with
  | zero =>
    simp only [List.range_zero, List.foldl_nil, ite_self]
    exact (List.mapIdx_eq_iff.2 (fun i => by simp)).symm
  | succ b ih =>
    rw [List.range_succ, List.foldl_append, ih, List.foldl_cons, List.foldl_nil, List.mapIdx_mapIdx]
    congr 1
    funext j a
    simp only [Function.comp]
    split <;> simp [List.foldl_append]

theorem getD_mapIdx {α : Type*} (f : ℕ → α → α) (ps : List α) (d : α) {j : ℕ} (hj : j < ps.length) :
    (ps.mapIdx f).getD j d = f j (ps.getD j d) := by
  simp [List.getD, hj]

section
variable {fuel n : ℕ} {p : FParams} (h : p.OK fuel n) {ksw : FKeySwitcher} (hk : ksw.OK n p)
include h hk

theorem accumulate_is {levelQ : ℕ} (hl : levelQ < p.ringQ.subs.length) {D : ℕ → ℕ}
    (hD : ∀ t ≤ p.levelT, D t ≤ 6 * p.ringT.qs t ∨ D t + 2 * p.ringT.qs t + 2 ^ 15 ≤ 2 ^ 64)
    {dig : List Rows} {bg : FSwitchingKey} {A : ℕ → ℕ → ℤ} {B : ℕ → ℕ → ℕ → ℤ}
    {beta : ℕ} (hb : beta = ceilDivF (levelQ + 1) p.alpha)
    (hA : ∀ i < beta, PolyIs p.ringT p.levelT D (dig.getD i []) (p.ringT.nttVec n (A i)))
    {j : ℕ} (hj : j * p.gamma < levelQ + p.alpha + 1)
    (hB : ∀ i < beta, PolyIs p.ringT p.levelT p.ringT.qs (bg.at i j)
      (fun t k => p.ringT.nttVec n (B i j) t k * 2 ^ 64)) :
    PolyIs p.ringT p.levelT p.ringT.qs ((ksw.accumulate levelQ dig bg).getD j [])
      (p.ringT.nttVec n (convSum (2 ^ n) beta A (fun i => B i j))) := by
  have hg := h.gamma_pos
  have hg2 := h.gamma32
  have ha := h.lenP
  have ha2 := h.alpha32
  have hq := h.q100
  have hR := h.lenR
  have hT := h.lenT
  have hal : p.alpha = p.ringP.subs.length := rfl
  have hjl : j < ksw.ringRi.length := (hk.lenRi j).2 (by omega)
  have e1 : ceilDivF (levelQ + p.alpha + 1) p.gamma = (levelQ + p.alpha + 1 + p.gamma - 1) / p.gamma :=
    ceilDivF_small hg (by omega) (by omega)
  have hjb : j < ceilDivF (levelQ + p.alpha + 1) p.gamma := by rw [e1]; exact (ceil_block hg).2 hj
  have hb0 : 0 < beta := by
    rw [hb, ceilDivF_small (by omega) (by omega) (by omega)]
    exact Nat.div_pos (by omega) (by omega)
  unfold FKeySwitcher.accumulate
  simp only [hk.params]
  rw [foldl_mapIdx, getD_mapIdx _ _ _ (by simpa using hjl), if_pos hjb,
    getD_mapIdx _ _ _ (by simpa using hjl), if_pos hjb]
  have e0 : (List.replicate ksw.ringRi.length (newPoly p.ringT.n p.ringT.subs.length)).getD j []
      = newPoly p.ringT.n p.ringT.subs.length := by
    simp [List.getD, hjl]
  have hlT : p.levelT < p.ringT.subs.length := by unfold FParams.levelT; omega
  rw [e0, ← hb]
  obtain ⟨Q, hm, hQ⟩ := overflowMargin_ok h.hT h.sT hlT
  refine (accLoop_is (h.hT.arithLvl hlT) hm hQ (D := D) (fun t ht => ?_)
    (v := fun i => p.ringT.nttVec n (A i)) (w := fun i t k => p.ringT.nttVec n (B i j) t k * 2 ^ 64)
    (by rw [length_newPoly]; exact hlT) beta hb0 (fun i hi =>
    ⟨D, p.ringT.qs, hA i hi, hB i hi, fun t _ => le_rfl⟩)).is.congr ?_
  · have := hQ t ht
    rcases hD t ht with h' | h'
    · left; omega
    · right; exact h'
  · intro t ht k hk'
    rw [h.hT.deg] at hk'
    rw [nttVec_convSum h.hT (by omega) _ _ _ hk']
    refine sum_congr rfl (fun i _ => ?_)
    have := mul_rinv ((h.hT.subAt (show t < p.ringT.subs.length by omega)).odd)
    rw [← mul_assoc, mul_assoc _ ((2 : ZMod _) ^ 64), this, mul_one]

theorem blockToR_is {levelQ : ℕ} (hl : levelQ < p.ringQ.subs.length) {i : ℕ}
    (hi : i * p.gamma < levelQ + p.alpha + 1) {acc : Rows} {S : ℕ → ℤ}
    (hacc : PolyIs p.ringT p.levelT p.ringT.qs acc (p.ringT.nttVec n S))
    (hS : ∀ k < 2 ^ n, FitsT (p.ringT.prodQ p.levelT) (S k)) {j : ℕ}
    (hj : j < blockCount p.gamma (levelQ + p.alpha + 1) i) :
    RowIs (2 ^ n) (p.ringR.qs (i * p.gamma + j)) (p.ringR.qs (i * p.gamma + j))
      (Rows.row (ksw.blockToR levelQ i acc) j)
      (fun k => ((S k + p.ringT.modulusBigint / 2 : ℤ) : ZMod _)) := by
  have hR := h.lenR
  have hT := h.lenT
  have hal : p.alpha = p.ringP.subs.length := rfl
  have hlT : p.levelT < p.ringT.subs.length := by unfold FParams.levelT; omega
  have hT32 : p.levelT < 32 := by have := h.t32; omega
  have h4 := h.hT.four_le
  obtain ⟨hb, hconv⟩ := hk.ringRi i (by omega)
  have hc := blockCount_eq p.gamma (levelQ + p.alpha + 1) i
  unfold FKeySwitcher.blockToR
  simp only [hk.params, hconv]
  set lev := blockCount p.gamma (levelQ + p.alpha + 1) i - 1 with hlev
  set r := ksw.ringRi.getD i p.ringR with hr
  have hlevr : lev < r.subs.length := by rw [hb.len]; omega
  -- inverse transform and offset
  have h1 : PolyIs p.ringT p.levelT (fun t => 2 * p.ringT.qs t) (p.ringT.invNttLazyLvl p.levelT acc acc)
      (p.ringT.intVec S) := by
    refine (writeLvl_is hacc.lvl (fun t ht => ?_)).is
    have V := h.hT.subAt (show t < p.ringT.subs.length by omega)
    have h' := hacc.row t ht
    rw [h.hT.deg] at h' ⊢
    exact (invNttLazy_is V (by omega) (h.sT _ (Ring.sub_mem (by omega)))
      (h'.mono (by unfold Ring.qs; omega))).congr (coeffsOf_evals V (by omega) _)
  have h2 : PolyIs p.ringT p.levelT (fun t => 2 * p.ringT.qs t + p.ringT.qs t)
      (p.ringT.addLvl p.levelT (p.ringT.invNttLazyLvl p.levelT acc acc) ksw.halfTPolyT
        (p.ringT.invNttLazyLvl p.levelT acc acc))
      (p.ringT.intVec fun k => S k + p.ringT.modulusBigint / 2) := by
    refine (writeLvl_is h1.lvl (fun t ht => ?_)).is
    have hlt := h.sT _ (Ring.sub_mem (show t < p.ringT.subs.length by omega))
    refine (addVec_lazy rfl (h1.row t ht) (hk.halfT.row t ht) (by unfold Ring.qs; omega)).congr ?_
    intro k _
    simp [Ring.intVec]
  -- back to the block
  obtain ⟨Z, hZ, hw⟩ := modUpQtoP_is h.hT h.sT hb.valid hb.small hlT hT32 h2
  have hw' := (hw lev hlevr (newPoly p.ringR.n p.ringR.subs.length)
    (by rw [length_newPoly]; have := hb.len; omega)).is
  have hZS : ∀ k < 2 ^ n, Z k = S k + p.ringT.modulusBigint / 2 := by
    intro k hk'
    have hk2 : k < p.ringT.n := by rw [h.hT.deg]; exact hk'
    have hd := h.hT.dvd_of_cong hlT (hZ.cong k hk2)
    have hf := hS k hk'
    have hn := hZ.near k hk2
    rw [modulusBigint_prodQ h.hT (show p.levelT + 1 = _ by unfold FParams.levelT; omega)] at hd ⊢
    unfold FitsT at hf
    beta_reduce at hd
    generalize p.ringT.prodQ p.levelT = T at *
    have habs := abs_nonneg (S k)
    have h1 := neg_abs_le (S k)
    have h2 := le_abs_self (S k)
    generalize |S k| = a at *
    refine hn.dvd_eq hd ?_ ?_ <;> omega
  have hjl : j ≤ lev := by omega
  have hw2 : PolyIs r lev r.qs (r.reduceLvl lev _ _) (r.intVec Z) :=
    (writeLvl_is hw'.lvl (fun t ht => reduceVec_is ((hb.valid.arithLvl hlevr) t ht) (hw'.row t ht))).is
  have hrow := hw2.row j hjl
  have hq : (r.sub j).q = (p.ringR.sub (i * p.gamma + j)).q := hb.q j (by omega)
  rw [hb.valid.deg] at hrow
  have hrow' := hrow.congr (w := fun k => ((S k + p.ringT.modulusBigint / 2 : ℤ) : ZMod _))
    (fun k hk' => by unfold Ring.intVec; rw [hZS k hk'])
  unfold Ring.qs at hrow' ⊢
  rw [hq] at hrow'
  exact hrow'

end

/-! ## The rows written to `polyQPPool` -/

theorem row_set (p : Rows) {i j : ℕ} (x : Row) (hj : j < p.length) :
    Rows.row (p.set j x) i = if i = j then x else p.row i := by
  split
  · rename_i he
    subst he
    simp [Rows.row, List.getD, hj]
  · rename_i he
    exact row_set_ne p x he

/-- shape of a polynomial over `R = P‖Q` -/
def PolyQP.Shape (x : PolyQP) (alpha lenQ : ℕ) : Prop := x.p.length = alpha ∧ x.q.length = lenQ

theorem PolyQP.Shape.setR {x : PolyQP} {alpha lenQ : ℕ} (h : x.Shape alpha lenQ) (u : ℕ) (row : Row) :
    (x.setR alpha u row).Shape alpha lenQ := by
  unfold PolyQP.setR
  split
  · exact ⟨by simpa using h.1, h.2⟩
  · exact ⟨h.1, by simpa using h.2⟩

theorem PolyQP.getR_setR {x : PolyQP} {alpha lenQ : ℕ} (h : x.Shape alpha lenQ) {u : ℕ}
    (hu : u < alpha + lenQ) (row : Row) (u' : ℕ) :
    (x.setR alpha u row).getR alpha u' = if u' = u then row else x.getR alpha u' := by
  unfold PolyQP.setR PolyQP.getR
  by_cases h1 : u < alpha
  · rw [if_pos h1]
    by_cases h2 : u' < alpha
    · rw [if_pos h2, if_pos h2]
      exact row_set _ _ (by rw [h.1]; exact h1)
    · rw [if_neg h2, if_neg h2, if_neg (by omega)]
  · rw [if_neg h1]
    by_cases h2 : u' < alpha
    · rw [if_pos h2, if_pos h2, if_neg (by omega)]
    · rw [if_neg h2, if_neg h2]
      rw [row_set _ _ (by rw [h.2]; omega)]
      by_cases h3 : u' = u
      · rw [if_pos h3, if_pos (by omega)]
      · rw [if_neg h3, if_neg (by omega)]

theorem setR_inner {x : PolyQP} {alpha lenQ : ℕ} (h : x.Shape alpha lenQ) (base : ℕ) (f : ℕ → Row) (c : ℕ)
    (hc : base + c ≤ alpha + lenQ) :
    ((List.range c).foldl (fun qp j => PolyQP.setR qp alpha (base + j) (f j)) x).Shape alpha lenQ ∧
    ∀ u, ((List.range c).foldl (fun qp j => PolyQP.setR qp alpha (base + j) (f j)) x).getR alpha u
      = if base ≤ u ∧ u < base + c then f (u - base) else x.getR alpha u := by
  induction c with
  | zero =>
    refine ⟨h, fun u => ?_⟩
    rw [if_neg (by omega)]; rfl
  | succ c ih =>
    obtain ⟨i1, i2⟩ := ih (by omega)
    rw [List.range_succ, List.foldl_append, List.foldl_cons, List.foldl_nil]
    refine ⟨i1.setR _ _, fun u => ?_⟩
    rw [PolyQP.getR_setR i1 (by omega), i2]
    by_cases h1 : u = base + c
    · rw [if_pos h1, if_pos (by omega), h1, Nat.add_sub_cancel_left]
    · rw [if_neg h1]
      by_cases h2 : base ≤ u ∧ u < base + c
      · rw [if_pos h2, if_pos (by omega)]
      · rw [if_neg h2, if_neg (by omega)]

theorem setR_blocks {x : PolyQP} {alpha lenQ : ℕ} (h : x.Shape alpha lenQ) (gamma cnt : ℕ) (hg : 0 < gamma)
    (hcnt : cnt ≤ alpha + lenQ) (f : ℕ → ℕ → Row) (b : ℕ) (hb : b = 0 ∨ (b - 1) * gamma < cnt) :
    ((List.range b).foldl (fun qp i => (List.range (blockCount gamma cnt i)).foldl
        (fun qp j => PolyQP.setR qp alpha (i * gamma + j) (f i j)) qp) x).Shape alpha lenQ ∧
    ∀ u < cnt, u < b * gamma → ((List.range b).foldl (fun qp i => (List.range (blockCount gamma cnt i)).foldl
        (fun qp j => PolyQP.setR qp alpha (i * gamma + j) (f i j)) qp) x).getR alpha u
      = f (u / gamma) (u % gamma) := by
  induction b with
  | zero => exact ⟨h, fun u _ hu => by simp at hu⟩
  | succ b ih =>
    have hb' : b * gamma < cnt := by simpa using hb
    obtain ⟨i1, i2⟩ := ih (by
      rcases Nat.eq_zero_or_pos b with h0 | h0
      · exact Or.inl h0
      · right; exact lt_of_le_of_lt (Nat.mul_le_mul_right _ (by omega)) hb')
    rw [List.range_succ, List.foldl_append, List.foldl_cons, List.foldl_nil]
    have hc := blockCount_eq gamma cnt b
    obtain ⟨j1, j2⟩ := setR_inner i1 (b * gamma) (f b) (blockCount gamma cnt b) (by omega)
    refine ⟨j1, fun u hu hub => ?_⟩
    rw [j2]
    rw [Nat.add_mul, Nat.one_mul] at hub
    split
    · rename_i h1
      have e1 : u / gamma = b := by
        rw [Nat.div_eq_iff hg]
        omega
      have e2 : u % gamma = u - b * gamma := by
        have := Nat.div_add_mod u gamma
        rw [e1, Nat.mul_comm] at this
        omega
      rw [e1, e2]
    · exact i2 u hu (by omega)

section
variable {fuel n : ℕ} {p : FParams} (h : p.OK fuel n) {ksw : FKeySwitcher} (hk : ksw.OK n p)
include h hk

/-- what the accumulation converted back to `P` and `Q` holds -/
theorem externalProductQP_is {levelQ : ℕ} (hl : levelQ < p.ringQ.subs.length) {D : ℕ → ℕ}
    (hD : ∀ t ≤ p.levelT, D t ≤ 6 * p.ringT.qs t ∨ D t + 2 * p.ringT.qs t + 2 ^ 15 ≤ 2 ^ 64)
    {dig : List Rows} {bg : FSwitchingKey} {A : ℕ → ℕ → ℤ} {B : ℕ → ℕ → ℕ → ℤ}
    {beta : ℕ} (hb : beta = ceilDivF (levelQ + 1) p.alpha)
    (hA : ∀ i < beta, PolyIs p.ringT p.levelT D (dig.getD i []) (p.ringT.nttVec n (A i)))
    (hB : ∀ i < beta, ∀ j, j * p.gamma < levelQ + p.alpha + 1 →
      PolyIs p.ringT p.levelT p.ringT.qs (bg.at i j) (fun t k => p.ringT.nttVec n (B i j) t k * 2 ^ 64))
    (hS : ∀ j, j * p.gamma < levelQ + p.alpha + 1 → ∀ k < 2 ^ n,
      FitsT (p.ringT.prodQ p.levelT) (convSum (2 ^ n) beta A (fun i => B i j) k)) :
    PolyIs p.ringQ levelQ p.ringQ.qs (ksw.externalProductQP levelQ dig bg).q
      (fun u k => ((convSum (2 ^ n) beta A (fun i => B i ((u + p.alpha) / p.gamma)) k : ℤ) : ZMod _)) ∧
    PolyIs p.ringP (p.alpha - 1) p.ringP.qs (ksw.externalProductQP levelQ dig bg).p
      (fun u k => ((convSum (2 ^ n) beta A (fun i => B i (u / p.gamma)) k : ℤ) : ZMod _)) := by
  have hg := h.gamma_pos
  have hg2 := h.gamma32
  have ha := h.lenP
  have ha2 := h.alpha32
  have hq := h.q100
  have hR := h.lenR
  have hal : p.alpha = p.ringP.subs.length := rfl
  have e1 : ceilDivF (levelQ + p.alpha + 1) p.gamma = (levelQ + p.alpha + 1 + p.gamma - 1) / p.gamma :=
    ceilDivF_small hg (by omega) (by omega)
  have hbl : ∀ i, i < ceilDivF (levelQ + p.alpha + 1) p.gamma ↔ i * p.gamma < levelQ + p.alpha + 1 :=
    fun i => by rw [e1]; exact ceil_block hg
  -- the rows written
  have hshape : (⟨newPoly p.ringQ.n p.ringQ.subs.length, newPoly p.ringP.n p.ringP.subs.length⟩ : PolyQP).Shape
      p.alpha p.ringQ.subs.length := ⟨length_newPoly _ _, length_newPoly _ _⟩
  obtain ⟨s1, s2⟩ := setR_blocks hshape p.gamma (levelQ + p.alpha + 1) hg (by omega)
    (fun i j => Rows.row (ksw.blockToR levelQ i ((ksw.accumulate levelQ dig bg).getD i [])) j)
    (ceilDivF (levelQ + p.alpha + 1) p.gamma) (by
      rcases Nat.eq_zero_or_pos (ceilDivF (levelQ + p.alpha + 1) p.gamma) with h0 | h0
      · exact Or.inl h0
      · exact Or.inr ((hbl _).1 (by omega)))
  have hrow : ∀ u < levelQ + p.alpha + 1, RowIs (2 ^ n) (p.ringR.qs u) (p.ringR.qs u)
      (Rows.row (ksw.blockToR levelQ (u / p.gamma) ((ksw.accumulate levelQ dig bg).getD (u / p.gamma) []))
        (u % p.gamma))
      (fun k => ((convSum (2 ^ n) beta A (fun i => B i (u / p.gamma)) k + p.ringT.modulusBigint / 2 : ℤ)
        : ZMod _)) := by
    intro u hu
    have hdm := Nat.div_add_mod u p.gamma
    rw [Nat.mul_comm] at hdm
    have hmod := Nat.mod_lt u hg
    have hj : u / p.gamma * p.gamma < levelQ + p.alpha + 1 := by omega
    have := blockToR_is h hk hl hj
      (accumulate_is h hk hl hD hb hA hj (fun i hi => hB i hi _ hj)) (hS _ hj) (j := u % p.gamma)
      (by rw [blockCount_eq]; omega)
    rwa [hdm] at this
  have hget : ∀ u < levelQ + p.alpha + 1, u < ceilDivF (levelQ + p.alpha + 1) p.gamma * p.gamma := by
    intro u hu
    by_contra hc
    have := (hbl (ceilDivF (levelQ + p.alpha + 1) p.gamma)).2 (by omega)
    omega
  unfold FKeySwitcher.externalProductQP
  simp only [hk.params]
  constructor
  · refine (writeLvl_is (by rw [s1.2]; exact hl) (fun u hu => ?_)).is
    have hu' : u + p.alpha < levelQ + p.alpha + 1 := by omega
    have h1 := s2 _ hu' (hget _ hu')
    unfold PolyQP.getR at h1
    rw [if_neg (by omega), Nat.add_sub_cancel] at h1
    rw [h1]
    have h2 := hrow _ hu'
    have hqq : p.ringR.qs (u + p.alpha) = p.ringQ.qs u := by
      unfold Ring.qs; rw [h.qQ (by omega)]
    have h3 := h2.castInt (h.hQ.deg.symm) hqq
    refine (subVec_is (h.hQ.subAt (by omega)).arith h3 (hk.halfQ.row u (by omega))).congr (fun k _ => ?_)
    simp [Ring.intVec]
  · refine (writeLvl_is (by rw [s1.1]; omega) (fun u hu => ?_)).is
    have hu' : u < levelQ + p.alpha + 1 := by omega
    have h1 := s2 _ hu' (hget _ hu')
    unfold PolyQP.getR at h1
    rw [if_pos (by omega)] at h1
    rw [h1]
    have h2 := hrow _ hu'
    have hqq : p.ringR.qs u = p.ringP.qs u := by
      unfold Ring.qs; rw [h.qP (by omega)]
    have h3 := h2.castInt (h.hP.deg.symm) hqq
    refine (subVec_is (h.hP.subAt (by omega)).arith h3 (hk.halfP.row u (by omega))).congr (fun k _ => ?_)
    simp [Ring.intVec]

end

end FastKsw
