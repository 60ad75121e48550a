import Verif.Model.Scaling
import Verif.Lemmas.CRT

/-!
# Division by the last modulus
-/

namespace FastKsw

open Finset

theorem writeLt_is {r : Ring} {l : ℕ} {A : ℕ → ℕ} {f : ℕ → Row} {out : Rows}
    {v : ∀ i, ℕ → ZMod (r.sub i).q.toNat} (hl : l < out.length)
    (h : ∀ i ≤ l, RowIs r.n (r.sub i).q.toNat (A i) (f i) (v i)) :
    PolyWritten r l A out (writeLt (l + 1) f out) v := writeLvl_is hl h

theorem rescaleParam_spec {n : ℕ} {r : Ring} (hr : r.Valid n) {l i : ℕ} (hl : l + 1 < r.subs.length)
    (hi : i ≤ l) : (r.rescaleParam (l + 1) i).toNat < (r.sub i).q.toNat ∧
    ((r.rescaleParam (l + 1) i).toNat : ZMod (r.sub i).q.toNat) * rinv (r.sub i).q.toNat
      * (r.sub (l + 1)).q.toNat = -1 := by
  have V := hr.subAt (show i < r.subs.length by omega)
  have hlen : r.moduli.length = r.subs.length := by simp [Ring.moduli]
  have e : r.rescaleParam (l + 1) i = mform ((r.sub i).q - modExp (r.sub (l + 1)).q
      ((r.sub i).q - 2) (r.sub i).q) (r.sub i).q (bredParams (r.sub i).q) := by
    unfold Ring.rescaleParam
    rw [hr.rescale]
    have a1 := at_moduli r (show i < r.subs.length by omega)
    have a2 := at_moduli r (show l + 1 < r.subs.length by omega)
    unfold Row.at at a1 a2
    unfold genRescaleParams
    have g1 : ∀ {α : Type} (m : ℕ) (f : ℕ → α) (d : α) (j : ℕ), j < m →
        ((List.range m).map f).getD j d = f j := by
      intro α m f d j hj
      simp [List.getD, hj]
    rw [Nat.add_sub_cancel, g1 _ _ _ _ (by omega), g1 _ _ _ _ (by omega)]
    simp only [a1, a2]
  have hne : (r.sub i).q ≠ (r.sub (l + 1)).q := by
    intro h
    have := hr.q_inj (by omega) hl (congrArg UInt64.toNat h)
    omega
  have hinv := modExp_inv V (hr.subAt hl).prime hne
  have hlt : (modExp (r.sub (l + 1)).q ((r.sub i).q - 2) (r.sub i).q).toNat < (r.sub i).q.toNat := by
    rw [modExp_toNat V.prime.one_lt V.lt.le]
    exact Nat.mod_lt _ V.prime.pos
  rw [e, ← V.bred]
  have h := word_mform V.arith ((r.sub i).q - modExp (r.sub (l + 1)).q ((r.sub i).q - 2) (r.sub i).q)
  refine ⟨h.1, ?_⟩
  rw [h.2, UInt64.toNat_sub_of_le _ _ (UInt64.le_iff_toNat_le.2 hlt.le), Nat.cast_sub hlt.le,
    ZMod.natCast_self, zero_sub]
  calc _ = -(((modExp (r.sub (l + 1)).q ((r.sub i).q - 2) (r.sub i).q).toNat
        * (r.sub (l + 1)).q.toNat : ZMod (r.sub i).q.toNat) * (2 ^ 64 * rinv (r.sub i).q.toNat)) := by
        ring
    _ = _ := by rw [hinv, mul_rinv V.odd, mul_one]

/-- `(z - x) * RescaleParam` is the quotient `(x - z)/q_{l+1}` -/
theorem rescale_val {n : ℕ} {r : Ring} (hr : r.Valid n) {l i : ℕ} (hl : l + 1 < r.subs.length)
    (hi : i ≤ l) {x y z : ZMod (r.sub i).q.toNat}
    (h : ((r.sub (l + 1)).q.toNat : ZMod (r.sub i).q.toNat) * y = x - z) :
    (z - x) * ((r.rescaleParam (l + 1) i).toNat : ZMod (r.sub i).q.toNat)
      * rinv (r.sub i).q.toNat = y := by
  have h2 := (rescaleParam_spec hr hl hi).2
  rw [← neg_sub, ← h]
  calc _ = -(((r.rescaleParam (l + 1) i).toNat : ZMod (r.sub i).q.toNat) * rinv (r.sub i).q.toNat
      * (r.sub (l + 1)).q.toNat) * y := by ring
    _ = _ := by rw [h2, neg_neg, one_mul]

/-- a reduced word is the remainder of the integer it represents -/
theorem RowIs.eq_emod {N q : ℕ} {x : Row} {X : ℕ → ℤ}
    (h : RowIs N q q x (fun k => (X k : ZMod q))) {k : ℕ} (hk : k < N) :
    ((x.at k).toNat : ℤ) = X k % q := by
  have h1 := h.val k hk
  have h2 := h.lt k hk
  rw [zval, ← Int.cast_natCast, ZMod.intCast_eq_intCast_iff] at h1
  have h3 : ((x.at k).toNat : ℤ) % q = X k % q := h1
  rwa [Int.emod_eq_of_lt (by omega) (by omega)] at h3

/-- a reduced row read modulo another number -/
theorem RowIs.asInt {N q q' A : ℕ} {x : Row} {v : ℕ → ZMod q} (h : RowIs N q A x v) :
    RowIs N q' A x (fun k => (((x.at k).toNat : ℤ) : ZMod q')) :=
  ⟨h.len, h.lt, fun k _ => by rw [zval]; push_cast; rfl⟩

section
variable {n : ℕ} {r : Ring} (hr : r.Valid n) (sr : r.Small)
include hr sr

theorem divFloorLvl_is {l : ℕ} (hl : l + 1 < r.subs.length) {p0 p1 : Rows} {X : ℕ → ℤ}
    (h0 : PolyIs r (l + 1) r.qs p0 (r.intVec X)) (h1 : l < p1.length) :
    PolyWritten r l r.qs p1 (r.divFloorByLastModulusLvl (l + 1) p0 p1)
      (r.intVec fun k => X k / (r.sub (l + 1)).q.toNat) := by
  refine writeLt_is h1 (fun i hi => ?_)
  have V := hr.subAt (show i < r.subs.length by omega)
  have hlt := sr _ (Ring.sub_mem (show i < r.subs.length by omega))
  have hltL := sr _ (Ring.sub_mem hl)
  have hc := rescaleParam_spec hr hl hi
  have htop := h0.row (l + 1) le_rfl
  refine (subVecAndMulScalarMontgomeryTwoQiVec_is V.arith (htop.asInt (q' := (r.sub i).q.toNat))
    ((h0.row i (by omega)).mono (by unfold Ring.qs; omega)) (by unfold Ring.qs; omega) _ hc.1).congr
    (fun k hk => ?_)
  apply rescale_val hr hl hi
  rw [htop.eq_emod hk]
  have e := Int.emod_add_mul_ediv (X k) ((r.sub (l + 1)).q.toNat)
  have e' := congrArg (fun t : ℤ => (t : ZMod (r.sub i).q.toNat)) e
  simp only [Ring.intVec]
  push_cast at e' ⊢
  rw [← e']
  ring

theorem pHalf_spec {i : ℕ} (hi : i < r.subs.length) :
    ((pHalf (r.sub i).q).toNat : ℤ) = (r.sub i).q.toNat / 2 ∧
    (pHalf (r.sub i).q).toNat < (r.sub i).q.toNat := by
  have V := hr.subAt hi
  have ho := V.odd
  have h1 := V.prime.one_lt
  unfold pHalf
  rw [UInt64.toNat_shiftRight, UInt64.toNat_sub_of_le (r.sub i).q 1 (UInt64.le_iff_toNat_le.2 h1.le)]
  show (((((r.sub i).q.toNat - 1) >>> 1 : ℕ)) : ℤ) = _ ∧ ((r.sub i).q.toNat - 1) >>> 1 < _
  rw [Nat.shiftRight_eq_div_pow]
  omega

/-- the constant `q_i - pHalf mod q_i` -/
theorem negHalf_spec {l i : ℕ} (hl : l + 1 < r.subs.length) (hi : i ≤ l) :
    ((r.sub i).q - bredAdd (pHalf (r.sub (l + 1)).q) (r.sub i).q (r.sub i).bred).toNat
      ≤ (r.sub i).q.toNat ∧
    (((r.sub i).q - bredAdd (pHalf (r.sub (l + 1)).q) (r.sub i).q (r.sub i).bred).toNat
      : ZMod (r.sub i).q.toNat) = -((pHalf (r.sub (l + 1)).q).toNat : ZMod (r.sub i).q.toNat) := by
  have V := hr.subAt (show i < r.subs.length by omega)
  have h := word_reduce V.arith (pHalf (r.sub (l + 1)).q)
  rw [UInt64.toNat_sub_of_le _ _ (UInt64.le_iff_toNat_le.2 h.1.le), Nat.cast_sub h.1.le,
    ZMod.natCast_self, zero_sub]
  exact ⟨Nat.sub_le _ _, by rw [h.2]⟩

theorem divRoundTop_is {l : ℕ} (hl : l + 1 < r.subs.length) {p0 : Rows} {X : ℕ → ℤ}
    (h0 : PolyIs r (l + 1) r.qs p0 (r.intVec X)) :
    RowIs r.n (r.sub (l + 1)).q.toNat (r.sub (l + 1)).q.toNat (r.divRoundTop (l + 1) p0)
      (fun k => ((X k + (r.sub (l + 1)).q.toNat / 2 : ℤ) : ZMod (r.sub (l + 1)).q.toNat)) := by
  have V := hr.subAt hl
  have hp := pHalf_spec hr sr hl
  refine (addScalarVec_is V.arith (h0.row (l + 1) le_rfl) _ hp.2).congr (fun k _ => ?_)
  rw [← hp.1]
  simp [Ring.intVec]

theorem divRoundRow_is {l : ℕ} (hl : l + 1 < r.subs.length) {p0 : Rows} {X : ℕ → ℤ}
    (h0 : PolyIs r (l + 1) r.qs p0 (r.intVec X)) {i : ℕ} (hi : i ≤ l) :
    RowIs r.n (r.sub i).q.toNat (r.sub i).q.toNat (r.divRoundRow (l + 1) p0 i)
      (r.intVec (fun k => (X k + (r.sub (l + 1)).q.toNat / 2) / (r.sub (l + 1)).q.toNat) i) := by
  have V := hr.subAt (show i < r.subs.length by omega)
  have hlt := sr _ (Ring.sub_mem (show i < r.subs.length by omega))
  have hltL := sr _ (Ring.sub_mem hl)
  have hc := rescaleParam_spec hr hl hi
  have htop := divRoundTop_is hr sr hl h0
  have hn := negHalf_spec hr sr hl hi
  have hp := pHalf_spec hr sr hl
  have hneg := addScalarNoModAndNegTwoQiNoModVec_is V.arith
    ((h0.row i (by omega)).mono (by unfold Ring.qs; omega)) _
    (show ((r.sub i).q - bredAdd (pHalf (r.sub (l + 1)).q) (r.sub i).q (r.sub i).bred).toNat
      + 2 * (r.sub i).q.toNat < 2 ^ 64 by omega)
  refine (addVecNoModAndMulScalarMontgomeryVec_is V.arith (htop.asInt (q' := (r.sub i).q.toNat))
    hneg (by omega) _ hc.1).congr (fun k hk => ?_)
  rw [hn.2, htop.eq_emod hk]
  have e := Int.emod_add_mul_ediv (X k + (r.sub (l + 1)).q.toNat / 2) ((r.sub (l + 1)).q.toNat)
  have e' := congrArg (fun t : ℤ => (t : ZMod (r.sub i).q.toNat)) e
  have hp' := congrArg (fun t : ℤ => (t : ZMod (r.sub i).q.toNat)) hp.1
  simp only [Ring.intVec]
  rw [← rescale_val hr hl hi (x := ((X k + (r.sub (l + 1)).q.toNat / 2 : ℤ) : ZMod (r.sub i).q.toNat))
    (z := (((X k + (r.sub (l + 1)).q.toNat / 2) % (r.sub (l + 1)).q.toNat : ℤ)
      : ZMod (r.sub i).q.toNat))
    (y := (((X k + (r.sub (l + 1)).q.toNat / 2) / (r.sub (l + 1)).q.toNat : ℤ)
      : ZMod (r.sub i).q.toNat)) (by rw [← e']; push_cast; ring)]
  congr 2
  simp only [Int.cast_natCast] at hp'
  rw [hp']
  push_cast
  ring

theorem divRoundLvl_is {l : ℕ} (hl : l + 1 < r.subs.length) {p0 p1 : Rows} {X : ℕ → ℤ}
    (h0 : PolyIs r (l + 1) r.qs p0 (r.intVec X)) (h1 : l < p1.length) :
    PolyWritten r l r.qs p1 (r.divRoundByLastModulusLvl (l + 1) p0 p1).2
      (r.intVec fun k => (X k + (r.sub (l + 1)).q.toNat / 2) / (r.sub (l + 1)).q.toNat) :=
  writeLt_is h1 (fun _ hi => divRoundRow_is hr sr hl h0 hi)

omit hr sr in
theorem row_set_ne (p : Rows) {i j : ℕ} (x : Row) (h : i ≠ j) : Rows.row (p.set j x) i = p.row i := by
  simp [Rows.row, List.getD, Ne.symm h]

theorem divRoundInPlace_is {l : ℕ} (hl : l + 1 < r.subs.length) {p : Rows} {X : ℕ → ℤ}
    (h0 : PolyIs r (l + 1) r.qs p (r.intVec X)) :
    PolyIs r l r.qs (r.divRoundByLastModulusLvlInPlace (l + 1) p)
      (r.intVec fun k => (X k + (r.sub (l + 1)).q.toNat / 2) / (r.sub (l + 1)).q.toNat) := by
  have h := writeLt_is (r := r) (A := r.qs) (out := p) (f := r.divRoundRow (l + 1) p)
    (show l < p.length by have := h0.lvl; omega) (fun i hi => divRoundRow_is hr sr hl h0 hi)
  refine ⟨?_, fun i hi => ?_⟩
  · unfold Ring.divRoundByLastModulusLvlInPlace
    rw [List.length_set]
    exact h.is.lvl
  · unfold Ring.divRoundByLastModulusLvlInPlace
    rw [row_set_ne _ _ (by omega)]
    exact h.is.row i hi

/-! ### iteration -/

omit hr sr in
theorem floorIter_eq : ∀ (nb level : ℕ) (X : ℕ → ℤ) (k : ℕ), nb ≤ level →
    floorIter r level nb X k
      = X k / ((∏ i ∈ Finset.range nb, (r.sub (level - i)).q.toNat : ℕ) : ℤ)
  | 0, _, _, _, _ => by simp [floorIter]
  | nb + 1, level, X, k, h => by
    unfold floorIter
    rw [floorIter_eq nb (level - 1) _ k (by omega), Finset.prod_range_succ', Nat.sub_zero,
      mul_comm, Nat.cast_mul, ← Int.ediv_ediv_of_nonneg (by positivity)]
    congr 3
    funext i
    rw [show level - 1 - i = level - (i + 1) by omega]

theorem divFloorIter_is : ∀ (nb : ℕ) {level : ℕ} (_ : level < r.subs.length) (_ : nb ≤ level) {p : Rows}
    {X : ℕ → ℤ} (_ : PolyIs r level r.qs p (r.intVec X)),
    PolyIs r (level - nb) r.qs (r.divFloorIter level nb p) (r.intVec (floorIter r level nb X))
  | 0, _, _, _, _, _, h => h
  | nb + 1, level, hl, hnb, p, X, h => by
    obtain ⟨l, rfl⟩ : ∃ l, level = l + 1 := ⟨level - 1, by omega⟩
    have h1 := (divFloorLvl_is hr sr hl h (p1 := p) (by have := h.lvl; omega)).is
    have h2 := divFloorIter_is nb (level := l) (by omega) (by omega) h1
    rw [show l + 1 - (nb + 1) = l - nb by omega]
    exact h2

theorem divRoundIter_is : ∀ (nb : ℕ) {level : ℕ} (_ : level < r.subs.length) (_ : nb ≤ level) {p : Rows}
    {X : ℕ → ℤ} (_ : PolyIs r level r.qs p (r.intVec X)),
    PolyIs r (level - nb) r.qs (r.divRoundIter level nb p) (r.intVec (roundIter r level nb X))
  | 0, _, _, _, _, _, h => h
  | nb + 1, level, hl, hnb, p, X, h => by
    obtain ⟨l, rfl⟩ : ∃ l, level = l + 1 := ⟨level - 1, by omega⟩
    have h1 := divRoundInPlace_is hr sr hl h
    have h2 := divRoundIter_is nb (level := l) (by omega) (by omega) h1
    rw [show l + 1 - (nb + 1) = l - nb by omega]
    exact h2

omit hr sr in
theorem floorIter_last (nb level : ℕ) (X : ℕ → ℤ) :
    floorIter r level (nb + 1) X
      = fun k => floorIter r level nb X k / (r.sub (level - nb)).q.toNat := by
  induction nb generalizing level X with
  | zero => rfl
  | succ nb ih =>
    rw [floorIter, ih]
    conv_rhs => rw [floorIter]
    rw [show level - 1 - nb = level - (nb + 1) by omega]

omit hr sr in
theorem roundIter_last (nb level : ℕ) (X : ℕ → ℤ) :
    roundIter r level (nb + 1) X = fun k => (roundIter r level nb X k
      + (r.sub (level - nb)).q.toNat / 2) / (r.sub (level - nb)).q.toNat := by
  induction nb generalizing level X with
  | zero => rfl
  | succ nb ih =>
    rw [roundIter, ih]
    conv_rhs => rw [roundIter]
    rw [show level - 1 - nb = level - (nb + 1) by omega]

omit hr sr in
theorem copyValuesLvl_is {level : ℕ} {A : ℕ → ℕ} {p0 p1 : Rows} {v : ∀ i, ℕ → ZMod (r.sub i).q.toNat}
    (h : PolyIs r level A p0 v) (h1 : level < p1.length) :
    PolyWritten r level A p1 (copyValuesLvl level p0 p1) v :=
  writeLvl_is h1 (fun i hi => h.row i hi)

theorem divFloorMany_is {level nb : ℕ} (hl : level < r.subs.length) (hnb : nb ≤ level)
    {p0 pool p1 : Rows} {X : ℕ → ℤ} (h0 : PolyIs r level r.qs p0 (r.intVec X))
    (hp : level < pool.length) (h1 : level - nb < p1.length) :
    PolyWritten r (level - nb) r.qs p1 (r.divFloorByLastModulusManyLvl level nb p0 pool p1)
      (r.intVec (floorIter r level nb X)) := by
  unfold Ring.divFloorByLastModulusManyLvl
  split
  · rename_i h; subst h
    exact copyValuesLvl_is h0 h1
  · obtain ⟨l, rfl⟩ : ∃ l, level = l + 1 := ⟨level - 1, by omega⟩
    split
    · obtain ⟨m, rfl⟩ : ∃ m, nb = m + 2 := ⟨nb - 2, by omega⟩
      have a1 := (divFloorLvl_is hr sr hl h0 (p1 := pool) (by omega)).is
      have a2 := divFloorIter_is hr sr m (level := l) (by omega) (by omega) a1
      obtain ⟨l', hl'⟩ : ∃ l', l - m = l' + 1 := ⟨l - m - 1, by omega⟩
      rw [hl'] at a2
      have a3 := divFloorLvl_is hr sr (by omega) a2 (p1 := p1) (by omega)
      have e : l + 1 - (m + 2 - 1) = l' + 1 := by omega
      have e2 : l + 1 - (m + 2) = l' := by omega
      rw [e2]
      simp only [e, Nat.add_sub_cancel]
      rw [show floorIter r (l + 1) (m + 2) X = floorIter r l (m + 1)
        (fun k => X k / (r.sub (l + 1)).q.toNat) from rfl, floorIter_last, hl']
      exact a3
    · have : nb = 1 := by omega
      subst this
      exact divFloorLvl_is hr sr hl h0 (by omega)

theorem divRoundMany_is {level nb : ℕ} (hl : level < r.subs.length) (hnb : nb ≤ level)
    {p0 pool p1 : Rows} {X : ℕ → ℤ} (h0 : PolyIs r level r.qs p0 (r.intVec X))
    (hp : level < pool.length) (h1 : level - nb < p1.length) :
    PolyWritten r (level - nb) r.qs p1 (r.divRoundByLastModulusManyLvl level nb p0 pool p1)
      (r.intVec (roundIter r level nb X)) := by
  unfold Ring.divRoundByLastModulusManyLvl
  split
  · rename_i h; subst h
    exact copyValuesLvl_is h0 h1
  · obtain ⟨l, rfl⟩ : ∃ l, level = l + 1 := ⟨level - 1, by omega⟩
    split
    · obtain ⟨m, rfl⟩ : ∃ m, nb = m + 2 := ⟨nb - 2, by omega⟩
      have a1 := (divRoundLvl_is hr sr hl h0 (p1 := pool) (by omega)).is
      have a2 := divRoundIter_is hr sr m (level := l) (by omega) (by omega) a1
      obtain ⟨l', hl'⟩ : ∃ l', l - m = l' + 1 := ⟨l - m - 1, by omega⟩
      rw [hl'] at a2
      have a3 := divRoundLvl_is hr sr (by omega) a2 (p1 := p1) (by omega)
      have e : l + 1 - (m + 2 - 1) = l' + 1 := by omega
      have e2 : l + 1 - (m + 2) = l' := by omega
      rw [e2]
      simp only [e, Nat.add_sub_cancel]
      rw [show roundIter r (l + 1) (m + 2) X = roundIter r l (m + 1)
        (fun k => (X k + (r.sub (l + 1)).q.toNat / 2) / (r.sub (l + 1)).q.toNat) from rfl,
        roundIter_last, hl']
      exact a3
    · have : nb = 1 := by omega
      subst this
      exact divRoundLvl_is hr sr hl h0 (by omega)

theorem nttLvl_is {level : ℕ} (hl : level < r.subs.length) {p p' : Rows} {X : ℕ → ℤ}
    (h : PolyIs r level r.qs p (r.intVec X)) (h' : level < p'.length) :
    PolyWritten r level r.qs p' (r.nttLvl level p p') (r.nttVec n X) := by
  have h4 := hr.four_le
  refine writeLvl_is h' (fun i hi => ?_)
  have V := hr.subAt (show i < r.subs.length by omega)
  have hlt := sr _ (Ring.sub_mem (show i < r.subs.length by omega))
  have h1 := h.row i hi
  rw [hr.deg] at h1 ⊢
  exact ntt_is V (by omega) hlt (by unfold Ring.qs; omega) h1

theorem invNttLvl_is {level : ℕ} (hl : level < r.subs.length) {p p' : Rows} {X : ℕ → ℤ}
    (h : PolyIs r level (fun i => 2 * r.qs i) p (r.nttVec n X)) (h' : level < p'.length) :
    PolyWritten r level r.qs p' (r.invNttLvl level p p') (r.intVec X) := by
  have h4 := hr.four_le
  refine writeLvl_is h' (fun i hi => ?_)
  have V := hr.subAt (show i < r.subs.length by omega)
  have hlt := sr _ (Ring.sub_mem (show i < r.subs.length by omega))
  have h1 := h.row i hi
  rw [hr.deg] at h1 ⊢
  exact (invNtt_is V (by omega) hlt h1).congr (coeffsOf_evals V (by omega) _)

theorem divFloorManyNTT_is {level nb : ℕ} (hl : level < r.subs.length) (hnb : nb ≤ level)
    {p0 pool p1 : Rows} {X : ℕ → ℤ} (h0 : PolyIs r level r.qs p0 (r.nttVec n X))
    (hp : level < pool.length) (h1 : level - nb < p1.length) :
    PolyWritten r (level - nb) r.qs p1 (r.divFloorByLastModulusManyNTTLvl level nb p0 pool p1)
      (r.nttVec n (floorIter r level nb X)) := by
  unfold Ring.divFloorByLastModulusManyNTTLvl
  split
  · rename_i h; subst h
    exact copyValuesLvl_is h0 h1
  · have a1 := (invNttLvl_is hr sr hl (h0.mono (fun i _ => by unfold Ring.qs; omega)) hp).is
    have a2 := divFloorIter_is hr sr nb hl hnb a1
    exact nttLvl_is hr sr (by omega) a2 h1

/-- the lazy inverse transform is barely above `q` -/
theorem invNttLazy_sharp {i : ℕ} (hi : i < r.subs.length) {x : Row} {v : ℕ → ZMod (r.sub i).q.toNat}
    (hx : RowIs (2 ^ n) (r.sub i).q.toNat (2 * (r.sub i).q.toNat) x v) :
    RowIs (2 ^ n) (r.sub i).q.toNat ((r.sub i).q.toNat + (r.sub i).q.toNat / 4 + 1)
      ((r.sub i).invNttLazy (2 ^ n) x) (coeffsOf (r.sub i).psi n v) := by
  have V := hr.subAt hi
  have h4 := hr.four_le
  have hlt := sr _ (Ring.sub_mem hi)
  have h := invNttLazy_is V (by omega) hlt hx
  have hcore := invNttCore_is V (by omega) hlt hx
  refine ⟨h.len, fun k hk => ?_, h.val⟩
  have hc := hcore.lt k hk
  have e : ((r.sub i).invNttLazy (2 ^ n) x).at k
      = mredConstant ((invNttCore x (2 ^ n) (r.sub i).nttPsiInv (r.sub i).q (r.sub i).mred).at k)
        (r.sub i).nttNInv (r.sub i).q (r.sub i).mred := by
    have hl : k < (invNttCore x (2 ^ n) (r.sub i).nttPsiInv (r.sub i).q (r.sub i).mred).length := by
      rw [hcore.len]; exact hk
    simp only [Row.at, List.getD]
    show (List.map _ _)[k]?.getD 0 = _
    rw [List.getElem?_map, List.getElem?_eq_getElem hl]
    rfl
  rw [e]
  set u := (invNttCore x (2 ^ n) (r.sub i).nttPsiInv (r.sub i).q (r.sub i).mred).at k
  have hs := (mredConstant_spec V.mred V.lt.le u (r.sub i).nttNInv
    (mul_lt_of_lt_right u V.nInv.1)).1
  have hb : u.toNat * (r.sub i).nttNInv.toNat ≤ 2 * (r.sub i).q.toNat * (r.sub i).q.toNat :=
    Nat.mul_le_mul hc.le V.nInv.1.le
  have hb2 : 2 * (r.sub i).q.toNat * (r.sub i).q.toNat ≤ 2 ^ 62 * (r.sub i).q.toNat :=
    Nat.mul_le_mul_right _ (by omega)
  omega

omit sr in
/-- no word of a lazy inverse transform is zero -/
theorem invNttLazy_pos {i : ℕ} (hi : i < r.subs.length) {x : Row} {A : ℕ}
    {v : ℕ → ZMod (r.sub i).q.toNat}
    (hx : RowIs (2 ^ n) (r.sub i).q.toNat A ((r.sub i).invNttLazy (2 ^ n) x) v) {k : ℕ}
    (hk : k < 2 ^ n) : 0 < (((r.sub i).invNttLazy (2 ^ n) x).at k).toNat := by
  have V := hr.subAt hi
  have hlen : k < (invNttCore x (2 ^ n) (r.sub i).nttPsiInv (r.sub i).q (r.sub i).mred).length := by
    have h := hx.len
    have : ((r.sub i).invNttLazy (2 ^ n) x).length
      = (invNttCore x (2 ^ n) (r.sub i).nttPsiInv (r.sub i).q (r.sub i).mred).length :=
      List.length_map _
    omega
  have e : ((r.sub i).invNttLazy (2 ^ n) x).at k
      = mredConstant ((invNttCore x (2 ^ n) (r.sub i).nttPsiInv (r.sub i).q (r.sub i).mred).at k)
        (r.sub i).nttNInv (r.sub i).q (r.sub i).mred := by
    simp only [Row.at, List.getD]
    show (List.map _ _)[k]?.getD 0 = _
    rw [List.getElem?_map, List.getElem?_eq_getElem hlen]
    rfl
  rw [e]
  generalize (invNttCore x (2 ^ n) (r.sub i).nttPsiInv (r.sub i).q (r.sub i).mred).at k = u
  have h1 := V.nInv.1
  have hpos := V.prime.pos
  have hlt := V.lt
  have h2 : (mulHi u (r.sub i).nttNInv).toNat < (r.sub i).q.toNat := by
    rw [toNat_mulHi]
    apply Nat.div_lt_of_lt_mul
    calc _ ≤ 2 ^ 64 * (r.sub i).nttNInv.toNat := Nat.mul_le_mul_right _ u.toNat_lt.le
      _ < _ := Nat.mul_lt_mul_of_pos_left h1 (by norm_num)
  have h3 := mulHi_lt (mulLo u (r.sub i).nttNInv * (r.sub i).mred) (r.sub i).q hpos
  unfold mredConstant
  simp only [UInt64.toNat_add, UInt64.toNat_sub]
  omega

theorem divFloorNTT_is {l : ℕ} (hl : l + 1 < r.subs.length) {p0 p1 : Rows} {X : ℕ → ℤ}
    (h0 : PolyIs r (l + 1) r.qs p0 (r.nttVec n X)) (h1 : l < p1.length) :
    ∃ D : ℕ → ℤ, (∀ k < r.n, (D k = 0 ∨ D k = 1) ∧
        (X k % (r.sub (l + 1)).q.toNat = 0 → D k = 1) ∧
        ((r.sub (l + 1)).q.toNat / 4 < X k % (r.sub (l + 1)).q.toNat → D k = 0)) ∧
      PolyWritten r l r.qs p1 (r.divFloorByLastModulusNTTLvl (l + 1) p0 p1)
        (r.nttVec n fun k => X k / (r.sub (l + 1)).q.toNat - D k) := by
  have h4 := hr.four_le
  have VL := hr.subAt hl
  have hltL := sr _ (Ring.sub_mem hl)
  have htop : RowIs (2 ^ n) (r.sub (l + 1)).q.toNat
      ((r.sub (l + 1)).q.toNat + (r.sub (l + 1)).q.toNat / 4 + 1)
      ((r.sub (l + 1)).invNttLazy r.n (p0.row (l + 1))) (r.intVec X (l + 1)) := by
    have h := h0.row (l + 1) le_rfl
    rw [hr.deg] at h ⊢
    exact (invNttLazy_sharp hr sr hl (h.mono (by unfold Ring.qs; omega))).congr
      (coeffsOf_evals VL (by omega) _)
  set top := (r.sub (l + 1)).invNttLazy r.n (p0.row (l + 1)) with htd
  have hQ : (0 : ℤ) < (r.sub (l + 1)).q.toNat := by exact_mod_cast VL.prime.pos
  have hemod : ∀ k < 2 ^ n, ((top.at k).toNat : ℤ) % (r.sub (l + 1)).q.toNat
      = X k % (r.sub (l + 1)).q.toNat := by
    intro k hk
    have := htop.val k hk
    rw [zval, ← Int.cast_natCast] at this
    exact (ZMod.intCast_eq_intCast_iff _ _ _).1 this
  refine ⟨fun k => ((top.at k).toNat : ℤ) / (r.sub (l + 1)).q.toNat, fun k hk => ?_, ?_⟩
  · rw [hr.deg] at hk
    have hb := htop.lt k hk
    have he := hemod k hk
    have hpos : 0 < (top.at k).toNat := by
      rw [htd, hr.deg] at htop ⊢
      exact invNttLazy_pos hr hl htop hk
    have hdm := Int.emod_add_mul_ediv ((top.at k).toNat : ℤ) ((r.sub (l + 1)).q.toNat)
    have hm0 := Int.emod_nonneg ((top.at k).toNat : ℤ) hQ.ne'
    have hm1 := Int.emod_lt_of_pos ((top.at k).toNat : ℤ) hQ
    rw [← he]
    beta_reduce
    rcases Nat.lt_or_ge (top.at k).toNat (r.sub (l + 1)).q.toNat with h | h
    · have e : ((top.at k).toNat : ℤ) / (r.sub (l + 1)).q.toNat = 0 :=
        Int.ediv_eq_zero_of_lt (by omega) (by omega)
      rw [e] at hdm ⊢
      exact ⟨Or.inl rfl, fun h => by omega, fun _ => rfl⟩
    · have e : ((top.at k).toNat : ℤ) / (r.sub (l + 1)).q.toNat = 1 := by
        rw [Int.ediv_eq_iff_of_pos hQ]
        omega
      rw [e] at hdm ⊢
      refine ⟨Or.inr rfl, fun _ => rfl, fun h => ?_⟩
      exfalso
      have := hdm
      omega
  · refine writeLt_is h1 (fun i hi => ?_)
    have V := hr.subAt (show i < r.subs.length by omega)
    have hlt := sr _ (Ring.sub_mem (show i < r.subs.length by omega))
    have hc := rescaleParam_spec hr hl hi
    have hadd := htop.asInt (q' := (r.sub i).q.toNat)
    obtain ⟨B, b1, b2, b3⟩ : ∃ B, (r.sub (l + 1)).q.toNat + (r.sub (l + 1)).q.toNat / 4 + 1 ≤ B ∧
        4 * (r.sub i).q.toNat ≤ B ∧ B ≤ 4 * 2 ^ 61 := ⟨4 * 2 ^ 61, by omega, by omega, le_rfl⟩
    have hntt := nttLazy_is V (by omega) hlt b2 (by omega) (hadd.mono b1)
    have h0i := h0.row i (by omega)
    rw [← htd]
    rw [hr.deg] at h0i ⊢
    refine (subVecAndMulScalarMontgomeryTwoQiVec_is V.arith hntt
      (h0i.mono (by unfold Ring.qs; omega)) (by omega) _ hc.1).congr (fun k hk => ?_)
    apply rescale_val hr hl hi
    unfold Ring.nttVec
    rw [← evals_smul, ← evals_sub]
    refine evals_congr _ _ (fun k hk => ?_) k
    have he := hemod k hk
    have e := Int.emod_add_mul_ediv (X k) ((r.sub (l + 1)).q.toNat)
    have e1 := Int.emod_add_mul_ediv ((top.at k).toNat : ℤ) ((r.sub (l + 1)).q.toNat)
    rw [he] at e1
    have e2 := congrArg (fun t : ℤ => (t : ZMod (r.sub i).q.toNat)) (e1.trans rfl)
    have e3 := congrArg (fun t : ℤ => (t : ZMod (r.sub i).q.toNat)) e
    simp only [Ring.intVec]
    push_cast at e2 e3 ⊢
    linear_combination e3 - e2

theorem divRoundNTT_is {l : ℕ} (hl : l + 1 < r.subs.length) {p0 p1 : Rows} {X : ℕ → ℤ}
    (h0 : PolyIs r (l + 1) (fun u => 2 * r.qs u) p0 (r.nttVec n X)) (h1 : l < p1.length) :
    PolyWritten r l r.qs p1 (r.divRoundByLastModulusNTTLvl (l + 1) p0 p1)
      (r.nttVec n fun k => (X k + (r.sub (l + 1)).q.toNat / 2) / (r.sub (l + 1)).q.toNat) := by
  have h4 := hr.four_le
  have VL := hr.subAt hl
  have hltL := sr _ (Ring.sub_mem hl)
  have hp := pHalf_spec hr sr hl
  have hodd := VL.odd
  -- the top row, reduced
  have htop : RowIs (2 ^ n) (r.sub (l + 1)).q.toNat (r.sub (l + 1)).q.toNat
      (addScalarVec ((r.sub (l + 1)).invNttLazy r.n (p0.row (l + 1))) (pHalf (r.sub (l + 1)).q)
        (r.sub (l + 1)).q)
      (fun k => ((X k + (r.sub (l + 1)).q.toNat / 2 : ℤ) : ZMod (r.sub (l + 1)).q.toNat)) := by
    have h := h0.row (l + 1) le_rfl
    rw [hr.deg] at h ⊢
    have hi := (invNttLazy_sharp hr sr hl (h.mono (by unfold Ring.qs; omega))).congr
      (coeffsOf_evals VL (by omega) _)
    refine (RowIs.map (F := fun a => a + ((pHalf (r.sub (l + 1)).q).toNat
      : ZMod (r.sub (l + 1)).q.toNat)) hi (f := fun u => cred (u + pHalf (r.sub (l + 1)).q)
        (r.sub (l + 1)).q) (fun u hu => ?_)).congr (fun k _ => ?_)
    · have e : (u + pHalf (r.sub (l + 1)).q).toNat = u.toNat + (pHalf (r.sub (l + 1)).q).toNat := by
        rw [UInt64.toNat_add]; omega
      refine ⟨?_, ?_⟩
      · apply toNat_cred_lt
        rw [e]; omega
      · rw [cast_of_modEq (toNat_cred_modEq _ _), e]; push_cast; rfl
    · rw [← hp.1]
      simp [Ring.intVec]
  refine writeLt_is h1 (fun i hi => ?_)
  have V := hr.subAt (show i < r.subs.length by omega)
  have hlt := sr _ (Ring.sub_mem (show i < r.subs.length by omega))
  have hc := rescaleParam_spec hr hl hi
  have hn := negHalf_spec hr sr hl hi
  have hadd := addScalarNoModVec_is (htop.asInt (q' := (r.sub i).q.toNat))
    ((r.sub i).q - bredAdd (pHalf (r.sub (l + 1)).q) (r.sub i).q (r.sub i).bred) (by omega)
  obtain ⟨B, b1, b2, b3⟩ : ∃ B, (r.sub (l + 1)).q.toNat
      + ((r.sub i).q - bredAdd (pHalf (r.sub (l + 1)).q) (r.sub i).q (r.sub i).bred).toNat ≤ B ∧
      4 * (r.sub i).q.toNat ≤ B ∧ B ≤ 4 * 2 ^ 61 := ⟨4 * 2 ^ 61, by omega, by omega, le_rfl⟩
  have hntt := nttLazy_is V (by omega) hlt b2 (by omega) (hadd.mono b1)
  have h0i := h0.row i (by omega)
  rw [hr.deg] at h0i ⊢
  rw [hr.deg] at hntt
  refine (subVecAndMulScalarMontgomeryTwoQiVec_is V.arith hntt (h0i.mono (by unfold Ring.qs; omega))
    (by omega) _ hc.1).congr (fun k hk => ?_)
  apply rescale_val hr hl hi
  unfold Ring.nttVec
  rw [← evals_smul, ← evals_sub]
  refine evals_congr _ _ (fun k hk => ?_) k
  have he := htop.eq_emod hk
  rw [hr.deg] at he
  rw [hn.2, he]
  have e := Int.emod_add_mul_ediv (X k + (r.sub (l + 1)).q.toNat / 2) ((r.sub (l + 1)).q.toNat)
  have e' := congrArg (fun t : ℤ => (t : ZMod (r.sub i).q.toNat)) e
  have hp' := congrArg (fun t : ℤ => (t : ZMod (r.sub i).q.toNat)) hp.1
  simp only [Int.cast_natCast] at hp'
  simp only [Ring.intVec]
  rw [hp']
  push_cast at e' ⊢
  linear_combination e'

/-- entries below `2 q` are enough when at least one modulus is divided out -/
theorem divRoundManyNTT_is2 {level nb : ℕ} (hl : level < r.subs.length) (hnb : nb ≤ level) (h0' : 0 < nb)
    {p0 pool p1 : Rows} {X : ℕ → ℤ} (h0 : PolyIs r level (fun u => 2 * r.qs u) p0 (r.nttVec n X))
    (hp : level < pool.length) (h1 : level - nb < p1.length) :
    PolyWritten r (level - nb) r.qs p1 (r.divRoundByLastModulusManyNTTLvl level nb p0 pool p1)
      (r.nttVec n (roundIter r level nb X)) := by
  unfold Ring.divRoundByLastModulusManyNTTLvl
  rw [if_neg (by omega)]
  split
  · have a1 := (invNttLvl_is hr sr hl (h0.mono (fun i _ => by unfold Ring.qs; omega)) hp).is
    have a2 := divRoundIter_is hr sr nb hl hnb a1
    exact nttLvl_is hr sr (by omega) a2 h1
  · obtain ⟨l, rfl⟩ : ∃ l, level = l + 1 := ⟨level - 1, by omega⟩
    have : nb = 1 := by omega
    subst this
    exact divRoundNTT_is hr sr hl h0 (by omega)

theorem divRoundManyNTT_is {level nb : ℕ} (hl : level < r.subs.length) (hnb : nb ≤ level)
    {p0 pool p1 : Rows} {X : ℕ → ℤ} (h0 : PolyIs r level r.qs p0 (r.nttVec n X))
    (hp : level < pool.length) (h1 : level - nb < p1.length) :
    PolyWritten r (level - nb) r.qs p1 (r.divRoundByLastModulusManyNTTLvl level nb p0 pool p1)
      (r.nttVec n (roundIter r level nb X)) := by
  rcases Nat.eq_zero_or_pos nb with h | h
  · subst h
    unfold Ring.divRoundByLastModulusManyNTTLvl
    rw [if_pos rfl]
    exact copyValuesLvl_is h0 h1
  · exact divRoundManyNTT_is2 hr sr hl hnb h (h0.mono (fun i _ => by unfold Ring.qs; omega)) hp h1

end

end FastKsw
