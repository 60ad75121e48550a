import Verif.Lemmas.Margin
import Verif.Lemmas.PolyIs

/-!
# Lazy accumulation of Montgomery products
-/

namespace FastKsw

open Finset

/-- largest value of one lazy Montgomery product of a factor below `D` by a reduced one -/
def prodBound (q D : ℕ) : ℕ := q + D * q / 2 ^ 64

/-- a row bound `D` on the digits that the accumulation of moduli up to `Q` tolerates -/
def DigitOK (Q q D : ℕ) : Prop := D ≤ 6 * Q ∨ D + 2 * q + 2 ^ 15 ≤ 2 ^ 64

theorem acc_no_overflow {Q q m D : ℕ} (h : MarginOK Q m) (hq : q ≤ Q) (hD : DigitOK Q q D) :
    q + m * prodBound q D ≤ 2 ^ 64 := by
  have hmq : m * q ≤ m * Q := Nat.mul_le_mul_left _ hq
  have hD64 : D ≤ 2 ^ 64 := by
    have := h.lt
    rcases hD with h' | h' <;> omega
  have key : m * prodBound q D ≤ m * q + m * q * D / 2 ^ 64 := by
    unfold prodBound
    rw [mul_add]
    apply Nat.add_le_add_left
    calc m * (D * q / 2 ^ 64) ≤ m * (D * q) / 2 ^ 64 := Nat.mul_div_le_mul_div_assoc _ _ _
      _ = _ := by congr 1; ring
  have hlt := h.lt
  rcases h.le with hle | ⟨hle, hQ⟩
  · have h1 : m * q * D / 2 ^ 64 ≤ D / 2 := by
      have : m * q * D ≤ 2 ^ 63 * D := Nat.mul_le_mul_right _ (by omega)
      omega
    rcases hD with h' | h' <;> omega
  · have h1 : m * q * D / 2 ^ 64 ≤ D / 2 + 2 ^ 12 + 1 := by
      have : m * q * D ≤ (2 ^ 63 + 2 ^ 12) * D := Nat.mul_le_mul_right _ (by omega)
      rw [add_mul] at this
      have : 2 ^ 12 * D ≤ 2 ^ 12 * 2 ^ 64 := Nat.mul_le_mul_left _ hD64
      omega
    have h2 : D ≤ 6 * Q → m * q * D / 2 ^ 64 ≤ D / 2 + 3072 := by
      intro h'
      have : m * q * D ≤ (2 ^ 63 + 2 ^ 12) * D := Nat.mul_le_mul_right _ (by omega)
      rw [add_mul] at this
      have : 2 ^ 12 * D ≤ 2 ^ 12 * (6 * 2 ^ 61 - 6 * 2 ^ 11) := Nat.mul_le_mul_left _ (by omega)
      omega
    rcases hD with h' | h'
    · have := h2 h'; omega
    · omega

section
variable {s : SubRing} (hs : s.Arith) {N A B D C : ℕ} {x y z : Row}
  {v w t : ℕ → ZMod s.q.toNat}
include hs

theorem word_mredConstant_sharp (u u' : UInt64) (hu : u.toNat < A) (hu' : u'.toNat < B)
    (hAB : A * B ≤ D * s.q.toNat) (hD : D ≤ 2 ^ 64) :
    (mredConstant u u' s.q s.mred).toNat < prodBound s.q.toNat D + 1 ∧
    ((mredConstant u u' s.q s.mred).toNat : ZMod s.q.toNat) = u.toNat * u'.toNat * rinv s.q.toNat := by
  have h1 : u.toNat * u'.toNat < D * s.q.toNat := prod_lt hu hu' hAB
  have h2 : u.toNat * u'.toNat < s.q.toNat * 2 ^ 64 := by
    rw [mul_comm s.q.toNat]
    exact lt_of_lt_of_le h1 (Nat.mul_le_mul_right _ hD)
  refine ⟨?_, (word_mredConstant hs u u' h2).2⟩
  have h3 := (mredConstant_spec hs.mred hs.lt.le u u' h2).1
  unfold prodBound
  generalize D * s.q.toNat = E at *
  omega

theorem mulConst_sharp (hx : RowIs N s.q.toNat A x v) (hy : RowIs N s.q.toNat B y w)
    (hAB : A * B ≤ D * s.q.toNat) (hD : D ≤ 2 ^ 64) :
    RowIs N s.q.toNat (prodBound s.q.toNat D + 1) (mulCoeffsMontgomeryConstantVec x y s.q s.mred)
      (fun k => v k * w k * rinv _) :=
  RowIs.zipWith (F := fun a b => a * b * rinv _) hx hy
    (fun u u' h h' => word_mredConstant_sharp hs u u' h h' hAB hD)

theorem mulConstAdd_sharp (hx : RowIs N s.q.toNat A x v) (hy : RowIs N s.q.toNat B y w)
    (hz : RowIs N s.q.toNat C z t) (hAB : A * B ≤ D * s.q.toNat) (hD : D ≤ 2 ^ 64)
    (hC : C + prodBound s.q.toNat D ≤ 2 ^ 64) :
    RowIs N s.q.toNat (C + prodBound s.q.toNat D)
      (mulCoeffsMontgomeryConstantAndAddNoModVec x y z s.q s.mred)
      (fun k => t k + v k * w k * rinv _) := by
  refine RowIs.zip3 (F := fun a b c => c + a * b * rinv _) hx hy hz (fun u u' u'' h h' h'' => ?_)
  have h1 := word_mredConstant_sharp hs u u' h h' hAB hD
  have e : (u'' + mredConstant u u' s.q s.mred).toNat
      = u''.toNat + (mredConstant u u' s.q s.mred).toNat := by
    rw [UInt64.toNat_add]; omega
  exact ⟨by omega, by rw [e]; push_cast; rw [h1.2]⟩

end

/-- The rows of `x` and `y` at one step, and the bound on their product -/
structure AccArgs (r : Ring) (level : ℕ) (D : ℕ → ℕ) (x y : Rows)
    (v w : ∀ i, ℕ → ZMod (r.sub i).q.toNat) : Prop where
  ex : ∃ A B : ℕ → ℕ, PolyIs r level A x v ∧ PolyIs r level B y w ∧
    ∀ i ≤ level, A i * B i ≤ D i * r.qs i

/-- bound on the accumulator after `k` steps since the last reduction -/
def accBound (m : ℕ) (q D k : ℕ) : ℕ := q + (k % m) * prodBound q D

section
variable {r : Ring} {level m Q : ℕ} {D : ℕ → ℕ} (hr : r.ArithLvl level) (hm : MarginOK Q m)
  (hQ : ∀ i ≤ level, r.qs i ≤ Q) (hD : ∀ i ≤ level, DigitOK Q (r.qs i) (D i))
include hr hm hQ hD

theorem accStep_is {i : ℕ} {x y acc : Rows} {v w t : ∀ i, ℕ → ZMod (r.sub i).q.toNat}
    (hl : level < acc.length) (hxy : AccArgs r level D x y v w)
    (ha : i ≠ 0 → PolyIs r level (fun j => accBound m (r.qs j) (D j) i) acc t)
    (h0 : i = 0 → ∀ j ≤ level, ∀ k < r.n, t j k = 0) :
    PolyWritten r level (fun j => accBound m (r.qs j) (D j) (i + 1)) acc (r.accStep level m i x y acc)
      (fun j k => t j k + v j k * w j k * rinv _) := by
  obtain ⟨A, B, hx, hy, hAB⟩ := hxy.ex
  have hD64 : ∀ j ≤ level, D j ≤ 2 ^ 64 := by
    intro j hj
    have := hm.lt
    rcases hD j hj with h' | h' <;> omega
  have hmp := hm.pos
  have hno := fun j hj => acc_no_overflow hm (hQ j hj) (hD j hj)
  have hmul : ∀ j ≤ level, ∀ e ≤ m, e * prodBound (r.qs j) (D j) ≤ m * prodBound (r.qs j) (D j) :=
    fun j _ e he => Nat.mul_le_mul_right _ he
  have hlt : i % m < m := Nat.mod_lt _ hmp
  -- the accumulator before the optional reduction
  have h1 : PolyWritten r level (fun j => r.qs j + (i % m + 1) * prodBound (r.qs j) (D j)) acc
      (if i = 0 then r.mulCoeffsMontgomeryConstantLvl level x y acc
        else r.mulCoeffsMontgomeryConstantAndAddNoModLvl level x y acc)
      (fun j k => t j k + v j k * w j k * rinv _) := by
    split
    · rename_i hi
      refine writeLvl_is hl (fun j hj => ?_)
      have hq := (hr j hj).one_lt
      refine ((mulConst_sharp (hr j hj) (hx.row j hj) (hy.row j hj) (hAB j hj) (hD64 j hj)).mono
        ?_).congr (fun k hk => by rw [h0 hi j hj k hk, zero_add])
      subst hi
      show _ ≤ r.qs j + _
      have hz : 0 % m = 0 := Nat.zero_mod m
      rw [hz, zero_add, one_mul]
      unfold Ring.qs
      omega
    · rename_i hi
      refine writeLvl_is hl (fun j hj => ?_)
      have h := (ha hi).row j hj
      refine (mulConstAdd_sharp (hr j hj) (hx.row j hj) (hy.row j hj) h (hAB j hj) (hD64 j hj) ?_).mono ?_
      · have := hno j hj
        have := hmul j hj (i % m + 1) hlt
        unfold accBound
        rw [add_mul, one_mul] at this
        unfold Ring.qs at *
        omega
      · show accBound m (r.qs j) (D j) i + _ ≤ _
        unfold accBound
        rw [add_mul, one_mul, add_assoc]
  unfold Ring.accStep
  simp only
  split
  · rename_i hi
    have e : (i + 1) % m = 0 := by
      have h2 : (i + 1) % m = (i % m + 1) % m := by rw [Nat.add_mod_eq_add_mod_right 1 (Nat.mod_mod i m).symm]
      rw [h2, hi, Nat.sub_add_cancel hmp, Nat.mod_self]
    have h2 : PolyWritten r level r.qs _ _ _ := writeLvl_is (r := r) (A := r.qs) (out := _) h1.is.lvl
      (fun j hj => reduceVec_is (hr j hj) (h1.is.row j hj))
    refine ⟨h2.is.mono (fun j _ => ?_), h2.len.trans h1.len, fun j hj => (h2.above j hj).trans (h1.above j hj)⟩
    unfold accBound
    exact Nat.le_add_right _ _
  · rename_i hi
    have e : (i + 1) % m = i % m + 1 := by
      have h2 : (i + 1) % m = (i % m + 1) % m := by rw [Nat.add_mod_eq_add_mod_right 1 (Nat.mod_mod i m).symm]
      rw [h2, Nat.mod_eq_of_lt (by omega)]
    refine ⟨h1.is.mono (fun j _ => ?_), h1.len, h1.above⟩
    unfold accBound
    rw [e]

/-- the loop and the final reduction, from any content of the accumulator -/
theorem accLoop_is {x y : ℕ → Rows} {v w : ℕ → ∀ i, ℕ → ZMod (r.sub i).q.toNat} {acc : Rows}
    (hl : level < acc.length) (beta : ℕ) (hb : 0 < beta)
    (hxy : ∀ i < beta, AccArgs r level D (x i) (y i) (v i) (w i)) :
    PolyWritten r level r.qs acc
      (r.accEnd level m beta ((List.range beta).foldl (fun a i => r.accStep level m i (x i) (y i) a) acc))
      (fun j k => ∑ i ∈ range beta, v i j k * w i j k * rinv _) := by
  have key : ∀ b ≤ beta,
      ((List.range b).foldl (fun a i => r.accStep level m i (x i) (y i) a) acc).length = acc.length ∧
      (∀ i > level, Rows.row ((List.range b).foldl (fun a i => r.accStep level m i (x i) (y i) a) acc) i
        = acc.row i) ∧
      (b ≠ 0 → PolyIs r level (fun j => accBound m (r.qs j) (D j) b)
        ((List.range b).foldl (fun a i => r.accStep level m i (x i) (y i) a) acc)
        (fun j k => ∑ i ∈ range b, v i j k * w i j k * rinv _)) := by
    intro b
    induction b with
    | zero => intro _; simp
    | succ b ih =>
      intro hb'
      obtain ⟨i1, i2, i3⟩ := ih (by omega)
      rw [List.range_succ, List.foldl_append, List.foldl_cons, List.foldl_nil]
      have h := accStep_is hr hm hQ hD (i := b) (by rw [i1]; exact hl) (hxy b (by omega)) i3
        (fun h j _ k _ => by rw [h]; simp)
      refine ⟨h.len.trans i1, fun i hi => (h.above i hi).trans (i2 i hi), fun _ => h.is.congr ?_⟩
      intro j _ k _
      rw [sum_range_succ]
  obtain ⟨k1, k2, k3⟩ := key beta le_rfl
  have h := k3 (by omega)
  unfold Ring.accEnd
  split
  · have h2 : PolyWritten r level r.qs _ _ _ := writeLvl_is (r := r) (A := r.qs) (out := _) h.lvl
      (fun j hj => reduceVec_is (hr j hj) (h.row j hj))
    exact ⟨h2.is, h2.len.trans k1, fun i hi => (h2.above i hi).trans (k2 i hi)⟩
  · rename_i hz
    refine ⟨h.mono (fun j _ => ?_), k1, k2⟩
    unfold accBound
    have : beta % m = 0 := by omega
    rw [this, zero_mul, add_zero]

end

/-- the margin of a ring's moduli -/
theorem overflowMargin_ok {n : ℕ} {r : Ring} (hr : r.Valid n) (sr : r.Small) {level : ℕ}
    (hl : level < r.subs.length) :
    ∃ Q, MarginOK Q (overflowMargin r.moduli level >>> 1) ∧ ∀ i ≤ level, r.qs i ≤ Q := by
  have hmem : ∀ i ≤ level, (r.sub i).q ∈ r.moduli.take (level + 1) := by
    intro i hi
    have h1 : i < (r.moduli.take (level + 1)).length := by simp [Ring.moduli]; omega
    have : (r.moduli.take (level + 1))[i] = (r.sub i).q := by
      have hi' : i < r.subs.length := by omega
      simp [Ring.moduli, Ring.sub, List.getD, hi']
    rw [← this]
    exact List.getElem_mem h1
  have hle : ∀ i ≤ level, r.qs i ≤ (maxSlice (r.moduli.take (level + 1))).toNat :=
    fun i hi => le_maxSlice (hmem i hi)
  refine ⟨_, margin_ok ?_ (maxSlice_lt (by norm_num) ?_), hle⟩
  · have := hle 0 (Nat.zero_le _)
    have := (hr.subAt (show 0 < r.subs.length by omega)).prime.pos
    unfold Ring.qs at *
    omega
  · intro x hx
    have hx' := List.mem_of_mem_take hx
    simp only [Ring.moduli, List.mem_map] at hx'
    obtain ⟨s, hs, rfl⟩ := hx'
    exact sr s hs

end FastKsw
