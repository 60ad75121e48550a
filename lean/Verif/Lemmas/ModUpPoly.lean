import Verif.Lemmas.ModUp

/-!
# Basis extension of polynomials
-/

namespace FastKsw

open Finset

theorem at_take_moduli (r : Ring) {l i : ℕ} (hi : i ≤ l) (hl : l < r.subs.length) :
    Row.at (r.moduli.take (l + 1)) i = (r.sub i).q := by
  have h1 : i < r.subs.length := by omega
  have h2 : i < l + 1 := by omega
  simp [Row.at, List.getD, Ring.moduli, Ring.sub, h1, h2]

theorem at_moduli (r : Ring) {i : ℕ} (hi : i < r.subs.length) : Row.at r.moduli i = (r.sub i).q := by
  simp [Row.at, List.getD, Ring.moduli, Ring.sub, hi]

theorem length_take_moduli (r : Ring) {l : ℕ} (hl : l < r.subs.length) :
    (r.moduli.take (l + 1)).length = l + 1 := by
  simp [Ring.moduli]; omega

theorem Ring.Valid.q_inj {n : ℕ} {r : Ring} (h : r.Valid n) {i j : ℕ} (hi : i < r.subs.length)
    (hj : j < r.subs.length) (he : (r.sub i).q.toNat = (r.sub j).q.toNat) : i = j := by
  have h1 := UInt64.toNat_inj.1 he
  have hnd := h.nodup
  rw [← at_moduli r hi, ← at_moduli r hj] at h1
  have li : i < r.moduli.length := by simpa [Ring.moduli] using hi
  have lj : j < r.moduli.length := by simpa [Ring.moduli] using hj
  simp only [Row.at, List.getD, List.getElem?_eq_getElem li, List.getElem?_eq_getElem lj,
    Option.getD_some] at h1
  exact (List.Nodup.getElem_inj_iff hnd).1 h1

theorem Ring.Valid.srcOK {n : ℕ} {r : Ring} (h : r.Valid n) (hs : r.Small) {l : ℕ}
    (hl : l < r.subs.length) (h32 : l < 32) : SrcOK (r.moduli.take (l + 1)) := by
  have hlen := length_take_moduli r hl
  refine ⟨?_, ?_, ?_, ?_, by omega, by omega⟩
  · intro i hi
    rw [at_take_moduli r (by omega) hl]
    exact (h.subAt (by omega)).prime
  · intro i hi
    rw [at_take_moduli r (by omega) hl]
    exact (h.subAt (by omega)).odd
  · intro i hi
    rw [at_take_moduli r (by omega) hl]
    exact hs _ (Ring.sub_mem (by omega))
  · intro i hi j hj he
    rw [at_take_moduli r (by omega) hl, at_take_moduli r (by omega) hl] at he
    exact h.q_inj (by omega) (by omega) he

theorem prodL_take (r : Ring) {l : ℕ} (hl : l < r.subs.length) :
    prodL (r.moduli.take (l + 1)) = r.prodQ l := by
  unfold prodL Ring.prodQ
  rw [length_take_moduli r hl]
  apply Finset.prod_congr rfl
  intro i hi
  rw [at_take_moduli r (by have := mem_range.1 hi; omega) hl]

theorem Ring.Valid.dstOK {n : ℕ} {r : Ring} (h : r.Valid n) (hs : r.Small) {j : ℕ}
    (hj : j < r.subs.length) : DstOK (r.sub j).q (r.sub j).mred :=
  ⟨(h.subAt hj).prime.one_lt, hs _ (Ring.sub_mem hj), (h.subAt hj).mred⟩

theorem row_params {P : List UInt64} {j : ℕ} (hj : j < P.length) (f : UInt64 → Row) :
    Rows.row (P.map f) j = f (Row.at P j) := by
  simp [Rows.row, Row.at, List.getD, hj]

/-- integers behind an extended polynomial: congruent to the input and nearly reduced -/
structure ExtInt (r : Ring) (level : ℕ) (v : ∀ i, ℕ → ZMod (r.sub i).q.toNat) (Z : ℕ → ℤ) : Prop where
  near : ∀ k < r.n, NearRep (r.prodQ level) (Z k)
  cong : ∀ k < r.n, ∀ i ≤ level, ((Z k : ℤ) : ZMod (r.sub i).q.toNat) = v i k

theorem modUpExact_is {n : ℕ} {rQ rP : Ring} (hQ : rQ.Valid n) (sQ : rQ.Small) (hP : rP.Valid n)
    (sP : rP.Small) {levelQ : ℕ} (lQ : levelQ < rQ.subs.length) (l32 : levelQ < 32) {p1 : Rows}
    {A : ℕ → ℕ} {v : ∀ i, ℕ → ZMod (rQ.sub i).q.toNat} (h1 : PolyIs rQ levelQ A p1 v) :
    ∃ Z : ℕ → ℤ, ExtInt rQ levelQ v Z ∧
      ∀ levelP < rP.subs.length, ∀ p2 : Rows, levelP < p2.length →
        PolyWritten rP levelP (fun j => ((levelQ + 8) / 8 + 2) * rP.qs j) p2
          (modUpExact levelQ levelP p1 p2 rQ rP
            (basisExtenderParameters (rQ.moduli.take (levelQ + 1)) rP.moduli)) (rP.intVec Z) := by
  set Q := rQ.moduli.take (levelQ + 1) with hQd
  have src : SrcOK Q := hQ.srcOK sQ lQ l32
  have hlen : Q.length = levelQ + 1 := length_take_moduli rQ lQ
  have key := fun k => modUp_int src (fun i => (rQ.sub i).mred)
    (fun i hi => by rw [at_take_moduli rQ (by omega) lQ]; exact (hQ.subAt (by omega)).mred)
    (fun i => (p1.row i).at k) (fun i => (rQ.sub i).q)
    (fun i hi => (at_take_moduli rQ (by omega) lQ).symm)
  choose Z z1 z2 z3 using key
  refine ⟨Z, ⟨fun k _ => ?_, fun k hk i hi => ?_⟩, ?_⟩
  · rw [← prodL_take rQ lQ]; exact z1 k
  · have h2 := z2 k i (by omega)
    have e := at_take_moduli rQ hi lQ
    rw [← hQd] at e
    rw [e] at h2
    rw [h2]
    exact (h1.row i hi).val k hk
  · intro levelP lP p2 hp2
    refine writeLvl_is hp2 (fun j hj => ?_)
    have hl0 : (p1.row 0).length = rP.n := by
      rw [(h1.row 0 (Nat.zero_le _)).len, hQ.deg, hP.deg]
    rw [hl0]
    have hjP : j < rP.moduli.length := by simp [Ring.moduli]; omega
    have hat := at_moduli rP (show j < rP.subs.length by omega)
    have w := fun x => z3 x (basisExtenderParameters Q rP.moduli) j (rP.sub j).q (rP.sub j).mred
      (hP.dstOK sP (by omega)) rfl
      (by show Rows.row (rP.moduli.map _) j = _; rw [row_params hjP, hat])
      (by show Rows.row (rP.moduli.map _) j = _; rw [row_params hjP, hat])
    rw [hlen] at w
    refine ⟨by simp, fun k hk => ?_, fun k hk => ?_⟩
    · rw [at_map_range _ _ hk]
      exact (w k).1
    · unfold zval
      rw [at_map_range _ _ hk]
      exact (w k).2

theorem getD_map_range {α : Type*} [Inhabited α] (m : ℕ) (f : ℕ → α) {i : ℕ} (hi : i < m) :
    ((List.range m).map f).getD i default = f i := by
  simp [List.getD, hi]

theorem modUpQtoP_is {n : ℕ} {rQ rP : Ring} (hQ : rQ.Valid n) (sQ : rQ.Small) (hP : rP.Valid n)
    (sP : rP.Small) {levelQ : ℕ} (lQ : levelQ < rQ.subs.length) (l32 : levelQ < 32) {p1 : Rows}
    {A : ℕ → ℕ} {v : ∀ i, ℕ → ZMod (rQ.sub i).q.toNat} (h1 : PolyIs rQ levelQ A p1 v) :
    ∃ Z : ℕ → ℤ, ExtInt rQ levelQ v Z ∧
      ∀ levelP < rP.subs.length, ∀ p2 : Rows, levelP < p2.length →
        PolyWritten rP levelP (fun j => ((levelQ + 8) / 8 + 2) * rP.qs j) p2
          ((newBasisExtender rQ rP).modUpQtoP levelQ levelP p1 p2) (rP.intVec Z) := by
  obtain ⟨Z, h, h'⟩ := modUpExact_is hQ sQ hP sP lQ l32 h1
  refine ⟨Z, h, fun levelP lP p2 hp2 => ?_⟩
  have e : (newBasisExtender rQ rP).paramsQtoP.getD levelQ default
      = basisExtenderParameters (rQ.moduli.take (levelQ + 1)) rP.moduli := getD_map_range _ _ lQ
  unfold BasisExtender.modUpQtoP
  rw [e]
  exact h' levelP lP p2 hp2

theorem modUpPtoQ_is {n : ℕ} {rQ rP : Ring} (hQ : rQ.Valid n) (sQ : rQ.Small) (hP : rP.Valid n)
    (sP : rP.Small) {levelP : ℕ} (lP : levelP < rP.subs.length) (l32 : levelP < 32) {p1 : Rows}
    {A : ℕ → ℕ} {v : ∀ i, ℕ → ZMod (rP.sub i).q.toNat} (h1 : PolyIs rP levelP A p1 v) :
    ∃ Z : ℕ → ℤ, ExtInt rP levelP v Z ∧
      ∀ levelQ < rQ.subs.length, ∀ p2 : Rows, levelQ < p2.length →
        PolyWritten rQ levelQ (fun j => ((levelP + 8) / 8 + 2) * rQ.qs j) p2
          ((newBasisExtender rQ rP).modUpPtoQ levelP levelQ p1 p2) (rQ.intVec Z) := by
  obtain ⟨Z, h, h'⟩ := modUpExact_is hP sP hQ sQ lP l32 h1
  refine ⟨Z, h, fun levelQ lQ p2 hp2 => ?_⟩
  have e : (newBasisExtender rQ rP).paramsPtoQ.getD levelP default
      = basisExtenderParameters (rP.moduli.take (levelP + 1)) rQ.moduli := getD_map_range _ _ lP
  unfold BasisExtender.modUpPtoQ
  rw [e]
  exact h' levelQ lQ p2 hp2

/-- two integers with the same residues differ by a multiple of the modulus -/
theorem Ring.Valid.dvd_of_cong {n : ℕ} {r : Ring} (h : r.Valid n) {l : ℕ}
    (hl : l < r.subs.length) {a b : ℤ}
    (hab : ∀ i ≤ l, (a : ZMod (r.sub i).q.toNat) = b) : (r.prodQ l : ℤ) ∣ a - b := by
  unfold Ring.prodQ
  rw [Nat.cast_prod]
  apply Finset.prod_dvd_of_coprime
  · intro i hi j hj hij
    have hi' := mem_range.1 hi
    have hj' := mem_range.1 hj
    rw [Function.onFun, Nat.isCoprime_iff_coprime, Nat.coprime_primes
      (h.subAt (by omega)).prime (h.subAt (by omega)).prime]
    intro he
    exact hij (h.q_inj (by omega) (by omega) he)
  · intro i hi
    have hi' := mem_range.1 hi
    have := hab i (by omega)
    apply (ZMod.intCast_zmod_eq_zero_iff_dvd _ _).1
    push_cast
    rw [this, sub_self]

/-- `M * z` with `z` in range is one of three shifts -/
theorem NearRep.shift {M : ℕ} {z x : ℤ} (h : NearRep M z) (hd : (M : ℤ) ∣ z - x) (h0 : 0 ≤ x)
    (h1 : x < M) : ∃ k : ℤ, (k = -1 ∨ k = 0 ∨ k = 1) ∧ z = x + k * M := by
  obtain ⟨k, hk⟩ := hd
  have hlo := h.lo
  have hhi := h.hi
  have hM : (0 : ℤ) < M := by omega
  refine ⟨k, ?_, by linarith⟩
  have k1 : k < 2 := by
    by_contra hc
    have : (M : ℤ) * 2 ≤ M * k := mul_le_mul_of_nonneg_left (by omega) hM.le
    omega
  have k2 : -2 < k := by
    by_contra hc
    have : (M : ℤ) * k ≤ M * (-2) := mul_le_mul_of_nonneg_left (by omega) hM.le
    omega
  omega

end FastKsw
