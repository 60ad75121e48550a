import Verif.Lemmas.EltIs
import Verif.Lemmas.Samplers
import Verif.Model.Encrypt
import Verif.Spec.Encrypt

/-!
# Lemmas on encryption and decryption
-/

namespace FastKsw

open Props Finset

section
variable {n : ℕ} {r : Ring} (hr : r.Valid n) {level : ℕ} (hl : level < r.subs.length)
include hr

theorem elt_intVec {b : ℕ → ℕ} {p : Rows} {X : ℕ → ℤ} (h : PolyIs r level b p (r.intVec X)) :
    EltIs n r level b false p (fun u => intR (2 ^ n) (r.qs u) X) :=
  h.eltIs hr fun _ _ => rfl

include hl

theorem elt_nttVec {b : ℕ → ℕ} {p : Rows} {X : ℕ → ℤ} (h : PolyIs r level b p (r.nttVec n X)) :
    EltIs n r level b true p (fun u => intR (2 ^ n) (r.qs u) X) :=
  h.eltIs hr fun u hu => by
    have := ofNtt_nttVec hr (show u < r.subs.length by omega) X
    simpa [Ring.eltOf] using this

theorem elt_mont {p : Rows} {X : ℕ → ℤ} (h : PolyIs r level r.qs p (fun u k => r.nttVec n X u k * 2 ^ 64)) :
    EltIs n r level r.qs true p (fun u => 2 ^ 64 * intR (2 ^ n) (r.qs u) X) :=
  h.eltIs hr fun u hu => by
    have := ofNtt_nttVec hr (show u < r.subs.length by omega) X
    rw [Ring.eltOf_congr (w := fun k => 2 ^ 64 * r.nttVec n X u k) (fun k _ => mul_comm _ _), eltOf_smul hr hl hu,
      map_pow, map_ofNat, ← this]
    simp [Ring.eltOf]

/-- what the Gaussian sampler writes -/
theorem gaussWrite_is {bound : ℕ} (hb : ∀ u ≤ level, bound ≤ r.qs u) {g : List (UInt64 × Bool)} {G : ℕ → ℤ}
    (hg : DrawsOK r.n bound g G) {p : Rows} (hp : level < p.length) :
    PolyWritten r level (fun u => r.qs u + 1) p (gaussWrite r level g p) (r.intVec G) := by
  refine writeLvl_is hp fun j hj => ⟨by simp [hg.len], fun t ht => ?_, fun t ht => ?_⟩
  · have := (gaussWord_is (q := (r.sub j).q) (c := g.getD t default) ((hg.le t ht).trans (hb j hj))).1
    simp only [Row.at, List.getD, List.getElem?_map, List.getElem?_eq_getElem (show t < g.length by rw [hg.len]; exact ht),
      Option.map_some, Option.getD_some] at this ⊢
    unfold Ring.qs
    omega
  · have := (gaussWord_is (q := (r.sub j).q) (c := g.getD t default) ((hg.le t ht).trans (hb j hj))).2
    have he := hg.val t ht
    simp only [zval, Ring.intVec, Row.at, List.getD, List.getElem?_map, gaussInt,
      List.getElem?_eq_getElem (show t < g.length by rw [hg.len]; exact ht), Option.map_some, Option.getD_some] at this he ⊢
    rw [this, he]

/-- what `ReadAndAddLvl`, at a level `L` at least ours, adds -/
theorem gaussAdd_is {L bound : ℕ} (hL : level ≤ L) (hb : ∀ u ≤ level, bound ≤ r.qs u) {g : List (UInt64 × Bool)}
    {G : ℕ → ℤ} (hg : DrawsOK r.n bound g G) {p : Rows} {x} (hLp : L < p.length)
    (hp : EltIs n r level r.qs false p x) :
    EltIs n r level r.qs false (gaussAdd r L g p) (fun u => x u + intR (2 ^ n) (r.qs u) G) := by
  have hlen : (gaussAdd r L g p).length = p.length := length_writeLvl _ _ _
  have H : PolyIs r level r.qs (gaussAdd r L g p) (fun u k => zval _ (p.row u) k + r.intVec G u k) := by
    refine ⟨by rw [hlen]; exact hp.lvl, fun j hj => ?_⟩
    have hrow : (gaussAdd r L g p).row j = List.zipWith (fun x c => cred (x + gaussWord (r.sub j).q c) (r.sub j).q)
        (p.row j) g := row_writeLvl (hj.trans hL) hLp
    rw [hrow]
    have h1 := hp.len j hj
    rw [← hr.deg] at h1
    have hword : ∀ t < r.n, Row.at (List.zipWith (fun x c => cred (x + gaussWord (r.sub j).q c) (r.sub j).q) (p.row j) g) t
        = cred ((p.row j).at t + gaussWord (r.sub j).q (g.getD t default)) (r.sub j).q := by
      intro t ht
      simp only [Row.at, List.getD, List.getElem?_zipWith,
        List.getElem?_eq_getElem (show t < g.length by rw [hg.len]; exact ht),
        List.getElem?_eq_getElem (show t < (p.row j).length by omega), Option.getD_some]
    have hsum : ∀ t < r.n,
        (cred ((p.row j).at t + gaussWord (r.sub j).q (g.getD t default)) (r.sub j).q).toNat < (r.sub j).q.toNat ∧
        (((cred ((p.row j).at t + gaussWord (r.sub j).q (g.getD t default)) (r.sub j).q).toNat : ℕ)
          : ZMod (r.sub j).q.toNat) = zval (r.sub j).q.toNat (p.row j) t + ((gaussInt (g.getD t default) : ℤ) : ZMod (r.sub j).q.toNat) := by
      intro t ht
      obtain ⟨g1, g2⟩ := gaussWord_is (q := (r.sub j).q) (c := g.getD t default) ((hg.le t ht).trans (hb j hj))
      have h2 := hp.lt j hj t (hr.deg ▸ ht)
      have h3 := (hr.subAt (show j < r.subs.length by omega)).lt
      unfold Ring.qs at h2
      have h4 : ((p.row j).at t + gaussWord (r.sub j).q (g.getD t default)).toNat
          = ((p.row j).at t).toNat + (gaussWord (r.sub j).q (g.getD t default)).toNat := by
        rw [UInt64.toNat_add, Nat.mod_eq_of_lt (by omega)]
      refine ⟨toNat_cred_lt (by omega), ?_⟩
      rw [(ZMod.natCast_eq_natCast_iff _ _ _).2 (toNat_cred_modEq _ _), h4, Nat.cast_add, g2]
      rfl
    refine ⟨by simp [hg.len, h1], fun t ht => ?_, fun t ht => ?_⟩
    · rw [hword t ht]
      exact (hsum t ht).1
    · unfold zval
      rw [hword t ht]
      refine (hsum t ht).2.trans ?_
      have he := hg.val t ht
      rw [Ring.intVec, he]
      rfl
  exact H.eltIs hr fun u hu => by
    rw [eltOf_add hr hl hu, hp.eltOf hr hu]
    rfl

variable (sr : r.Small)

include sr in
theorem six_lt {u : ℕ} (hu : u ≤ level) : 7 * r.qs u < 2 ^ 64 := by
  have := sr _ (Ring.sub_mem (show u < r.subs.length by omega))
  unfold Ring.qs
  omega

include sr in
/-- the loop of `Decrypt` is Horner's rule; entries stay below `6 q`, and below `B` in the NTT domain -/
theorem decryptLoop_elt {sk : Rows} {s : ∀ u, Rq (2 ^ n) (r.qs u)}
    (hs : EltIs n r level r.qs true sk (fun u => 2 ^ 64 * s u)) {B : ℕ → ℕ}
    (hB : ∀ u ≤ level, r.qs u ≤ B u ∧ B u ≤ 6 * r.qs u) {b : Bool} {ct : ℕ → Rows}
    {c : ℕ → ∀ u, Rq (2 ^ n) (r.qs u)} {i : ℕ} (hc : ∀ j < i, EltIs n r level (fun u => if b then B u else r.qs u) b (ct j) (c j)) {acc : Rows}
    {y : ∀ u, Rq (2 ^ n) (r.qs u)} (ha : EltIs n r level (fun u => if b then B u else 6 * r.qs u) true acc y) :
    EltIs n r level (fun u => if b then B u else 6 * r.qs u) true (decryptLoop r level sk b ct i acc)
      (fun u => y u * s u ^ i + ∑ j ∈ range i, c j u * s u ^ j) ∧
    (decryptLoop r level sk b ct i acc).length = acc.length := by
  induction i generalizing acc y with
  | zero => exact ⟨ha.congr fun u _ => by simp, rfl⟩
  | succ i ih =>
    have hq : ∀ u ≤ level, r.qs u ≤ (if b then B u else 6 * r.qs u) := fun u hu => by have := hB u hu; split <;> omega
    have m := mulMont_elt hr hl (z := fun u => y u * s u) ha hs (fun u hu => by
        have := six_lt hr hl sr hu
        rw [Nat.mul_comm]
        have := hB u hu
        exact Nat.mul_le_mul_left _ (by split <;> omega)) (fun u _ => by ring) ha.lvl
    have a : EltWritten n r level (fun u => if b then B u else 6 * r.qs u) true acc
        (if !b then r.addLvl level (r.mulCoeffsMontgomeryLvl level acc sk acc)
            (r.nttLazyLvl level (ct i) (newPoly r.n r.subs.length)) (r.mulCoeffsMontgomeryLvl level acc sk acc)
          else r.addLvl level (r.mulCoeffsMontgomeryLvl level acc sk acc) (ct i)
            (r.mulCoeffsMontgomeryLvl level acc sk acc)) (fun u => y u * s u + c i u) := by
      cases b with
      | false =>
        have p := nttLazyLvl_elt hr hl sr (fun u hu => by simp only [Bool.false_eq_true, if_false]; omega) (hc i (by omega))
          (p' := newPoly r.n r.subs.length) (by simpa [length_newPoly] using hl)
        have q := addLvl_lazy hr hl m.is p.is (fun u hu => by have := six_lt hr hl sr hu; omega) m.is.lvl
        exact ⟨by simpa using q.is, by simpa using q.len.trans m.len, fun u hu => by
          simpa using (q.above u hu).trans (m.above u hu)⟩
      | true =>
        have q := addLvl_lazy hr hl m.is (hc i (by omega)) (fun u hu => by
          have := six_lt hr hl sr hu; have := hB u hu; simp only [if_true]; omega) m.is.lvl
        exact ⟨by simpa using q.is, by simpa using q.len.trans m.len, fun u hu => by
          simpa using (q.above u hu).trans (m.above u hu)⟩
    have d : ∀ {acc' : Rows}, EltWritten n r level (fun u => if b then B u else 6 * r.qs u) true acc acc'
        (fun u => y u * s u + c i u) →
        EltWritten n r level (fun u => if b then B u else 6 * r.qs u) true acc
          (if (i + 1) % 8 = 7 then r.reduceLvl level acc' acc' else acc') (fun u => y u * s u + c i u) := by
      intro acc' h
      by_cases h7 : (i + 1) % 8 = 7
      · rw [if_pos h7]
        have q := reduceLvl_elt hr hl h.is h.is.lvl
        exact ⟨q.is.mono hq, q.len.trans h.len, fun u hu => (q.above u hu).trans (h.above u hu)⟩
      · rw [if_neg h7]
        exact h
    have e := d a
    obtain ⟨f, g⟩ := ih (fun j hj => hc j (by omega)) e.is
    refine ⟨?_, g.trans e.len⟩
    refine EltIs.congr f fun u _ => ?_
    rw [Finset.sum_range_succ]
    ring

include sr in
/-- `Decrypt` before the last inverse transform -/
theorem decryptCore_elt {sk : Rows} {s : ∀ u, Rq (2 ^ n) (r.qs u)}
    (hs : EltIs n r level r.qs true sk (fun u => 2 ^ 64 * s u)) {B : ℕ → ℕ}
    (hB : ∀ u ≤ level, r.qs u ≤ B u ∧ B u ≤ 6 * r.qs u) {b : Bool} {ct : List Poly} (h0 : ct ≠ [])
    {c : ℕ → ∀ u, Rq (2 ^ n) (r.qs u)}
    (hc : ∀ j < ct.length, EltIs n r level (fun u => if b then B u else r.qs u) b (ct.getD j default).coeffs (c j)) {acc : Rows}
    (ha : level < acc.length) :
    EltIs n r level (fun u => if b then B u else 6 * r.qs u) true
      (decryptLoop r level sk b (fun i => (ct.getD i default).coeffs) (ct.length - 1)
        (if b then writeLvl level (fun u => (ct.getD (ct.length - 1) default).coeffs.row u) acc
          else r.nttLazyLvl level (ct.getD (ct.length - 1) default).coeffs acc))
      (fun u => ∑ j ∈ range ct.length, c j u * s u ^ j) ∧
    (decryptLoop r level sk b (fun i => (ct.getD i default).coeffs) (ct.length - 1)
        (if b then writeLvl level (fun u => (ct.getD (ct.length - 1) default).coeffs.row u) acc
          else r.nttLazyLvl level (ct.getD (ct.length - 1) default).coeffs acc)).length = acc.length := by
  have hpos : 0 < ct.length := List.length_pos_iff.2 h0
  obtain ⟨m, hm⟩ : ∃ m, ct.length = m + 1 := ⟨ct.length - 1, by omega⟩
  simp only [hm, Nat.add_sub_cancel] at hc ⊢
  have H : EltIs n r level (fun u => if b then B u else 6 * r.qs u) true
      (if b then writeLvl level (fun u => (ct.getD m default).coeffs.row u) acc
          else r.nttLazyLvl level (ct.getD m default).coeffs acc) (c m) ∧
      (if b then writeLvl level (fun u => (ct.getD m default).coeffs.row u) acc
          else r.nttLazyLvl level (ct.getD m default).coeffs acc).length = acc.length := by
    cases b with
    | false =>
      have p := nttLazyLvl_elt hr hl sr (fun u hu => by simp only [Bool.false_eq_true, if_false]; omega) (hc m (by omega)) ha
      exact ⟨by simpa using p.is, by simpa using p.len⟩
    | true =>
      refine ⟨?_, by simp [length_writeLvl]⟩
      simp only [if_true]
      exact (hc m (by omega)).rows (by rw [length_writeLvl]; exact ha) fun u hu => row_writeLvl hu ha
  obtain ⟨f, g⟩ := decryptLoop_elt hr hl sr hs hB (i := m) (ct := fun i => (ct.getD i default).coeffs)
    (fun j hj => hc j (by omega)) H.1
  refine ⟨f.congr fun u _ => ?_, g.trans H.2⟩
  rw [Finset.sum_range_succ]
  ring

end

section
variable {n : ℕ} {r : Ring} (hr : r.Valid n) {level : ℕ} (hl : level < r.subs.length)
include hr hl

/-- a polynomial in the coefficient domain that denotes integers holds their residues -/
theorem EltIs.intVec {A : ℕ → ℕ} {p : Rows} {X : ℕ → ℤ}
    (h : EltIs n r level A false p (fun u => intR (2 ^ n) (r.qs u) X)) : PolyIs r level A p (r.intVec X) :=
  (h.polyIs hr).congr fun u hu k hk => by
    have V := hr.subAt (show u < r.subs.length by omega)
    have := V.fact
    have h4 := hr.four_le
    have e := h.val u hu
    simp only [Ring.elt, Bool.false_eq_true, if_false, rowR, intR] at e
    exact toR_injective (V.psiOK (by omega)) e k (hr.deg ▸ hk)

end

/-- dividing `X0 + X1 S = W` by `P`, with rounding -/
theorem divided_relation {n : ℕ} {rQ rP : Ring} (hQ : rQ.Valid n) (hP : rP.Valid n) (hd : rQ.Disjoint rP)
    {lQ lP : ℕ} (hl : lQ < rQ.subs.length) (hlP : lP < rP.subs.length) {X0 X1 S W Z0 Z1 Y0 Y1 : ℕ → ℤ}
    (relQ : ∀ u ≤ lQ, intR (2 ^ n) (rQ.qs u) X0 + intR (2 ^ n) (rQ.qs u) X1 * intR (2 ^ n) (rQ.qs u) S
      = intR (2 ^ n) (rQ.qs u) W)
    (relP : ∀ u ≤ lP, intR (2 ^ n) (rP.qs u) X0 + intR (2 ^ n) (rP.qs u) X1 * intR (2 ^ n) (rP.qs u) S
      = intR (2 ^ n) (rP.qs u) W)
    (hY0 : ∀ k < 2 ^ n, (rP.prodQ lP : ℤ) * Y0 k = X0 k - Z0 k)
    (hY1 : ∀ k < 2 ^ n, (rP.prodQ lP : ℤ) * Y1 k = X1 k - Z1 k) :
    ∃ D : ℕ → ℤ, (∀ k < 2 ^ n, (rP.prodQ lP : ℤ) * D k = W k - Z0 k - negConv (2 ^ n) Z1 S k) ∧
      ∀ u ≤ lQ, intR (2 ^ n) (rQ.qs u) Y0 + intR (2 ^ n) (rQ.qs u) Y1 * intR (2 ^ n) (rQ.qs u) S
        = intR (2 ^ n) (rQ.qs u) D := by
  have h4 := hQ.four_le
  have red : ∀ q (X Z Y : ℕ → ℤ), (∀ k < 2 ^ n, (rP.prodQ lP : ℤ) * Y k = X k - Z k) →
      (rP.prodQ lP : Rq (2 ^ n) q) * intR (2 ^ n) q Y = intR (2 ^ n) q X - intR (2 ^ n) q Z := by
    intro q X Z Y h
    rw [intR_natMul, intR_sub]
    exact intR_congr (fun k hk => by rw [h k hk])
  have hdvd : ∀ k, ∃ D : ℤ, k < 2 ^ n → (rP.prodQ lP : ℤ) * D = W k - Z0 k - negConv (2 ^ n) Z1 S k := by
    intro k
    by_cases hk : k < 2 ^ n
    · obtain ⟨D, hD⟩ := hP.dvd_of_cong (l := lP) hlP (a := W k - Z0 k) (b := negConv (2 ^ n) Z1 S k) (fun u hu => by
        have V := hP.subAt (show u < rP.subs.length by omega)
        have := V.fact
        have hz : ∀ X Z Y : ℕ → ℤ, (∀ k < 2 ^ n, (rP.prodQ lP : ℤ) * Y k = X k - Z k) →
            intR (2 ^ n) (rP.qs u) Z = intR (2 ^ n) (rP.qs u) X := by
          intro X Z Y h
          refine intR_congr fun k hk => ?_
          have e : ((rP.prodQ lP : ℤ) : ZMod (rP.qs u)) = 0 := by
            have : rP.qs u ∣ rP.prodQ lP := Finset.dvd_prod_of_mem (fun i => (rP.sub i).q.toNat)
              (mem_range.2 (Nat.lt_succ_of_le hu))
            rw [Int.cast_natCast]
            exact (ZMod.natCast_eq_zero_iff _ _).2 this
          have := congrArg (Int.cast : ℤ → ZMod (rP.qs u)) (h k hk)
          rw [Int.cast_mul, e, zero_mul, Int.cast_sub] at this
          exact (sub_eq_zero.1 this.symm).symm
        have key : intR (2 ^ n) (rP.qs u) (fun k => W k - Z0 k) = intR (2 ^ n) (rP.qs u) (negConv (2 ^ n) Z1 S) := by
          rw [← intR_sub, ← intR_mul, hz X0 Z0 Y0 hY0, hz X1 Z1 Y1 hY1, ← relP u hu]
          ring
        exact toR_injective (V.psiOK (by omega)) key k hk)
      exact ⟨D, fun _ => hD.symm⟩
    · exact ⟨0, fun h => absurd h hk⟩
  choose D hD using hdvd
  refine ⟨D, hD, fun u hu => ?_⟩
  have e0 := red (rQ.qs u) X0 Z0 Y0 hY0
  have e1 := red (rQ.qs u) X1 Z1 Y1 hY1
  have e2 : (rP.prodQ lP : Rq (2 ^ n) (rQ.qs u)) * intR (2 ^ n) (rQ.qs u) D
      = intR (2 ^ n) (rQ.qs u) W - intR (2 ^ n) (rQ.qs u) Z0
        - intR (2 ^ n) (rQ.qs u) Z1 * intR (2 ^ n) (rQ.qs u) S := by
    rw [intR_natMul, intR_sub, intR_mul, intR_sub]
    exact intR_congr (fun k hk => by rw [hD k hk])
  have hunit : IsUnit (rP.prodQ lP : Rq (2 ^ n) (rQ.qs u)) := by
    have := (prodQ_ne_zero hQ hP hd (show u < rQ.subs.length by omega) hlP).map
      (AdjoinRoot.of ((Polynomial.X : Polynomial (ZMod (rQ.qs u))) ^ 2 ^ n + 1))
    rwa [map_natCast] at this
  refine hunit.mul_left_cancel ?_
  rw [mul_add, ← mul_assoc, e0, e1, e2, ← relQ u hu]
  ring

end FastKsw
