import Verif.Spec.EltIs
import Verif.Lemmas.KeyGen
import Verif.Props.RingOps

/-!
# Ring operations on polynomials of the evaluator
-/

namespace FastKsw

open Props

/-- ring element with residues `v`, seen as NTT values or as coefficients -/
noncomputable def Ring.eltOf (r : Ring) (n : ℕ) (isNTT : Bool) (u : ℕ) (v : ℕ → ZMod (r.sub u).q.toNat) :
    Rq (2 ^ n) (r.qs u) :=
  if isNTT then ofNtt (r.sub u).psi n v else toR (2 ^ n) (r.qs u) v

theorem Ring.eltOf_congr {r : Ring} {n : ℕ} {b : Bool} {u : ℕ} {v w : ℕ → ZMod (r.sub u).q.toNat}
    (h : ∀ k < 2 ^ n, v k = w k) : r.eltOf n b u v = r.eltOf n b u w := by
  unfold Ring.eltOf
  split
  · exact ofNtt_congr h
  · exact toR_congr h

theorem Ring.elt_eq (r : Ring) (n : ℕ) (b : Bool) (p : Rows) (u : ℕ) :
    r.elt n b p u = r.eltOf n b u (zval _ (p.row u)) := rfl

section
variable {n : ℕ} {r : Ring} (hr : r.Valid n) {level : ℕ} {b : Bool}

theorem EltIs.mono {A B : ℕ → ℕ} {p x} (h : EltIs n r level A b p x) (hAB : ∀ u ≤ level, A u ≤ B u) :
    EltIs n r level B b p x :=
  ⟨h.lvl, h.len, fun u hu k hk => lt_of_lt_of_le (h.lt u hu k hk) (hAB u hu), h.val⟩

theorem EltIs.congr {A : ℕ → ℕ} {p x y} (h : EltIs n r level A b p x) (hxy : ∀ u ≤ level, x u = y u) :
    EltIs n r level A b p y :=
  ⟨h.lvl, h.len, h.lt, fun u hu => (h.val u hu).trans (hxy u hu)⟩

theorem EltIs.below {A : ℕ → ℕ} {p x} (h : EltIs n r level A b p x) {l : ℕ} (hl : l ≤ level) :
    EltIs n r l A b p x :=
  ⟨by have := h.lvl; omega, fun u hu => h.len u (by omega), fun u hu => h.lt u (by omega),
    fun u hu => h.val u (by omega)⟩

theorem EltWritten.congr {A : ℕ → ℕ} {p p' x y} (h : EltWritten n r level A b p p' x) (hxy : ∀ u ≤ level, x u = y u) :
    EltWritten n r level A b p p' y :=
  ⟨h.is.congr hxy, h.len, h.above⟩

/-- dependence on the rows up to the level only -/
theorem EltIs.rows {A : ℕ → ℕ} {p p' x} (h : EltIs n r level A b p x) (hl : level < p'.length)
    (hp : ∀ u ≤ level, p'.row u = p.row u) : EltIs n r level A b p' x :=
  ⟨hl, fun u hu => hp u hu ▸ h.len u hu, fun u hu k hk => hp u hu ▸ h.lt u hu k hk, fun u hu => by
    rw [← h.val u hu, Ring.elt, Ring.elt, hp u hu]⟩

theorem EltIs.take {A : ℕ → ℕ} {p x} (h : EltIs n r level A b p x) {m : ℕ} (hm : level < m) :
    EltIs n r level A b (p.take m) x :=
  h.rows (by have := h.lvl; simp; omega) fun u hu => by
    simp [Rows.row, List.getD, List.getElem?_take, show u < m by omega]

include hr

theorem EltIs.polyIs {A : ℕ → ℕ} {p x} (h : EltIs n r level A b p x) :
    PolyIs r level A p (fun u => zval _ (p.row u)) :=
  ⟨h.lvl, fun u hu => ⟨by rw [hr.deg]; exact h.len u hu, fun k hk => h.lt u hu k (hr.deg ▸ hk), fun _ _ => rfl⟩⟩

theorem EltIs.eltOf {A : ℕ → ℕ} {p x} (h : EltIs n r level A b p x) {u : ℕ} (hu : u ≤ level) :
    r.eltOf n b u (zval _ (p.row u)) = x u := h.val u hu

theorem PolyIs.eltIs {A : ℕ → ℕ} {p v x} (h : PolyIs r level A p v) (hx : ∀ u ≤ level, r.eltOf n b u (v u) = x u) :
    EltIs n r level A b p x :=
  ⟨h.lvl, fun u hu => by rw [(h.row u hu).len, hr.deg], fun u hu k hk => (h.row u hu).lt k (by rw [hr.deg]; exact hk),
    fun u hu => by
      rw [← hx u hu, Ring.elt_eq]
      exact Ring.eltOf_congr fun k hk => (h.row u hu).val k (by rw [hr.deg]; exact hk)⟩

theorem PolyWritten.eltWritten {A : ℕ → ℕ} {p p' v x} (h : PolyWritten r level A p p' v)
    (hx : ∀ u ≤ level, r.eltOf n b u (v u) = x u) : EltWritten n r level A b p p' x :=
  ⟨h.is.eltIs hr hx, h.len, h.above⟩

variable (hl : level < r.subs.length)
include hl

theorem eltOf_add {u : ℕ} (hu : u ≤ level) (v w : ℕ → ZMod (r.sub u).q.toNat) :
    r.eltOf n b u (fun k => v k + w k) = r.eltOf n b u v + r.eltOf n b u w := by
  have h4 := hr.four_le
  have := (hr.subAt (show u < r.subs.length by omega)).fact
  unfold Ring.eltOf
  split
  · rw [ofNtt_add ((hr.subAt (show u < r.subs.length by omega)).psiOK (by omega))]
  · rw [toR_add]

theorem eltOf_neg {u : ℕ} (hu : u ≤ level) (v : ℕ → ZMod (r.sub u).q.toNat) :
    r.eltOf n b u (fun k => -v k) = -r.eltOf n b u v := by
  have h4 := hr.four_le
  have := (hr.subAt (show u < r.subs.length by omega)).fact
  unfold Ring.eltOf
  split
  · rw [ofNtt_neg ((hr.subAt (show u < r.subs.length by omega)).psiOK (by omega))]
  · rw [toR_neg]

theorem eltOf_sub {u : ℕ} (hu : u ≤ level) (v w : ℕ → ZMod (r.sub u).q.toNat) :
    r.eltOf n b u (fun k => v k - w k) = r.eltOf n b u v - r.eltOf n b u w := by
  simp only [sub_eq_add_neg]
  rw [eltOf_add hr hl hu v fun k => -w k, eltOf_neg hr hl hu]

theorem eltOf_smul {u : ℕ} (hu : u ≤ level) (c : ZMod (r.sub u).q.toNat) (v : ℕ → ZMod (r.sub u).q.toNat) :
    r.eltOf n b u (fun k => c * v k) = AdjoinRoot.of _ c * r.eltOf n b u v := by
  have h4 := hr.four_le
  have := (hr.subAt (show u < r.subs.length by omega)).fact
  unfold Ring.eltOf
  split
  · rw [ofNtt_smul ((hr.subAt (show u < r.subs.length by omega)).psiOK (by omega))]
  · rw [toR_smul]

theorem eltOf_mul {u : ℕ} (hu : u ≤ level) (v w : ℕ → ZMod (r.sub u).q.toNat) :
    r.eltOf n true u (fun k => v k * w k) = r.eltOf n true u v * r.eltOf n true u w := by
  have h4 := hr.four_le
  have := (hr.subAt (show u < r.subs.length by omega)).fact
  simp only [Ring.eltOf, if_true]
  rw [ofNtt_mul ((hr.subAt (show u < r.subs.length by omega)).psiOK (by omega))]

theorem two64_unit {u : ℕ} (hu : u ≤ level) : AdjoinRoot.of _ (rinv (r.sub u).q.toNat) * (2 : Rq (2 ^ n) (r.qs u)) ^ 64 = 1 := by
  have h := rinv_mul (hr.subAt (show u < r.subs.length by omega)).arith.odd
  have := congrArg (AdjoinRoot.of ((Polynomial.X : Polynomial (ZMod (r.sub u).q.toNat)) ^ 2 ^ n + 1)) h
  rw [map_mul, map_one, map_pow, map_ofNat] at this
  exact this

/-- `AddLvl` on operands whose sum is below twice the modulus -/
theorem addLvl_elt {A B : ℕ → ℕ} {p1 p2 p3 : Rows} {x y} (h1 : EltIs n r level A b p1 x) (h2 : EltIs n r level B b p2 y)
    (hAB : ∀ u ≤ level, A u + B u ≤ 2 * r.qs u + 1) (h3 : level < p3.length) :
    EltWritten n r level r.qs b p3 (r.addLvl level p1 p2 p3) (fun u => x u + y u) := by
  refine PolyWritten.eltWritten hr (v := fun u k => zval _ (p1.row u) k + zval _ (p2.row u) k) (writeLvl_is h3 fun u hu => ?_)
    fun u hu => by rw [eltOf_add hr hl hu, h1.eltOf hr hu, h2.eltOf hr hu]
  have hs := (hr.subAt (show u < r.subs.length by omega)).arith
  have hb := hAB u hu
  refine RowIs.zipWith (F := fun a b => a + b) ((h1.polyIs hr).row u hu) ((h2.polyIs hr).row u hu) fun a c ha hc => ?_
  have := hs.lt
  unfold Ring.qs at hb
  have e : (a + c).toNat = a.toNat + c.toNat := by rw [UInt64.toNat_add]; omega
  refine ⟨toNat_cred_lt (by omega), ?_⟩
  rw [cast_of_modEq (toNat_cred_modEq _ _), e]; push_cast; rfl

/-- `AddLvl` with a lazily reduced second operand -/
theorem addLvl_lazy {B : ℕ → ℕ} {p1 p2 p3 : Rows} {x y} (h1 : EltIs n r level r.qs b p1 x)
    (h2 : EltIs n r level B b p2 y) (hB : ∀ u ≤ level, r.qs u ≤ B u ∧ r.qs u + B u ≤ 2 ^ 64) (h3 : level < p3.length) :
    EltWritten n r level B b p3 (r.addLvl level p1 p2 p3) (fun u => x u + y u) := by
  refine PolyWritten.eltWritten hr (v := fun u k => zval _ (p1.row u) k + zval _ (p2.row u) k) (writeLvl_is h3 fun u hu => ?_)
    fun u hu => by rw [eltOf_add hr hl hu, h1.eltOf hr hu, h2.eltOf hr hu]
  have hb := hB u hu
  refine RowIs.zipWith (F := fun a b => a + b) ((h1.polyIs hr).row u hu) ((h2.polyIs hr).row u hu) fun a c ha hc => ?_
  unfold Ring.qs at hb ha
  have e : (a + c).toNat = a.toNat + c.toNat := by rw [UInt64.toNat_add]; omega
  refine ⟨?_, ?_⟩
  · rw [toNat_cred]
    split <;> omega
  · rw [cast_of_modEq (toNat_cred_modEq _ _), e]; push_cast; rfl

theorem subLvl_elt {p1 p2 p3 : Rows} {x y} (h1 : EltIs n r level r.qs b p1 x) (h2 : EltIs n r level r.qs b p2 y)
    (h3 : level < p3.length) :
    EltWritten n r level r.qs b p3 (r.subLvl level p1 p2 p3) (fun u => x u - y u) :=
  (C10_sub (hr.arithLvl hl) (h1.polyIs hr) (h2.polyIs hr) h3).eltWritten hr fun u hu => by
    rw [eltOf_sub hr hl hu, h1.eltOf hr hu, h2.eltOf hr hu]

theorem negLvl_elt {p1 p2 : Rows} {x} (h1 : EltIs n r level (fun u => r.qs u + 1) b p1 x) (h2 : level < p2.length) :
    EltWritten n r level (fun u => r.qs u + 1) b p2 (r.negLvl level p1 p2) (fun u => -x u) :=
  (C10_neg (h1.polyIs hr) h2).eltWritten hr fun u hu => by
    rw [eltOf_neg hr hl hu, h1.eltOf hr hu]

theorem reduceLvl_elt {A : ℕ → ℕ} {p1 p2 : Rows} {x} (h1 : EltIs n r level A b p1 x) (h2 : level < p2.length) :
    EltWritten n r level r.qs b p2 (r.reduceLvl level p1 p2) x :=
  (C10_reduce (hr.arithLvl hl) (h1.polyIs hr) h2).eltWritten hr fun _ hu => h1.eltOf hr hu

theorem mformLvl_elt {A : ℕ → ℕ} {p1 p2 : Rows} {x} (h1 : EltIs n r level A b p1 x) (h2 : level < p2.length) :
    EltWritten n r level r.qs b p2 (r.mformLvl level p1 p2) (fun u => 2 ^ 64 * x u) :=
  (C10_mform (hr.arithLvl hl) (h1.polyIs hr) h2).eltWritten hr fun u hu => by
    rw [← h1.eltOf hr hu, Ring.eltOf_congr (w := fun k => 2 ^ 64 * zval _ (p1.row u) k) (fun k _ => mul_comm _ _),
      eltOf_smul hr hl hu, map_pow, map_ofNat]

/-- Montgomery product of an element with an element in Montgomery form -/
theorem mulMont_elt {A B : ℕ → ℕ} {p1 p2 p3 : Rows} {x y} {z : ∀ u, Rq (2 ^ n) (r.qs u)} (h1 : EltIs n r level A true p1 x)
    (h2 : EltIs n r level B true p2 y) (hAB : ∀ u ≤ level, A u * B u ≤ r.qs u * 2 ^ 64)
    (hz : ∀ u ≤ level, x u * y u = 2 ^ 64 * z u) (h3 : level < p3.length) :
    EltWritten n r level r.qs true p3 (r.mulCoeffsMontgomeryLvl level p1 p2 p3) z :=
  (C10_mulCoeffsMontgomery (hr.arithLvl hl) (h1.polyIs hr) (h2.polyIs hr) hAB h3).eltWritten hr fun u hu => by
    rw [Ring.eltOf_congr (w := fun k => rinv _ * (zval _ (p1.row u) k * zval _ (p2.row u) k)) (fun k _ => mul_comm _ _),
      eltOf_smul hr hl hu, eltOf_mul hr hl hu, h1.eltOf hr hu, h2.eltOf hr hu, hz u hu, ← mul_assoc, two64_unit hr hl hu,
      one_mul]

theorem mulMontAndAdd_elt {A B : ℕ → ℕ} {p1 p2 p3 : Rows} {x y t} {z : ∀ u, Rq (2 ^ n) (r.qs u)} (h1 : EltIs n r level A true p1 x)
    (h2 : EltIs n r level B true p2 y) (hAB : ∀ u ≤ level, A u * B u ≤ r.qs u * 2 ^ 64)
    (hz : ∀ u ≤ level, x u * y u = 2 ^ 64 * z u) (h3 : EltIs n r level r.qs true p3 t) :
    EltWritten n r level r.qs true p3 (r.mulCoeffsMontgomeryAndAddLvl level p1 p2 p3) (fun u => t u + z u) :=
  (C10_mulCoeffsMontgomeryAndAdd (hr.arithLvl hl) (h1.polyIs hr) (h2.polyIs hr) hAB (h3.polyIs hr)).eltWritten hr
    fun u hu => by
    rw [eltOf_add hr hl hu, h3.eltOf hr hu, Ring.eltOf_congr (v := fun k => zval _ (p1.row u) k * zval _ (p2.row u) k * rinv _)
      (w := fun k => rinv _ * (zval _ (p1.row u) k * zval _ (p2.row u) k)) (fun k _ => mul_comm _ _),
      eltOf_smul hr hl hu, eltOf_mul hr hl hu, h1.eltOf hr hu, h2.eltOf hr hu, hz u hu, ← mul_assoc, two64_unit hr hl hu,
      one_mul]

variable (sr : r.Small)
include sr

theorem nttLvl_elt {A : ℕ → ℕ} (hA : ∀ u ≤ level, A u ≤ 4 * r.qs u) {p p' : Rows} {x} (h : EltIs n r level A false p x)
    (h' : level < p'.length) : EltWritten n r level r.qs true p' (r.nttLvl level p p') x := by
  have h4 := hr.four_le
  refine PolyWritten.eltWritten hr (v := fun u => evals (r.sub u).psi n (zval _ (p.row u))) (writeLvl_is h' fun u hu => ?_)
    fun u hu => ?_
  · have V := hr.subAt (show u < r.subs.length by omega)
    have hlt := sr _ (Ring.sub_mem (show u < r.subs.length by omega))
    have h1 := ((h.polyIs hr).row u hu).mono (hA u hu)
    rw [hr.deg] at h1 ⊢
    exact ntt_is V (by omega) hlt (by unfold Ring.qs; omega) h1
  · rw [← h.eltOf hr hu]
    exact ofNtt_evals (hr.subAt (by omega)) (by omega) _

theorem nttLazyLvl_elt {A : ℕ → ℕ} (hA : ∀ u ≤ level, A u ≤ 4 * r.qs u) {p p' : Rows} {x}
    (h : EltIs n r level A false p x) (h' : level < p'.length) :
    EltWritten n r level (fun u => 6 * r.qs u) true p' (r.nttLazyLvl level p p') x := by
  have h4 := hr.four_le
  refine PolyWritten.eltWritten hr (v := fun u => evals (r.sub u).psi n (zval _ (p.row u))) (writeLvl_is h' fun u hu => ?_)
    fun u hu => ?_
  · have V := hr.subAt (show u < r.subs.length by omega)
    have hlt := sr _ (Ring.sub_mem (show u < r.subs.length by omega))
    have h1 := ((h.polyIs hr).row u hu).mono (hA u hu)
    rw [hr.deg] at h1 ⊢
    refine (nttLazy_is V (by omega) hlt (B := 4 * (r.sub u).q.toNat) le_rfl (by omega) h1).mono (by unfold Ring.qs; omega)
  · rw [← h.eltOf hr hu]
    exact ofNtt_evals (hr.subAt (by omega)) (by omega) _

theorem invNttLvl_elt {A : ℕ → ℕ} (hA : ∀ u ≤ level, A u ≤ 2 * r.qs u) {p p' : Rows} {x} (h : EltIs n r level A true p x)
    (h' : level < p'.length) : EltWritten n r level r.qs false p' (r.invNttLvl level p p') x := by
  have h4 := hr.four_le
  refine PolyWritten.eltWritten hr (v := fun u => coeffsOf (r.sub u).psi n (zval _ (p.row u)))
    (writeLvl_is h' fun u hu => ?_) fun u hu => ?_
  · have V := hr.subAt (show u < r.subs.length by omega)
    have hlt := sr _ (Ring.sub_mem (show u < r.subs.length by omega))
    have h1 := ((h.polyIs hr).row u hu).mono (hA u hu)
    rw [hr.deg] at h1 ⊢
    exact invNtt_is V (by omega) hlt h1
  · rw [← h.eltOf hr hu]
    exact toR_coeffsOf _

end

end FastKsw
