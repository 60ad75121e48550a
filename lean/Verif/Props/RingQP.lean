import Verif.Spec.RingQP
import Verif.Lemmas.RingMisc
import Verif.Props.RingMisc
import Verif.Props.Samplers
import Verif.Lemmas.ModExp
import Mathlib.Tactic.NormNum.Prime

/-!
# C101: `RingQP` and `PolyQP`
-/

namespace FastKsw.Props

open Finset

section parts
variable {n : ℕ} {r : Option Ring} {l : ℕ}

theorem qpPart3_writes {f : Ring → ℕ → Rows → Rows → Rows → Rows} {a b o : Option Rows} {da db d : Dom} {ca cb c : ℕ}
    {A B z : ℕ → ℤ} (hv : ∀ s, r = some s → s.Valid n ∧ s.Small ∧ l < s.subs.length) (ha : PartHolds n r l da ca A a)
    (hb : PartHolds n r l db cb B b) (ho : PartRecv r l o)
    (H : ∀ s x y w, r = some s → o = some w → s.Valid n → s.Small → l < s.subs.length → l < w.length →
      PolyIs s l (fun i => ca * s.qs i) x (s.vec n da A) → PolyIs s l (fun i => cb * s.qs i) y (s.vec n db B) →
      PolyWritten s l (fun i => c * s.qs i) w (f s l x y w) (s.vec n d z)) :
    ∃ o', qpPart3 f r l a b o = .ok o' ∧ PartWritten n r l d c z o o' := by
  cases r with
  | none => exact ⟨o, rfl, fun _ => rfl, fun s hs => by simp at hs⟩
  | some s =>
    obtain ⟨x, rfl, hx⟩ := ha s rfl
    obtain ⟨y, rfl, hy⟩ := hb s rfl
    obtain ⟨w, rfl, hw⟩ := ho s rfl
    obtain ⟨v1, v2, v3⟩ := hv s rfl
    refine ⟨some (f s l x y w), ?_, fun h => by simp at h, fun s' hs' => ?_⟩
    · simp only [qpPart3]
      rw [if_pos ⟨v3, hx.lvl, hy.lvl, hw⟩]
    · obtain rfl : s = s' := by simpa using hs'
      exact ⟨w, _, rfl, rfl, H s x y w rfl rfl v1 v2 v3 hw hx hy⟩

theorem qpPart2_writes {f : Ring → ℕ → Rows → Rows → Rows} {k : Ring → ℕ → ℕ} {a o : Option Rows} {da d : Dom} {ca c : ℕ}
    {A z : ℕ → ℤ} (hk : ∀ s, k s l ≤ l + 1) (hv : ∀ s, r = some s → s.Valid n ∧ s.Small ∧ l < s.subs.length)
    (ha : PartHolds n r l da ca A a) (ho : PartRecv r l o)
    (H : ∀ s x w, r = some s → o = some w → s.Valid n → s.Small → l < s.subs.length → l < w.length →
      PolyIs s l (fun i => ca * s.qs i) x (s.vec n da A) →
      PolyWritten s l (fun i => c * s.qs i) w (f s l x w) (s.vec n d z)) :
    ∃ o', qpPart2 f k r l a o = .ok o' ∧ PartWritten n r l d c z o o' := by
  cases r with
  | none => exact ⟨o, rfl, fun _ => rfl, fun s hs => by simp at hs⟩
  | some s =>
    obtain ⟨x, rfl, hx⟩ := ha s rfl
    obtain ⟨w, rfl, hw⟩ := ho s rfl
    obtain ⟨v1, v2, v3⟩ := hv s rfl
    refine ⟨some (f s l x w), ?_, fun h => by simp at h, fun s' hs' => ?_⟩
    · simp only [qpPart2]
      rw [if_pos ⟨by have := hk s; omega, hx.lvl, hw⟩]
    · obtain rfl : s = s' := by simpa using hs'
      exact ⟨w, _, rfl, rfl, H s x w rfl rfl v1 v2 v3 hw hx⟩

theorem PartHolds.recv {x : Option Rows} {d : Dom} {c : ℕ} {z : ℕ → ℤ} (h : PartHolds n r l d c z x) : PartRecv r l x :=
  fun s hs => by
    obtain ⟨y, h1, h2⟩ := h s hs
    exact ⟨y, h1, h2.lvl⟩

end parts

section ops
variable {n : ℕ} {R : RingQP} {lQ lP : ℕ}

theorem op3_writes {f : Ring → ℕ → Rows → Rows → Rows → Rows} {a b o : PolyQPN} {da db d : Dom} {ca cb c : ℕ} {A B z : ℕ → ℤ}
    (hR : R.Valid n lQ lP) (ha : a.Holds n R lQ lP da ca A) (hb : b.Holds n R lQ lP db cb B) (ho : o.Recv R lQ lP)
    (H : ∀ s l x y w, (R.q = some s ∧ o.q = some w ∧ l = lQ ∨ R.p = some s ∧ o.p = some w ∧ l = lP) →
      s.Valid n → s.Small → l < s.subs.length → l < w.length →
      PolyIs s l (fun i => ca * s.qs i) x (s.vec n da A) → PolyIs s l (fun i => cb * s.qs i) y (s.vec n db B) →
      PolyWritten s l (fun i => c * s.qs i) w (f s l x y w) (s.vec n d z)) :
    R.Writes n lQ lP d c z o (RingQP.op3 f R lQ lP a b o) := by
  obtain ⟨q', h1, h2⟩ := qpPart3_writes (f := f) (c := c) (d := d) (z := z) hR.q ha.q hb.q ho.q
    (fun s x y w e1 e2 => H s lQ x y w (.inl ⟨e1, e2, rfl⟩))
  obtain ⟨p', h3, h4⟩ := qpPart3_writes (f := f) (c := c) (d := d) (z := z) hR.p ha.p hb.p ho.p
    (fun s x y w e1 e2 => H s lP x y w (.inr ⟨e1, e2, rfl⟩))
  refine ⟨⟨q', p'⟩, ?_, h2, h4⟩
  simp [RingQP.op3, h1, h3]

theorem op2_writes {f : Ring → ℕ → Rows → Rows → Rows} {k : Ring → ℕ → ℕ} {a o : PolyQPN} {da d : Dom} {ca c : ℕ} {A z : ℕ → ℤ}
    (hk : ∀ s l, k s l ≤ l + 1) (hR : R.Valid n lQ lP) (ha : a.Holds n R lQ lP da ca A) (ho : o.Recv R lQ lP)
    (H : ∀ s l x w, (R.q = some s ∧ o.q = some w ∧ l = lQ ∨ R.p = some s ∧ o.p = some w ∧ l = lP) →
      s.Valid n → s.Small → l < s.subs.length → l < w.length →
      PolyIs s l (fun i => ca * s.qs i) x (s.vec n da A) →
      PolyWritten s l (fun i => c * s.qs i) w (f s l x w) (s.vec n d z)) :
    R.Writes n lQ lP d c z o (RingQP.op2 f k R lQ lP a o) := by
  obtain ⟨q', h1, h2⟩ := qpPart2_writes (f := f) (c := c) (d := d) (z := z) (fun s => hk s _) hR.q ha.q ho.q
    (fun s x w e1 e2 => H s lQ x w (.inl ⟨e1, e2, rfl⟩))
  obtain ⟨p', h3, h4⟩ := qpPart2_writes (f := f) (c := c) (d := d) (z := z) (fun s => hk s _) hR.p ha.p ho.p
    (fun s x w e1 e2 => H s lP x w (.inr ⟨e1, e2, rfl⟩))
  refine ⟨⟨q', p'⟩, ?_, h2, h4⟩
  simp [RingQP.op2, h1, h3]

theorem holds_of {o : PolyQPN} {d : Dom} {c : ℕ} {z : ℕ → ℤ} (ho : o.Holds n R lQ lP d c z) {s : Ring} {l : ℕ} {w : Rows}
    (h : R.q = some s ∧ o.q = some w ∧ l = lQ ∨ R.p = some s ∧ o.p = some w ∧ l = lP) :
    PolyIs s l (fun i => c * s.qs i) w (s.vec n d z) := by
  rcases h with ⟨h1, h2, rfl⟩ | ⟨h1, h2, rfl⟩
  · obtain ⟨y, h3, h4⟩ := ho.q s h1
    obtain rfl : w = y := by simpa [h2] using h3
    exact h4
  · obtain ⟨y, h3, h4⟩ := ho.p s h1
    obtain rfl : w = y := by simpa [h2] using h3
    exact h4

theorem PolyQPN.Holds.recv {o : PolyQPN} {d : Dom} {c : ℕ} {z : ℕ → ℤ} (ho : o.Holds n R lQ lP d c z) : o.Recv R lQ lP :=
  ⟨PartHolds.recv ho.q, PartHolds.recv ho.p⟩

theorem vec_add (s : Ring) (d : Dom) (A B : ℕ → ℤ) (i k : ℕ) :
    s.vec n d (fun k => A k + B k) i k = s.vec n d A i k + s.vec n d B i k := by
  cases d
  · simp [Ring.vec, Ring.intVec]
  · exact nttVec_add A B i k

theorem vec_sub (s : Ring) (d : Dom) (A B : ℕ → ℤ) (i k : ℕ) :
    s.vec n d (fun k => A k - B k) i k = s.vec n d A i k - s.vec n d B i k := by
  cases d
  · simp [Ring.vec, Ring.intVec]
  · exact nttVec_sub A B i k

theorem vec_smul (s : Ring) (d : Dom) (c : ℤ) (A : ℕ → ℤ) (i k : ℕ) :
    s.vec n d (fun k => c * A k) i k = c * s.vec n d A i k := by
  cases d
  · simp [Ring.vec, Ring.intVec]
  · exact nttVec_smul c A i k

theorem vec_mul {s : Ring} (hs : s.Valid n) (d : Dom) (A B : ℕ → ℤ) {i k : ℕ} (hi : i < s.subs.length) (hk : k < 2 ^ n) :
    s.vec n d (d.mul (2 ^ n) A B) i k = s.vec n d A i k * s.vec n d B i k := by
  cases d
  · simp [Ring.vec, Ring.intVec, Dom.mul]
  · exact nttVec_mul hs hi A B hk

/-- `2^64 a · b · 2^-64` -/
theorem vec_mont {s : Ring} (hs : s.Valid n) (d : Dom) (A B : ℕ → ℤ) {i k : ℕ} (hi : i < s.subs.length) (hk : k < 2 ^ n) :
    s.vec n d (fun k => 2 ^ 64 * A k) i k * s.vec n d B i k * rinv _ = s.vec n d (d.mul (2 ^ n) A B) i k := by
  have h := vec_smul (n := n) s d (2 ^ 64) A i k
  rw [h, vec_mul hs d A B hi hk]
  have h1 := rinv_mul (hs.subAt hi).arith.odd
  push_cast
  calc _ = s.vec n d A i k * s.vec n d B i k * (rinv _ * 2 ^ 64) := by ring
    _ = _ := by rw [h1, mul_one]

theorem bound_le {s : Ring} (hs : s.Small) {i c : ℕ} (hi : i < s.subs.length) (hc : c ≤ 8) : c * s.qs i ≤ 2 ^ 64 := by
  have h : s.qs i < 2 ^ 61 := hs _ (Ring.sub_mem hi)
  calc c * s.qs i ≤ 8 * 2 ^ 61 := Nat.mul_le_mul hc h.le
    _ = _ := by norm_num

theorem bound_mul {s : Ring} (hs : s.Small) {i a b : ℕ} (hi : i < s.subs.length) (hc : a * b ≤ 8) :
    a * s.qs i * (b * s.qs i) ≤ s.qs i * 2 ^ 64 := by
  have h := bound_le hs hi hc
  calc a * s.qs i * (b * s.qs i) = s.qs i * (a * b * s.qs i) := by ring
    _ ≤ _ := Nat.mul_le_mul_left _ h

variable {a b o : PolyQPN} {d : Dom} {c ca cb : ℕ} {A B C : ℕ → ℤ}

/-- **C101.** `AddLvl` adds two polynomials modulo `QP`. -/
theorem C101_add (hR : R.Valid n lQ lP) (ha : a.Holds n R lQ lP d 1 A) (hb : b.Holds n R lQ lP d 1 B) (ho : o.Recv R lQ lP) :
    R.Writes n lQ lP d 1 (fun k => A k + B k) o (R.addLvl lQ lP a b o) := by
  refine op3_writes hR ha hb ho fun s l x y w _ v _ hl hw hx hy => ?_
  simp only [one_mul] at hx hy ⊢
  have h := C10_add (v.arithLvl hl) hx hy hw
  exact ⟨h.is.congr fun i _ k _ => (vec_add s d A B i k).symm, h.len, h.above⟩

/-- **C101.** `SubLvl` subtracts. -/
theorem C101_sub (hR : R.Valid n lQ lP) (ha : a.Holds n R lQ lP d 1 A) (hb : b.Holds n R lQ lP d 1 B) (ho : o.Recv R lQ lP) :
    R.Writes n lQ lP d 1 (fun k => A k - B k) o (R.subLvl lQ lP a b o) := by
  refine op3_writes hR ha hb ho fun s l x y w _ v _ hl hw hx hy => ?_
  simp only [one_mul] at hx hy ⊢
  have h := C10_sub (v.arithLvl hl) hx hy hw
  exact ⟨h.is.congr fun i _ k _ => (vec_sub s d A B i k).symm, h.len, h.above⟩

/-- **C101.** `AddNoModLvl` adds without reduction: up to eight moduli in all, no word wraps. -/
theorem C101_addNoMod (hR : R.Valid n lQ lP) (hc : ca + cb ≤ 8) (ha : a.Holds n R lQ lP d ca A) (hb : b.Holds n R lQ lP d cb B)
    (ho : o.Recv R lQ lP) : R.Writes n lQ lP d (ca + cb) (fun k => A k + B k) o (R.addNoModLvl lQ lP a b o) := by
  refine op3_writes hR ha hb ho fun s l x y w _ v sm hl hw hx hy => ?_
  have h := C10_addNoMod hx hy (fun i hi => by rw [← add_mul]; exact bound_le sm (by omega) hc) hw
  simp only [← add_mul] at h
  exact ⟨h.is.congr fun i _ k _ => (vec_add s d A B i k).symm, h.len, h.above⟩

/-- **C101.** `NTTLvl` turns coefficients below four times the modulus into values, reduced. -/
theorem C101_ntt (hR : R.Valid n lQ lP) (hc : c ≤ 4) (ha : a.Holds n R lQ lP .coeff c A) (ho : o.Recv R lQ lP) :
    R.Writes n lQ lP .ntt 1 A o (R.nttLvl lQ lP a o) := by
  refine op2_writes (fun _ _ => le_refl _) hR ha ho fun s l x w _ v sm hl hw hx => ?_
  have h4 := v.four_le
  refine writeLvl_is hw fun i hi => ?_
  have V := v.subAt (show i < s.subs.length by omega)
  have hlt := sm _ (Ring.sub_mem (show i < s.subs.length by omega))
  have h1 := (hx.row i hi).mono (Nat.mul_le_mul_right _ hc)
  rw [v.deg] at h1 ⊢
  rw [one_mul]
  exact ntt_is V (by omega) hlt (by unfold Ring.qs; omega) h1

/-- **C101.** `NTTLazyLvl` does the same with values below six times the modulus (the comment promises two, C14). -/
theorem C101_nttLazy (hR : R.Valid n lQ lP) (hc : c ≤ 4) (ha : a.Holds n R lQ lP .coeff c A) (ho : o.Recv R lQ lP) :
    R.Writes n lQ lP .ntt 6 A o (R.nttLazyLvl lQ lP a o) := by
  refine op2_writes (fun _ _ => le_refl _) hR ha ho fun s l x w _ v sm hl hw hx => ?_
  have h4 := v.four_le
  refine writeLvl_is hw fun i hi => ?_
  have V := v.subAt (show i < s.subs.length by omega)
  have hlt := sm _ (Ring.sub_mem (show i < s.subs.length by omega))
  have h1 := (hx.row i hi).mono (Nat.mul_le_mul_right _ hc)
  rw [v.deg] at h1 ⊢
  exact (nttLazy_is V (by omega) hlt le_rfl (by omega) h1).mono (by unfold Ring.qs; omega)

/-- **C101.** `InvNTTLvl` turns values below twice the modulus back into coefficients, reduced. -/
theorem C101_invNtt (hR : R.Valid n lQ lP) (hc : c ≤ 2) (ha : a.Holds n R lQ lP .ntt c A) (ho : o.Recv R lQ lP) :
    R.Writes n lQ lP .coeff 1 A o (R.invNttLvl lQ lP a o) := by
  refine op2_writes (fun _ _ => le_refl _) hR ha ho fun s l x w _ v sm hl hw hx => ?_
  have h4 := v.four_le
  refine writeLvl_is hw fun i hi => ?_
  have V := v.subAt (show i < s.subs.length by omega)
  have hlt := sm _ (Ring.sub_mem (show i < s.subs.length by omega))
  have h1 := (hx.row i hi).mono (Nat.mul_le_mul_right _ hc)
  rw [v.deg] at h1 ⊢
  rw [one_mul]
  exact (invNtt_is V (by omega) hlt h1).congr (coeffsOf_evals V (by omega) _)

/-- **C101.** `MFormLvl` multiplies by `2^64`. -/
theorem C101_mform (hR : R.Valid n lQ lP) (ha : a.Holds n R lQ lP d c A) (ho : o.Recv R lQ lP) :
    R.Writes n lQ lP d 1 (fun k => 2 ^ 64 * A k) o (R.mformLvl lQ lP a o) := by
  refine op2_writes (fun _ _ => le_refl _) hR ha ho fun s l x w _ v sm hl hw hx => ?_
  simp only [one_mul]
  have h := C10_mform (v.arithLvl hl) hx hw
  refine ⟨h.is.congr fun i _ k _ => ?_, h.len, h.above⟩
  have e := vec_smul (n := n) s d (2 ^ 64) A i k
  rw [e]
  push_cast
  ring

/-- **C101.** `InvMFormLvl` undoes it. -/
theorem C101_invMform (hR : R.Valid n lQ lP) (ha : a.Holds n R lQ lP d c (fun k => 2 ^ 64 * A k)) (ho : o.Recv R lQ lP) :
    R.Writes n lQ lP d 1 A o (R.invMformLvl lQ lP a o) := by
  refine op2_writes (fun _ _ => le_refl _) hR ha ho fun s l x w _ v sm hl hw hx => ?_
  simp only [one_mul]
  have h := C10_invMform (v.arithLvl hl) hx hw
  refine ⟨h.is.congr fun i hi k _ => ?_, h.len, h.above⟩
  have e := vec_smul (n := n) s d (2 ^ 64) A i k
  have h1 := rinv_mul (v.subAt (show i < s.subs.length by omega)).arith.odd
  rw [e]
  push_cast
  calc _ = s.vec n d A i k * (rinv _ * 2 ^ 64) := by ring
    _ = _ := by rw [h1, mul_one]

/-- **C101.** `MulCoeffsMontgomeryLvl` of a polynomial in Montgomery form and another: in NTT form the result is the product modulo
`X^N + 1`, reduced. -/
theorem C101_mul (hR : R.Valid n lQ lP) (hc : ca * cb ≤ 8) (ha : a.Holds n R lQ lP d ca (fun k => 2 ^ 64 * A k))
    (hb : b.Holds n R lQ lP d cb B) (ho : o.Recv R lQ lP) :
    R.Writes n lQ lP d 1 (d.mul (2 ^ n) A B) o (R.mulCoeffsMontgomeryLvl lQ lP a b o) := by
  refine op3_writes hR ha hb ho fun s l x y w _ v sm hl hw hx hy => ?_
  simp only [one_mul]
  have h := C10_mulCoeffsMontgomery (v.arithLvl hl) hx hy (fun i hi => bound_mul sm (by omega) hc) hw
  exact ⟨h.is.congr fun i hi k hk => vec_mont v d A B (by omega) (by rwa [v.deg] at hk), h.len, h.above⟩

/-- **C101.** `MulCoeffsMontgomeryConstantLvl`: the same product, below twice the modulus. -/
theorem C101_mulConstant (hR : R.Valid n lQ lP) (hc : ca * cb ≤ 8) (ha : a.Holds n R lQ lP d ca (fun k => 2 ^ 64 * A k))
    (hb : b.Holds n R lQ lP d cb B) (ho : o.Recv R lQ lP) :
    R.Writes n lQ lP d 2 (d.mul (2 ^ n) A B) o (R.mulCoeffsMontgomeryConstantLvl lQ lP a b o) := by
  refine op3_writes hR ha hb ho fun s l x y w _ v sm hl hw hx hy => ?_
  have h := C10_mulCoeffsMontgomeryConstant (v.arithLvl hl) hx hy (fun i hi => bound_mul sm (by omega) hc) hw
  exact ⟨h.is.congr fun i hi k hk => vec_mont v d A B (by omega) (by rwa [v.deg] at hk), h.len, h.above⟩

/-- **C101.** `MulCoeffsMontgomeryAndAddLvl` adds the product to the receiver. -/
theorem C101_mulAndAdd (hR : R.Valid n lQ lP) (hc : ca * cb ≤ 8) (ha : a.Holds n R lQ lP d ca (fun k => 2 ^ 64 * A k))
    (hb : b.Holds n R lQ lP d cb B) (ho : o.Holds n R lQ lP d 1 C) :
    R.Writes n lQ lP d 1 (fun k => C k + d.mul (2 ^ n) A B k) o (R.mulCoeffsMontgomeryAndAddLvl lQ lP a b o) := by
  refine op3_writes hR ha hb (PolyQPN.Holds.recv ho) fun s l x y w hw v sm hl _ hx hy => ?_
  have hw := holds_of ho hw
  simp only [one_mul] at hw ⊢
  have h := C10_mulCoeffsMontgomeryAndAdd (v.arithLvl hl) hx hy (fun i hi => bound_mul sm (by omega) hc) hw
  refine ⟨h.is.congr fun i hi k hk => ?_, h.len, h.above⟩
  rw [vec_mont v d A B (by omega) (by rwa [v.deg] at hk), ← vec_add]

/-- **C101.** `MulCoeffsMontgomeryAndSubLvl` subtracts it. -/
theorem C101_mulAndSub (hR : R.Valid n lQ lP) (hc : ca * cb ≤ 8) (ha : a.Holds n R lQ lP d ca (fun k => 2 ^ 64 * A k))
    (hb : b.Holds n R lQ lP d cb B) (ho : o.Holds n R lQ lP d 1 C) :
    R.Writes n lQ lP d 1 (fun k => C k - d.mul (2 ^ n) A B k) o (R.mulCoeffsMontgomeryAndSubLvl lQ lP a b o) := by
  refine op3_writes hR ha hb (PolyQPN.Holds.recv ho) fun s l x y w hw v sm hl _ hx hy => ?_
  have hw := holds_of ho hw
  simp only [one_mul] at hw ⊢
  have h := C10_mulCoeffsMontgomeryAndSub (v.arithLvl hl) hx hy (fun i hi => bound_mul sm (by omega) hc) hw
  refine ⟨h.is.congr fun i hi k hk => ?_, h.len, h.above⟩
  rw [vec_mont v d A B (by omega) (by rwa [v.deg] at hk), ← vec_sub]

/-- **C101.** `MulCoeffsMontgomeryConstantAndAddNoModLvl` adds it without reduction: the bound grows by two moduli (the comment promises that the
result stays below two). -/
theorem C101_mulConstantAndAddNoMod (hR : R.Valid n lQ lP) (hc : ca * cb ≤ 8) (hc2 : c + 2 ≤ 8)
    (ha : a.Holds n R lQ lP d ca (fun k => 2 ^ 64 * A k)) (hb : b.Holds n R lQ lP d cb B) (ho : o.Holds n R lQ lP d c C) :
    R.Writes n lQ lP d (c + 2) (fun k => C k + d.mul (2 ^ n) A B k) o
      (R.mulCoeffsMontgomeryConstantAndAddNoModLvl lQ lP a b o) := by
  refine op3_writes hR ha hb (PolyQPN.Holds.recv ho) fun s l x y w hw v sm hl _ hx hy => ?_
  have h := C10_mulCoeffsMontgomeryConstantAndAddNoMod (v.arithLvl hl) hx hy (fun i hi => bound_mul sm (by omega) hc)
    (holds_of ho hw) (fun i hi => by rw [← add_mul]; exact bound_le sm (by omega) hc2)
  simp only [← add_mul] at h
  refine ⟨h.is.congr fun i hi k hk => ?_, h.len, h.above⟩
  rw [vec_mont v d A B (by omega) (by rwa [v.deg] at hk), ← vec_add]

/-- **C101.** `MulCoeffsMontgomeryConstantAndSubNoModLvl` subtracts it without reduction. -/
theorem C101_mulConstantAndSubNoMod (hR : R.Valid n lQ lP) (hc : ca * cb ≤ 8) (hc2 : c + 2 ≤ 8)
    (ha : a.Holds n R lQ lP d ca (fun k => 2 ^ 64 * A k)) (hb : b.Holds n R lQ lP d cb B) (ho : o.Holds n R lQ lP d c C) :
    R.Writes n lQ lP d (c + 2) (fun k => C k - d.mul (2 ^ n) A B k) o
      (R.mulCoeffsMontgomeryConstantAndSubNoModLvl lQ lP a b o) := by
  refine op3_writes hR ha hb (PolyQPN.Holds.recv ho) fun s l x y w hw v sm hl _ hx hy => ?_
  have h := C10_mulCoeffsMontgomeryConstantAndSubNoMod (v.arithLvl hl) hx hy (fun i hi => bound_mul sm (by omega) hc)
    (holds_of ho hw) (fun i hi => by rw [← add_mul]; exact bound_le sm (by omega) hc2)
  simp only [← add_mul] at h
  refine ⟨h.is.congr fun i hi k hk => ?_, h.len, h.above⟩
  rw [vec_mont v d A B (by omega) (by rwa [v.deg] at hk), ← vec_sub]

/-- **C101.** `PermuteNTTWithIndexLvl` with the table of `g` made by any ring of the same degree applies `X ↦ X^g`. -/
theorem C101_permute {t : Ring} (ht : t.Valid n) (hR : R.Valid n lQ lP) {g : UInt64} (hg : g.toNat % 2 = 1)
    (ha : a.Holds n R lQ lP .ntt c A) (ho : o.Recv R lQ lP) :
    R.Writes n lQ lP .ntt c (autInt (2 ^ n) g.toNat A) o (RingQP.permuteNTTWithIndexLvl (t.permuteNTTIndex g) R lQ lP a o) := by
  have hn := valid_n_lt ht
  have h4 := ht.four_le
  have hidx := fun i (hi : i < 2 ^ n) =>
    permuteNTTIndex_at (r := t) (by omega) (by omega) ht.deg ht.root g hg hi
  refine op2_writes (fun _ _ => Nat.zero_le _) hR ha ho fun s l x w _ v sm hl hw hx => ?_
  refine writeLvl_is hw fun u hu => ?_
  have h1 := hx.row u hu
  rw [v.deg] at *
  refine (permuteNTTRow_is (fun j hj => (hidx j hj).1) h1).congr (fun k hk => ?_)
  exact (nttVec_autInt v (by omega) hg (fun i => ((t.permuteNTTIndex g).at i).toNat) hidx A hk).symm

/-- **C101.** `PermuteNTTWithIndexAndAddNoModLvl` adds the image to the receiver. -/
theorem C101_permuteAndAdd {t : Ring} (ht : t.Valid n) (hR : R.Valid n lQ lP) {g : UInt64} (hg : g.toNat % 2 = 1)
    (hc : c + ca ≤ 8) (ha : a.Holds n R lQ lP .ntt ca A) (ho : o.Holds n R lQ lP .ntt c C) :
    R.Writes n lQ lP .ntt (c + ca) (fun k => C k + autInt (2 ^ n) g.toNat A k) o
      (RingQP.permuteNTTWithIndexAndAddNoModLvl (t.permuteNTTIndex g) R lQ lP a o) := by
  have hn := valid_n_lt ht
  have h4 := ht.four_le
  have hidx := fun i (hi : i < 2 ^ n) =>
    permuteNTTIndex_at (r := t) (by omega) (by omega) ht.deg ht.root g hg hi
  refine op2_writes (fun _ _ => Nat.zero_le _) hR ha (PolyQPN.Holds.recv ho) fun s l x w hw v sm hl hwl hx => ?_
  have hw := holds_of ho hw
  refine writeLvl_is hwl fun u hu => ?_
  have h1 := hx.row u hu
  have h2 := hw.row u hu
  rw [v.deg] at *
  rw [add_mul]
  refine (addVecNoMod_is h2 (permuteNTTRow_is (fun j hj => (hidx j hj).1) h1) (by
    rw [← add_mul]; exact bound_le sm (by omega) hc)).congr (fun k hk => ?_)
  rw [vec_add]
  congr 1
  exact (nttVec_autInt v (by omega) hg (fun i => ((t.permuteNTTIndex g).at i).toNat) hidx A hk).symm

/-- **C101.** `CopyValuesLvl` copies what the operand holds. -/
theorem C101_copyValuesLvl (ha : a.Holds n R lQ lP d c A) (ho : o.Recv R lQ lP) :
    R.Writes n lQ lP d c A o (R.copyValuesLvl lQ lP a o) := by
  have key : ∀ (r : Option Ring) (l : ℕ) (x y : Option Rows), PartHolds n r l d c A x → PartRecv r l y →
      ∃ y', RingQP.copyPartLvl r l x y = .ok y' ∧ PartWritten n r l d c A y y' := by
    intro r l x y hx hy
    cases r with
    | none => exact ⟨y, rfl, fun _ => rfl, fun s hs => by simp at hs⟩
    | some s =>
      obtain ⟨x, rfl, h⟩ := hx s rfl
      obtain ⟨w, rfl, hw⟩ := hy s rfl
      refine ⟨some (FastKsw.copyValuesLvl l x w), ?_, fun h => by simp at h, fun s' hs' => ?_⟩
      · simp only [RingQP.copyPartLvl]
        rw [if_pos ⟨h.lvl, hw⟩]
      · obtain rfl : s = s' := by simpa using hs'
        exact ⟨w, _, rfl, rfl, writeLvl_is hw h.row⟩
  obtain ⟨q', h1, h2⟩ := key R.q lQ a.q o.q ha.q ho.q
  obtain ⟨p', h3, h4⟩ := key R.p lP a.p o.p ha.p ho.p
  exact ⟨⟨q', p'⟩, by simp [RingQP.copyValuesLvl, h1, h3], h2, h4⟩

end ops

/-! ### Panics -/

/-- part `x` has row `l` -/
def HasRow (l : ℕ) (x : Option Rows) : Prop := ∃ y, x = some y ∧ l < y.length

theorem qpPart3_panic (f : Ring → ℕ → Rows → Rows → Rows → Rows) (r : Option Ring) (l : ℕ) (a b o : Option Rows) :
    (∃ o', qpPart3 f r l a b o = .ok o') ∧ (∀ s, r = some s → l < s.subs.length ∧ HasRow l a ∧ HasRow l b ∧ HasRow l o) ∨
    qpPart3 f r l a b o = .panic ∧ ∃ s, r = some s ∧ ¬ (l < s.subs.length ∧ HasRow l a ∧ HasRow l b ∧ HasRow l o) := by
  cases r with
  | none => exact .inl ⟨⟨o, rfl⟩, fun s hs => by simp at hs⟩
  | some s =>
    rcases a with - | a <;> rcases b with - | b <;> rcases o with - | o
    case some.some.some =>
      by_cases h : l < s.subs.length ∧ l < a.length ∧ l < b.length ∧ l < o.length
      · refine .inl ⟨⟨_, by simp only [qpPart3]; rw [if_pos h]⟩, fun s' hs' => ?_⟩
        obtain rfl : s = s' := by simpa using hs'
        exact ⟨h.1, ⟨a, rfl, h.2.1⟩, ⟨b, rfl, h.2.2.1⟩, ⟨o, rfl, h.2.2.2⟩⟩
      · refine .inr ⟨by simp only [qpPart3]; rw [if_neg h], s, rfl, ?_⟩
        simpa [HasRow] using h
    all_goals exact .inr ⟨rfl, s, rfl, by simp [HasRow]⟩

theorem qpPart2_panic (f : Ring → ℕ → Rows → Rows → Rows) (k : Ring → ℕ → ℕ) (r : Option Ring) (l : ℕ) (a o : Option Rows) :
    (∃ o', qpPart2 f k r l a o = .ok o') ∧ (∀ s, r = some s → k s l ≤ s.subs.length ∧ HasRow l a ∧ HasRow l o) ∨
    qpPart2 f k r l a o = .panic ∧ ∃ s, r = some s ∧ ¬ (k s l ≤ s.subs.length ∧ HasRow l a ∧ HasRow l o) := by
  cases r with
  | none => exact .inl ⟨⟨o, rfl⟩, fun s hs => by simp at hs⟩
  | some s =>
    rcases a with - | a <;> rcases o with - | o
    case some.some =>
      by_cases h : k s l ≤ s.subs.length ∧ l < a.length ∧ l < o.length
      · refine .inl ⟨⟨_, by simp only [qpPart2]; rw [if_pos h]⟩, fun s' hs' => ?_⟩
        obtain rfl : s = s' := by simpa using hs'
        exact ⟨h.1, ⟨a, rfl, h.2.1⟩, ⟨o, rfl, h.2.2⟩⟩
      · refine .inr ⟨by simp only [qpPart2]; rw [if_neg h], s, rfl, ?_⟩
        simpa [HasRow] using h
    all_goals exact .inr ⟨rfl, s, rfl, by simp [HasRow]⟩

theorem op3_panic (f : Ring → ℕ → Rows → Rows → Rows → Rows) (R : RingQP) (lQ lP : ℕ) (a b o : PolyQPN) :
    RingQP.op3 f R lQ lP a b o = .panic ↔
      ¬ ((∀ s, R.q = some s → lQ < s.subs.length ∧ HasRow lQ a.q ∧ HasRow lQ b.q ∧ HasRow lQ o.q) ∧
        ∀ s, R.p = some s → lP < s.subs.length ∧ HasRow lP a.p ∧ HasRow lP b.p ∧ HasRow lP o.p) := by
  rcases qpPart3_panic f R.q lQ a.q b.q o.q with ⟨⟨o1, h1⟩, h2⟩ | ⟨h1, s, h2, h3⟩
  · rcases qpPart3_panic f R.p lP a.p b.p o.p with ⟨⟨o2, h3⟩, h4⟩ | ⟨h3, s, h4, h5⟩
    · simp only [RingQP.op3, h1, h3, Go.bind_ok, Go.pure_eq, reduceCtorEq, false_iff, not_not]
      exact ⟨h2, h4⟩
    · simp only [RingQP.op3, h1, h3, Go.bind_ok, Go.bind_panic, true_iff]
      exact fun h => h5 (h.2 s h4)
  · simp only [RingQP.op3, h1, Go.bind_panic, true_iff]
    exact fun h => h3 (h.1 s h2)

theorem op2_panic (f : Ring → ℕ → Rows → Rows → Rows) (k : Ring → ℕ → ℕ) (R : RingQP) (lQ lP : ℕ) (a o : PolyQPN) :
    RingQP.op2 f k R lQ lP a o = .panic ↔
      ¬ ((∀ s, R.q = some s → k s lQ ≤ s.subs.length ∧ HasRow lQ a.q ∧ HasRow lQ o.q) ∧
        ∀ s, R.p = some s → k s lP ≤ s.subs.length ∧ HasRow lP a.p ∧ HasRow lP o.p) := by
  rcases qpPart2_panic f k R.q lQ a.q o.q with ⟨⟨o1, h1⟩, h2⟩ | ⟨h1, s, h2, h3⟩
  · rcases qpPart2_panic f k R.p lP a.p o.p with ⟨⟨o2, h3⟩, h4⟩ | ⟨h3, s, h4, h5⟩
    · simp only [RingQP.op2, h1, h3, Go.bind_ok, Go.pure_eq, reduceCtorEq, false_iff, not_not]
      exact ⟨h2, h4⟩
    · simp only [RingQP.op2, h1, h3, Go.bind_ok, Go.bind_panic, true_iff]
      exact fun h => h5 (h.2 s h4)
  · simp only [RingQP.op2, h1, Go.bind_panic, true_iff]
    exact fun h => h3 (h.1 s h2)

/-- **C101 (panics).** An operation on two polynomials panics exactly when for a ring that is there the level is not below the number of its
moduli, or one of the three polynomials lacks the part or has no row at the level.  Parts over a ring that is not there do not matter. -/
theorem C101_panic3 (R : RingQP) (lQ lP : ℕ) (a b o : PolyQPN) :
    ∀ op ∈ [RingQP.addLvl, RingQP.addNoModLvl, RingQP.subLvl, RingQP.mulCoeffsMontgomeryLvl,
      RingQP.mulCoeffsMontgomeryConstantLvl, RingQP.mulCoeffsMontgomeryConstantAndAddNoModLvl,
      RingQP.mulCoeffsMontgomeryAndSubLvl, RingQP.mulCoeffsMontgomeryConstantAndSubNoModLvl,
      RingQP.mulCoeffsMontgomeryAndAddLvl],
    (op R lQ lP a b o = .panic ↔
      ¬ ((∀ s, R.q = some s → lQ < s.subs.length ∧ HasRow lQ a.q ∧ HasRow lQ b.q ∧ HasRow lQ o.q) ∧
        ∀ s, R.p = some s → lP < s.subs.length ∧ HasRow lP a.p ∧ HasRow lP b.p ∧ HasRow lP o.p)) := by
  intro op hop
  simp only [List.mem_cons, List.not_mem_nil, or_false] at hop
  rcases hop with rfl | rfl | rfl | rfl | rfl | rfl | rfl | rfl | rfl <;> exact op3_panic _ R lQ lP a b o

/-- **C101 (panics).** The same for operations on one polynomial; permutations do not read the moduli. -/
theorem C101_panic2 (R : RingQP) (lQ lP : ℕ) (a o : PolyQPN) :
    (∀ op ∈ [RingQP.nttLvl, RingQP.invNttLvl, RingQP.nttLazyLvl, RingQP.mformLvl, RingQP.invMformLvl],
      (op R lQ lP a o = .panic ↔
        ¬ ((∀ s, R.q = some s → lQ < s.subs.length ∧ HasRow lQ a.q ∧ HasRow lQ o.q) ∧
          ∀ s, R.p = some s → lP < s.subs.length ∧ HasRow lP a.p ∧ HasRow lP o.p))) ∧
    ∀ index, ∀ op ∈ [RingQP.permuteNTTWithIndexLvl index, RingQP.permuteNTTWithIndexAndAddNoModLvl index],
      (op R lQ lP a o = .panic ↔
        ¬ ((∀ s, R.q = some s → HasRow lQ a.q ∧ HasRow lQ o.q) ∧ ∀ s, R.p = some s → HasRow lP a.p ∧ HasRow lP o.p)) := by
  constructor
  · intro op hop
    simp only [List.mem_cons, List.not_mem_nil, or_false] at hop
    rcases hop with rfl | rfl | rfl | rfl | rfl <;> exact op2_panic _ _ R lQ lP a o
  · intro index op hop
    simp only [List.mem_cons, List.not_mem_nil, or_false] at hop
    rcases hop with rfl | rfl
    · refine (op2_panic _ _ R lQ lP a o).trans ?_
      simp
    · refine (op2_panic _ _ R lQ lP a o).trans ?_
      simp

/-! ### New polynomials -/

theorem newPoly_zero {s : Ring} {n l m : ℕ} (hm : l < m) (hs : s.Valid n) (hl : l < s.subs.length) (d : Dom) :
    PolyIs s l (fun i => 1 * s.qs i) (FastKsw.newPoly s.n m) (s.vec n d 0) := by
  refine ⟨by simpa [FastKsw.newPoly] using hm, fun i hi => ?_⟩
  have hr : (FastKsw.newPoly s.n m).row i = List.replicate s.n 0 := by
    simp [FastKsw.newPoly, Rows.row, List.getD, show i < m by omega]
  have h1 := (hs.subAt (show i < s.subs.length by omega)).arith.one_lt
  rw [hr]
  refine ⟨by simp, fun k hk => ?_, fun k hk => ?_⟩
  · rw [replicate_at _ _ hk, one_mul]
    show 0 < _
    unfold Ring.qs; omega
  · rw [zval, replicate_at _ _ hk]
    cases d <;> simp [Ring.vec, Ring.nttVec, Ring.intVec, evals]

/-- **C101.** `NewPoly` and `NewPolyLvl` hold zero, in both forms, at every level that they have. -/
theorem C101_newPoly {n : ℕ} {R : RingQP} {lQ lP : ℕ} (hR : R.Valid n lQ lP) (d : Dom) :
    R.newPoly.Holds n R lQ lP d 1 0 ∧ (R.newPolyLvl lQ lP).Holds n R lQ lP d 1 0 := by
  refine ⟨⟨fun s hs => ?_, fun s hs => ?_⟩, ⟨fun s hs => ?_, fun s hs => ?_⟩⟩
  · obtain ⟨v, -, h⟩ := hR.q s hs
    exact ⟨_, by simp [RingQP.newPoly, hs], newPoly_zero h v h d⟩
  · obtain ⟨v, -, h⟩ := hR.p s hs
    exact ⟨_, by simp [RingQP.newPoly, hs], newPoly_zero h v h d⟩
  · obtain ⟨v, -, h⟩ := hR.q s hs
    exact ⟨FastKsw.newPoly s.n (lQ + 1), by simp [RingQP.newPolyLvl, hs], newPoly_zero (by omega) v h d⟩
  · obtain ⟨v, -, h⟩ := hR.p s hs
    exact ⟨FastKsw.newPoly s.n (lP + 1), by simp [RingQP.newPolyLvl, hs], newPoly_zero (by omega) v h d⟩

/-! ### Polynomials modulo `QP` -/

section crt
variable {n : ℕ} {rQ rP : Ring} {lQ lP : ℕ} {d : Dom}

theorem vec_coeff {s : Ring} (hs : s.Valid n) {i : ℕ} (hi : i < s.subs.length) {z z' : ℕ → ℤ} :
    (∀ k < 2 ^ n, s.vec n d z i k = s.vec n d z' i k) ↔ ∀ k < 2 ^ n, (z k : ZMod (s.sub i).q.toNat) = z' k := by
  cases d with
  | coeff => rfl
  | ntt =>
    constructor
    · intro h
      exact toR_inj (by positivity) (intR_of_nttVec hs hi h)
    · intro h k _
      exact evals_congr _ _ (fun j hj => h j hj) k

theorem polyIs_vec_iff {s : Ring} (hs : s.Valid n) {l : ℕ} (hl : l < s.subs.length) {x : Rows} {C : ℕ → ℕ} {z z' : ℕ → ℤ}
    (h : PolyIs s l C x (s.vec n d z)) :
    PolyIs s l C x (s.vec n d z') ↔ ∀ i ≤ l, ∀ k < 2 ^ n, (z k : ZMod (s.sub i).q.toNat) = z' k := by
  constructor
  · intro h' i hi
    refine (vec_coeff (d := d) hs (show i < s.subs.length by omega)).1 fun k hk => ?_
    rw [← hs.deg] at hk
    exact ((h.row i hi).val k hk).symm.trans ((h'.row i hi).val k hk)
  · intro h'
    refine h.congr fun i hi k hk => ?_
    rw [hs.deg] at hk
    exact (vec_coeff (d := d) hs (show i < s.subs.length by omega)).2 (h' i hi) k hk

theorem prodQP_dvd_iff (hQ : rQ.Valid n) (hP : rP.Valid n) (hd : rQ.Disjoint rP) (hlQ : lQ < rQ.subs.length)
    (hlP : lP < rP.subs.length) (a b : ℤ) :
    ((∀ i ≤ lQ, (a : ZMod (rQ.sub i).q.toNat) = b) ∧ ∀ i ≤ lP, (a : ZMod (rP.sub i).q.toNat) = b) ↔
      ((rQ.prodQ lQ * rP.prodQ lP : ℕ) : ℤ) ∣ a - b := by
  have e : ∀ (s : Ring) i, (a : ZMod (s.sub i).q.toNat) = b ↔ ((s.qs i : ℕ) : ℤ) ∣ a - b := by
    intro s i
    rw [ZMod.intCast_eq_intCast_iff, Int.modEq_comm, Int.modEq_iff_dvd]
  simp only [e]
  constructor
  · rintro ⟨h1, h2⟩
    have hone : ∀ (s : Ring) (l : ℕ), s.Valid n → l < s.subs.length → (∀ i ≤ l, ((s.qs i : ℕ) : ℤ) ∣ a - b) →
        ((s.prodQ l : ℕ) : ℤ) ∣ a - b := by
      intro s l hs hl h
      unfold Ring.prodQ
      push_cast
      refine Finset.prod_dvd_of_coprime (fun i hi j hj hij => ?_) fun i hi => h i (by have := mem_range.1 hi; omega)
      have hi' : i < s.subs.length := by have := mem_range.1 (mem_coe.1 hi); omega
      have hj' : j < s.subs.length := by have := mem_range.1 (mem_coe.1 hj); omega
      exact Nat.Coprime.isCoprime ((Nat.coprime_primes (hs.subAt hi').prime (hs.subAt hj').prime).2
        fun he => hij (hs.q_inj hi' hj' he))
    push_cast
    refine IsCoprime.mul_dvd ?_ (hone rQ lQ hQ hlQ h1) (hone rP lP hP hlP h2)
    unfold Ring.prodQ
    push_cast
    refine IsCoprime.prod_left fun i hi => IsCoprime.prod_right fun j hj => ?_
    have hi' : i < rQ.subs.length := by have := mem_range.1 hi; omega
    have hj' : j < rP.subs.length := by have := mem_range.1 hj; omega
    exact Nat.Coprime.isCoprime ((Nat.coprime_primes (hQ.subAt hi').prime (hP.subAt hj').prime).2
      fun he => hd i hi' j hj' (UInt64.toNat_inj.1 he))
  · intro h
    have hq : ∀ (s : Ring) (l i : ℕ), i ≤ l → s.qs i ∣ s.prodQ l := fun s l i hi =>
      Finset.dvd_prod_of_mem (fun i => (s.sub i).q.toNat) (mem_range.2 (by omega))
    exact ⟨fun i hi => (Int.natCast_dvd_natCast.2 ((hq rQ lQ i hi).trans (Nat.dvd_mul_right _ _))).trans h,
      fun i hi => (Int.natCast_dvd_natCast.2 ((hq rP lP i hi).trans (Nat.dvd_mul_left _ _))).trans h⟩

/-- **C101 (polynomials modulo `QP`).** When no prime divides both `Q` and `P`, a `PolyQP` with reduced rows is a polynomial modulo `QP` and nothing
else, in either form: (1) two integer polynomials are held by the same rows exactly if they are congruent modulo `QP`; (2) any reduced rows hold
exactly one integer polynomial with coefficients in `[0, QP)`; (3) rows that hold the same polynomial are the same.  Partial: false for accepted parameters with a common prime (`C101_sharedPrime_violated`). -/
theorem C101_crt_partial (hQ : rQ.Valid n) (hP : rP.Valid n) (hd : rQ.Disjoint rP) (hlQ : lQ < rQ.subs.length)
    (hlP : lP < rP.subs.length) (d : Dom) :
    (∀ (x : PolyQPN) (c : ℕ) (z z' : ℕ → ℤ), x.Holds n ⟨some rQ, some rP⟩ lQ lP d c z →
      (x.Holds n ⟨some rQ, some rP⟩ lQ lP d c z' ↔ ∀ k < 2 ^ n, ((rQ.prodQ lQ * rP.prodQ lP : ℕ) : ℤ) ∣ z k - z' k)) ∧
    (∀ q p : Rows, lQ < q.length → lP < p.length →
      (∀ i ≤ lQ, (q.row i).length = 2 ^ n ∧ ∀ k < 2 ^ n, ((q.row i).at k).toNat < rQ.qs i) →
      (∀ i ≤ lP, (p.row i).length = 2 ^ n ∧ ∀ k < 2 ^ n, ((p.row i).at k).toNat < rP.qs i) →
      ∃! z : ℕ → ℤ, PolyQPN.Holds n ⟨some rQ, some rP⟩ lQ lP d 1 z ⟨some q, some p⟩ ∧
        (∀ k < 2 ^ n, 0 ≤ z k ∧ z k < ((rQ.prodQ lQ * rP.prodQ lP : ℕ) : ℤ)) ∧ ∀ k, 2 ^ n ≤ k → z k = 0) ∧
    (∀ (q p q' p' : Rows) (z : ℕ → ℤ), PolyQPN.Holds n ⟨some rQ, some rP⟩ lQ lP d 1 z ⟨some q, some p⟩ →
      PolyQPN.Holds n ⟨some rQ, some rP⟩ lQ lP d 1 z ⟨some q', some p'⟩ →
      (∀ i ≤ lQ, q.row i = q'.row i) ∧ ∀ i ≤ lP, p.row i = p'.row i) := by
  have part1 : ∀ (x : PolyQPN) (c : ℕ) (z z' : ℕ → ℤ), x.Holds n ⟨some rQ, some rP⟩ lQ lP d c z →
      (x.Holds n ⟨some rQ, some rP⟩ lQ lP d c z' ↔ ∀ k < 2 ^ n, ((rQ.prodQ lQ * rP.prodQ lP : ℕ) : ℤ) ∣ z k - z' k) := by
    intro x c z z' h
    obtain ⟨y, hy, h1⟩ := h.q rQ rfl
    obtain ⟨w, hw, h2⟩ := h.p rP rfl
    have e1 := polyIs_vec_iff hQ hlQ (z' := z') h1
    have e2 := polyIs_vec_iff hP hlP (z' := z') h2
    constructor
    · intro h' k hk
      obtain ⟨y', hy', h1'⟩ := h'.q rQ rfl
      obtain ⟨w', hw', h2'⟩ := h'.p rP rfl
      obtain rfl : y = y' := by simpa [hy] using hy'
      obtain rfl : w = w' := by simpa [hw] using hw'
      exact (prodQP_dvd_iff hQ hP hd hlQ hlP _ _).1 ⟨fun i hi => e1.1 h1' i hi k hk, fun i hi => e2.1 h2' i hi k hk⟩
    · intro h'
      have h3 := fun k hk => (prodQP_dvd_iff hQ hP hd hlQ hlP _ _).2 (h' k hk)
      refine ⟨fun s hs => ?_, fun s hs => ?_⟩
      · obtain rfl : rQ = s := by simpa using hs
        exact ⟨y, hy, e1.2 fun i hi k hk => (h3 k hk).1 i hi⟩
      · obtain rfl : rP = s := by simpa using hs
        exact ⟨w, hw, e2.2 fun i hi k hk => (h3 k hk).2 i hi⟩
  refine ⟨part1, fun q p hq hp hqr hpr => ?_, fun q p q' p' z h h' => ?_⟩
  · have hM : 0 < rQ.prodQ lQ * rP.prodQ lP := by
      have h1 : ∀ (s : Ring) l, s.Valid n → l < s.subs.length → 0 < s.prodQ l := fun s l hs hl =>
        Finset.prod_pos fun i hi => (hs.subAt (by have := mem_range.1 hi; omega)).prime.pos
      exact Nat.mul_pos (h1 rQ lQ hQ hlQ) (h1 rP lP hP hlP)
    have ex : ∃ X : ℕ → ℤ, (∀ u < rQ.subs.length, ∀ k < 2 ^ n, rQ.vec n d X u k = zval _ (q.row u) k) ∧
        ∀ u < rP.subs.length, ∀ k < 2 ^ n, rP.vec n d X u k = zval _ (p.row u) k := by
      cases d with
      | coeff =>
        choose X hX using fun k => exists_crt hQ hP hd (fun u => zval _ (q.row u) k) (fun u => zval _ (p.row u) k)
        exact ⟨X, fun u hu k _ => (hX k).1 u hu, fun u hu k _ => (hX k).2 u hu⟩
      | ntt => exact exists_lift hQ hP hd (fun u => zval _ (q.row u)) (fun u => zval _ (p.row u))
    obtain ⟨X, hX1, hX2⟩ := ex
    have hH : PolyQPN.Holds n ⟨some rQ, some rP⟩ lQ lP d 1 X ⟨some q, some p⟩ := by
      refine ⟨fun s hs => ?_, fun s hs => ?_⟩
      · obtain rfl : rQ = s := by simpa using hs
        refine ⟨q, rfl, hq, fun i hi => ⟨by rw [hQ.deg]; exact (hqr i hi).1, fun k hk => ?_, fun k hk => ?_⟩⟩
        · rw [hQ.deg] at hk; rw [one_mul]; exact (hqr i hi).2 k hk
        · rw [hQ.deg] at hk; exact (hX1 i (by omega) k hk).symm
      · obtain rfl : rP = s := by simpa using hs
        refine ⟨p, rfl, hp, fun i hi => ⟨by rw [hP.deg]; exact (hpr i hi).1, fun k hk => ?_, fun k hk => ?_⟩⟩
        · rw [hP.deg] at hk; rw [one_mul]; exact (hpr i hi).2 k hk
        · rw [hP.deg] at hk; exact (hX2 i (by omega) k hk).symm
    have hM' : (0 : ℤ) < ((rQ.prodQ lQ * rP.prodQ lP : ℕ) : ℤ) := by exact_mod_cast hM
    refine ⟨fun k => if k < 2 ^ n then X k % ((rQ.prodQ lQ * rP.prodQ lP : ℕ) : ℤ) else 0, ⟨?_, fun k hk => ?_, fun k hk => ?_⟩, ?_⟩
    · refine (part1 _ 1 X _ hH).2 fun k hk => ?_
      rw [if_pos hk]
      exact Int.dvd_self_sub_emod
    · simp only [if_pos hk]
      exact ⟨Int.emod_nonneg _ hM'.ne', Int.emod_lt_of_pos _ hM'⟩
    · simp only [if_neg (show ¬ k < 2 ^ n by omega)]
    · rintro z ⟨h1, h2, h3⟩
      funext k
      by_cases hk : k < 2 ^ n
      · rw [if_pos hk]
        have h4 := (part1 _ 1 X z hH).1 h1 k hk
        have h5 := h2 k hk
        have h6 : X k % ((rQ.prodQ lQ * rP.prodQ lP : ℕ) : ℤ) = z k % ((rQ.prodQ lQ * rP.prodQ lP : ℕ) : ℤ) :=
          Int.emod_eq_emod_iff_emod_sub_eq_zero.2 (Int.emod_eq_zero_of_dvd h4)
        rw [h6, Int.emod_eq_of_lt h5.1 h5.2]
      · rw [if_neg hk, h3 k (by omega)]
  · obtain ⟨y, hy, h1⟩ := h.q rQ rfl
    obtain ⟨w, hw, h2⟩ := h.p rP rfl
    obtain ⟨y', hy', h1'⟩ := h'.q rQ rfl
    obtain ⟨w', hw', h2'⟩ := h'.p rP rfl
    obtain rfl : q = y := by simpa using hy
    obtain rfl : p = w := by simpa using hw
    obtain rfl : q' = y' := by simpa using hy'
    obtain rfl : p' = w' := by simpa using hw'
    simp only [one_mul] at h1 h2 h1' h2'
    exact ⟨fun i hi => (h1.row i hi).ext (h1'.row i hi), fun i hi => (h2.row i hi).ext (h2'.row i hi)⟩

end crt

/-! ### Copies -/

/-- the two parts are both absent, or both present with rows of the same lengths -/
def SameShape : Option Rows → Option Rows → Prop
  | none, none => True
  | some x, some y => x.map List.length = y.map List.length
  | _, _ => False

theorem copySlice_eq {d s : Row} (h : d.length = s.length) : copySlice d s = s := by
  unfold copySlice
  rw [h, List.take_length, ← h, List.drop_length, List.append_nil]

theorem copyMin_eq : ∀ {d s : Rows}, d.map List.length = s.map List.length → copyMin d s = s := by
  intro d
  induction d with
  | nil => intro s h; cases s <;> simp_all [copyMin]
  | cons a d ih =>
    intro s h
    cases s with
    | nil => simp at h
    | cons b s =>
      simp only [List.map_cons, List.cons.injEq] at h
      have := ih h.2
      simp only [copyMin, List.zipWith_cons_cons, List.length_cons, List.drop_succ_cons, List.cons_append] at this ⊢
      rw [this, copySlice_eq h.1]

/-- **C101 (copies).** Between polynomials of the same shape both `CopyValues` and `Copy` make the receiver equal to the operand.  In general row `i`
of a part of the receiver becomes row `i` of the operand if both have it.  Partial: `Copy` from a polynomial without a part keeps the old one (`C101_copy_violated`). -/
theorem C101_copy_partial (x y : PolyQPN) :
    (SameShape x.q y.q → SameShape x.p y.p → x.copyValues y = .ok y ∧ x.copy y = .ok y) ∧
    (∀ d s : Rows, ∀ i, (copyMin d s).length = d.length ∧
      ((d.row i).length = (s.row i).length → (copyMin d s).row i = if i < d.length ∧ i < s.length then s.row i else d.row i)) := by
  constructor
  · intro hq hp
    obtain ⟨xq, xp⟩ := x
    obtain ⟨yq, yp⟩ := y
    rcases xq with - | xq <;> rcases yq with - | yq <;> rcases xp with - | xp <;> rcases yp with - | yp <;>
      simp only [SameShape] at hq hp <;>
      simp [PolyQPN.copyValues, PolyQPN.copy, PolyQPN.copyValuesPart, PolyQPN.copyPart, *, copyMin_eq]
  · intro d
    induction d with
    | nil => intro s i; simp [copyMin]
    | cons a d ih =>
      intro s i
      cases s with
      | nil => simp [copyMin]
      | cons b s =>
        have hc : copyMin (a :: d) (b :: s) = copySlice a b :: copyMin d s := rfl
        rw [hc]
        refine ⟨by simp [(ih s 0).1], fun h => ?_⟩
        cases i with
        | zero =>
          have h' : a.length = b.length := by simpa [Rows.row] using h
          simp [Rows.row, copySlice_eq h']
        | succ i =>
          have h1 : ∀ (v : Row) (w : Rows), Rows.row (v :: w) (i + 1) = w.row i := fun v w => rfl
          rw [h1, h1] at h
          rw [h1, h1, h1, (ih s i).2 h]
          simp

/-- **C101 fails** for parts that only one side has: `Copy` from a polynomial without `P` part keeps the receiver's old `P` part and reports nothing,
and `CopyValues` in the same situation panics. -/
theorem C101_copy_violated : ∃ x y z : PolyQPN, x.copy y = .ok z ∧ z ≠ y ∧ z.p = x.p ∧ x.copyValues y = .panic :=
  ⟨⟨some [[1]], some [[2]]⟩, ⟨some [[3]], none⟩, ⟨some [[3]], some [[2]]⟩, rfl, by decide, rfl, rfl⟩

/-- a copy at a level between parts that are not there for the ring -/
def CopyBad (r : Option Ring) (l : ℕ) (a o : Option Rows) : Prop :=
  r ≠ none ∧ ((a = none ∧ o ≠ none) ∨ (a ≠ none ∧ o = none) ∨ (∃ x, a = some x ∧ x.length ≤ l ∧ o ≠ none) ∨
    ∃ y, o = some y ∧ y.length ≤ l ∧ a ≠ none)

/-- **C101 (copies with missing parts).** The copies panic in exactly these cases: `CopyValues`, if the receiver has a part
that the operand has not; `Copy`, if the operand has a part that the receiver has not; `CopyValuesLvl`, if for a ring that is
there exactly one of the parts is missing, or one has too few rows.  Two missing parts are never an error. -/
theorem C101_copy_panics (x y : PolyQPN) (R : RingQP) (lQ lP : ℕ) :
    (x.copyValues y = .panic ↔ (x.q ≠ none ∧ y.q = none) ∨ (x.p ≠ none ∧ y.p = none)) ∧
    (x.copy y = .panic ↔ (x.q = none ∧ y.q ≠ none) ∨ (x.p = none ∧ y.p ≠ none)) ∧
    (R.copyValuesLvl lQ lP x y = .panic ↔ CopyBad R.q lQ x.q y.q ∨ CopyBad R.p lP x.p y.p) ∧
    (R.copyValuesLvl lQ lP x y ≠ .panic → ∃ z, R.copyValuesLvl lQ lP x y = .ok z ∧
      (R.q = none ∨ x.q = none → z.q = y.q) ∧ (R.p = none ∨ x.p = none → z.p = y.p)) := by
  obtain ⟨xq, xp⟩ := x
  obtain ⟨yq, yp⟩ := y
  have part : ∀ (r : Option Ring) (l : ℕ) (a o : Option Rows),
      (RingQP.copyPartLvl r l a o = .panic ∧ CopyBad r l a o) ∨
      ∃ z, RingQP.copyPartLvl r l a o = .ok z ∧ ¬ CopyBad r l a o ∧ (r = none ∨ a = none → z = o) := by
    intro r l a o
    rcases r with - | r
    · exact Or.inr ⟨o, rfl, fun h => h.1 rfl, fun _ => rfl⟩
    rcases a with - | a <;> rcases o with - | o
    · exact Or.inr ⟨none, rfl, by simp [CopyBad], fun _ => rfl⟩
    · exact Or.inl ⟨rfl, by simp [CopyBad]⟩
    · exact Or.inl ⟨rfl, by simp [CopyBad]⟩
    · by_cases h : l < a.length ∧ l < o.length
      · exact Or.inr ⟨some (FastKsw.copyValuesLvl l a o), by simp [RingQP.copyPartLvl, h], by simp [CopyBad]; omega, by simp⟩
      · exact Or.inl ⟨by simp [RingQP.copyPartLvl, h], by simp [CopyBad]; omega⟩
  refine ⟨?_, ?_, ?_, ?_⟩
  · rcases xq with - | xq <;> rcases yq with - | yq <;> rcases xp with - | xp <;> rcases yp with - | yp <;>
      simp [PolyQPN.copyValues, PolyQPN.copyValuesPart]
  · rcases xq with - | xq <;> rcases yq with - | yq <;> rcases xp with - | xp <;> rcases yp with - | yp <;>
      simp [PolyQPN.copy, PolyQPN.copyPart]
  · rcases part R.q lQ xq yq with ⟨h1, h2⟩ | ⟨z, h1, h2, -⟩ <;> rcases part R.p lP xp yp with ⟨h3, h4⟩ | ⟨w, h3, h4, -⟩ <;>
      simp [RingQP.copyValuesLvl, h1, h2, h3, h4]
  · rcases part R.q lQ xq yq with ⟨h1, h2⟩ | ⟨z, h1, h2, e1⟩ <;> rcases part R.p lP xp yp with ⟨h3, h4⟩ | ⟨w, h3, h4, e2⟩ <;>
      simp [RingQP.copyValuesLvl, h1, h3] <;> exact ⟨by simpa using e1, by simpa using e2⟩

/-- a receiver without P part: `Copy` of a polynomial with P part panics, `CopyValues` copies the Q part -/
example : (⟨some [[1]], none⟩ : PolyQPN).copy ⟨some [[3]], some [[4]]⟩ = .panic ∧
    (⟨some [[1]], none⟩ : PolyQPN).copyValues ⟨some [[3]], some [[4]]⟩ = .ok ⟨some [[3]], none⟩ := ⟨rfl, rfl⟩

/-! ### Sampling -/

/-- entries of rows `0 … l` are words of the stream, cut to the size of the modulus and below it, read from bytes `[lo, hi)` -/
def FromBytes (r : Ring) (l : ℕ) (stream : ℕ → UInt8) (lo hi : ℕ) (x : Rows) : Prop :=
  ∃ idx : ℕ → ℕ, (∀ t, t + 1 < (l + 1) * r.n → idx t < idx (t + 1)) ∧ (∀ t < (l + 1) * r.n, lo + 8 * (idx t + 1) ≤ hi) ∧
    ∀ j ≤ l, ∃ k, 2 ^ k ≤ 2 * r.qs j ∧ r.qs j < 2 ^ k ∧ ∀ i < r.n,
      ((x.row j).at i).toNat = (streamWord stream lo (idx (j * r.n + i))).toNat % 2 ^ k ∧ ((x.row j).at i).toNat < r.qs j

theorem uniformReadPart_is {n : ℕ} {r : Option Ring} {fuel : ℕ} {prng prng' : Prng} {x y : Option Rows}
    (hv : ∀ s, r = some s → s.Valid n)
    (hx : ∀ s z, r = some s → x = some z → z ≠ [] ∧ z.length ≤ s.subs.length)
    (h : uniformReadPart fuel r prng x = some (y, prng')) :
    prng'.stream = prng.stream ∧ prng.pos ≤ prng'.pos ∧ (r = none ∨ x = none → y = x ∧ prng' = prng) ∧
    ∀ s z, r = some s → x = some z → ∃ w, y = some w ∧ w.length = z.length ∧
      (∀ i < w.length, (w.row i).length = 2 ^ n ∧ ∀ k < 2 ^ n, ((w.row i).at k).toNat < s.qs i) ∧
      FromBytes s (z.length - 1) prng.stream prng.pos prng'.pos w := by
  rcases r with - | r
  · simp only [uniformReadPart, Option.some.injEq, Prod.mk.injEq] at h
    obtain ⟨rfl, rfl⟩ := h
    exact ⟨rfl, le_refl _, fun _ => ⟨rfl, rfl⟩, fun s z hs => by simp at hs⟩
  · rcases x with - | x
    · simp only [uniformReadPart, Option.some.injEq, Prod.mk.injEq] at h
      obtain ⟨rfl, rfl⟩ := h
      exact ⟨rfl, le_refl _, fun _ => ⟨rfl, rfl⟩, fun s z _ hz => by simp at hz⟩
    · simp only [uniformReadPart, Option.map_eq_some_iff, Prod.mk.injEq, Prod.exists] at h
      obtain ⟨w, prng1, h1, rfl, rfl⟩ := h
      obtain ⟨hne, hle⟩ := hx r x rfl rfl
      have hr := hv r rfl
      have hpos := List.length_pos_iff.2 hne
      obtain ⟨⟨idx, i1, ⟨i2, i3⟩, i4⟩, v, hw⟩ := C42_uniform hr (level := x.length - 1) (by omega) (by omega) h1
      have hn0 : 0 < r.n := by rw [hr.deg]; positivity
      refine ⟨i2, ?_, fun h => by simp at h, fun s z hs hz => ?_⟩
      · have := i3 0 (Nat.mul_pos (by omega) hn0)
        omega
      · obtain rfl : r = s := by simpa using hs
        obtain rfl : x = z := by simpa using hz
        refine ⟨w, rfl, hw.len, fun i hi => ?_, idx, i1, i3, fun j hj => ?_⟩
        · have hR := hw.is.row i (by have := hw.len; omega)
          rw [hr.deg] at hR
          exact ⟨hR.len, hR.lt⟩
        · obtain ⟨k, k1, k2, k3⟩ := i4 j hj
          exact ⟨k, k1, k2, fun i hi => ⟨(k3 i hi).1, (hw.is.row j hj).lt i hi⟩⟩

/-- **C101 (sampling).** `UniformSamplerQP.Read` on a polynomial with both parts, on every byte stream on which it returns: all rows come out reduced,
so with coprime `Q` and `P` they hold exactly one polynomial modulo `QP`; the words of the `Q` part and those of the `P` part come from disjoint stretches of the
stream, one after the other.  Without `P` part, or without ring `P`, that part stays as it is and the generator is not read for it. -/
theorem C101_read {n : ℕ} {rQ : Ring} {rP : Option Ring} (hQ : rQ.Valid n) (hP : ∀ s, rP = some s → s.Valid n) {fuel : ℕ}
    {prng prng' : Prng} {q : Rows} {p : Option Rows} {out : PolyQPN} (hq : q ≠ [] ∧ q.length ≤ rQ.subs.length)
    (hp : ∀ s z, rP = some s → p = some z → z ≠ [] ∧ z.length ≤ s.subs.length)
    (h : uniformReadQP fuel ⟨some rQ, rP⟩ prng ⟨some q, p⟩ = some (out, prng')) :
    ∃ (q' : Rows) (mid : ℕ), out.q = some q' ∧ q'.length = q.length ∧ prng.pos ≤ mid ∧ mid ≤ prng'.pos ∧
      FromBytes rQ (q.length - 1) prng.stream prng.pos mid q' ∧
      (rP = none ∨ p = none → out.p = p ∧ prng'.pos = mid) ∧
      ∀ s z, rP = some s → p = some z → ∃ p' : Rows, out.p = some p' ∧ p'.length = z.length ∧
        FromBytes s (z.length - 1) prng.stream mid prng'.pos p' ∧
        (rQ.Disjoint s → ∀ d, ∃! X : ℕ → ℤ,
          out.Holds n ⟨some rQ, some s⟩ (q.length - 1) (z.length - 1) d 1 X ∧
          (∀ k < 2 ^ n, 0 ≤ X k ∧ X k < ((rQ.prodQ (q.length - 1) * s.prodQ (z.length - 1) : ℕ) : ℤ)) ∧ ∀ k, 2 ^ n ≤ k → X k = 0) := by
  simp only [uniformReadQP, Option.bind_eq_some_iff, Option.map_eq_some_iff, Prod.exists, Prod.mk.injEq] at h
  obtain ⟨yq, prng1, h1, yp, prng2, h2, rfl, rfl⟩ := h
  obtain ⟨a1, a2, -, a4⟩ := uniformReadPart_is (n := n) (fun s hs => by
    obtain rfl : rQ = s := by simpa using hs
    exact hQ) (fun s z hs hz => by
    obtain rfl : rQ = s := by simpa using hs
    obtain rfl : q = z := by simpa using hz
    exact hq) h1
  obtain ⟨b1, b2, b3, b4⟩ := uniformReadPart_is (n := n) hP hp h2
  obtain ⟨q', rfl, c2, c3, c4⟩ := a4 rQ q rfl rfl
  refine ⟨q', prng1.pos, rfl, c2, a2, b2, c4, fun h => ?_, fun s z hs hz => ?_⟩
  · obtain ⟨e1, e2⟩ := b3 h
    exact ⟨e1, by rw [e2]⟩
  · obtain ⟨p', rfl, d2, d3, d4⟩ := b4 s z hs hz
    refine ⟨p', rfl, d2, by rw [← a1]; exact d4, fun hd d => ?_⟩
    have hz' := hp s z hs hz
    have e1 := List.length_pos_iff.2 hq.1
    have e2 := List.length_pos_iff.2 hz'.1
    exact (C101_crt_partial hQ (hP s hs) hd (by omega) (by omega) d).2.1 q' p' (by omega) (by omega)
      (fun i hi => c3 i (by omega)) (fun i hi => d3 i (by omega))

/-! ### Shared primes -/

theorem exists_ring1 {q : UInt64} (hq : q.toNat < 2 ^ 63) (h : (newRing 100 16 [q]).toOption.isSome = true) :
    ∃ r, newRing 100 16 [q] = .ok r ∧ r.Valid 4 ∧ r.subs.length = 1 ∧ (r.sub 0).q = q := by
  cases hr : newRing 100 16 [q] with
  | error e => rw [hr] at h; cases h
  | ok r =>
    obtain ⟨n, h1, h2, h3, -⟩ := C17_newRing_valid 100 16 (by omega) [q] (by simpa using hq) r hr
    have h4 : n = 4 := Nat.pow_right_injective (le_refl 2) (by simpa using h1.symm)
    subst h4
    have hl : r.subs.length = 1 := by
      have := congrArg List.length h3
      simpa [Ring.moduli] using this
    refine ⟨r, rfl, h2, hl, ?_⟩
    have := congrArg (fun l => l.getD 0 0) h3
    simpa [Ring.moduli, Ring.sub, List.getD, hl] using this

set_option maxRecDepth 1000000 in
theorem newRing193 : (newRing 100 16 [193]).toOption.isSome = true := by decide +kernel

set_option maxRecDepth 1000000 in
theorem newRing257 : (newRing 100 16 [257]).toOption.isSome = true := by decide +kernel

theorem newRingFromType_standard (fuel N : ℕ) (m : List UInt64) : newRingFromType fuel N m .standard = newRing fuel N m := rfl

theorem newParameters_two {fuel logN h : ℕ} {q p sigma : UInt64} {ty : RingType} {r t : Ring}
    (h1 : checkSizeParams logN 1 1 = .ok ()) (h2 : checkModuli [q] [p] = .ok ())
    (h3 : newRingFromType fuel (2 ^ logN) [q] ty = .ok r) (h4 : newRingFromType fuel (2 ^ logN) [p] ty = .ok t) :
    newParameters fuel logN [q] [p] h sigma ty = .ok ⟨logN, [q], [p], sigma, h, r, some t, ty⟩ := by
  unfold newParameters
  rw [show checkSizeParams logN [q].length [p].length = .ok () from h1, h2]
  dsimp only
  rw [h3, h4]
  rfl

theorem newParameters_shared (sigma : UInt64) {r : Ring} (hr : newRing 100 16 [193] = .ok r) :
    newParameters 100 4 [193] [193] 8 sigma .standard =
      .ok ⟨4, [193], [193], sigma, 8, r, some r, .standard⟩ := by
  have hp : isPrime 193 := by
    have : Nat.Prime 193 := by norm_num
    exact this
  have hm : checkModuli [193] [193] = .ok () := by
    unfold checkModuli
    rw [if_neg (by decide), if_neg (by decide), if_neg (by decide), if_neg (by decide), if_neg (by simpa using hp),
      if_neg (by simpa using hp)]
  have hr' : newRingFromType 100 (2 ^ 4) [193] .standard = .ok r := by
    rw [newRingFromType_standard, show (2 : ℕ) ^ 4 = 16 by norm_num]
    exact hr
  exact newParameters_two (by decide) hm hr' hr'

/-- **C101 fails** without coprimality, and nothing checks it: `NewParameters` accepts a prime as modulus of both `Q` and `P`.  Then there are reduced
rows that hold no integer polynomial at all, in neither form, and the constant by which `ModDown` divides by `P` is zero. -/
theorem C101_sharedPrime_violated (sigma : UInt64) : ∃ P rP, newParameters 100 4 [193] [193] 8 sigma .standard = .ok P ∧ P.ringP = some rP ∧
    (∃ q p : Rows, q.length = 1 ∧ p.length = 1 ∧
      ((q.row 0).length = 2 ^ 4 ∧ ∀ k < 2 ^ 4, ((q.row 0).at k).toNat < P.ringQ.qs 0) ∧
      ((p.row 0).length = 2 ^ 4 ∧ ∀ k < 2 ^ 4, ((p.row 0).at k).toNat < rP.qs 0) ∧
      ∀ d c z, ¬ PolyQPN.Holds 4 ⟨some P.ringQ, some rP⟩ 0 0 d c z ⟨some q, some p⟩) ∧
    modDownParam P.ringQ rP 0 0 = 0 := by
  obtain ⟨r, hr, hv, hl, hq⟩ := exists_ring1 (q := 193) (by decide) newRing193
  have hP := newParameters_shared sigma hr
  refine ⟨_, r, hP, rfl, ⟨[List.replicate 16 0], [List.replicate 16 1], rfl, rfl, ⟨rfl, fun k hk => ?_⟩, ⟨rfl, fun k hk => ?_⟩,
    fun d c z h => ?_⟩, ?_⟩
  · show (Row.at (List.replicate 16 0) k).toNat < (r.sub 0).q.toNat
    rw [replicate_at 16 0 (by omega), hq]
    decide
  · show (Row.at (List.replicate 16 1) k).toNat < (r.sub 0).q.toNat
    rw [replicate_at 16 1 (by omega), hq]
    decide
  · obtain ⟨x, hx, h1⟩ := h.q r rfl
    obtain ⟨y, hy, h2⟩ := h.p r rfl
    obtain rfl : [List.replicate 16 0] = x := by simpa using hx
    obtain rfl : [List.replicate 16 1] = y := by simpa using hy
    have hn : 0 < r.n := by rw [hv.deg]; positivity
    have e := ((h1.row 0 (le_refl _)).val 0 hn).trans ((h2.row 0 (le_refl _)).val 0 hn).symm
    have h1 := (hv.subAt (show 0 < r.subs.length by omega)).fact
    have e' : (((0 : UInt64).toNat : ℕ) : ZMod (r.sub 0).q.toNat) = ((1 : UInt64).toNat : ℕ) := e
    simp at e'
  · have V := hv.subAt (show 0 < r.subs.length by omega)
    have h0 : (modExp (r.sub 0).q ((r.sub 0).q - 2) (r.sub 0).q) = 0 := by
      rw [← UInt64.toNat_inj, modExp_toNat V.prime.one_lt V.lt.le]
      refine Nat.mod_eq_zero_of_dvd (dvd_pow_self _ ?_)
      rw [hq]
      decide
    show mform (modExp (r.sub 0).q ((r.sub 0).q - 2) (r.sub 0).q) (r.sub 0).q (r.sub 0).bred = 0
    rw [h0]
    obtain ⟨h1, h2⟩ := word_mform V.arith 0
    have := V.fact
    rw [← UInt64.toNat_inj]
    refine Nat.eq_zero_of_dvd_of_lt ?_ h1
    rw [← ZMod.natCast_eq_zero_iff, h2]
    simp

/-- the hypotheses of the theorems above are met: rings with the moduli 97, 193 and 257, and the polynomial with all coefficients 5 -/
example : ∃ (rQ rP : Ring) (x : PolyQPN), RingQP.Valid 4 ⟨some rQ, some rP⟩ 1 0 ∧ rQ.Disjoint rP ∧
    x.Holds 4 ⟨some rQ, some rP⟩ 1 0 .coeff 1 (fun _ => 5) := by
  obtain ⟨r, -, hv, hl, hn, h0, h1⟩ := exists_ring
  obtain ⟨t, -, tv, tl, tq⟩ := exists_ring1 (q := 257) (by decide) newRing257
  have sub_of : ∀ (r : Ring) (s : SubRing), s ∈ r.subs → ∃ i < r.subs.length, s = r.sub i := by
    intro r s hs
    obtain ⟨i, hi, rfl⟩ := List.getElem_of_mem hs
    exact ⟨i, hi, by simp [Ring.sub, List.getD, hi]⟩
  have hq : ∀ i ≤ 1, (5 : UInt64).toNat < 1 * r.qs i := by
    intro i hi
    rw [one_mul]
    interval_cases i
    · rw [Ring.qs, h0]; decide
    · rw [Ring.qs, h1]; decide
  refine ⟨r, t, ⟨some (cpoly 5), some [List.replicate 16 5]⟩, ⟨fun s hs => ?_, fun s hs => ?_⟩, fun i hi j hj => ?_,
    fun s hs => ?_, fun s hs => ?_⟩
  · obtain rfl : r = s := by simpa using hs
    refine ⟨hv, fun s hs => ?_, by omega⟩
    obtain ⟨i, hi, rfl⟩ := sub_of r s hs
    rw [hl] at hi
    interval_cases i
    · rw [h0]; decide
    · rw [h1]; decide
  · obtain rfl : t = s := by simpa using hs
    refine ⟨tv, fun s hs => ?_, by omega⟩
    obtain ⟨i, hi, rfl⟩ := sub_of t s hs
    rw [tl] at hi
    interval_cases i
    rw [tq]; decide
  · rw [hl] at hi
    rw [tl] at hj
    interval_cases j
    rw [tq]
    interval_cases i
    · rw [h0]; decide
    · rw [h1]; decide
  · obtain rfl : r = s := by simpa using hs
    exact ⟨_, rfl, (cpoly_is hn _ 5 hq).congr fun i hi k hk => by simp [Ring.vec, Ring.intVec]⟩
  · obtain rfl : t = s := by simpa using hs
    refine ⟨_, rfl, by simp, fun i hi => ?_⟩
    obtain rfl : i = 0 := by omega
    have hn : t.n = 16 := by rw [tv.deg]; norm_num
    refine ⟨by rw [hn]; rfl, fun k hk => ?_, fun k hk => ?_⟩
    · show (Row.at (List.replicate 16 5) k).toNat < 1 * (t.sub 0).q.toNat
      rw [replicate_at 16 5 (by omega), tq]
      decide
    · show ((Row.at (List.replicate 16 5) k).toNat : ZMod (t.sub 0).q.toNat) = _
      rw [replicate_at 16 5 (by omega)]
      simp [Ring.vec, Ring.intVec]

set_option maxRecDepth 1000000 in
/-- a run of the sampler -/
example : (match newRing 100 16 [97, 193], newRing 100 16 [257] with
    | .ok r, .ok t => (uniformReadQP 1000 ⟨some r, some t⟩ ⟨exStream, 0, 0⟩ ⟨some (newPoly 16 2), some (newPoly 16 1)⟩).elim false
        (fun x => x.2.pos > 8 * 48 && x.1.p != some (newPoly 16 1))
    | _, _ => false) = true := by decide +kernel

end FastKsw.Props
