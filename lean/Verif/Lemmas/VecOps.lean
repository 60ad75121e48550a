import Verif.Spec.RowIs
import Verif.Lemmas.ModExp
import Verif.Lemmas.NTT
import Verif.Lemmas.RingGen

namespace FastKsw

/-! ### Rows -/

theorem Row.at_map (f : UInt64 → UInt64) (x : Row) {k : ℕ} (h : k < x.length) :
    Row.at (x.map f) k = f (x.at k) := by
  simp [Row.at, List.getD, h]

theorem Row.at_zipWith (f : UInt64 → UInt64 → UInt64) (x y : Row) {k : ℕ} (h : k < x.length)
    (h' : k < y.length) : Row.at (List.zipWith f x y) k = f (x.at k) (y.at k) := by
  simp [Row.at, List.getD, h, h']

theorem Row.at_zip3 (f : UInt64 → UInt64 → UInt64 → UInt64) (x y z : Row) {k : ℕ}
    (h : k < x.length) (h' : k < y.length) (h'' : k < z.length) :
    Row.at (zip3 f x y z) k = f (x.at k) (y.at k) (z.at k) := by
  simp [Row.at, zip3, List.getD, h, h', h'']

variable {N q A B C D : ℕ}

theorem RowIs.mono {x v} (h : RowIs N q A x v) (hAB : A ≤ B) : RowIs N q B x v :=
  ⟨h.len, fun k hk => lt_of_lt_of_le (h.lt k hk) hAB, h.val⟩

theorem RowIs.congr {x v w} (h : RowIs N q A x v) (hvw : ∀ k < N, v k = w k) : RowIs N q A x w :=
  ⟨h.len, h.lt, fun k hk => (h.val k hk).trans (hvw k hk)⟩

theorem RowIs.refl (x : Row) (hl : x.length = N) (hb : ∀ k < N, (x.at k).toNat < A) :
    RowIs N q A x (zval q x) := ⟨hl, hb, fun _ _ => rfl⟩

theorem RowIs.any (x : Row) (hl : x.length = N) : RowIs N q (2 ^ 64) x (zval q x) :=
  ⟨hl, fun _ _ => UInt64.toNat_lt _, fun _ _ => rfl⟩

/-- Two fully reduced rows with the same residues are equal. -/
theorem RowIs.ext {x y v} (hx : RowIs N q q x v) (hy : RowIs N q q y v) : x = y := by
  apply List.ext_getElem (by rw [hx.len, hy.len])
  intro k h1 h2
  have hk : k < N := hx.len ▸ h1
  have e := (hx.val k hk).trans (hy.val k hk).symm
  have b1 := hx.lt k hk
  have b2 := hy.lt k hk
  unfold zval at e
  rw [ZMod.natCast_eq_natCast_iff] at e
  have := Nat.ModEq.eq_of_lt_of_lt e b1 b2
  have e2 := UInt64.toNat_inj.1 this
  simpa [Row.at, List.getD, h1, h2] using e2

theorem RowIs.map {f : UInt64 → UInt64} {F : ZMod q → ZMod q} {x : Row} {v : ℕ → ZMod q}
    (hx : RowIs N q A x v)
    (hf : ∀ u : UInt64, u.toNat < A → (f u).toNat < C ∧ ((f u).toNat : ZMod q) = F (u.toNat : ZMod q)) :
    RowIs N q C (x.map f) (fun k => F (v k)) := by
  refine ⟨by simp [hx.len], ?_, ?_⟩
  · intro k hk
    rw [Row.at_map _ _ (by rw [hx.len]; exact hk)]
    exact (hf _ (hx.lt k hk)).1
  · intro k hk
    rw [zval, Row.at_map _ _ (by rw [hx.len]; exact hk), (hf _ (hx.lt k hk)).2, ← hx.val k hk, zval]

theorem RowIs.zipWith {f : UInt64 → UInt64 → UInt64} {F : ZMod q → ZMod q → ZMod q} {x y : Row}
    {v w : ℕ → ZMod q} (hx : RowIs N q A x v) (hy : RowIs N q B y w)
    (hf : ∀ u u' : UInt64, u.toNat < A → u'.toNat < B →
      (f u u').toNat < C ∧ ((f u u').toNat : ZMod q) = F (u.toNat : ZMod q) (u'.toNat : ZMod q)) :
    RowIs N q C (List.zipWith f x y) (fun k => F (v k) (w k)) := by
  refine ⟨by simp [hx.len, hy.len], ?_, ?_⟩
  · intro k hk
    rw [Row.at_zipWith _ _ _ (by rw [hx.len]; exact hk) (by rw [hy.len]; exact hk)]
    exact (hf _ _ (hx.lt k hk) (hy.lt k hk)).1
  · intro k hk
    rw [zval, Row.at_zipWith _ _ _ (by rw [hx.len]; exact hk) (by rw [hy.len]; exact hk),
      (hf _ _ (hx.lt k hk) (hy.lt k hk)).2, ← hx.val k hk, ← hy.val k hk, zval, zval]

theorem RowIs.zip3 {f : UInt64 → UInt64 → UInt64 → UInt64}
    {F : ZMod q → ZMod q → ZMod q → ZMod q} {x y z : Row}
    {v w t : ℕ → ZMod q} (hx : RowIs N q A x v) (hy : RowIs N q B y w) (hz : RowIs N q D z t)
    (hf : ∀ u u' u'' : UInt64, u.toNat < A → u'.toNat < B → u''.toNat < D →
      (f u u' u'').toNat < C ∧ ((f u u' u'').toNat : ZMod q)
        = F (u.toNat : ZMod q) (u'.toNat : ZMod q) (u''.toNat : ZMod q)) :
    RowIs N q C (FastKsw.zip3 f x y z) (fun k => F (v k) (w k) (t k)) := by
  refine ⟨by simp [FastKsw.zip3, hx.len, hy.len, hz.len], ?_, ?_⟩
  · intro k hk
    rw [Row.at_zip3 _ _ _ _ (by rw [hx.len]; exact hk) (by rw [hy.len]; exact hk)
      (by rw [hz.len]; exact hk)]
    exact (hf _ _ _ (hx.lt k hk) (hy.lt k hk) (hz.lt k hk)).1
  · intro k hk
    rw [zval, Row.at_zip3 _ _ _ _ (by rw [hx.len]; exact hk) (by rw [hy.len]; exact hk)
      (by rw [hz.len]; exact hk),
      (hf _ _ _ (hx.lt k hk) (hy.lt k hk) (hz.lt k hk)).2, ← hx.val k hk, ← hy.val k hk,
      ← hz.val k hk, zval, zval, zval]

/-! ### Words -/

theorem SubRing.Valid.arith {n : ℕ} {s : SubRing} (h : s.Valid n) : s.Arith :=
  ⟨h.prime.one_lt, h.lt, h.bred, h.mred⟩

theorem rinv_mul {q : ℕ} (hodd : q % 2 = 1) : rinv q * 2 ^ 64 = 1 := by
  unfold rinv
  exact ZMod.inv_mul_of_unit _ (two_pow_unit hodd)

theorem mul_rinv {q : ℕ} (hodd : q % 2 = 1) : (2 : ZMod q) ^ 64 * rinv q = 1 := by
  rw [mul_comm, rinv_mul hodd]

theorem eq_mul_rinv {q : ℕ} (hodd : q % 2 = 1) {a b : ZMod q} (h : a * 2 ^ 64 = b) :
    a = b * rinv q := by
  rw [← h, mul_assoc, mul_rinv hodd, mul_one]

theorem cast_of_modEq {q a b : ℕ} (h : a ≡ b [MOD q]) : (a : ZMod q) = b :=
  (ZMod.natCast_eq_natCast_iff _ _ _).2 h

theorem cast_sub_of_add {q a b c : ℕ} (h : a + b = c) : (a : ZMod q) = (c : ZMod q) - b := by
  rw [← h]; push_cast; ring

section word
variable {s : SubRing} (hs : s.Arith)
include hs

theorem SubRing.Arith.odd : s.q.toNat % 2 = 1 := odd_of_mul_eq_one hs.mred

theorem word_add (u w : UInt64) (hu : u.toNat < s.q.toNat) (hw : w.toNat < s.q.toNat) :
    (cred (u + w) s.q).toNat < s.q.toNat ∧
    ((cred (u + w) s.q).toNat : ZMod s.q.toNat) = u.toNat + w.toNat := by
  have := hs.lt
  have e : (u + w).toNat = u.toNat + w.toNat := by rw [UInt64.toNat_add]; omega
  refine ⟨toNat_cred_lt (by omega), ?_⟩
  rw [cast_of_modEq (toNat_cred_modEq _ _), e]; push_cast; rfl

theorem word_sub (u w : UInt64) (hu : u.toNat < s.q.toNat) (hw : w.toNat ≤ s.q.toNat) :
    (cred ((u + s.q) - w) s.q).toNat < s.q.toNat + 1 ∧
    (0 < w.toNat → (cred ((u + s.q) - w) s.q).toNat < s.q.toNat) ∧
    ((cred ((u + s.q) - w) s.q).toNat : ZMod s.q.toNat) = u.toNat - w.toNat := by
  have := hs.lt
  have e : (u + s.q).toNat = u.toNat + s.q.toNat := by rw [UInt64.toNat_add]; omega
  have e2 : ((u + s.q) - w).toNat = u.toNat + s.q.toNat - w.toNat := by
    rw [toNat_sub_of_le' (by omega), e]
  refine ⟨?_, ?_, ?_⟩
  · have := toNat_cred (u + s.q - w) s.q; rw [this, e2]; split <;> omega
  · intro h; have := toNat_cred (u + s.q - w) s.q; rw [this, e2]; split <;> omega
  · rw [cast_of_modEq (toNat_cred_modEq _ _), e2, Nat.cast_sub (by omega)]; push_cast; simp

theorem word_sub' (u w : UInt64) (hu : u.toNat < s.q.toNat) (hw : w.toNat < s.q.toNat) :
    (cred ((u + s.q) - w) s.q).toNat < s.q.toNat ∧
    ((cred ((u + s.q) - w) s.q).toNat : ZMod s.q.toNat) = u.toNat - w.toNat := by
  refine ⟨?_, (word_sub hs u w hu hw.le).2.2⟩
  have := hs.lt
  have e : (u + s.q).toNat = u.toNat + s.q.toNat := by rw [UInt64.toNat_add]; omega
  have e2 : ((u + s.q) - w).toNat = u.toNat + s.q.toNat - w.toNat := by
    rw [toNat_sub_of_le' (by omega), e]
  have := toNat_cred (u + s.q - w) s.q; rw [this, e2]; split <;> omega

theorem word_reduce (u : UInt64) : (bredAdd u s.q s.bred).toNat < s.q.toNat ∧
    ((bredAdd u s.q s.bred).toNat : ZMod s.q.toNat) = u.toNat := by
  rw [hs.bred, bredAdd_toNat hs.one_lt hs.lt.le]
  exact ⟨Nat.mod_lt _ (by have := hs.one_lt; omega), by simp⟩

theorem word_reduceConstant (u : UInt64) : (bredAddConstant u s.q s.bred).toNat < 2 * s.q.toNat ∧
    ((bredAddConstant u s.q s.bred).toNat : ZMod s.q.toNat) = u.toNat := by
  rw [hs.bred]
  have h := bredAddConstant_spec hs.one_lt u hs.lt.le
  exact ⟨h.1, cast_of_modEq h.2⟩

theorem word_mul (u w : UInt64) : (bred u w s.q s.bred).toNat < s.q.toNat ∧
    ((bred u w s.q s.bred).toNat : ZMod s.q.toNat) = u.toNat * w.toNat := by
  rw [hs.bred, bred_toNat hs.one_lt hs.lt.le]
  exact ⟨Nat.mod_lt _ (by have := hs.one_lt; omega), by simp⟩

theorem word_mulConstant (u w : UInt64) : (bredConstant u w s.q s.bred).toNat < 2 * s.q.toNat ∧
    ((bredConstant u w s.q s.bred).toNat : ZMod s.q.toNat) = u.toNat * w.toNat := by
  rw [hs.bred]
  have h := bredConstant_spec hs.one_lt u w hs.lt.le
  exact ⟨h.1, by rw [cast_of_modEq h.2]; push_cast; rfl⟩

theorem word_mred (u w : UInt64) (h : u.toNat * w.toNat < s.q.toNat * 2 ^ 64) :
    (mred u w s.q s.mred).toNat < s.q.toNat ∧
    ((mred u w s.q s.mred).toNat : ZMod s.q.toNat) = u.toNat * w.toNat * rinv s.q.toNat :=
  ⟨(mred_spec hs.mred hs.lt.le u w h).1,
    eq_mul_rinv hs.odd (mred_zmod hs.mred hs.lt.le u w h)⟩

theorem word_mredConstant (u w : UInt64) (h : u.toNat * w.toNat < s.q.toNat * 2 ^ 64) :
    (mredConstant u w s.q s.mred).toNat < 2 * s.q.toNat ∧
    ((mredConstant u w s.q s.mred).toNat : ZMod s.q.toNat) = u.toNat * w.toNat * rinv s.q.toNat :=
  ⟨(mredConstant_spec hs.mred hs.lt.le u w h).2.1,
    eq_mul_rinv hs.odd (mredConstant_zmod hs.mred hs.lt.le u w h)⟩

theorem word_mform (u : UInt64) : (mform u s.q s.bred).toNat < s.q.toNat ∧
    ((mform u s.q s.bred).toNat : ZMod s.q.toNat) = u.toNat * 2 ^ 64 := by
  rw [hs.bred, mform_toNat hs.one_lt hs.lt.le]
  refine ⟨Nat.mod_lt _ (by have := hs.one_lt; omega), ?_⟩
  rw [ZMod.natCast_mod]
  simp only [Nat.cast_mul, Nat.cast_pow, Nat.cast_ofNat]

theorem word_mformConstant (u : UInt64) : (mformConstant u s.q s.bred).toNat < 2 * s.q.toNat ∧
    ((mformConstant u s.q s.bred).toNat : ZMod s.q.toNat) = u.toNat * 2 ^ 64 := by
  rw [hs.bred]
  have h := mformConstant_spec hs.one_lt u hs.lt.le
  refine ⟨h.1, ?_⟩
  rw [cast_of_modEq h.2]
  simp only [Nat.cast_mul, Nat.cast_pow, Nat.cast_ofNat]

theorem word_invMform (u : UInt64) : (invMform u s.q s.mred).toNat < s.q.toNat ∧
    ((invMform u s.q s.mred).toNat : ZMod s.q.toNat) = u.toNat * rinv s.q.toNat := by
  have hp := hs.one_lt
  have h := invMformConstant_spec (by omega) hs.mred u
  rw [invMform_eq_cred]
  refine ⟨toNat_cred_lt (by omega), ?_⟩
  apply eq_mul_rinv hs.odd
  rw [cast_of_modEq (toNat_cred_modEq _ _)]
  have := cast_of_modEq h.2.2
  simpa only [Nat.cast_mul, Nat.cast_pow, Nat.cast_ofNat] using this

theorem word_invMformConstant (u : UInt64) : (invMformConstant u s.q s.mred).toNat ≤ s.q.toNat ∧
    ((invMformConstant u s.q s.mred).toNat : ZMod s.q.toNat) = u.toNat * rinv s.q.toNat := by
  have hp := hs.one_lt
  have h := invMformConstant_spec (by omega) hs.mred u
  refine ⟨h.1, ?_⟩
  apply eq_mul_rinv hs.odd
  have := cast_of_modEq h.2.2
  simpa only [Nat.cast_mul, Nat.cast_pow, Nat.cast_ofNat] using this

/-! ### Vectors -/

variable {x y z : Row} {v w t : ℕ → ZMod s.q.toNat}

theorem addVec_is (hx : RowIs N s.q.toNat s.q.toNat x v) (hy : RowIs N s.q.toNat s.q.toNat y w) :
    RowIs N s.q.toNat s.q.toNat (addVec x y s.q) (fun k => v k + w k) :=
  RowIs.zipWith (F := fun a b => a + b) hx hy (fun u u' h h' => word_add hs u u' h h')

omit hs in
theorem addVecNoMod_is (hx : RowIs N q A x v') (hy : RowIs N q B y w') (hAB : A + B ≤ 2 ^ 64) :
    RowIs N q (A + B) (addVecNoMod x y) (fun k => v' k + w' k) := by
  refine RowIs.zipWith (F := fun a b => a + b) hx hy (fun u u' h h' => ?_)
  have e : (u + u').toNat = u.toNat + u'.toNat := by rw [UInt64.toNat_add]; omega
  exact ⟨by omega, by rw [e]; push_cast; rfl⟩

theorem subVec_is (hx : RowIs N s.q.toNat s.q.toNat x v) (hy : RowIs N s.q.toNat s.q.toNat y w) :
    RowIs N s.q.toNat s.q.toNat (subVec x y s.q) (fun k => v k - w k) :=
  RowIs.zipWith (F := fun a b => a - b) hx hy (fun u u' h h' => word_sub' hs u u' h h')

omit hs in
theorem subVecNomod_is (hx : RowIs N s.q.toNat A x v) (hy : RowIs N s.q.toNat (s.q.toNat + 1) y w)
    (hA : A + s.q.toNat ≤ 2 ^ 64) :
    RowIs N s.q.toNat (A + s.q.toNat) (subVecNomod x y s.q) (fun k => v k - w k) := by
  refine RowIs.zipWith (F := fun a b => a - b) hx hy (fun u u' h h' => ?_)
  have e : (u + s.q).toNat = u.toNat + s.q.toNat := by rw [UInt64.toNat_add]; omega
  have e2 : (u + s.q - u').toNat = u.toNat + s.q.toNat - u'.toNat := by
    rw [toNat_sub_of_le' (by omega), e]
  exact ⟨by omega, by rw [e2, Nat.cast_sub (by omega)]; push_cast; simp⟩

omit hs in
theorem negVec_is (hx : RowIs N s.q.toNat (s.q.toNat + 1) x v) :
    RowIs N s.q.toNat (s.q.toNat + 1) (negVec x s.q) (fun k => -v k) := by
  refine RowIs.map (F := fun a => -a) hx (fun u h => ?_)
  have e2 : (s.q - u).toNat = s.q.toNat - u.toNat := toNat_sub_of_le' (by omega)
  exact ⟨by omega, by rw [e2, Nat.cast_sub (by omega)]; simp⟩

theorem reduceVec_is (hx : RowIs N s.q.toNat A x v) :
    RowIs N s.q.toNat s.q.toNat (reduceVec x s.q s.bred) v :=
  RowIs.map (F := fun a => a) hx (fun u _ => word_reduce hs u)

theorem reduceConstantVec_is (hx : RowIs N s.q.toNat A x v) :
    RowIs N s.q.toNat (2 * s.q.toNat) (reduceConstantVec x s.q s.bred) v :=
  RowIs.map (F := fun a => a) hx (fun u _ => word_reduceConstant hs u)

theorem mulCoeffsVec_is (hx : RowIs N s.q.toNat A x v) (hy : RowIs N s.q.toNat B y w) :
    RowIs N s.q.toNat s.q.toNat (mulCoeffsVec x y s.q s.bred) (fun k => v k * w k) :=
  RowIs.zipWith (F := fun a b => a * b) hx hy (fun u u' _ _ => word_mul hs u u')

theorem mulCoeffsConstantVec_is (hx : RowIs N s.q.toNat A x v) (hy : RowIs N s.q.toNat B y w) :
    RowIs N s.q.toNat (2 * s.q.toNat) (mulCoeffsConstantVec x y s.q s.bred) (fun k => v k * w k) :=
  RowIs.zipWith (F := fun a b => a * b) hx hy (fun u u' _ _ => word_mulConstant hs u u')

omit hs in
theorem prod_lt {u w : UInt64} {A B M : ℕ} (hu : u.toNat < A) (hw : w.toNat < B) (h : A * B ≤ M) :
    u.toNat * w.toNat < M := lt_of_lt_of_le (Nat.mul_lt_mul'' hu hw) h

theorem mulCoeffsMontgomeryVec_is (hx : RowIs N s.q.toNat A x v) (hy : RowIs N s.q.toNat B y w)
    (hAB : A * B ≤ s.q.toNat * 2 ^ 64) :
    RowIs N s.q.toNat s.q.toNat (mulCoeffsMontgomeryVec x y s.q s.mred)
      (fun k => v k * w k * rinv _) :=
  RowIs.zipWith (F := fun a b => a * b * rinv _) hx hy
    (fun u u' h h' => word_mred hs u u' (prod_lt h h' hAB))

theorem mulCoeffsMontgomeryConstantVec_is (hx : RowIs N s.q.toNat A x v)
    (hy : RowIs N s.q.toNat B y w) (hAB : A * B ≤ s.q.toNat * 2 ^ 64) :
    RowIs N s.q.toNat (2 * s.q.toNat) (mulCoeffsMontgomeryConstantVec x y s.q s.mred)
      (fun k => v k * w k * rinv _) :=
  RowIs.zipWith (F := fun a b => a * b * rinv _) hx hy
    (fun u u' h h' => word_mredConstant hs u u' (prod_lt h h' hAB))

theorem toNat_shl_one : (s.q <<< 1).toNat = 2 * s.q.toNat := by
  have := hs.lt
  rw [shl_one_eq, toNat_two_mul (by omega)]

theorem word_twoQ_sub (u : UInt64) (hu : u.toNat < 2 * s.q.toNat + 1) :
    (s.q <<< 1 - u).toNat < 2 * s.q.toNat + 1 ∧
    ((s.q <<< 1 - u).toNat : ZMod s.q.toNat) = -(u.toNat : ZMod s.q.toNat) := by
  have e2 : (s.q <<< 1 - u).toNat = 2 * s.q.toNat - u.toNat := by
    rw [toNat_sub_of_le' (by rw [toNat_shl_one hs]; omega), toNat_shl_one hs]
  exact ⟨by omega, by rw [e2, Nat.cast_sub (by omega)]; simp⟩

theorem mulCoeffsMontgomeryConstantAndNeg_is (hx : RowIs N s.q.toNat A x v)
    (hy : RowIs N s.q.toNat B y w) (hAB : A * B ≤ s.q.toNat * 2 ^ 64) :
    RowIs N s.q.toNat (2 * s.q.toNat + 1) (mulCoeffsMontgomeryConstantAndNeg x y s.q s.mred)
      (fun k => -(v k * w k * rinv _)) := by
  refine RowIs.zipWith (F := fun a b => -(a * b * rinv _)) hx hy (fun u u' h h' => ?_)
  have h1 := word_mredConstant hs u u' (prod_lt h h' hAB)
  have h2 := word_twoQ_sub hs (mredConstant u u' s.q s.mred) (by omega)
  exact ⟨h2.1, by rw [h2.2, h1.2]⟩

theorem mulCoeffsAndAddVec_is (hx : RowIs N s.q.toNat A x v) (hy : RowIs N s.q.toNat B y w)
    (hz : RowIs N s.q.toNat s.q.toNat z t) :
    RowIs N s.q.toNat s.q.toNat (mulCoeffsAndAddVec x y z s.q s.bred)
      (fun k => t k + v k * w k) := by
  refine RowIs.zip3 (F := fun a b c => c + a * b) hx hy hz (fun u u' u'' _ _ h'' => ?_)
  have h1 := word_mul hs u u'
  have h2 := word_add hs u'' _ h'' h1.1
  exact ⟨h2.1, by rw [h2.2, h1.2]⟩

omit hs in
theorem word_add_noMod {a b : UInt64} {A B : ℕ} (ha : a.toNat < A) (hb : b.toNat < B)
    (h : A + B ≤ 2 ^ 64) :
    (a + b).toNat < A + B ∧ ((a + b).toNat : ZMod q) = a.toNat + b.toNat := by
  have e : (a + b).toNat = a.toNat + b.toNat := by rw [UInt64.toNat_add]; omega
  exact ⟨by omega, by rw [e]; push_cast; rfl⟩

theorem mulCoeffsAndAddNoModVec_is (hx : RowIs N s.q.toNat A x v) (hy : RowIs N s.q.toNat B y w)
    (hz : RowIs N s.q.toNat D z t) (hD : D + s.q.toNat ≤ 2 ^ 64) :
    RowIs N s.q.toNat (D + s.q.toNat) (mulCoeffsAndAddNoModVec x y z s.q s.bred)
      (fun k => t k + v k * w k) := by
  refine RowIs.zip3 (F := fun a b c => c + a * b) hx hy hz (fun u u' u'' _ _ h'' => ?_)
  have h1 := word_mul hs u u'
  have h2 := word_add_noMod (q := s.q.toNat) h'' h1.1 hD
  exact ⟨h2.1, by rw [h2.2, h1.2]⟩

theorem mulCoeffsMontgomeryAndAddVec_is (hx : RowIs N s.q.toNat A x v)
    (hy : RowIs N s.q.toNat B y w) (hz : RowIs N s.q.toNat s.q.toNat z t)
    (hAB : A * B ≤ s.q.toNat * 2 ^ 64) :
    RowIs N s.q.toNat s.q.toNat (mulCoeffsMontgomeryAndAddVec x y z s.q s.mred)
      (fun k => t k + v k * w k * rinv _) := by
  refine RowIs.zip3 (F := fun a b c => c + a * b * rinv _) hx hy hz (fun u u' u'' h h' h'' => ?_)
  have h1 := word_mred hs u u' (prod_lt h h' hAB)
  have h2 := word_add hs u'' _ h'' h1.1
  exact ⟨h2.1, by rw [h2.2, h1.2]⟩

theorem mulCoeffsMontgomeryAndAddNoModVec_is (hx : RowIs N s.q.toNat A x v)
    (hy : RowIs N s.q.toNat B y w) (hz : RowIs N s.q.toNat D z t)
    (hAB : A * B ≤ s.q.toNat * 2 ^ 64) (hD : D + s.q.toNat ≤ 2 ^ 64) :
    RowIs N s.q.toNat (D + s.q.toNat) (mulCoeffsMontgomeryAndAddNoModVec x y z s.q s.mred)
      (fun k => t k + v k * w k * rinv _) := by
  refine RowIs.zip3 (F := fun a b c => c + a * b * rinv _) hx hy hz (fun u u' u'' h h' h'' => ?_)
  have h1 := word_mred hs u u' (prod_lt h h' hAB)
  have h2 := word_add_noMod (q := s.q.toNat) h'' h1.1 hD
  exact ⟨h2.1, by rw [h2.2, h1.2]⟩

theorem mulCoeffsMontgomeryConstantAndAddNoModVec_is (hx : RowIs N s.q.toNat A x v)
    (hy : RowIs N s.q.toNat B y w) (hz : RowIs N s.q.toNat D z t)
    (hAB : A * B ≤ s.q.toNat * 2 ^ 64) (hD : D + 2 * s.q.toNat ≤ 2 ^ 64) :
    RowIs N s.q.toNat (D + 2 * s.q.toNat)
      (mulCoeffsMontgomeryConstantAndAddNoModVec x y z s.q s.mred)
      (fun k => t k + v k * w k * rinv _) := by
  refine RowIs.zip3 (F := fun a b c => c + a * b * rinv _) hx hy hz (fun u u' u'' h h' h'' => ?_)
  have h1 := word_mredConstant hs u u' (prod_lt h h' hAB)
  have h2 := word_add_noMod (q := s.q.toNat) h'' h1.1 hD
  exact ⟨h2.1, by rw [h2.2, h1.2]⟩

omit hs in
theorem word_q_sub (u : UInt64) (hu : u.toNat < s.q.toNat + 1) :
    (s.q - u).toNat < s.q.toNat + 1 ∧
    ((s.q - u).toNat : ZMod s.q.toNat) = -(u.toNat : ZMod s.q.toNat) := by
  have e2 : (s.q - u).toNat = s.q.toNat - u.toNat := toNat_sub_of_le' (by omega)
  exact ⟨by omega, by rw [e2, Nat.cast_sub (by omega)]; simp⟩

theorem mulCoeffsMontgomeryAndSubVec_is (hx : RowIs N s.q.toNat A x v)
    (hy : RowIs N s.q.toNat B y w) (hz : RowIs N s.q.toNat s.q.toNat z t)
    (hAB : A * B ≤ s.q.toNat * 2 ^ 64) :
    RowIs N s.q.toNat s.q.toNat (mulCoeffsMontgomeryAndSubVec x y z s.q s.mred)
      (fun k => t k - v k * w k * rinv _) := by
  refine RowIs.zip3 (F := fun a b c => c - a * b * rinv _) hx hy hz (fun u u' u'' h h' h'' => ?_)
  have h1 := word_mred hs u u' (prod_lt h h' hAB)
  have h2 := word_q_sub (s := s) (mred u u' s.q s.mred) (by omega)
  have hl := hs.lt
  have e : (u'' + (s.q - mred u u' s.q s.mred)).toNat
      = u''.toNat + (s.q - mred u u' s.q s.mred).toNat := by rw [UInt64.toNat_add]; omega
  refine ⟨toNat_cred_lt (by omega), ?_⟩
  rw [cast_of_modEq (toNat_cred_modEq _ _), e, Nat.cast_add, h2.2, h1.2]; ring

theorem mulCoeffsMontgomeryAndSubNoMod_is (hx : RowIs N s.q.toNat A x v)
    (hy : RowIs N s.q.toNat B y w) (hz : RowIs N s.q.toNat D z t)
    (hAB : A * B ≤ s.q.toNat * 2 ^ 64) (hD : D + s.q.toNat ≤ 2 ^ 64) :
    RowIs N s.q.toNat (D + s.q.toNat) (mulCoeffsMontgomeryAndSubNoMod x y z s.q s.mred)
      (fun k => t k - v k * w k * rinv _) := by
  refine RowIs.zip3 (F := fun a b c => c - a * b * rinv _) hx hy hz (fun u u' u'' h h' h'' => ?_)
  have h1 := word_mred hs u u' (prod_lt h h' hAB)
  have h2 := word_q_sub (s := s) (mred u u' s.q s.mred) (by omega)
  have hl := hs.lt
  have e : (u'' + (s.q - mred u u' s.q s.mred)).toNat
      = u''.toNat + (s.q - mred u u' s.q s.mred).toNat := by rw [UInt64.toNat_add]; omega
  refine ⟨by omega, ?_⟩
  rw [e, Nat.cast_add, h2.2, h1.2]; ring

theorem mulCoeffsMontgomeryConstantAndSubNoMod_is (hx : RowIs N s.q.toNat A x v)
    (hy : RowIs N s.q.toNat B y w) (hz : RowIs N s.q.toNat D z t)
    (hAB : A * B ≤ s.q.toNat * 2 ^ 64) (hD : D + 2 * s.q.toNat ≤ 2 ^ 64) :
    RowIs N s.q.toNat (D + 2 * s.q.toNat)
      (mulCoeffsMontgomeryConstantAndSubNoMod x y z s.q s.mred)
      (fun k => t k - v k * w k * rinv _) := by
  refine RowIs.zip3 (F := fun a b c => c - a * b * rinv _) hx hy hz (fun u u' u'' h h' h'' => ?_)
  have h1 := word_mredConstant hs u u' (prod_lt h h' hAB)
  have h2 := word_twoQ_sub hs (mredConstant u u' s.q s.mred) (by omega)
  have e : (u'' + (s.q <<< 1 - mredConstant u u' s.q s.mred)).toNat
      = u''.toNat + (s.q <<< 1 - mredConstant u u' s.q s.mred).toNat := by
    rw [UInt64.toNat_add]; omega
  refine ⟨by omega, ?_⟩
  rw [e, Nat.cast_add, h2.2, h1.2]; ring

theorem addScalarVec_is (hx : RowIs N s.q.toNat s.q.toNat x v) (c : UInt64)
    (hc : c.toNat < s.q.toNat) :
    RowIs N s.q.toNat s.q.toNat (addScalarVec x c s.q) (fun k => v k + c.toNat) :=
  RowIs.map (F := fun a => a + (c.toNat : ZMod s.q.toNat)) hx (fun u h => word_add hs u c h hc)

theorem subScalarVec_is (hx : RowIs N s.q.toNat s.q.toNat x v) (c : UInt64)
    (hc : c.toNat < s.q.toNat) :
    RowIs N s.q.toNat s.q.toNat (subScalarVec x c s.q) (fun k => v k - c.toNat) :=
  RowIs.map (F := fun a => a - (c.toNat : ZMod s.q.toNat)) hx (fun u h => word_sub' hs u c h hc)

omit hs in
theorem addScalarNoModVec_is (hx : RowIs N q A x v') (c : UInt64) (hA : A + c.toNat ≤ 2 ^ 64) :
    RowIs N q (A + c.toNat) (addScalarNoModVec x c) (fun k => v' k + c.toNat) := by
  refine RowIs.map (F := fun a => a + (c.toNat : ZMod q)) hx (fun u h => ?_)
  have e : (u + c).toNat = u.toNat + c.toNat := by rw [UInt64.toNat_add]; omega
  exact ⟨by omega, by rw [e]; push_cast; rfl⟩

theorem addScalarNoModAndNegTwoQiNoModVec_is (hx : RowIs N s.q.toNat (2 * s.q.toNat + 1) x v)
    (c : UInt64) (hA : c.toNat + 2 * s.q.toNat < 2 ^ 64) :
    RowIs N s.q.toNat (c.toNat + 2 * s.q.toNat + 1)
      (addScalarNoModAndNegTwoQiNoModVec x c s.q) (fun k => c.toNat - v k) := by
  refine RowIs.map (F := fun a => (c.toNat : ZMod s.q.toNat) - a) hx (fun u h => ?_)
  have e1 : (c + s.q <<< 1).toNat = c.toNat + 2 * s.q.toNat := by
    rw [UInt64.toNat_add, toNat_shl_one hs]; omega
  have e : (c + s.q <<< 1 - u).toNat = c.toNat + 2 * s.q.toNat - u.toNat := by
    rw [toNat_sub_of_le' (by omega), e1]
  exact ⟨by omega, by rw [e, Nat.cast_sub (by omega)]; simp⟩

theorem mulScalarMontgomeryVec_is (hx : RowIs N s.q.toNat A x v) (c : UInt64)
    (hc : c.toNat < s.q.toNat) :
    RowIs N s.q.toNat s.q.toNat (mulScalarMontgomeryVec x c s.q s.mred)
      (fun k => v k * c.toNat * rinv s.q.toNat) :=
  RowIs.map (F := fun a => a * (c.toNat : ZMod s.q.toNat) * rinv _) hx
    (fun u _ => word_mred hs u c (mul_lt_of_lt_right u hc))

theorem mulScalarMontgomeryConstantVec_is (hx : RowIs N s.q.toNat A x v) (c : UInt64)
    (hc : c.toNat < s.q.toNat) :
    RowIs N s.q.toNat (2 * s.q.toNat) (mulScalarMontgomeryConstantVec x c s.q s.mred)
      (fun k => v k * c.toNat * rinv s.q.toNat) :=
  RowIs.map (F := fun a => a * (c.toNat : ZMod s.q.toNat) * rinv _) hx
    (fun u _ => word_mredConstant hs u c (mul_lt_of_lt_right u hc))

theorem mulScalarMontgomeryAndAddVec_is (hx : RowIs N s.q.toNat A x v)
    (hz : RowIs N s.q.toNat s.q.toNat z t) (c : UInt64) (hc : c.toNat < s.q.toNat) :
    RowIs N s.q.toNat s.q.toNat (mulScalarMontgomeryAndAddVec x z c s.q s.mred)
      (fun k => t k + v k * c.toNat * rinv s.q.toNat) := by
  refine RowIs.zipWith (F := fun a b => b + a * (c.toNat : ZMod s.q.toNat) * rinv _) hx hz
    (fun u u'' _ h'' => ?_)
  have h1 := word_mred hs u c (mul_lt_of_lt_right u hc)
  have h2 := word_add hs u'' _ h'' h1.1
  exact ⟨h2.1, by rw [h2.2, h1.2]⟩

/-- multiplication by the Montgomery form of a scalar -/
theorem mulScalarMontgomeryVec_mform_is (hx : RowIs N s.q.toNat A x v) (c : UInt64) :
    RowIs N s.q.toNat s.q.toNat (mulScalarMontgomeryVec x (mform c s.q s.bred) s.q s.mred)
      (fun k => v k * c.toNat) := by
  have h := word_mform hs c
  refine (mulScalarMontgomeryVec_is hs hx _ h.1).congr (fun k _ => ?_)
  rw [h.2, mul_assoc, mul_assoc, mul_rinv hs.odd, mul_one]

theorem mformVec_is (hx : RowIs N s.q.toNat A x v) :
    RowIs N s.q.toNat s.q.toNat (mformVec x s.q s.bred) (fun k => v k * 2 ^ 64) :=
  RowIs.map (F := fun a => a * 2 ^ 64) hx (fun u _ => word_mform hs u)

theorem mformConstantVec_is (hx : RowIs N s.q.toNat A x v) :
    RowIs N s.q.toNat (2 * s.q.toNat) (mformConstantVec x s.q s.bred) (fun k => v k * 2 ^ 64) :=
  RowIs.map (F := fun a => a * 2 ^ 64) hx (fun u _ => word_mformConstant hs u)

theorem invMformVec_is (hx : RowIs N s.q.toNat A x v) :
    RowIs N s.q.toNat s.q.toNat (invMformVec x s.q s.mred) (fun k => v k * rinv _) :=
  RowIs.map (F := fun a => a * rinv _) hx (fun u _ => word_invMform hs u)

theorem addVecNoModAndMulScalarMontgomeryVec_is (hx : RowIs N s.q.toNat A x v)
    (hy : RowIs N s.q.toNat B y w) (hAB : A + B ≤ 2 ^ 64) (c : UInt64) (hc : c.toNat < s.q.toNat) :
    RowIs N s.q.toNat s.q.toNat (addVecNoModAndMulScalarMontgomeryVec x y c s.q s.mred)
      (fun k => (v k + w k) * c.toNat * rinv s.q.toNat) := by
  refine RowIs.zipWith (F := fun a b => (a + b) * (c.toNat : ZMod s.q.toNat) * rinv _) hx hy
    (fun u u' h h' => ?_)
  have h1 := word_add_noMod (q := s.q.toNat) h h' hAB
  have h2 := word_mred hs (u + u') c (mul_lt_of_lt_right _ hc)
  exact ⟨h2.1, by rw [h2.2, h1.2]⟩

theorem subVecAndMulScalarMontgomeryTwoQiVec_is (hx : RowIs N s.q.toNat A x v)
    (hy : RowIs N s.q.toNat (2 * s.q.toNat + 1) y w) (hA : A + 2 * s.q.toNat ≤ 2 ^ 64)
    (c : UInt64) (hc : c.toNat < s.q.toNat) :
    RowIs N s.q.toNat s.q.toNat (subVecAndMulScalarMontgomeryTwoQiVec x y c s.q s.mred)
      (fun k => (v k - w k) * c.toNat * rinv s.q.toNat) := by
  refine RowIs.zipWith (F := fun a b => (a - b) * (c.toNat : ZMod s.q.toNat) * rinv _) hx hy
    (fun u u' h h' => ?_)
  have h1 := word_twoQ_sub hs u' h'
  have e : (s.q <<< 1 - u' + u).toNat = (s.q <<< 1 - u').toNat + u.toNat := by
    rw [UInt64.toNat_add]; omega
  have h2 := word_mred hs (s.q <<< 1 - u' + u) c (mul_lt_of_lt_right _ hc)
  refine ⟨h2.1, ?_⟩
  rw [h2.2, e, Nat.cast_add, h1.2]; ring

end word

end FastKsw
