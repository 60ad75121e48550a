import Verif.Lemmas.VecOps
import Verif.Lemmas.NegaRing

/-!
# The transforms of one modulus in terms of `RowIs`
-/

namespace FastKsw

open Finset

section
variable {n : ℕ} {s : SubRing}

theorem SubRing.Valid.odd (h : s.Valid n) : s.q.toNat % 2 = 1 := odd_of_mul_eq_one h.mred

theorem SubRing.Valid.psiOK [Fact s.q.toNat.Prime] (h : s.Valid n) (hn : 1 ≤ n) : PsiOK s.psi n :=
  ⟨h.odd, hn, h.psi_pow⟩

/-- values of `∑ v_j X^j` at the evaluation points -/
def evals {q : ℕ} (psi : ZMod q) (n : ℕ) (v : ℕ → ZMod q) (i : ℕ) : ZMod q :=
  ∑ j ∈ range (2 ^ n), v j * nttPoint psi n i ^ j

/-- coefficients of the element with values `v` -/
noncomputable def coeffsOf {q : ℕ} (psi : ZMod q) (n : ℕ) (v : ℕ → ZMod q) (j : ℕ) : ZMod q :=
  ((2 : ZMod q) ^ n)⁻¹ * ∑ i ∈ range (2 ^ n), v i * (nttPoint psi n i)⁻¹ ^ j

variable (V : s.Valid n)
include V

theorem SubRing.Valid.fact : Fact s.q.toNat.Prime := ⟨V.prime⟩

theorem twLaw_sub : TwLaw (2 ^ n) (s.tw n) := twLaw_of_psi V.psi_pow

theorem evalPt_sub (hn : 1 ≤ n) {i : ℕ} (hi : i < 2 ^ n) :
    evalPt (2 ^ n) (s.tw n) i = nttPoint s.psi n i := by
  have := V.fact
  exact (nttPoint_eq (V.psiOK hn) hi).symm

theorem nttLazy_is (hn : 2 ≤ n) (hq : s.q.toNat < 2 ^ 61) {B : ℕ} (hB : 4 * s.q.toNat ≤ B)
    (hB2 : B + 4 * s.q.toNat ≤ 2 ^ 64) {x : Row} {v : ℕ → ZMod s.q.toNat}
    (hx : RowIs (2 ^ n) s.q.toNat B x v) :
    RowIs (2 ^ n) s.q.toNat (B + 2 * s.q.toNat) (s.nttLazy (2 ^ n) x) (evals s.psi n v) := by
  obtain ⟨h1, h2, h3⟩ := nttLazy_spec V.mred (by omega) rfl hn V.table (twLaw_sub V) hB hB2 x
    hx.len hx.lt
  refine ⟨h1, h2, ?_⟩
  intro i hi
  refine (h3 i hi).trans ?_
  unfold evals
  apply sum_congr rfl
  intro j hj
  rw [evalPt_sub V (by omega) hi, hx.val j (mem_range.1 hj)]

theorem ntt_is (hn : 2 ≤ n) (hq : s.q.toNat < 2 ^ 61) {B : ℕ}
    (hB2 : B + 4 * s.q.toNat ≤ 2 ^ 64) {x : Row} {v : ℕ → ZMod s.q.toNat}
    (hx : RowIs (2 ^ n) s.q.toNat B x v) :
    RowIs (2 ^ n) s.q.toNat s.q.toNat (s.ntt (2 ^ n) x) (evals s.psi n v) := by
  rcases Nat.le_total (4 * s.q.toNat) B with h | h
  · exact reduceVec_is V.arith (nttLazy_is V hn hq h hB2 hx)
  · exact reduceVec_is V.arith (nttLazy_is V hn hq le_rfl (by omega) (hx.mono h))

theorem twInv_mul (k : ℕ) : s.tw n k * s.twInv n k = 1 := by
  have := V.fact
  have h0 : s.psi ≠ 0 := by
    intro h
    have := V.psi_pow
    rw [h, zero_pow (Nat.two_pow_pos n).ne'] at this
    simp at this
  unfold SubRing.tw SubRing.twInv
  rw [← mul_pow, mul_inv_cancel₀ h0, one_pow]

theorem coeffsOf_unique (hn : 1 ≤ n) {c v : ℕ → ZMod s.q.toNat}
    (h : ∀ i < 2 ^ n, evals s.psi n c i = v i) : ∀ j < 2 ^ n, c j = coeffsOf s.psi n v j := by
  have := V.fact
  exact toR_injective (V.psiOK hn) (toR_eq_ofNtt (V.psiOK hn) h)

theorem two_pow_ne_zero (k : ℕ) : (2 : ZMod s.q.toNat) ^ k ≠ 0 := by
  have := V.fact
  exact pow_ne_zero _ (two_ne_zero_of_odd V.odd)

theorem invNttCore_is (hn : 1 ≤ n) (hq : s.q.toNat < 2 ^ 61) {x : Row} {v : ℕ → ZMod s.q.toNat}
    (hx : RowIs (2 ^ n) s.q.toNat (2 * s.q.toNat) x v) :
    RowIs (2 ^ n) s.q.toNat (2 * s.q.toNat) (invNttCore x (2 ^ n) s.nttPsiInv s.q s.mred)
      (fun j => 2 ^ n * coeffsOf s.psi n v j) := by
  have := V.fact
  obtain ⟨h1, h2, h3⟩ := invNttCore_spec V.mred hq rfl hn V.tableInv (twLaw_sub V)
    (fun k _ => twInv_mul V k) x hx.len hx.lt
  refine ⟨h1, h2, ?_⟩
  intro j hj
  have key := coeffsOf_unique V hn
    (c := fun j => zval s.q.toNat (invNttCore x (2 ^ n) s.nttPsiInv s.q s.mred) j * (2 ^ n)⁻¹)
    (v := v) (fun i hi => by
      have e := h3 i hi
      have : evals s.psi n (fun j => zval s.q.toNat (invNttCore x (2 ^ n) s.nttPsiInv s.q s.mred) j
          * (2 ^ n)⁻¹) i = (∑ j ∈ range (2 ^ n),
            zval s.q.toNat (invNttCore x (2 ^ n) s.nttPsiInv s.q s.mred) j
              * evalPt (2 ^ n) (s.tw n) i ^ j) * (2 ^ n)⁻¹ := by
        unfold evals
        rw [sum_mul]
        apply sum_congr rfl
        intro j _
        rw [evalPt_sub V hn hi]; ring
      rw [this, e, hx.val i hi]
      push_cast
      field_simp [two_pow_ne_zero V n])
  have h := key j hj
  rw [← h]
  field_simp [two_pow_ne_zero V n]

theorem nInv_rinv : (s.nttNInv.toNat : ZMod s.q.toNat) * rinv _ * 2 ^ n = 1 := by
  have h := V.nInv.2
  calc (s.nttNInv.toNat : ZMod s.q.toNat) * rinv _ * 2 ^ n
      = (s.nttNInv.toNat : ZMod s.q.toNat) * 2 ^ n * rinv _ := by ring
    _ = 1 := by rw [h, mul_rinv V.odd]

theorem invNtt_is (hn : 1 ≤ n) (hq : s.q.toNat < 2 ^ 61) {x : Row} {v : ℕ → ZMod s.q.toNat}
    (hx : RowIs (2 ^ n) s.q.toNat (2 * s.q.toNat) x v) :
    RowIs (2 ^ n) s.q.toNat s.q.toNat (s.invNtt (2 ^ n) x) (coeffsOf s.psi n v) := by
  refine (mulScalarMontgomeryVec_is V.arith (invNttCore_is V hn hq hx) s.nttNInv
    V.nInv.1).congr (fun j _ => ?_)
  calc _ = coeffsOf s.psi n v j * ((s.nttNInv.toNat : ZMod s.q.toNat) * rinv _ * 2 ^ n) := by ring
    _ = _ := by rw [nInv_rinv V, mul_one]

theorem invNttLazy_is (hn : 1 ≤ n) (hq : s.q.toNat < 2 ^ 61) {x : Row} {v : ℕ → ZMod s.q.toNat}
    (hx : RowIs (2 ^ n) s.q.toNat (2 * s.q.toNat) x v) :
    RowIs (2 ^ n) s.q.toNat (2 * s.q.toNat) (s.invNttLazy (2 ^ n) x) (coeffsOf s.psi n v) := by
  refine (mulScalarMontgomeryConstantVec_is V.arith (invNttCore_is V hn hq hx) s.nttNInv
    V.nInv.1).congr (fun j _ => ?_)
  calc _ = coeffsOf s.psi n v j * ((s.nttNInv.toNat : ZMod s.q.toNat) * rinv _ * 2 ^ n) := by ring
    _ = _ := by rw [nInv_rinv V, mul_one]

omit V in
theorem toR_coeffsOf (v : ℕ → ZMod s.q.toNat) :
    toR (2 ^ n) s.q.toNat (coeffsOf s.psi n v) = ofNtt s.psi n v := rfl

theorem ofNtt_evals (hn : 1 ≤ n) (v : ℕ → ZMod s.q.toNat) :
    ofNtt s.psi n (evals s.psi n v) = toR (2 ^ n) s.q.toNat v := by
  have := V.fact
  exact (toR_eq_ofNtt (V.psiOK hn) (fun _ _ => rfl)).symm

theorem evals_coeffsOf (hn : 1 ≤ n) (v : ℕ → ZMod s.q.toNat) :
    ∀ i < 2 ^ n, evals s.psi n (coeffsOf s.psi n v) i = v i := by
  have := V.fact
  apply ofNtt_injective (V.psiOK hn)
  rw [ofNtt_evals V hn]; rfl

theorem coeffsOf_evals (hn : 1 ≤ n) (v : ℕ → ZMod s.q.toNat) :
    ∀ i < 2 ^ n, coeffsOf s.psi n (evals s.psi n v) i = v i := by
  intro i hi
  exact (coeffsOf_unique V hn (fun _ _ => rfl) i hi).symm

end

end FastKsw
