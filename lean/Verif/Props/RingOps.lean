import Verif.Lemmas.PolyIs
import Verif.Props.NTT

/-!
# C10: coefficient-wise ring operations

`PolyIs r level A p v`: rows `0 … level` of `p` are below `A i` and hold the
residues `v i`.  `PolyWritten … old new v`: `new` is `old` with rows `0 … level`
overwritten by `v` and the other rows kept.  `rinv q` is `2^-64 mod q`.
-/

namespace FastKsw.Props

theorem cast_intMod {s : SubRing} (hs : s.Arith) (x : ℤ) :
    ((UInt64.ofNat (x % (s.q.toNat : ℤ)).toNat).toNat : ZMod s.q.toNat) = (x : ZMod s.q.toNat) := by
  have h1 := hs.one_lt
  have h2 := hs.lt
  have h3 := Int.emod_nonneg x (b := (s.q.toNat : ℤ)) (by omega)
  have h4 := Int.emod_lt_of_pos x (b := (s.q.toNat : ℤ)) (by omega)
  rw [UInt64.toNat_ofNat', Nat.mod_eq_of_lt (by omega)]
  rw [← Int.cast_natCast, Int.toNat_of_nonneg h3]
  rw [ZMod.intCast_eq_intCast_iff]
  exact Int.mod_modEq _ _

variable {r : Ring} {level : ℕ} {m : UInt64} {p1 p2 p3 : Rows} {a b c : ∀ i, ℕ → ZMod (r.sub i).q.toNat}
  {A B D : ℕ → ℕ}

/-- **C10.** `AddLvl` on reduced inputs. -/
theorem C10_add (hr : r.ArithLvl level)
    (h1 : PolyIs r level r.qs p1 a) (h2 : PolyIs r level r.qs p2 b)
    (h3 : level < p3.length) :
    PolyWritten r level (r.qs) p3 (r.addLvl level p1 p2 p3)
      (fun i k => a i k + b i k) :=
  writeLvl_is h3 (fun i hi => addVec_is (hr i hi) (h1.row i hi) (h2.row i hi))

/-- **C10.** `AddNoModLvl` without wrap-around. -/
theorem C10_addNoMod
    (h1 : PolyIs r level A p1 a) (h2 : PolyIs r level B p2 b)
    (hAB : ∀ i ≤ level, A i + B i ≤ 2 ^ 64) (h3 : level < p3.length) :
    PolyWritten r level (fun i => A i + B i) p3 (r.addNoModLvl level p1 p2 p3)
      (fun i k => a i k + b i k) :=
  writeLvl_is h3 (fun i hi => addVecNoMod_is (h1.row i hi) (h2.row i hi) (hAB i hi))

/-- **C10.** `SubLvl` on reduced inputs. -/
theorem C10_sub (hr : r.ArithLvl level)
    (h1 : PolyIs r level r.qs p1 a) (h2 : PolyIs r level r.qs p2 b)
    (h3 : level < p3.length) :
    PolyWritten r level (r.qs) p3 (r.subLvl level p1 p2 p3)
      (fun i k => a i k - b i k) :=
  writeLvl_is h3 (fun i hi => subVec_is (hr i hi) (h1.row i hi) (h2.row i hi))

/-- **C10.** `SubNoModLvl`: the subtrahend at most `q`. -/
theorem C10_subNoMod
    (h1 : PolyIs r level A p1 a) (h2 : PolyIs r level (fun i => r.qs i + 1) p2 b)
    (hA : ∀ i ≤ level, A i + r.qs i ≤ 2 ^ 64) (h3 : level < p3.length) :
    PolyWritten r level (fun i => A i + r.qs i) p3 (r.subNoModLvl level p1 p2 p3)
      (fun i k => a i k - b i k) :=
  writeLvl_is h3 (fun i hi => subVecNomod_is (h1.row i hi) (h2.row i hi) (hA i hi))

/-- **C10.** `NegLvl`: on inputs at most `q`, output at most `q` (zero becomes `q`). -/
theorem C10_neg
    (h1 : PolyIs r level (fun i => r.qs i + 1) p1 a)
    (h2 : level < p2.length) :
    PolyWritten r level (fun i => r.qs i + 1) p2 (r.negLvl level p1 p2)
      (fun i k => -a i k) :=
  writeLvl_is h2 (fun i hi => negVec_is (h1.row i hi))

/-- **C10.** `ReduceLvl` on any inputs. -/
theorem C10_reduce (hr : r.ArithLvl level)
    (h1 : PolyIs r level A p1 a) (h2 : level < p2.length) :
    PolyWritten r level (r.qs) p2 (r.reduceLvl level p1 p2)
      (fun i k => a i k) :=
  writeLvl_is h2 (fun i hi => reduceVec_is (hr i hi) (h1.row i hi))

/-- **C10.** `ReduceConstantLvl` on any inputs. -/
theorem C10_reduceConstant (hr : r.ArithLvl level)
    (h1 : PolyIs r level A p1 a) (h2 : level < p2.length) :
    PolyWritten r level (fun i => 2 * r.qs i) p2 (r.reduceConstantLvl level p1 p2)
      (fun i k => a i k) :=
  writeLvl_is h2 (fun i hi => reduceConstantVec_is (hr i hi) (h1.row i hi))

/-- **C10.** `MulCoeffsLvl` on any inputs. -/
theorem C10_mulCoeffs (hr : r.ArithLvl level)
    (h1 : PolyIs r level A p1 a) (h2 : PolyIs r level B p2 b) (h3 : level < p3.length) :
    PolyWritten r level (r.qs) p3 (r.mulCoeffsLvl level p1 p2 p3)
      (fun i k => a i k * b i k) :=
  writeLvl_is h3 (fun i hi => mulCoeffsVec_is (hr i hi) (h1.row i hi) (h2.row i hi))

/-- **C10.** `MulCoeffsConstantLvl` on any inputs. -/
theorem C10_mulCoeffsConstant (hr : r.ArithLvl level)
    (h1 : PolyIs r level A p1 a) (h2 : PolyIs r level B p2 b) (h3 : level < p3.length) :
    PolyWritten r level (fun i => 2 * r.qs i) p3 (r.mulCoeffsConstantLvl level p1 p2 p3)
      (fun i k => a i k * b i k) :=
  writeLvl_is h3 (fun i hi => mulCoeffsConstantVec_is (hr i hi) (h1.row i hi) (h2.row i hi))

/-- **C10.** `MulCoeffsAndAddLvl`. -/
theorem C10_mulCoeffsAndAdd (hr : r.ArithLvl level)
    (h1 : PolyIs r level A p1 a) (h2 : PolyIs r level B p2 b)
    (h3 : PolyIs r level r.qs p3 c) :
    PolyWritten r level (r.qs) p3 (r.mulCoeffsAndAddLvl level p1 p2 p3)
      (fun i k => c i k + a i k * b i k) :=
  writeLvl_is h3.lvl (fun i hi => mulCoeffsAndAddVec_is (hr i hi) (h1.row i hi) (h2.row i hi) (h3.row i hi))

/-- **C10.** `MulCoeffsAndAddNoModLvl`. -/
theorem C10_mulCoeffsAndAddNoMod (hr : r.ArithLvl level)
    (h1 : PolyIs r level A p1 a) (h2 : PolyIs r level B p2 b)
    (h3 : PolyIs r level D p3 c) (hD : ∀ i ≤ level, D i + r.qs i ≤ 2 ^ 64) :
    PolyWritten r level (fun i => D i + r.qs i) p3 (r.mulCoeffsAndAddNoModLvl level p1 p2 p3)
      (fun i k => c i k + a i k * b i k) :=
  writeLvl_is h3.lvl (fun i hi => mulCoeffsAndAddNoModVec_is (hr i hi) (h1.row i hi) (h2.row i hi) (h3.row i hi) (hD i hi))

/-- **C10.** `MulCoeffsMontgomeryLvl`. -/
theorem C10_mulCoeffsMontgomery (hr : r.ArithLvl level)
    (h1 : PolyIs r level A p1 a) (h2 : PolyIs r level B p2 b)
    (hAB : ∀ i ≤ level, A i * B i ≤ r.qs i * 2 ^ 64) (h3 : level < p3.length) :
    PolyWritten r level (r.qs) p3 (r.mulCoeffsMontgomeryLvl level p1 p2 p3)
      (fun i k => a i k * b i k * rinv _) :=
  writeLvl_is h3 (fun i hi => mulCoeffsMontgomeryVec_is (hr i hi) (h1.row i hi) (h2.row i hi) (hAB i hi))

/-- **C10.** `MulCoeffsMontgomeryConstantLvl`. -/
theorem C10_mulCoeffsMontgomeryConstant (hr : r.ArithLvl level)
    (h1 : PolyIs r level A p1 a) (h2 : PolyIs r level B p2 b)
    (hAB : ∀ i ≤ level, A i * B i ≤ r.qs i * 2 ^ 64) (h3 : level < p3.length) :
    PolyWritten r level (fun i => 2 * r.qs i) p3 (r.mulCoeffsMontgomeryConstantLvl level p1 p2 p3)
      (fun i k => a i k * b i k * rinv _) :=
  writeLvl_is h3 (fun i hi => mulCoeffsMontgomeryConstantVec_is (hr i hi) (h1.row i hi) (h2.row i hi) (hAB i hi))

/-- **C10.** `MulCoeffsMontgomeryConstantAndNegLvl`. -/
theorem C10_mulCoeffsMontgomeryConstantAndNeg (hr : r.ArithLvl level)
    (h1 : PolyIs r level A p1 a) (h2 : PolyIs r level B p2 b)
    (hAB : ∀ i ≤ level, A i * B i ≤ r.qs i * 2 ^ 64) (h3 : level < p3.length) :
    PolyWritten r level (fun i => 2 * r.qs i + 1) p3 (r.mulCoeffsMontgomeryConstantAndNegLvl level p1 p2 p3)
      (fun i k => -(a i k * b i k * rinv _)) :=
  writeLvl_is h3 (fun i hi => mulCoeffsMontgomeryConstantAndNeg_is (hr i hi) (h1.row i hi) (h2.row i hi) (hAB i hi))

/-- **C10.** `MulCoeffsMontgomeryAndAddLvl`. -/
theorem C10_mulCoeffsMontgomeryAndAdd (hr : r.ArithLvl level)
    (h1 : PolyIs r level A p1 a) (h2 : PolyIs r level B p2 b)
    (hAB : ∀ i ≤ level, A i * B i ≤ r.qs i * 2 ^ 64) (h3 : PolyIs r level r.qs p3 c) :
    PolyWritten r level (r.qs) p3 (r.mulCoeffsMontgomeryAndAddLvl level p1 p2 p3)
      (fun i k => c i k + a i k * b i k * rinv _) :=
  writeLvl_is h3.lvl (fun i hi => mulCoeffsMontgomeryAndAddVec_is (hr i hi) (h1.row i hi) (h2.row i hi) (h3.row i hi) (hAB i hi))

/-- **C10.** `MulCoeffsMontgomeryAndAddNoModLvl`. -/
theorem C10_mulCoeffsMontgomeryAndAddNoMod (hr : r.ArithLvl level)
    (h1 : PolyIs r level A p1 a) (h2 : PolyIs r level B p2 b)
    (hAB : ∀ i ≤ level, A i * B i ≤ r.qs i * 2 ^ 64) (h3 : PolyIs r level D p3 c)
    (hD : ∀ i ≤ level, D i + r.qs i ≤ 2 ^ 64) :
    PolyWritten r level (fun i => D i + r.qs i) p3 (r.mulCoeffsMontgomeryAndAddNoModLvl level p1 p2 p3)
      (fun i k => c i k + a i k * b i k * rinv _) :=
  writeLvl_is h3.lvl (fun i hi => mulCoeffsMontgomeryAndAddNoModVec_is (hr i hi) (h1.row i hi) (h2.row i hi) (h3.row i hi) (hAB i hi) (hD i hi))

/-- **C10.** `MulCoeffsMontgomeryConstantAndAddNoModLvl`. -/
theorem C10_mulCoeffsMontgomeryConstantAndAddNoMod (hr : r.ArithLvl level)
    (h1 : PolyIs r level A p1 a) (h2 : PolyIs r level B p2 b)
    (hAB : ∀ i ≤ level, A i * B i ≤ r.qs i * 2 ^ 64) (h3 : PolyIs r level D p3 c)
    (hD : ∀ i ≤ level, D i + 2 * r.qs i ≤ 2 ^ 64) :
    PolyWritten r level (fun i => D i + 2 * r.qs i) p3 (r.mulCoeffsMontgomeryConstantAndAddNoModLvl level p1 p2 p3)
      (fun i k => c i k + a i k * b i k * rinv _) :=
  writeLvl_is h3.lvl (fun i hi => mulCoeffsMontgomeryConstantAndAddNoModVec_is (hr i hi) (h1.row i hi) (h2.row i hi) (h3.row i hi) (hAB i hi) (hD i hi))

/-- **C10.** `MulCoeffsMontgomeryAndSubLvl`. -/
theorem C10_mulCoeffsMontgomeryAndSub (hr : r.ArithLvl level)
    (h1 : PolyIs r level A p1 a) (h2 : PolyIs r level B p2 b)
    (hAB : ∀ i ≤ level, A i * B i ≤ r.qs i * 2 ^ 64) (h3 : PolyIs r level r.qs p3 c) :
    PolyWritten r level (r.qs) p3 (r.mulCoeffsMontgomeryAndSubLvl level p1 p2 p3)
      (fun i k => c i k - a i k * b i k * rinv _) :=
  writeLvl_is h3.lvl (fun i hi => mulCoeffsMontgomeryAndSubVec_is (hr i hi) (h1.row i hi) (h2.row i hi) (h3.row i hi) (hAB i hi))

/-- **C10.** `MulCoeffsMontgomeryAndSubNoModLvl`. -/
theorem C10_mulCoeffsMontgomeryAndSubNoMod (hr : r.ArithLvl level)
    (h1 : PolyIs r level A p1 a) (h2 : PolyIs r level B p2 b)
    (hAB : ∀ i ≤ level, A i * B i ≤ r.qs i * 2 ^ 64) (h3 : PolyIs r level D p3 c)
    (hD : ∀ i ≤ level, D i + r.qs i ≤ 2 ^ 64) :
    PolyWritten r level (fun i => D i + r.qs i) p3 (r.mulCoeffsMontgomeryAndSubNoModLvl level p1 p2 p3)
      (fun i k => c i k - a i k * b i k * rinv _) :=
  writeLvl_is h3.lvl (fun i hi => mulCoeffsMontgomeryAndSubNoMod_is (hr i hi) (h1.row i hi) (h2.row i hi) (h3.row i hi) (hAB i hi) (hD i hi))

/-- **C10.** `MulCoeffsMontgomeryConstantAndSubNoModLvl`. -/
theorem C10_mulCoeffsMontgomeryConstantAndSubNoMod (hr : r.ArithLvl level)
    (h1 : PolyIs r level A p1 a) (h2 : PolyIs r level B p2 b)
    (hAB : ∀ i ≤ level, A i * B i ≤ r.qs i * 2 ^ 64) (h3 : PolyIs r level D p3 c)
    (hD : ∀ i ≤ level, D i + 2 * r.qs i ≤ 2 ^ 64) :
    PolyWritten r level (fun i => D i + 2 * r.qs i) p3 (r.mulCoeffsMontgomeryConstantAndSubNoModLvl level p1 p2 p3)
      (fun i k => c i k - a i k * b i k * rinv _) :=
  writeLvl_is h3.lvl (fun i hi => mulCoeffsMontgomeryConstantAndSubNoMod_is (hr i hi) (h1.row i hi) (h2.row i hi) (h3.row i hi) (hAB i hi) (hD i hi))

/-- **C10.** `MFormLvl` on any inputs. -/
theorem C10_mform (hr : r.ArithLvl level)
    (h1 : PolyIs r level A p1 a) (h2 : level < p2.length) :
    PolyWritten r level (r.qs) p2 (r.mformLvl level p1 p2)
      (fun i k => a i k * 2 ^ 64) :=
  writeLvl_is h2 (fun i hi => mformVec_is (hr i hi) (h1.row i hi))

/-- **C10.** `MFormConstantLvl` on any inputs. -/
theorem C10_mformConstant (hr : r.ArithLvl level)
    (h1 : PolyIs r level A p1 a) (h2 : level < p2.length) :
    PolyWritten r level (fun i => 2 * r.qs i) p2 (r.mformConstantLvl level p1 p2)
      (fun i k => a i k * 2 ^ 64) :=
  writeLvl_is h2 (fun i hi => mformConstantVec_is (hr i hi) (h1.row i hi))

/-- **C10.** `InvMFormLvl` on any inputs. -/
theorem C10_invMform (hr : r.ArithLvl level)
    (h1 : PolyIs r level A p1 a) (h2 : level < p2.length) :
    PolyWritten r level (r.qs) p2 (r.invMformLvl level p1 p2)
      (fun i k => a i k * rinv _) :=
  writeLvl_is h2 (fun i hi => invMformVec_is (hr i hi) (h1.row i hi))

/-- **C10.** `MulScalarLvl`, any 64-bit scalar. -/
theorem C10_mulScalar (hr : r.ArithLvl level)
    (h1 : PolyIs r level A p1 a) (s : UInt64)
    (h2 : level < p2.length) :
    PolyWritten r level (r.qs) p2 (r.mulScalarLvl level s p1 p2)
      (fun i k => a i k * ((s.toNat : ℕ) : ZMod (r.sub i).q.toNat)) :=
  writeLvl_is h2 (fun i hi => ((mulScalarMontgomeryVec_mform_is (hr i hi) (h1.row i hi) _).congr
    (fun k _ => by rw [(word_reduce (hr i hi) s).2])))

/-- **C10.** `MulScalarBigintLvl`, any integer scalar. -/
theorem C10_mulScalarBigint (hr : r.ArithLvl level)
    (h1 : PolyIs r level A p1 a) (s : ℤ)
    (h2 : level < p2.length) :
    PolyWritten r level (r.qs) p2 (r.mulScalarBigintLvl level s p1 p2)
      (fun i k => a i k * (s : ZMod (r.qs i))) :=
  writeLvl_is h2 (fun i hi => ((mulScalarMontgomeryVec_mform_is (hr i hi) (h1.row i hi) _).congr
    (fun k _ => by rw [(word_reduce (hr i hi) _).2, cast_intMod (hr i hi)])))

/-- **C10.** `MulByVectorMontgomeryLvl`. -/
theorem C10_mulByVectorMontgomery (hr : r.ArithLvl level)
    (h1 : PolyIs r level A p1 a) (vec : Row) (hv : vec.length = r.n)
    (hvb : ∀ i ≤ level, ∀ k < r.n, (vec.at k).toNat < B i)
    (hAB : ∀ i ≤ level, A i * B i ≤ r.qs i * 2 ^ 64) (h2 : level < p2.length) :
    PolyWritten r level (r.qs) p2 (r.mulByVectorMontgomeryLvl level p1 vec p2)
      (fun i k => a i k * (((vec.at k).toNat : ℕ) : ZMod (r.sub i).q.toNat) * rinv _) :=
  writeLvl_is h2 (fun i hi => mulCoeffsMontgomeryVec_is (hr i hi) (h1.row i hi)
    (RowIs.refl (q := r.qs i) vec hv (hvb i hi)) (hAB i hi))

/-- **C10.** `MulByVectorMontgomeryAndAddNoModLvl`. -/
theorem C10_mulByVectorMontgomeryAndAddNoMod (hr : r.ArithLvl level)
    (h1 : PolyIs r level A p1 a) (vec : Row) (hv : vec.length = r.n)
    (hvb : ∀ i ≤ level, ∀ k < r.n, (vec.at k).toNat < B i)
    (hAB : ∀ i ≤ level, A i * B i ≤ r.qs i * 2 ^ 64) (h2 : PolyIs r level D p2 c)
    (hD : ∀ i ≤ level, D i + r.qs i ≤ 2 ^ 64) :
    PolyWritten r level (fun i => D i + r.qs i) p2 (r.mulByVectorMontgomeryAndAddNoModLvl level p1 vec p2)
      (fun i k => c i k + a i k * (((vec.at k).toNat : ℕ) : ZMod (r.sub i).q.toNat) * rinv _) :=
  writeLvl_is h2.lvl (fun i hi => mulCoeffsMontgomeryAndAddNoModVec_is (hr i hi) (h1.row i hi)
    (RowIs.refl (q := r.qs i) vec hv (hvb i hi)) (h2.row i hi) (hAB i hi) (hD i hi))

/-- **C10.** `ModLvl` reduces every word modulo `m`, whatever the moduli of the ring. -/
theorem C10_mod (hm : 1 < m.toNat) (hm2 : m.toNat < 2 ^ 63) (h1 : ∀ i ≤ level, (p1.row i).length = r.n)
    (h2 : level < p2.length) :
    (r.modLvl level p1 m p2).length = p2.length ∧ (∀ i > level, (r.modLvl level p1 m p2).row i = p2.row i) ∧
      ∀ i ≤ level, ((r.modLvl level p1 m p2).row i).length = r.n ∧
        ∀ k < r.n, (((r.modLvl level p1 m p2).row i).at k).toNat = ((p1.row i).at k).toNat % m.toNat := by
  refine ⟨length_writeLvl _ _ _, fun i hi => row_writeLvl_above hi, fun i hi => ?_⟩
  unfold Ring.modLvl
  rw [row_writeLvl hi h2, modVec]
  refine ⟨by rw [List.length_map, h1 i hi], fun k hk => ?_⟩
  rw [Row.at_map _ _ (by rw [h1 i hi]; exact hk), bredAdd_toNat hm hm2.le]

/-- **C10 (round trip).** `InvMForm` undoes `MForm` and conversely, at every level. -/
theorem C10_mform_invMform (hr : r.ArithLvl level) (h1 : PolyIs r level A p1 a)
    (h2 : level < p2.length) (h3 : level < p3.length) :
    PolyIs r level r.qs (r.invMformLvl level (r.mformLvl level p1 p2) p3) a ∧
    PolyIs r level r.qs (r.mformLvl level (r.invMformLvl level p1 p2) p3) a := by
  constructor
  · refine (C10_invMform hr (C10_mform hr h1 h2).is h3).is.congr (fun i hi k _ => ?_)
    rw [mul_assoc, mul_rinv (hr i hi).odd, mul_one]
  · refine (C10_mform hr (C10_invMform hr h1 h2).is h3).is.congr (fun i hi k _ => ?_)
    rw [mul_assoc, rinv_mul (hr i hi).odd, mul_one]

/-- Non-vacuity: polynomials with reduced rows exist at level 1 of the ring
`NewRing(16, [97, 193])`. -/
example : ∃ r : Ring, r.ArithLvl 1 ∧
    ∃ p a, PolyIs r 1 r.qs p a ∧ ∃ k, a 0 k ≠ 0 := by
  have h := newRing_example
  cases hr : newRing 100 16 [97, 193] with
  | error e => rw [hr] at h; cases h
  | ok r =>
    have hq : ∀ q ∈ ([97, 193] : List UInt64), q.toNat < 2 ^ 63 := by decide
    obtain ⟨n, h1, h2, h3, -⟩ := C17_newRing_valid 100 16 (by omega) [97, 193] hq r hr
    have hl : r.subs.length = 2 := by
      have := congrArg List.length h3
      simpa [Ring.moduli] using this
    have h2p : ∀ i ≤ 1, 2 ≤ (r.sub i).q.toNat := fun i hi => (h2.subAt (by omega)).prime.two_le
    have hn : r.n = 16 := by rw [h2.deg, h1]
    have hrow : ∀ i ≤ 1, Rows.row (List.replicate 2 (List.replicate 16 1)) i
        = List.replicate 16 1 := by
      intro i hi
      interval_cases i <;> rfl
    have hat : ∀ k < 16, Row.at (List.replicate 16 1) k = 1 := by
      intro k hk
      simp only [Row.at, List.getD, List.getElem?_replicate, hk, if_true, Option.getD_some]
    refine ⟨r, h2.arithLvl (by omega), List.replicate 2 (List.replicate 16 1), fun _ _ => 1,
      ⟨by simp, fun i hi => ⟨?_, ?_, ?_⟩⟩, 0, ?_⟩
    · rw [hrow i hi, hn, List.length_replicate]
    · intro k hk
      rw [hrow i hi, hat k (by omega)]
      exact h2p i hi
    · intro k hk
      rw [hrow i hi, zval, hat k (by omega)]
      simp
    · have := h2p 0 (by omega)
      have : Fact (1 < (r.sub 0).q.toNat) := ⟨by omega⟩
      exact one_ne_zero

end FastKsw.Props
