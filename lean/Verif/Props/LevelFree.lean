import Verif.Model.LevelFree
import Verif.Props.RingMisc
import Verif.Props.ConjInv
import Verif.Props.Automorphism

/-!
# C100: operations without explicit level

`m` is the number of rows that the ring and all polynomials of a call have in common.  `RowsAre r m A p v`: rows
`0 … m-1` of `p` have `N` words below `A i` that hold the residues `v i`.  `RowsWritten … old new v`: `new` is `old` with
these rows overwritten by `v`, the other rows and their number kept.  `rinv q` is `2^-64 mod q`.
-/

namespace FastKsw.Props

/-- rows `0 … m-1` of `p` have `N` words below `A i` that hold the residues `v i` -/
def RowsAre (r : Ring) (m : ℕ) (A : ℕ → ℕ) (p : Rows) (v : ∀ i, ℕ → ZMod (r.sub i).q.toNat) : Prop :=
  ∀ i < m, RowIs r.n (r.sub i).q.toNat (A i) (p.row i) (v i)

/-- `new` is `old` with rows `0 … m-1` overwritten by `v` -/
structure RowsWritten (r : Ring) (m : ℕ) (A : ℕ → ℕ) (old new : Rows) (v : ∀ i, ℕ → ZMod (r.sub i).q.toNat) : Prop where
  is : RowsAre r m A new v
  len : new.length = old.length
  above : ∀ i ≥ m, new.row i = old.row i

/-- the constants of every modulus are right -/
def ArithAll (r : Ring) : Prop := ∀ i < r.subs.length, (r.sub i).Arith

theorem _root_.FastKsw.Ring.Valid.arithAll {n : ℕ} {r : Ring} (h : r.Valid n) : ArithAll r :=
  fun _ hi => (h.subAt hi).arith

theorem CIValid.arithAll {n : ℕ} {r : Ring} (h : CIValid n r) : ArithAll r :=
  fun _ hi => (h.sub _ (Ring.sub_mem hi)).arith

theorem ArithAll.lvl {r : Ring} (h : ArithAll r) {level : ℕ} (hl : level < r.subs.length) : r.ArithLvl level :=
  fun i hi => h i (by omega)

theorem RowsAre.polyIs {r : Ring} {m level : ℕ} {A p v} (h : RowsAre r m A p v) (hm : m = level + 1)
    (hl : level < p.length) : PolyIs r level A p v := ⟨hl, fun i hi => h i (by omega)⟩

theorem atRows_is {r : Ring} {m : ℕ} {A : ℕ → ℕ} {out : Rows} {f : ℕ → Rows} {v : ∀ i, ℕ → ZMod (r.sub i).q.toNat}
    (h : ∀ level, m = level + 1 → PolyWritten r level A out (f level) v) :
    RowsWritten r m A out (atRows m f out) v := by
  cases m with
  | zero => exact ⟨fun _ hi => absurd hi (by omega), rfl, fun _ _ => rfl⟩
  | succ l => exact ⟨fun i hi => (h l rfl).is.row i (by omega), (h l rfl).len, fun i hi => (h l rfl).above i (by omega)⟩

variable {r : Ring} {m : ℕ} {p1 p2 p3 : Rows} {a b c : ∀ i, ℕ → ZMod (r.sub i).q.toNat} {A B D : ℕ → ℕ}

/-- **C100.** `Add`. -/
theorem C100_add (hr : ArithAll r) (hm : m = min (min r.subs.length p1.length) (min p2.length p3.length))
    (h1 : RowsAre r m r.qs p1 a) (h2 : RowsAre r m r.qs p2 b) :
    RowsWritten r m r.qs p3 (r.addMin p1 p2 p3) (fun i k => a i k + b i k) := by
  unfold Ring.addMin Ring.minRowsTernary
  rw [← hm]
  exact atRows_is fun level hl => C10_add (hr.lvl (by omega)) (h1.polyIs hl (by omega)) (h2.polyIs hl (by omega)) (by omega)

/-- **C100.** `AddNoMod`. -/
theorem C100_addNoMod (hm : m = min (min r.subs.length p1.length) (min p2.length p3.length))
    (h1 : RowsAre r m A p1 a) (h2 : RowsAre r m B p2 b)
    (hAB : ∀ i < m, A i + B i ≤ 2 ^ 64) :
    RowsWritten r m (fun i => A i + B i) p3 (r.addNoModMin p1 p2 p3) (fun i k => a i k + b i k) := by
  unfold Ring.addNoModMin Ring.minRowsTernary
  rw [← hm]
  exact atRows_is fun level hl => C10_addNoMod (h1.polyIs hl (by omega)) (h2.polyIs hl (by omega)) (fun i hi => hAB i (by omega)) (by omega)

/-- **C100.** `Sub`. -/
theorem C100_sub (hr : ArithAll r) (hm : m = min (min r.subs.length p1.length) (min p2.length p3.length))
    (h1 : RowsAre r m r.qs p1 a) (h2 : RowsAre r m r.qs p2 b) :
    RowsWritten r m r.qs p3 (r.subMin p1 p2 p3) (fun i k => a i k - b i k) := by
  unfold Ring.subMin Ring.minRowsTernary
  rw [← hm]
  exact atRows_is fun level hl => C10_sub (hr.lvl (by omega)) (h1.polyIs hl (by omega)) (h2.polyIs hl (by omega)) (by omega)

/-- **C100.** `SubNoMod`. -/
theorem C100_subNoMod (hm : m = min (min r.subs.length p1.length) (min p2.length p3.length))
    (h1 : RowsAre r m A p1 a) (h2 : RowsAre r m (fun i => r.qs i + 1) p2 b)
    (hA : ∀ i < m, A i + r.qs i ≤ 2 ^ 64) :
    RowsWritten r m (fun i => A i + r.qs i) p3 (r.subNoModMin p1 p2 p3) (fun i k => a i k - b i k) := by
  unfold Ring.subNoModMin Ring.minRowsTernary
  rw [← hm]
  exact atRows_is fun level hl => C10_subNoMod (h1.polyIs hl (by omega)) (h2.polyIs hl (by omega)) (fun i hi => hA i (by omega)) (by omega)

/-- **C100.** `MulCoeffs`. -/
theorem C100_mulCoeffs (hr : ArithAll r) (hm : m = min (min r.subs.length p1.length) (min p2.length p3.length))
    (h1 : RowsAre r m A p1 a) (h2 : RowsAre r m B p2 b) :
    RowsWritten r m r.qs p3 (r.mulCoeffsMin p1 p2 p3) (fun i k => a i k * b i k) := by
  unfold Ring.mulCoeffsMin Ring.minRowsTernary
  rw [← hm]
  exact atRows_is fun level hl => C10_mulCoeffs (hr.lvl (by omega)) (h1.polyIs hl (by omega)) (h2.polyIs hl (by omega)) (by omega)

/-- **C100.** `MulCoeffsConstant`. -/
theorem C100_mulCoeffsConstant (hr : ArithAll r) (hm : m = min (min r.subs.length p1.length) (min p2.length p3.length))
    (h1 : RowsAre r m A p1 a) (h2 : RowsAre r m B p2 b) :
    RowsWritten r m (fun i => 2 * r.qs i) p3 (r.mulCoeffsConstantMin p1 p2 p3) (fun i k => a i k * b i k) := by
  unfold Ring.mulCoeffsConstantMin Ring.minRowsTernary
  rw [← hm]
  exact atRows_is fun level hl => C10_mulCoeffsConstant (hr.lvl (by omega)) (h1.polyIs hl (by omega)) (h2.polyIs hl (by omega)) (by omega)

/-- **C100.** `MulCoeffsAndAdd`. -/
theorem C100_mulCoeffsAndAdd (hr : ArithAll r) (hm : m = min (min r.subs.length p1.length) (min p2.length p3.length))
    (h1 : RowsAre r m A p1 a) (h2 : RowsAre r m B p2 b)
    (h3 : RowsAre r m r.qs p3 c) :
    RowsWritten r m r.qs p3 (r.mulCoeffsAndAddMin p1 p2 p3) (fun i k => c i k + a i k * b i k) := by
  unfold Ring.mulCoeffsAndAddMin Ring.minRowsTernary
  rw [← hm]
  exact atRows_is fun level hl => C10_mulCoeffsAndAdd (hr.lvl (by omega)) (h1.polyIs hl (by omega)) (h2.polyIs hl (by omega)) (h3.polyIs hl (by omega))

/-- **C100.** `MulCoeffsAndAddNoMod`. -/
theorem C100_mulCoeffsAndAddNoMod (hr : ArithAll r) (hm : m = min (min r.subs.length p1.length) (min p2.length p3.length))
    (h1 : RowsAre r m A p1 a) (h2 : RowsAre r m B p2 b)
    (h3 : RowsAre r m D p3 c) (hD : ∀ i < m, D i + r.qs i ≤ 2 ^ 64) :
    RowsWritten r m (fun i => D i + r.qs i) p3 (r.mulCoeffsAndAddNoModMin p1 p2 p3) (fun i k => c i k + a i k * b i k) := by
  unfold Ring.mulCoeffsAndAddNoModMin Ring.minRowsTernary
  rw [← hm]
  exact atRows_is fun level hl => C10_mulCoeffsAndAddNoMod (hr.lvl (by omega)) (h1.polyIs hl (by omega)) (h2.polyIs hl (by omega)) (h3.polyIs hl (by omega)) (fun i hi => hD i (by omega))

/-- **C100.** `MulCoeffsMontgomery`. -/
theorem C100_mulCoeffsMontgomery (hr : ArithAll r) (hm : m = min (min r.subs.length p1.length) (min p2.length p3.length))
    (h1 : RowsAre r m A p1 a) (h2 : RowsAre r m B p2 b)
    (hAB : ∀ i < m, A i * B i ≤ r.qs i * 2 ^ 64) :
    RowsWritten r m r.qs p3 (r.mulCoeffsMontgomeryMin p1 p2 p3) (fun i k => a i k * b i k * rinv _) := by
  unfold Ring.mulCoeffsMontgomeryMin Ring.minRowsTernary
  rw [← hm]
  exact atRows_is fun level hl => C10_mulCoeffsMontgomery (hr.lvl (by omega)) (h1.polyIs hl (by omega)) (h2.polyIs hl (by omega)) (fun i hi => hAB i (by omega)) (by omega)

/-- **C100.** `MulCoeffsMontgomeryConstant`. -/
theorem C100_mulCoeffsMontgomeryConstant (hr : ArithAll r) (hm : m = min (min r.subs.length p1.length) (min p2.length p3.length))
    (h1 : RowsAre r m A p1 a) (h2 : RowsAre r m B p2 b)
    (hAB : ∀ i < m, A i * B i ≤ r.qs i * 2 ^ 64) :
    RowsWritten r m (fun i => 2 * r.qs i) p3 (r.mulCoeffsMontgomeryConstantMin p1 p2 p3) (fun i k => a i k * b i k * rinv _) := by
  unfold Ring.mulCoeffsMontgomeryConstantMin Ring.minRowsTernary
  rw [← hm]
  exact atRows_is fun level hl => C10_mulCoeffsMontgomeryConstant (hr.lvl (by omega)) (h1.polyIs hl (by omega)) (h2.polyIs hl (by omega)) (fun i hi => hAB i (by omega)) (by omega)

/-- **C100.** `MulCoeffsMontgomeryAndAdd`. -/
theorem C100_mulCoeffsMontgomeryAndAdd (hr : ArithAll r) (hm : m = min (min r.subs.length p1.length) (min p2.length p3.length))
    (h1 : RowsAre r m A p1 a) (h2 : RowsAre r m B p2 b)
    (hAB : ∀ i < m, A i * B i ≤ r.qs i * 2 ^ 64) (h3 : RowsAre r m r.qs p3 c) :
    RowsWritten r m r.qs p3 (r.mulCoeffsMontgomeryAndAddMin p1 p2 p3) (fun i k => c i k + a i k * b i k * rinv _) := by
  unfold Ring.mulCoeffsMontgomeryAndAddMin Ring.minRowsTernary
  rw [← hm]
  exact atRows_is fun level hl => C10_mulCoeffsMontgomeryAndAdd (hr.lvl (by omega)) (h1.polyIs hl (by omega)) (h2.polyIs hl (by omega)) (fun i hi => hAB i (by omega)) (h3.polyIs hl (by omega))

/-- **C100.** `MulCoeffsMontgomeryAndAddNoMod`. -/
theorem C100_mulCoeffsMontgomeryAndAddNoMod (hr : ArithAll r) (hm : m = min (min r.subs.length p1.length) (min p2.length p3.length))
    (h1 : RowsAre r m A p1 a) (h2 : RowsAre r m B p2 b)
    (hAB : ∀ i < m, A i * B i ≤ r.qs i * 2 ^ 64)
    (h3 : RowsAre r m D p3 c) (hD : ∀ i < m, D i + r.qs i ≤ 2 ^ 64) :
    RowsWritten r m (fun i => D i + r.qs i) p3 (r.mulCoeffsMontgomeryAndAddNoModMin p1 p2 p3) (fun i k => c i k + a i k * b i k * rinv _) := by
  unfold Ring.mulCoeffsMontgomeryAndAddNoModMin Ring.minRowsTernary
  rw [← hm]
  exact atRows_is fun level hl => C10_mulCoeffsMontgomeryAndAddNoMod (hr.lvl (by omega)) (h1.polyIs hl (by omega)) (h2.polyIs hl (by omega)) (fun i hi => hAB i (by omega)) (h3.polyIs hl (by omega)) (fun i hi => hD i (by omega))

/-- **C100.** `MulCoeffsMontgomeryConstantAndAddNoMod`. -/
theorem C100_mulCoeffsMontgomeryConstantAndAddNoMod (hr : ArithAll r) (hm : m = min (min r.subs.length p1.length) (min p2.length p3.length))
    (h1 : RowsAre r m A p1 a) (h2 : RowsAre r m B p2 b)
    (hAB : ∀ i < m, A i * B i ≤ r.qs i * 2 ^ 64)
    (h3 : RowsAre r m D p3 c) (hD : ∀ i < m, D i + 2 * r.qs i ≤ 2 ^ 64) :
    RowsWritten r m (fun i => D i + 2 * r.qs i) p3 (r.mulCoeffsMontgomeryConstantAndAddNoModMin p1 p2 p3) (fun i k => c i k + a i k * b i k * rinv _) := by
  unfold Ring.mulCoeffsMontgomeryConstantAndAddNoModMin Ring.minRowsTernary
  rw [← hm]
  exact atRows_is fun level hl => C10_mulCoeffsMontgomeryConstantAndAddNoMod (hr.lvl (by omega)) (h1.polyIs hl (by omega)) (h2.polyIs hl (by omega)) (fun i hi => hAB i (by omega)) (h3.polyIs hl (by omega)) (fun i hi => hD i (by omega))

/-- **C100.** `MulCoeffsMontgomeryAndSub`. -/
theorem C100_mulCoeffsMontgomeryAndSub (hr : ArithAll r) (hm : m = min (min r.subs.length p1.length) (min p2.length p3.length))
    (h1 : RowsAre r m A p1 a) (h2 : RowsAre r m B p2 b)
    (hAB : ∀ i < m, A i * B i ≤ r.qs i * 2 ^ 64) (h3 : RowsAre r m r.qs p3 c) :
    RowsWritten r m r.qs p3 (r.mulCoeffsMontgomeryAndSubMin p1 p2 p3) (fun i k => c i k - a i k * b i k * rinv _) := by
  unfold Ring.mulCoeffsMontgomeryAndSubMin Ring.minRowsTernary
  rw [← hm]
  exact atRows_is fun level hl => C10_mulCoeffsMontgomeryAndSub (hr.lvl (by omega)) (h1.polyIs hl (by omega)) (h2.polyIs hl (by omega)) (fun i hi => hAB i (by omega)) (h3.polyIs hl (by omega))

/-- **C100.** `MulCoeffsMontgomeryAndSubNoMod`. -/
theorem C100_mulCoeffsMontgomeryAndSubNoMod (hr : ArithAll r) (hm : m = min (min r.subs.length p1.length) (min p2.length p3.length))
    (h1 : RowsAre r m A p1 a) (h2 : RowsAre r m B p2 b)
    (hAB : ∀ i < m, A i * B i ≤ r.qs i * 2 ^ 64)
    (h3 : RowsAre r m D p3 c) (hD : ∀ i < m, D i + r.qs i ≤ 2 ^ 64) :
    RowsWritten r m (fun i => D i + r.qs i) p3 (r.mulCoeffsMontgomeryAndSubNoModMin p1 p2 p3) (fun i k => c i k - a i k * b i k * rinv _) := by
  unfold Ring.mulCoeffsMontgomeryAndSubNoModMin Ring.minRowsTernary
  rw [← hm]
  exact atRows_is fun level hl => C10_mulCoeffsMontgomeryAndSubNoMod (hr.lvl (by omega)) (h1.polyIs hl (by omega)) (h2.polyIs hl (by omega)) (fun i hi => hAB i (by omega)) (h3.polyIs hl (by omega)) (fun i hi => hD i (by omega))

/-- **C100.** `Neg: zero becomes q`. -/
theorem C100_neg (hm : m = min (min r.subs.length p1.length) p2.length)
    (h1 : RowsAre r m (fun i => r.qs i + 1) p1 a) :
    RowsWritten r m (fun i => r.qs i + 1) p2 (r.negMin p1 p2) (fun i k => -a i k) := by
  unfold Ring.negMin Ring.minRowsBinary
  rw [← hm]
  exact atRows_is fun level hl => C10_neg (h1.polyIs hl (by omega)) (by omega)

/-- **C100.** `Reduce`. -/
theorem C100_reduce (hr : ArithAll r) (hm : m = min (min r.subs.length p1.length) p2.length)
    (h1 : RowsAre r m A p1 a) :
    RowsWritten r m r.qs p2 (r.reduceMin p1 p2) (fun i k => a i k) := by
  unfold Ring.reduceMin Ring.minRowsBinary
  rw [← hm]
  exact atRows_is fun level hl => C10_reduce (hr.lvl (by omega)) (h1.polyIs hl (by omega)) (by omega)

/-- **C100.** `ReduceConstant`. -/
theorem C100_reduceConstant (hr : ArithAll r) (hm : m = min (min r.subs.length p1.length) p2.length)
    (h1 : RowsAre r m A p1 a) :
    RowsWritten r m (fun i => 2 * r.qs i) p2 (r.reduceConstantMin p1 p2) (fun i k => a i k) := by
  unfold Ring.reduceConstantMin Ring.minRowsBinary
  rw [← hm]
  exact atRows_is fun level hl => C10_reduceConstant (hr.lvl (by omega)) (h1.polyIs hl (by omega)) (by omega)

/-- **C100.** `MForm`. -/
theorem C100_mform (hr : ArithAll r) (hm : m = min (min r.subs.length p1.length) p2.length)
    (h1 : RowsAre r m A p1 a) :
    RowsWritten r m r.qs p2 (r.mformMin p1 p2) (fun i k => a i k * 2 ^ 64) := by
  unfold Ring.mformMin Ring.minRowsBinary
  rw [← hm]
  exact atRows_is fun level hl => C10_mform (hr.lvl (by omega)) (h1.polyIs hl (by omega)) (by omega)

/-- **C100.** `InvMForm`. -/
theorem C100_invMform (hr : ArithAll r) (hm : m = min (min r.subs.length p1.length) p2.length)
    (h1 : RowsAre r m A p1 a) :
    RowsWritten r m r.qs p2 (r.invMformMin p1 p2) (fun i k => a i k * rinv _) := by
  unfold Ring.invMformMin Ring.minRowsBinary
  rw [← hm]
  exact atRows_is fun level hl => C10_invMform (hr.lvl (by omega)) (h1.polyIs hl (by omega)) (by omega)

/-- **C100.** `MulScalar`. -/
theorem C100_mulScalar (hr : ArithAll r) (hm : m = min (min r.subs.length p1.length) p2.length)
    (h1 : RowsAre r m A p1 a) (s : UInt64) :
    RowsWritten r m r.qs p2 (r.mulScalarMin p1 s p2) (fun i k => a i k * ((s.toNat : ℕ) : ZMod (r.sub i).q.toNat)) := by
  unfold Ring.mulScalarMin Ring.minRowsBinary
  rw [← hm]
  exact atRows_is fun level hl => C10_mulScalar (hr.lvl (by omega)) (h1.polyIs hl (by omega)) s (by omega)

/-- **C100.** `MulScalarBigint`. -/
theorem C100_mulScalarBigint (hr : ArithAll r) (hm : m = min (min r.subs.length p1.length) p2.length)
    (h1 : RowsAre r m A p1 a) (s : ℤ) :
    RowsWritten r m r.qs p2 (r.mulScalarBigintMin p1 s p2) (fun i k => a i k * (s : ZMod (r.qs i))) := by
  unfold Ring.mulScalarBigintMin Ring.minRowsBinary
  rw [← hm]
  exact atRows_is fun level hl => C10_mulScalarBigint (hr.lvl (by omega)) (h1.polyIs hl (by omega)) s (by omega)

/-- **C100.** `MulByVectorMontgomery`. -/
theorem C100_mulByVectorMontgomery (hr : ArithAll r) (hm : m = min (min r.subs.length p1.length) p2.length)
    (h1 : RowsAre r m A p1 a)
    (vec : Row) (hv : vec.length = r.n) (hvb : ∀ i < m, ∀ k < r.n, (vec.at k).toNat < B i)
    (hAB : ∀ i < m, A i * B i ≤ r.qs i * 2 ^ 64) :
    RowsWritten r m r.qs p2 (r.mulByVectorMontgomeryMin p1 vec p2) (fun i k => a i k * (((vec.at k).toNat : ℕ) : ZMod (r.sub i).q.toNat) * rinv _) := by
  unfold Ring.mulByVectorMontgomeryMin Ring.minRowsBinary
  rw [← hm]
  exact atRows_is fun level hl => C10_mulByVectorMontgomery (hr.lvl (by omega)) (h1.polyIs hl (by omega)) vec hv (fun i hi => hvb i (by omega)) (fun i hi => hAB i (by omega)) (by omega)

/-- **C100.** `MulByVectorMontgomeryAndAddNoMod`. -/
theorem C100_mulByVectorMontgomeryAndAddNoMod (hr : ArithAll r) (hm : m = min (min r.subs.length p1.length) p2.length)
    (h1 : RowsAre r m A p1 a)
    (vec : Row) (hv : vec.length = r.n) (hvb : ∀ i < m, ∀ k < r.n, (vec.at k).toNat < B i)
    (hAB : ∀ i < m, A i * B i ≤ r.qs i * 2 ^ 64)
    (h2 : RowsAre r m D p2 c) (hD : ∀ i < m, D i + r.qs i ≤ 2 ^ 64) :
    RowsWritten r m (fun i => D i + r.qs i) p2 (r.mulByVectorMontgomeryAndAddNoModMin p1 vec p2) (fun i k => c i k + a i k * (((vec.at k).toNat : ℕ) : ZMod (r.sub i).q.toNat) * rinv _) := by
  unfold Ring.mulByVectorMontgomeryAndAddNoModMin Ring.minRowsBinary
  rw [← hm]
  exact atRows_is fun level hl => C10_mulByVectorMontgomeryAndAddNoMod (hr.lvl (by omega)) (h1.polyIs hl (by omega)) vec hv (fun i hi => hvb i (by omega)) (fun i hi => hAB i (by omega)) (h2.polyIs hl (by omega)) (fun i hi => hD i (by omega))

/-- **C100.** `Mod` reduces every common row modulo `M`, whatever the moduli of the ring. -/
theorem C100_mod (hm : m = min (min r.subs.length p1.length) p2.length) {M : UInt64} (hM : 1 < M.toNat)
    (hM2 : M.toNat < 2 ^ 63) (h1 : ∀ i < m, (p1.row i).length = r.n) :
    (r.modMin p1 M p2).length = p2.length ∧ (∀ i ≥ m, (r.modMin p1 M p2).row i = p2.row i) ∧
      ∀ i < m, ((r.modMin p1 M p2).row i).length = r.n ∧
        ∀ k < r.n, (((r.modMin p1 M p2).row i).at k).toNat = ((p1.row i).at k).toNat % M.toNat := by
  unfold Ring.modMin Ring.minRowsBinary
  rw [← hm]
  cases m with
  | zero => exact ⟨rfl, fun _ _ => rfl, fun _ h => absurd h (by omega)⟩
  | succ l =>
    obtain ⟨a, b, c⟩ := C10_mod (r := r) (p2 := p2) hM hM2 (fun i (hi : i ≤ l) => h1 i (by omega)) (by omega)
    exact ⟨a, fun i hi => b i (by omega), fun i hi => c i (by omega)⟩

/-- **C100 (scalars, in place).** `AddScalar`, `SubScalar` and their `Bigint` variants with the receiver equal to the
operand.  Partial: with another receiver the statement is false (`C100_scalar_violated`). -/
theorem C100_scalar_inPlace_partial (hr : ArithAll r) (hm : m = min r.subs.length p1.length) (h1 : RowsAre r m r.qs p1 a)
    (s : UInt64) (hs : ∀ i < m, s.toNat < r.qs i) (t : ℤ) :
    RowsWritten r m r.qs p1 (r.addScalarMin p1 s p1).1 (fun i k => a i k + (s.toNat : ZMod (r.sub i).q.toNat)) ∧
    RowsWritten r m r.qs p1 (r.subScalarMin p1 s p1).1 (fun i k => a i k - (s.toNat : ZMod (r.sub i).q.toNat)) ∧
    RowsWritten r m r.qs p1 (r.addScalarBigintMin p1 t p1).1 (fun i k => a i k + (t : ZMod (r.sub i).q.toNat)) ∧
    RowsWritten r m r.qs p1 (r.subScalarBigintMin p1 t p1).1 (fun i k => a i k - (t : ZMod (r.sub i).q.toNat)) := by
  have hm' : min (min r.subs.length p1.length) p1.length = m := by omega
  have hat : ∀ (f : ℕ → Rows × Rows), (atRows m f (p1, p1)).1 = atRows m (fun l => (f l).1) p1 := by
    intro f; cases m <;> rfl
  unfold Ring.addScalarMin Ring.subScalarMin Ring.addScalarBigintMin Ring.subScalarBigintMin Ring.minRowsBinary
  rw [hm', hat, hat, hat, hat]
  have key := fun level (hl : m = level + 1) => C11_inPlace_partial (hr.lvl (by omega)) (h1.polyIs hl (by omega)) s
    (fun i hi => hs i (by omega)) t
  exact ⟨atRows_is fun l hl => (key l hl).1, atRows_is fun l hl => (key l hl).2.1, atRows_is fun l hl => (key l hl).2.2.1,
    atRows_is fun l hl => (key l hl).2.2.2⟩

/-- **C100 (scalars, other receiver: violated).** A receiver that is not the operand keeps its content, and the operand is
overwritten by the result. -/
theorem C100_scalar_violated (r : Ring) (p1 p2 : Rows) (s : UInt64) (t : ℤ) :
    r.addScalarMin p1 s p2 = ((r.addScalarMin p1 s p2).1, p2) ∧ r.subScalarMin p1 s p2 = ((r.subScalarMin p1 s p2).1, p2) ∧
    r.addScalarBigintMin p1 t p2 = ((r.addScalarBigintMin p1 t p2).1, p2) ∧
    r.subScalarBigintMin p1 t p2 = ((r.subScalarBigintMin p1 t p2).1, p2) ∧
    (p1.length ≤ p2.length → r.addScalarMin p1 s p2 = ((r.addScalarMin p1 s p1).1, p2)) := by
  have hat : ∀ (k : ℕ) (f : ℕ → Rows × Rows), (∀ l, (f l).2 = p2) → (atRows k f (p1, p2)).2 = p2 := by
    intro k f hf; cases k
    · rfl
    · exact hf _
  refine ⟨Prod.ext rfl (hat _ _ fun _ => rfl), Prod.ext rfl (hat _ _ fun _ => rfl), Prod.ext rfl (hat _ _ fun _ => rfl),
    Prod.ext rfl (hat _ _ fun _ => rfl), fun h => Prod.ext ?_ (hat _ _ fun _ => rfl)⟩
  unfold Ring.addScalarMin Ring.minRowsBinary
  rw [show min (min r.subs.length p1.length) p2.length = min (min r.subs.length p1.length) p1.length by omega]
  cases min (min r.subs.length p1.length) p1.length <;> rfl

/-- **C100.** `MulByPow2` in place.  Partial: `MulByPow2New` violates the statement (`C100_mulByPow2New_violated`). -/
theorem C100_mulByPow2_inPlace_partial (hr : ArithAll r) (hm : m = min r.subs.length p1.length) (h1 : RowsAre r m A p1 a)
    (k : ℕ) (hk : k < 64) : RowsWritten r m r.qs p1 (r.mulByPow2InPlace p1 k) (fun i j => a i j * 2 ^ k) := by
  unfold Ring.mulByPow2InPlace Ring.minRowsBinary
  rw [show min (min r.subs.length p1.length) p1.length = m by omega]
  exact atRows_is fun level hl => C12_mulByPow2_inPlace_partial (hr.lvl (by omega)) (h1.polyIs hl (by omega)) k hk

/-- **C100 (`MulByPow2New`: violated).** The new polynomial has a row for every modulus of the ring; the rows it shares with
the operand hold the operand times `2^(k-64)` instead of `2^k`, the others are zero. -/
theorem C100_mulByPow2New_violated (hr : ArithAll r) (hm : m = min r.subs.length p1.length) (h1 : RowsAre r m r.qs p1 a)
    (k : ℕ) (hk : k < 64) :
    RowsWritten r m r.qs (newPoly r.n r.subs.length) (r.mulByPow2New p1 k) (fun i j => a i j * 2 ^ k * rinv _) := by
  have hlen : (newPoly r.n r.subs.length).length = r.subs.length := by simp [newPoly]
  unfold Ring.mulByPow2New Ring.mulByPow2Distinct Ring.minRowsBinary
  rw [hlen, show min (min r.subs.length p1.length) r.subs.length = m by omega]
  exact atRows_is fun level hl => C12_mulByPow2_distinct_value (hr.lvl (by omega)) (h1.polyIs hl (by omega)) k hk
    (by omega)

/-- `2^(k-64)` is not `2^k` modulo 97 -/
example : (1 : ZMod 97) * 2 ^ 1 * rinv 97 ≠ 1 * 2 ^ 1 := by
  intro h
  have h2 := congrArg (· * (2 : ZMod 97) ^ 64) h
  simp only [mul_assoc, rinv_mul (q := 97) (by decide)] at h2
  revert h2
  decide

/-- **C100.** `MultByMonomialNew` on a polynomial with all rows of the ring: a new polynomial holding `X^k` times the
operand. -/
theorem C100_multByMonomialNew {n : ℕ} (hv : r.Valid n) (k : ℕ)
    (h1 : PolyIs r (r.subs.length - 1) (fun i => r.qs i + 1) p1 a) :
    ∃ out b, r.multByMonomialNew p1 k = some out ∧ out.length = r.subs.length ∧
      PolyIs r (r.subs.length - 1) (fun i => r.qs i + 1) out b ∧
      ∀ i < r.subs.length, toR r.n (r.qs i) (b i) = AdjoinRoot.root _ ^ k * toR r.n (r.qs i) (a i) := by
  have hlen : (newPoly r.n r.subs.length).length = r.subs.length := by simp [newPoly]
  obtain ⟨out, b, e, w, hb⟩ := C50_multByMonomial_partial hv k p1 (newPoly r.n r.subs.length) a h1 (by omega)
  exact ⟨out, b, e, w.len.trans hlen, w.is, hb⟩

/-! ## Transforms -/

theorem loopRows_eq (rows : ℕ) (f : ℕ → Row → Row) (p1 p2 : Rows) : loopRows rows f p1 p2 =
    if rows ≤ p1.length ∧ rows ≤ p2.length then
      some (p2.mapIdx fun i y => if i < rows then f i (p1.row i) else y) else none := by
  induction rows with
  | zero =>
    simp only [loopRows, List.range_zero, List.foldl_nil, Nat.zero_le, and_self, if_true, Nat.not_lt_zero, if_false]
    congr 1
    exact (List.ext_getElem (by simp) (fun _ _ _ => by simp)).symm
  | succ k ih =>
    have e : loopRows (k + 1) f p1 p2 = (loopRows k f p1 p2).bind fun p2 =>
        if k < p1.length ∧ k < p2.length then some (p2.set k (f k (p1.row k))) else none := by
      simp [loopRows, List.range_succ]
    rw [e, ih]
    by_cases h : k ≤ p1.length ∧ k ≤ p2.length
    · rw [if_pos h, Option.bind_some, List.length_mapIdx]
      by_cases h' : k < p1.length ∧ k < p2.length
      · rw [if_pos h', if_pos (by omega)]
        congr 1
        apply List.ext_getElem
        · simp
        · intro j h1 h2
          rw [List.getElem_set]
          by_cases hj : k = j
          · subst hj; simp
          · simp only [List.getElem_mapIdx, if_neg hj]
            by_cases hjk : j < k
            · rw [if_pos hjk, if_pos (by omega)]
            · rw [if_neg hjk, if_neg (by omega)]
      · rw [if_neg h', if_neg (by omega)]
    · rw [if_neg h, Option.bind_none, if_neg (by omega)]

/-- a successful loop: the rows written, the others kept -/
theorem loopRows_some {rows : ℕ} {f : ℕ → Row → Row} {p1 p2 : Rows} (h1 : rows ≤ p1.length) (h2 : rows ≤ p2.length) :
    ∃ out, loopRows rows f p1 p2 = some out ∧ out.length = p2.length ∧ (∀ i < rows, out.row i = f i (p1.row i)) ∧
      ∀ i ≥ rows, out.row i = p2.row i := by
  refine ⟨_, by rw [loopRows_eq, if_pos ⟨h1, h2⟩], by simp, fun i hi => ?_, fun i hi => ?_⟩
  · rw [row_mapIdx _ _ _ (by omega), if_pos hi]
  · by_cases h : i < p2.length
    · rw [row_mapIdx _ _ _ h, if_neg (by omega)]
    · simp [Rows.row, List.getD, h]

/-- **C100 (transforms need all rows).** Unlike the operations above, the transforms without level run over all moduli of
the ring: they return exactly when both polynomials have a row for every modulus, and panic for polynomials of a lower level. -/
theorem C100_transforms_panic (r : Ring) (p1 p2 : Rows) :
    (r.nttAll p1 p2 = none ↔ p1.length < r.subs.length ∨ p2.length < r.subs.length) ∧
    (r.nttLazyAll p1 p2 = none ↔ p1.length < r.subs.length ∨ p2.length < r.subs.length) ∧
    (r.invNttAll p1 p2 = none ↔ p1.length < r.subs.length ∨ p2.length < r.subs.length) ∧
    (r.invNttLazyAll p1 p2 = none ↔ p1.length < r.subs.length ∨ p2.length < r.subs.length) := by
  have key : ∀ f : ℕ → Row → Row, (loopRows r.subs.length f p1 p2 = none ↔
      p1.length < r.subs.length ∨ p2.length < r.subs.length) := by
    intro f
    rw [loopRows_eq]
    split
    · rename_i h
      exact ⟨fun h' => absurd h' (by simp), fun h' => absurd h' (by omega)⟩
    · rename_i h
      exact ⟨fun _ => by omega, fun _ => rfl⟩
  exact ⟨key _, key _, key _, key _⟩

/-- **C100 (levels and dispatch).** The transforms with a level return exactly when ring and polynomials reach that level;
on a ring of type `Standard` they are the transforms of C13-C15, on a ring of type `ConjugateInvariant` those of C67. -/
theorem C100_dispatch (r : Ring) (level : ℕ) (p1 p2 : Rows) :
    (level < r.subs.length → level < p1.length → level < p2.length →
      (r.type = .standard → r.nttAt level p1 p2 = some (r.nttLvl level p1 p2) ∧
        r.nttLazyAt level p1 p2 = some (r.nttLazyLvl level p1 p2) ∧
        r.invNttAt level p1 p2 = some (r.invNttLvl level p1 p2) ∧
        r.invNttLazyAt level p1 p2 = some (r.invNttLazyLvl level p1 p2)) ∧
      (r.type = .conjugateInvariant → r.nttAt level p1 p2 = some (r.ciNttLvl level p1 p2) ∧
        r.invNttAt level p1 p2 = some (r.ciInvNttLvl level p1 p2))) ∧
    (¬ (level < r.subs.length ∧ level < p1.length ∧ level < p2.length) →
      r.nttAt level p1 p2 = none ∧ r.nttLazyAt level p1 p2 = none ∧ r.invNttAt level p1 p2 = none ∧
        r.invNttLazyAt level p1 p2 = none) := by
  unfold Ring.nttAt Ring.nttLazyAt Ring.invNttAt Ring.invNttLazyAt
  simp only [loopRows_eq]
  constructor
  · intro h0 h1 h2
    simp only [if_pos h0, if_pos (show level + 1 ≤ p1.length ∧ level + 1 ≤ p2.length from ⟨h1, h2⟩), Nat.lt_succ_iff]
    refine ⟨fun ht => ?_, fun ht => ?_⟩
    · unfold Ring.nttSingle Ring.nttSingleLazy Ring.invNttSingle Ring.invNttSingleLazy
      simp only [ht]
      exact ⟨rfl, rfl, rfl, rfl⟩
    · unfold Ring.nttSingle Ring.invNttSingle
      simp only [ht]
      exact ⟨rfl, rfl⟩
  · intro h
    by_cases h0 : level < r.subs.length
    · simp only [if_pos h0, if_neg (show ¬ (level + 1 ≤ p1.length ∧ level + 1 ≤ p2.length) by omega), and_self]
    · simp only [if_neg h0, and_self]

/-- the lazy inverse transform of a ring of type `ConjugateInvariant` holds the residues of the exact one -/
theorem ciInvNttLazy_is {n : ℕ} {s : SubRing} (V : s.Valid (n + 1)) (hn : 1 ≤ n) (hq : s.q.toNat < 2 ^ 61) {x : Row}
    {v c : ℕ → ZMod s.q.toNat} (hx : RowIs (2 ^ n) s.q.toNat (2 * s.q.toNat) x v)
    (hI : RowIs (2 ^ n) s.q.toNat s.q.toNat (s.ciInvNtt (2 ^ n) x) c) :
    RowIs (2 ^ n) s.q.toNat (2 * s.q.toNat) (ciInvNttLazy x (2 ^ n) s.nttPsiInv s.nttNInv s.q s.mred) c := by
  have e2 : 2 ^ (n + 1) = 2 * 2 ^ n := by ring
  have htab := V.tableInv
  have htw := twLaw_sub V
  rw [e2] at htab
  have htw' : TwLaw (2 * 2 ^ n) (s.tw (n + 1)) := by rw [← e2]; exact htw
  obtain ⟨z1, -⟩ := ciInvNttCore_spec V.mred hq rfl hn htab htw' (fun k _ => twInv_mul V k) x hx.len hx.lt
  have hr := RowIs.any (q := s.q.toNat) _ z1
  have h1 := mulScalarMontgomeryVec_is V.arith hr s.nttNInv V.nInv.1
  have h2 := mulScalarMontgomeryConstantVec_is V.arith hr s.nttNInv V.nInv.1
  exact h2.congr fun k hk => (h1.val k hk).symm.trans (hI.val k hk)

/-- one row: the exact transforms undo each other, the lazy ones hold the same residues as the exact ones -/
theorem single_spec {n : ℕ} (hr : r.Valid n ∨ CIValid n r) (hsm : r.Small) {i : ℕ} (hi : i < r.subs.length) (x : Row)
    (hx : x.length = r.n) (hb : ∀ k < r.n, (x.at k).toNat < r.qs i) :
    (RowIs r.n (r.qs i) (r.qs i) (r.nttSingle i x) (zval _ (r.nttSingle i x)) ∧ r.invNttSingle i (r.nttSingle i x) = x) ∧
    (RowIs r.n (r.qs i) (r.qs i) (r.invNttSingle i x) (zval _ (r.invNttSingle i x)) ∧ r.nttSingle i (r.invNttSingle i x) = x) ∧
    RowIs r.n (r.qs i) (2 ^ 64) (r.nttSingleLazy i x) (zval _ (r.nttSingle i x)) ∧
    RowIs r.n (r.qs i) (2 * r.qs i) (r.invNttSingleLazy i x) (zval _ (r.invNttSingle i x)) := by
  have hq := hsm _ (Ring.sub_mem hi)
  unfold Ring.qs at hb ⊢
  rcases hr with hr | hr
  · have V := hr.subAt hi
    have h4 := hr.four_le
    rw [hr.deg] at hx hb ⊢
    have ht := hr.type
    have h0 := RowIs.refl (q := (r.sub i).q.toNat) x hx hb
    have hF := ntt_is V (by omega) hq (by omega) h0
    have hI := invNtt_is V (by omega) hq (h0.mono (by omega))
    have hfl := (nttLazy_is V (by omega) hq le_rfl (by omega) (h0.mono (show (r.sub i).q.toNat ≤ 4 * (r.sub i).q.toNat by omega))).mono
      (show 4 * (r.sub i).q.toNat + 2 * (r.sub i).q.toNat ≤ 2 ^ 64 by omega)
    have hil := invNttLazy_is V (by omega) hq (h0.mono (by omega))
    unfold Ring.nttSingle Ring.invNttSingle Ring.nttSingleLazy Ring.invNttSingleLazy
    simp only [ht, hr.deg]
    exact ⟨⟨hF.congr fun k hk => (hF.val k hk).symm, C13_invNtt_ntt V h4 hq x hx hb⟩,
      ⟨hI.congr fun k hk => (hI.val k hk).symm, C13_ntt_invNtt V h4 hq x hx hb⟩,
      hfl.congr fun k hk => (hF.val k hk).symm, hil.congr fun k hk => (hI.val k hk).symm⟩
  · have V := hr.sub _ (Ring.sub_mem hi)
    have h4 := hr.four_le
    rw [hr.deg] at hx hb ⊢
    have ht := hr.type
    have h0 := RowIs.refl (q := (r.sub i).q.toNat) x hx hb
    have hF := ciNtt_is V hq (by omega) h0
    obtain ⟨c, hI, hc⟩ := ciInvNtt_is V (by omega) hq (h0.mono (by omega))
    obtain ⟨c', hI', hc'⟩ := ciInvNtt_is V (by omega) hq (hF.mono (by omega))
    have hfl := ciNttLazy_is V hq (by omega) h0
    have hil := ciInvNttLazy_is V (by omega) hq (h0.mono (by omega)) hI
    unfold Ring.nttSingle Ring.invNttSingle Ring.nttSingleLazy Ring.invNttSingleLazy
    simp only [ht, hr.deg]
    exact ⟨⟨hF.congr fun k hk => (hF.val k hk).symm, (hI'.congr (symm_injective V (by omega) hc')).ext h0⟩,
      ⟨hI.congr fun k hk => (hI.val k hk).symm, ((ciNtt_is V hq (by omega) hI).congr hc).ext h0⟩,
      hfl.congr fun k hk => (hF.val k hk).symm, hil.congr fun k hk => (hI.val k hk).symm⟩

/-- **C100 (transforms).** For rings of both types and reduced polynomials with a row for every modulus: `InvNTT` undoes
`NTT` and conversely, `NTTLazy` and `InvNTTLazy` hold the residues of the exact transforms, those of `InvNTTLazy` below
`2q`; rows of the receiver above the ring are kept. -/
theorem C100_transforms {n : ℕ} (hr : r.Valid n ∨ CIValid n r) (hsm : r.Small) {p o o' : Rows}
    (hp : r.subs.length ≤ p.length) (ho : r.subs.length ≤ o.length) (ho' : r.subs.length ≤ o'.length)
    (hpr : ∀ i < r.subs.length, (p.row i).length = r.n ∧ ∀ k < r.n, ((p.row i).at k).toNat < r.qs i) :
    ∃ f g b c fl bl, r.nttAll p o = some f ∧ r.invNttAll f o' = some b ∧ r.invNttAll p o = some g ∧ r.nttAll g o' = some c ∧
      r.nttLazyAll p o = some fl ∧ r.invNttLazyAll p o = some bl ∧
      (∀ i < r.subs.length, b.row i = p.row i ∧ c.row i = p.row i) ∧
      (∀ i ≥ r.subs.length, f.row i = o.row i ∧ g.row i = o.row i ∧ b.row i = o'.row i ∧ c.row i = o'.row i ∧
        fl.row i = o.row i ∧ bl.row i = o.row i) ∧
      f.length = o.length ∧ g.length = o.length ∧ fl.length = o.length ∧ bl.length = o.length ∧
      ∀ i < r.subs.length, ∀ k < r.n,
        ((f.row i).at k).toNat < r.qs i ∧ ((g.row i).at k).toNat < r.qs i ∧ ((bl.row i).at k).toNat < 2 * r.qs i ∧
        ((fl.row i).at k).toNat ≡ ((f.row i).at k).toNat [MOD r.qs i] ∧
        ((bl.row i).at k).toNat ≡ ((g.row i).at k).toNat [MOD r.qs i] := by
  obtain ⟨f, f0, f1, f2, f3⟩ := loopRows_some (f := r.nttSingle) hp ho
  obtain ⟨g, g0, g1, g2, g3⟩ := loopRows_some (f := r.invNttSingle) hp ho
  obtain ⟨b, b0, b1, b2, b3⟩ := loopRows_some (f := r.invNttSingle) (p1 := f) (f1 ▸ ho) ho'
  obtain ⟨c, c0, c1, c2, c3⟩ := loopRows_some (f := r.nttSingle) (p1 := g) (g1 ▸ ho) ho'
  obtain ⟨fl, fl0, fl1, fl2, fl3⟩ := loopRows_some (f := r.nttSingleLazy) hp ho
  obtain ⟨bl, bl0, bl1, bl2, bl3⟩ := loopRows_some (f := r.invNttSingleLazy) hp ho
  refine ⟨f, g, b, c, fl, bl, f0, b0, g0, c0, fl0, bl0, fun i hi => ?_,
    fun i hi => ⟨f3 i hi, g3 i hi, b3 i hi, c3 i hi, fl3 i hi, bl3 i hi⟩, f1, g1, fl1, bl1, fun i hi k hk => ?_⟩
  · obtain ⟨⟨-, s1⟩, ⟨-, s2⟩, -, -⟩ := single_spec hr hsm hi (p.row i) (hpr i hi).1 (hpr i hi).2
    exact ⟨by rw [b2 i hi, f2 i hi, s1], by rw [c2 i hi, g2 i hi, s2]⟩
  · obtain ⟨⟨s1, -⟩, ⟨s2, -⟩, s3, s4⟩ := single_spec hr hsm hi (p.row i) (hpr i hi).1 (hpr i hi).2
    rw [f2 i hi, g2 i hi, fl2 i hi, bl2 i hi]
    exact ⟨s1.lt k hk, s2.lt k hk, s4.lt k hk, (ZMod.natCast_eq_natCast_iff _ _ _).1 (s3.val k hk),
      (ZMod.natCast_eq_natCast_iff _ _ _).1 (s4.val k hk)⟩

/-- Non-vacuity: on `NewRing(16, [97, 193])` the sum of a polynomial of level 1 and one of level 0 touches row 0 only, and
`NTT` of the latter panics. -/
example : ∃ r : Ring, r.Valid 4 ∧ r.subs.length = 2 ∧
    (r.addMin [List.replicate 16 90, List.replicate 16 5] [List.replicate 16 10] [List.replicate 16 0, List.replicate 16 7] =
      [List.replicate 16 3, List.replicate 16 7]) ∧ r.nttAll [List.replicate 16 10] [List.replicate 16 0] = none := by
  obtain ⟨r, -, hv, hl, hn, h0, h1⟩ := exists_ring
  refine ⟨r, hv, hl, ?_, (C100_transforms_panic r _ _).1.2 (by rw [hl]; simp)⟩
  unfold Ring.addMin Ring.minRowsTernary
  rw [hl]
  change r.addLvl 0 _ _ _ = _
  unfold Ring.addLvl writeLvl
  simp only [List.mapIdx_cons, List.mapIdx_nil, Rows.row, List.getD_cons_zero, h0, le_refl, if_true,
    if_neg (show ¬ 0 + 1 ≤ 0 by omega)]
  decide +kernel

end FastKsw.Props
