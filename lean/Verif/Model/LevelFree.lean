import Verif.Model.ConjInv

/-!
# Operations without explicit level

`ring/ring_operations.go`: the functions without `Lvl` call the `Lvl` ones with the smallest level among the ring and the
polynomials (lines 26-32).  `ring/ring_ntt.go`, `ring/ring_ntt_interface.go`: the transforms without `Lvl` run over all
moduli of the ring instead, and dispatch on the type of the ring.

The number of rows `level + 1` is used instead of the level, which is `-1` for a polynomial without rows.
-/

namespace FastKsw

/-- `minLevelTernary(p1, p2, p3) + 1`, ring_operations.go:26-28 -/
def Ring.minRowsTernary (r : Ring) (p1 p2 p3 : Rows) : Nat :=
  min (min r.subs.length p1.length) (min p2.length p3.length)

/-- `minLevelBinary(p1, p2) + 1`, ring_operations.go:30-32 -/
def Ring.minRowsBinary (r : Ring) (p1 p2 : Rows) : Nat := min (min r.subs.length p1.length) p2.length

/-- a call `f(level, …)` with `level + 1 = rows`; with `level = -1` the loop of `f` is empty -/
def atRows {α : Type} (rows : Nat) (f : Nat → α) (old : α) : α := match rows with
  | 0 => old
  | level + 1 => f level

/-- `Add`, ring_operations.go:34-37 -/
def Ring.addMin (r : Ring) (p1 p2 p3 : Rows) : Rows :=
  atRows (r.minRowsTernary p1 p2 p3) (fun level => r.addLvl level p1 p2 p3) p3

/-- `AddNoMod`, ring_operations.go:47-51 -/
def Ring.addNoModMin (r : Ring) (p1 p2 p3 : Rows) : Rows :=
  atRows (r.minRowsTernary p1 p2 p3) (fun level => r.addNoModLvl level p1 p2 p3) p3

/-- `Sub`, ring_operations.go:61-64 -/
def Ring.subMin (r : Ring) (p1 p2 p3 : Rows) : Rows :=
  atRows (r.minRowsTernary p1 p2 p3) (fun level => r.subLvl level p1 p2 p3) p3

/-- `SubNoMod`, ring_operations.go:73-77 -/
def Ring.subNoModMin (r : Ring) (p1 p2 p3 : Rows) : Rows :=
  atRows (r.minRowsTernary p1 p2 p3) (fun level => r.subNoModLvl level p1 p2 p3) p3

/-- `MulCoeffs`, ring_operations.go:141-145 -/
def Ring.mulCoeffsMin (r : Ring) (p1 p2 p3 : Rows) : Rows :=
  atRows (r.minRowsTernary p1 p2 p3) (fun level => r.mulCoeffsLvl level p1 p2 p3) p3

/-- `MulCoeffsAndAdd`, ring_operations.go:155-159 -/
def Ring.mulCoeffsAndAddMin (r : Ring) (p1 p2 p3 : Rows) : Rows :=
  atRows (r.minRowsTernary p1 p2 p3) (fun level => r.mulCoeffsAndAddLvl level p1 p2 p3) p3

/-- `MulCoeffsAndAddNoMod`, ring_operations.go:169-173 -/
def Ring.mulCoeffsAndAddNoModMin (r : Ring) (p1 p2 p3 : Rows) : Rows :=
  atRows (r.minRowsTernary p1 p2 p3) (fun level => r.mulCoeffsAndAddNoModLvl level p1 p2 p3) p3

/-- `MulCoeffsMontgomery`, ring_operations.go:183-187 -/
def Ring.mulCoeffsMontgomeryMin (r : Ring) (p1 p2 p3 : Rows) : Rows :=
  atRows (r.minRowsTernary p1 p2 p3) (fun level => r.mulCoeffsMontgomeryLvl level p1 p2 p3) p3

/-- `MulCoeffsMontgomeryConstant`, ring_operations.go:197-201 -/
def Ring.mulCoeffsMontgomeryConstantMin (r : Ring) (p1 p2 p3 : Rows) : Rows :=
  atRows (r.minRowsTernary p1 p2 p3) (fun level => r.mulCoeffsMontgomeryConstantLvl level p1 p2 p3) p3

/-- `MulCoeffsMontgomeryAndAdd`, ring_operations.go:219-223 -/
def Ring.mulCoeffsMontgomeryAndAddMin (r : Ring) (p1 p2 p3 : Rows) : Rows :=
  atRows (r.minRowsTernary p1 p2 p3) (fun level => r.mulCoeffsMontgomeryAndAddLvl level p1 p2 p3) p3

/-- `MulCoeffsMontgomeryAndAddNoMod`, ring_operations.go:233-237 -/
def Ring.mulCoeffsMontgomeryAndAddNoModMin (r : Ring) (p1 p2 p3 : Rows) : Rows :=
  atRows (r.minRowsTernary p1 p2 p3) (fun level => r.mulCoeffsMontgomeryAndAddNoModLvl level p1 p2 p3) p3

/-- `MulCoeffsMontgomeryConstantAndAddNoMod`, ring_operations.go:247-252 -/
def Ring.mulCoeffsMontgomeryConstantAndAddNoModMin (r : Ring) (p1 p2 p3 : Rows) : Rows :=
  atRows (r.minRowsTernary p1 p2 p3) (fun level => r.mulCoeffsMontgomeryConstantAndAddNoModLvl level p1 p2 p3) p3

/-- `MulCoeffsMontgomeryAndSub`, ring_operations.go:263-267 -/
def Ring.mulCoeffsMontgomeryAndSubMin (r : Ring) (p1 p2 p3 : Rows) : Rows :=
  atRows (r.minRowsTernary p1 p2 p3) (fun level => r.mulCoeffsMontgomeryAndSubLvl level p1 p2 p3) p3

/-- `MulCoeffsMontgomeryAndSubNoMod`, ring_operations.go:277-281 -/
def Ring.mulCoeffsMontgomeryAndSubNoModMin (r : Ring) (p1 p2 p3 : Rows) : Rows :=
  atRows (r.minRowsTernary p1 p2 p3) (fun level => r.mulCoeffsMontgomeryAndSubNoModLvl level p1 p2 p3) p3

/-- `MulCoeffsConstant`, ring_operations.go:300-304 -/
def Ring.mulCoeffsConstantMin (r : Ring) (p1 p2 p3 : Rows) : Rows :=
  atRows (r.minRowsTernary p1 p2 p3) (fun level => r.mulCoeffsConstantLvl level p1 p2 p3) p3

/-- `Neg`, ring_operations.go:87-90 -/
def Ring.negMin (r : Ring) (p1 p2 : Rows) : Rows :=
  atRows (r.minRowsBinary p1 p2) (fun level => r.negLvl level p1 p2) p2

/-- `Reduce`, ring_operations.go:100-103 -/
def Ring.reduceMin (r : Ring) (p1 p2 : Rows) : Rows :=
  atRows (r.minRowsBinary p1 p2) (fun level => r.reduceLvl level p1 p2) p2

/-- `ReduceConstant`, ring_operations.go:113-117 -/
def Ring.reduceConstantMin (r : Ring) (p1 p2 : Rows) : Rows :=
  atRows (r.minRowsBinary p1 p2) (fun level => r.reduceConstantLvl level p1 p2) p2

/-- `MForm`, ring_operations.go:399-402 -/
def Ring.mformMin (r : Ring) (p1 p2 : Rows) : Rows :=
  atRows (r.minRowsBinary p1 p2) (fun level => r.mformLvl level p1 p2) p2

/-- `InvMForm`, ring_operations.go:419-422 -/
def Ring.invMformMin (r : Ring) (p1 p2 : Rows) : Rows :=
  atRows (r.minRowsBinary p1 p2) (fun level => r.invMformLvl level p1 p2) p2

/-- `Mod`, ring_operations.go:128-131 -/
def Ring.modMin (r : Ring) (p1 : Rows) (m : UInt64) (p2 : Rows) : Rows :=
  atRows (r.minRowsBinary p1 p2) (fun level => r.modLvl level p1 m p2) p2

/-- `MulScalar`, ring_operations.go:364-367 -/
def Ring.mulScalarMin (r : Ring) (p1 : Rows) (scalar : UInt64) (p2 : Rows) : Rows :=
  atRows (r.minRowsBinary p1 p2) (fun level => r.mulScalarLvl level scalar p1 p2) p2

/-- `MulScalarBigint`, ring_operations.go:376-379 -/
def Ring.mulScalarBigintMin (r : Ring) (p1 : Rows) (scalar : Int) (p2 : Rows) : Rows :=
  atRows (r.minRowsBinary p1 p2) (fun level => r.mulScalarBigintLvl level scalar p1 p2) p2

/-- `MulByVectorMontgomery`, ring_operations.go:514-517 -/
def Ring.mulByVectorMontgomeryMin (r : Ring) (p1 : Rows) (vector : Row) (p2 : Rows) : Rows :=
  atRows (r.minRowsBinary p1 p2) (fun level => r.mulByVectorMontgomeryLvl level p1 vector p2) p2

/-- `MulByVectorMontgomeryAndAddNoMod`, ring_operations.go:526-529 -/
def Ring.mulByVectorMontgomeryAndAddNoModMin (r : Ring) (p1 : Rows) (vector : Row) (p2 : Rows) : Rows :=
  atRows (r.minRowsBinary p1 p2) (fun level => r.mulByVectorMontgomeryAndAddNoModLvl level p1 vector p2) p2

/-- contents of `(p1, p2)` after `AddScalar(p1, scalar, p2)` on different polynomials, ring_operations.go:314-317 -/
def Ring.addScalarMin (r : Ring) (p1 : Rows) (scalar : UInt64) (p2 : Rows) : Rows × Rows :=
  atRows (r.minRowsBinary p1 p2) (fun level => r.addScalarLvl level p1 scalar p2) (p1, p2)

/-- contents of `(p1, p2)` after `AddScalarBigint(p1, scalar, p2)` on different polynomials, ring_operations.go:326-329 -/
def Ring.addScalarBigintMin (r : Ring) (p1 : Rows) (scalar : Int) (p2 : Rows) : Rows × Rows :=
  atRows (r.minRowsBinary p1 p2) (fun level => r.addScalarBigintLvl level p1 scalar p2) (p1, p2)

/-- contents of `(p1, p2)` after `SubScalar(p1, scalar, p2)` on different polynomials, ring_operations.go:339-342 -/
def Ring.subScalarMin (r : Ring) (p1 : Rows) (scalar : UInt64) (p2 : Rows) : Rows × Rows :=
  atRows (r.minRowsBinary p1 p2) (fun level => r.subScalarLvl level p1 scalar p2) (p1, p2)

/-- contents of `(p1, p2)` after `SubScalarBigint(p1, scalar, p2)` on different polynomials, ring_operations.go:351-354 -/
def Ring.subScalarBigintMin (r : Ring) (p1 : Rows) (scalar : Int) (p2 : Rows) : Rows × Rows :=
  atRows (r.minRowsBinary p1 p2) (fun level => r.subScalarBigintLvl level p1 scalar p2) (p1, p2)

/-- `MulByPow2(p1, pow2, p2)` on different polynomials, ring_operations.go:438-441 -/
def Ring.mulByPow2Distinct (r : Ring) (p1 : Rows) (pow2 : Nat) (p2 : Rows) : Rows :=
  atRows (r.minRowsBinary p1 p2) (fun level => r.mulByPow2LvlDistinct level pow2 p1 p2) p2

/-- `MulByPow2(p, pow2, p)`, ring_operations.go:438-441 -/
def Ring.mulByPow2InPlace (r : Ring) (p : Rows) (pow2 : Nat) : Rows :=
  atRows (r.minRowsBinary p p) (fun level => r.mulByPow2LvlInPlace level pow2 p) p

/-- `MulByPow2New`, ring_operations.go:431-436; the result of `NewPoly` has a row for every modulus -/
def Ring.mulByPow2New (r : Ring) (p1 : Rows) (pow2 : Nat) : Rows :=
  r.mulByPow2Distinct p1 pow2 (newPoly r.n r.subs.length)

/-- `MultByMonomialNew`, ring_operations.go:451-456 -/
def Ring.multByMonomialNew (r : Ring) (p1 : Rows) (monomialDeg : Int) : Option Rows :=
  r.multByMonomial p1 monomialDeg (newPoly r.n r.subs.length)

/-! ## Transforms, dispatched on the type of the ring -/

/-- `InvNTTConjugateInvariantLazy`, ring_ntt.go:784-788 -/
def ciInvNttLazy (x : Row) (N : Nat) (tab : Row) (nInv q qInv : UInt64) : Row :=
  mulScalarMontgomeryConstantVec (ciInvNttCore x N tab q qInv) nInv q qInv

/-- `NTTSingle`, ring_ntt.go:48-52: `ForwardVec`, ring_ntt_interface.go:102-105 and 197-200 -/
def Ring.nttSingle (r : Ring) (i : Nat) (x : Row) : Row := match r.type with
  | .standard => (r.sub i).ntt r.n x
  | .conjugateInvariant => (r.sub i).ciNtt r.n x

/-- `NTTSingleLazy`, ring_ntt.go:54-59: `ForwardLazyVec`, ring_ntt_interface.go:107-111 and 202-206 -/
def Ring.nttSingleLazy (r : Ring) (i : Nat) (x : Row) : Row := match r.type with
  | .standard => (r.sub i).nttLazy r.n x
  | .conjugateInvariant => ciNttLazy x r.n (r.sub i).nttPsi (r.sub i).q (r.sub i).mred

/-- `InvNTTSingle`, ring_ntt.go:85-90: `BackwardVec`, ring_ntt_interface.go:113-116 and 208-211 -/
def Ring.invNttSingle (r : Ring) (i : Nat) (x : Row) : Row := match r.type with
  | .standard => (r.sub i).invNtt r.n x
  | .conjugateInvariant => (r.sub i).ciInvNtt r.n x

/-- `InvNTTSingleLazy`, ring_ntt.go:92-97: `BackwardLazyVec`, ring_ntt_interface.go:118-122 and 213-217 -/
def Ring.invNttSingleLazy (r : Ring) (i : Nat) (x : Row) : Row := match r.type with
  | .standard => (r.sub i).invNttLazy r.n x
  | .conjugateInvariant => ciInvNttLazy x r.n (r.sub i).nttPsiInv (r.sub i).nttNInv (r.sub i).q (r.sub i).mred

/-- a loop over the first `rows` moduli: step `i` reads `p1.Coeffs[i]` and writes `p2.Coeffs[i]`; `none` is the
index-out-of-range panic of a missing row.  Rows are whole: `N` entries. -/
def loopRows (rows : Nat) (f : Nat → Row → Row) (p1 p2 : Rows) : Option Rows :=
  (List.range rows).foldl (fun o i => o.bind fun p2 =>
    if i < p1.length ∧ i < p2.length then some (p2.set i (f i (p1.row i))) else none) (some p2)

/-- `NTT`, ring_ntt.go:24-27: `Forward`, ring_ntt_interface.go:40-45 and 135-140; `p1` and `p2` different polynomials or, as every
row is read before it is written, the same one -/
def Ring.nttAll (r : Ring) (p1 p2 : Rows) : Option Rows := loopRows r.subs.length r.nttSingle p1 p2

/-- `NTTLazy`, ring_ntt.go:35-39: `ForwardLazy`, ring_ntt_interface.go:55-61 and 150-156; `p1` and `p2` different polynomials or, as every
row is read before it is written, the same one -/
def Ring.nttLazyAll (r : Ring) (p1 p2 : Rows) : Option Rows := loopRows r.subs.length r.nttSingleLazy p1 p2

/-- `InvNTT`, ring_ntt.go:61-64: `Backward`, ring_ntt_interface.go:71-76 and 166-171; `p1` and `p2` different polynomials or, as every
row is read before it is written, the same one -/
def Ring.invNttAll (r : Ring) (p1 p2 : Rows) : Option Rows := loopRows r.subs.length r.invNttSingle p1 p2

/-- `InvNTTLazy`, ring_ntt.go:72-76: `BackwardLazy`, ring_ntt_interface.go:86-92 and 181-187; `p1` and `p2` different polynomials or, as every
row is read before it is written, the same one -/
def Ring.invNttLazyAll (r : Ring) (p1 p2 : Rows) : Option Rows := loopRows r.subs.length r.invNttSingleLazy p1 p2

/-- `NTTLvl`, ring_ntt.go:29-33: `ForwardLvl`, ring_ntt_interface.go:47-53 and 142-148; a level above the ring's is the panic `none` -/
def Ring.nttAt (r : Ring) (level : Nat) (p1 p2 : Rows) : Option Rows :=
  if level < r.subs.length then loopRows (level + 1) r.nttSingle p1 p2 else none

/-- `NTTLazyLvl`, ring_ntt.go:41-46: `ForwardLazyLvl`, ring_ntt_interface.go:63-69 and 158-164; a level above the ring's is the panic `none` -/
def Ring.nttLazyAt (r : Ring) (level : Nat) (p1 p2 : Rows) : Option Rows :=
  if level < r.subs.length then loopRows (level + 1) r.nttSingleLazy p1 p2 else none

/-- `InvNTTLvl`, ring_ntt.go:66-70: `BackwardLvl`, ring_ntt_interface.go:78-84 and 173-179; a level above the ring's is the panic `none` -/
def Ring.invNttAt (r : Ring) (level : Nat) (p1 p2 : Rows) : Option Rows :=
  if level < r.subs.length then loopRows (level + 1) r.invNttSingle p1 p2 else none

/-- `InvNTTLazyLvl`, ring_ntt.go:78-83: `BackwardLazyLvl`, ring_ntt_interface.go:94-100 and 189-195; a level above the ring's is the panic `none` -/
def Ring.invNttLazyAt (r : Ring) (level : Nat) (p1 p2 : Rows) : Option Rows :=
  if level < r.subs.length then loopRows (level + 1) r.invNttSingleLazy p1 p2 else none

end FastKsw
