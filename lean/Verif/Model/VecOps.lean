import Verif.Model.ModRed

/-!
# `ring/ring_vector_ops.go`: coefficient-wise operations on rows

Every Go function walks the rows eight coefficients at a time through
`unsafe.Pointer`; all eight unrolled statements are the same formula (checked
textually for every function).  The model applies the formula element by
element: identical for row lengths that are a multiple of 8 and equal rows,
which is what `NewRing` guarantees (N ≥ 16, power of two).  For other lengths
the Go code reads and writes past the slices (undefined), the model truncates.
The result is the new value of the row written to.
-/

namespace FastKsw

/-- A row of coefficients, `[]uint64`. -/
abbrev Row := List UInt64

/-- Element-wise three-operand loop `z[i] = f x[i] y[i] z[i]`. -/
def zip3 (f : UInt64 → UInt64 → UInt64 → UInt64) (p1 p2 p3 : Row) : Row :=
  List.zipWith (fun xy z => f xy.1 xy.2 z) (List.zip p1 p2) p3

/-- `AddVec`, ring_vector_ops.go:24-39. -/
def addVec (p1 p2 : Row) (qi : UInt64) : Row :=
  List.zipWith (fun x y => cred (x + y) qi) p1 p2

/-- `AddVecNoMod`, ring_vector_ops.go:42-57. -/
def addVecNoMod (p1 p2 : Row) : Row :=
  List.zipWith (fun x y => x + y) p1 p2

/-- `SubVec`, ring_vector_ops.go:60-75. -/
def subVec (p1 p2 : Row) (qi : UInt64) : Row :=
  List.zipWith (fun x y => cred ((x + qi) - y) qi) p1 p2

/-- `SubVecNomod`, ring_vector_ops.go:78-93. -/
def subVecNomod (p1 p2 : Row) (qi : UInt64) : Row :=
  List.zipWith (fun x y => x + qi - y) p1 p2

/-- `MulCoeffsVec`, ring_vector_ops.go:166-182. -/
def mulCoeffsVec (p1 p2 : Row) (qi : UInt64) (u : BredParams) : Row :=
  List.zipWith (fun x y => bred x y qi u) p1 p2

/-- `MulCoeffsConstantVec`, ring_vector_ops.go:388-404. -/
def mulCoeffsConstantVec (p1 p2 : Row) (qi : UInt64) (u : BredParams) : Row :=
  List.zipWith (fun x y => bredConstant x y qi u) p1 p2

/-- `MulCoeffsMontgomeryVec`, ring_vector_ops.go:223-238. -/
def mulCoeffsMontgomeryVec (p1 p2 : Row) (qi qInv : UInt64) : Row :=
  List.zipWith (fun x y => mred x y qi qInv) p1 p2

/-- `MulCoeffsMontgomeryConstantVec`, ring_vector_ops.go:241-257. -/
def mulCoeffsMontgomeryConstantVec (p1 p2 : Row) (qi qInv : UInt64) : Row :=
  List.zipWith (fun x y => mredConstant x y qi qInv) p1 p2

/-- `MulCoeffsMontgomeryConstantAndNeg`, ring_vector_ops.go:369-385. -/
def mulCoeffsMontgomeryConstantAndNeg (p1 p2 : Row) (qi qInv : UInt64) : Row :=
  List.zipWith (fun x y => qi <<< 1 - mredConstant x y qi qInv) p1 p2

/-- `AddVecNoModAndMulScalarMontgomeryVec`, ring_vector_ops.go:407-423. -/
def addVecNoModAndMulScalarMontgomeryVec (p1 p2 : Row) (s qi qInv : UInt64) : Row :=
  List.zipWith (fun x y => mred (x + y) s qi qInv) p1 p2

/-- `SubVecAndMulScalarMontgomeryTwoQiVec`, ring_vector_ops.go:550-568. -/
def subVecAndMulScalarMontgomeryTwoQiVec (p1 p2 : Row) (s qi qInv : UInt64) : Row :=
  List.zipWith (fun x y => mred (qi <<< 1 - y + x) s qi qInv) p1 p2

/-- `NegVec`, ring_vector_ops.go:96-110. -/
def negVec (p1 : Row) (qi : UInt64) : Row :=
  p1.map (fun x => qi - x)

/-- `ReduceVec`, ring_vector_ops.go:113-127. -/
def reduceVec (p1 : Row) (qi : UInt64) (u : BredParams) : Row :=
  p1.map (fun x => bredAdd x qi u)

/-- `ReduceConstantVec`, ring_vector_ops.go:130-145. -/
def reduceConstantVec (p1 : Row) (qi : UInt64) (u : BredParams) : Row :=
  p1.map (fun x => bredAddConstant x qi u)

/-- `ModVec`, ring_vector_ops.go:148-163. -/
def modVec (p1 : Row) (m : UInt64) (u : BredParams) : Row :=
  p1.map (fun x => bredAdd x m u)

/-- `AddScalarVec`, ring_vector_ops.go:426-440. -/
def addScalarVec (p1 : Row) (s qi : UInt64) : Row :=
  p1.map (fun x => cred (x + s) qi)

/-- `AddScalarNoModVec`, ring_vector_ops.go:443-457. -/
def addScalarNoModVec (p1 : Row) (s : UInt64) : Row :=
  p1.map (fun x => x + s)

/-- `AddScalarNoModAndNegTwoQiNoModVec`, ring_vector_ops.go:460-475. -/
def addScalarNoModAndNegTwoQiNoModVec (p1 : Row) (s qi : UInt64) : Row :=
  p1.map (fun x => s + qi <<< 1 - x)

/-- `SubScalarVec`, ring_vector_ops.go:478-493. -/
def subScalarVec (p1 : Row) (s qi : UInt64) : Row :=
  p1.map (fun x => cred (x + qi - s) qi)

/-- `MulScalarMontgomeryVec`, ring_vector_ops.go:496-511. -/
def mulScalarMontgomeryVec (p1 : Row) (s qi qInv : UInt64) : Row :=
  p1.map (fun x => mred x s qi qInv)

/-- `MulScalarMontgomeryConstantVec`, ring_vector_ops.go:514-529. -/
def mulScalarMontgomeryConstantVec (p1 : Row) (s qi qInv : UInt64) : Row :=
  p1.map (fun x => mredConstant x s qi qInv)

/-- `MFormVec`, ring_vector_ops.go:571-585. -/
def mformVec (p1 : Row) (qi : UInt64) (u : BredParams) : Row :=
  p1.map (fun x => mform x qi u)

/-- `MFormConstantVec`, ring_vector_ops.go:588-602. -/
def mformConstantVec (p1 : Row) (qi : UInt64) (u : BredParams) : Row :=
  p1.map (fun x => mformConstant x qi u)

/-- `InvMFormVec`, ring_vector_ops.go:605-620. -/
def invMformVec (p1 : Row) (qi qInv : UInt64) : Row :=
  p1.map (fun x => invMform x qi qInv)

/-- `MulByPow2Vec`, ring_vector_ops.go:623-638. -/
def mulByPow2Vec (p1 : Row) (n : Nat) (qi qInv : UInt64) : Row :=
  p1.map (fun x => powerOf2 x n qi qInv)

/-- `MulCoeffsAndAddVec`, ring_vector_ops.go:185-201. -/
def mulCoeffsAndAddVec (p1 p2 p3 : Row) (qi : UInt64) (u : BredParams) : Row :=
  zip3 (fun x y z => cred (z + bred x y qi u) qi) p1 p2 p3

/-- `MulCoeffsAndAddNoModVec`, ring_vector_ops.go:204-220. -/
def mulCoeffsAndAddNoModVec (p1 p2 p3 : Row) (qi : UInt64) (u : BredParams) : Row :=
  zip3 (fun x y z => z + bred x y qi u) p1 p2 p3

/-- `MulCoeffsMontgomeryAndAddVec`, ring_vector_ops.go:260-275. -/
def mulCoeffsMontgomeryAndAddVec (p1 p2 p3 : Row) (qi qInv : UInt64) : Row :=
  zip3 (fun x y z => cred (z + mred x y qi qInv) qi) p1 p2 p3

/-- `MulCoeffsMontgomeryAndAddNoModVec`, ring_vector_ops.go:278-293. -/
def mulCoeffsMontgomeryAndAddNoModVec (p1 p2 p3 : Row) (qi qInv : UInt64) : Row :=
  zip3 (fun x y z => z + mred x y qi qInv) p1 p2 p3

/-- `MulCoeffsMontgomeryConstantAndAddNoModVec`, ring_vector_ops.go:296-311. -/
def mulCoeffsMontgomeryConstantAndAddNoModVec (p1 p2 p3 : Row) (qi qInv : UInt64) : Row :=
  zip3 (fun x y z => z + mredConstant x y qi qInv) p1 p2 p3

/-- `MulCoeffsMontgomeryAndSubVec`, ring_vector_ops.go:314-329. -/
def mulCoeffsMontgomeryAndSubVec (p1 p2 p3 : Row) (qi qInv : UInt64) : Row :=
  zip3 (fun x y z => cred (z + (qi - mred x y qi qInv)) qi) p1 p2 p3

/-- `MulCoeffsMontgomeryAndSubNoMod`, ring_vector_ops.go:332-347. -/
def mulCoeffsMontgomeryAndSubNoMod (p1 p2 p3 : Row) (qi qInv : UInt64) : Row :=
  zip3 (fun x y z => z + (qi - mred x y qi qInv)) p1 p2 p3

/-- `MulCoeffsMontgomeryConstantAndSubNoMod`, ring_vector_ops.go:350-366. -/
def mulCoeffsMontgomeryConstantAndSubNoMod (p1 p2 p3 : Row) (qi qInv : UInt64) : Row :=
  zip3 (fun x y z => z + (qi <<< 1 - mredConstant x y qi qInv)) p1 p2 p3

/-- `MulScalarMontgomeryAndAddVec`, ring_vector_ops.go:532-547. -/
def mulScalarMontgomeryAndAddVec (p1 p2 : Row) (s qi qInv : UInt64) : Row :=
  List.zipWith (fun x z => cred (z + mred x s qi qInv) qi) p1 p2

end FastKsw
