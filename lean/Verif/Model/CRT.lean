import Verif.Model.RingOps
import Mathlib.Data.Int.GCD

/-!
# `ring/ring.go:410-625`: import and export of coefficients, equality

`big.Int` values are integers.  `(*big.Int).Mod` is the Euclidean remainder,
`Quo` on non-negative operands is the integer quotient.
-/

namespace FastKsw

/-- `r.ModulusBigint`, ring.go:233-236 -/
def Ring.modulusBigint (r : Ring) : ℤ := r.moduli.foldl (fun m q => m * (q.toNat : ℤ)) 1

/-- `(*big.Int).ModInverse` for coprime operands (Go standard library): Bézout coefficient reduced
modulo the second operand -/
def bigModInverse (a m : ℤ) : ℤ := Int.gcdA a m % m

/-- row written by the inner loops of the `SetCoefficients` family: the first `coeffs.length` entries
are overwritten -/
def setRow {α : Type} (f : α → UInt64) (coeffs : List α) (old : Row) : Row :=
  coeffs.map f ++ old.drop coeffs.length

/-- `coeffTmp.Mod(coeff, QiBigint).Uint64()` -/
def bigModU64 (c : ℤ) (q : UInt64) : UInt64 := UInt64.ofNat (c % (q.toNat : ℤ)).toNat

/-- `SetCoefficientsBigintLvl`, ring.go:454-466 -/
def Ring.setCoefficientsBigintLvl (r : Ring) (level : Nat) (coeffs : List ℤ) (p1 : Rows) : Rows :=
  writeLvl level (fun i => setRow (bigModU64 · (r.sub i).q) coeffs (p1.row i)) p1

/-- `SetCoefficientsBigint`, ring.go:441-451 -/
def Ring.setCoefficientsBigint (r : Ring) (coeffs : List ℤ) (p1 : Rows) : Rows :=
  r.setCoefficientsBigintLvl (r.subs.length - 1) coeffs p1

/-- `SetCoefficientsUint64`, ring.go:420-426 -/
def Ring.setCoefficientsUint64 (r : Ring) (coeffs : List UInt64) (p1 : Rows) : Rows :=
  writeLvl (r.subs.length - 1) (fun i => setRow (· % (r.sub i).q) coeffs (p1.row i)) p1

/-- `CRed(uint64((coeff%int64(Qi) + int64(Qi))), Qi)`, ring.go:414 -/
def int64Residue (c : Int64) (q : UInt64) : UInt64 :=
  cred ((c % q.toInt64 + q.toInt64).toUInt64) q

/-- `SetCoefficientsInt64`, ring.go:411-417 -/
def Ring.setCoefficientsInt64 (r : Ring) (coeffs : List Int64) (p1 : Rows) : Rows :=
  writeLvl (r.subs.length - 1) (fun i => setRow (int64Residue · (r.sub i).q) coeffs (p1.row i)) p1

/-- `crtReconstruction[i]`, ring.go:510-514: the quotient is of the modulus of the whole ring, whatever
the level -/
def Ring.crtReconstruction (r : Ring) (i : Nat) : ℤ :=
  let qi : ℤ := (r.sub i).q.toNat
  let c := r.modulusBigint / qi
  let tmp := bigModInverse c qi % qi
  c * tmp

/-- `modulusBigint` of `PolyToBigintLvl`, ring.go:499,508 -/
def Ring.modulusLvl (r : Ring) (level : Nat) : ℤ :=
  (List.range (level + 1)).foldl (fun m i => m * ((r.sub i).q.toNat : ℤ)) 1

/-- coefficient `j` reconstructed, ring.go:519-526 -/
def Ring.coeffBigint (r : Ring) (level : Nat) (p1 : Rows) (j : Nat) : ℤ :=
  (List.range (level + 1)).foldl
    (fun acc k => acc + (((p1.row k).at j).toNat : ℤ) * r.crtReconstruction k) 0 % r.modulusLvl level

/-- `PolyToBigintLvl`, ring.go:494-528; `gap > 0` (the Go loop does not end otherwise) -/
def Ring.polyToBigintLvl (r : Ring) (level : Nat) (p1 : Rows) (gap : Nat) : List ℤ :=
  (List.range ((r.n + gap - 1) / gap)).map fun i => r.coeffBigint level p1 (i * gap)

/-- the centring of `PolyToBigintCenteredLvl`, ring.go:557-559,573-577 -/
def centerBigint (x m : ℤ) : ℤ := if x ≥ m / 2 then x - m else x

/-- `PolyToBigintCenteredLvl`, ring.go:535-579 -/
def Ring.polyToBigintCenteredLvl (r : Ring) (level : Nat) (p1 : Rows) (gap : Nat) : List ℤ :=
  (List.range ((r.n + gap - 1) / gap)).map fun i =>
    centerBigint (r.coeffBigint level p1 (i * gap)) (r.modulusLvl level)

/-- `EqualLvl`, ring.go:606-627, for rows of equal length: the answer, and the two operands, which are
reduced in place -/
def Ring.equalLvl (r : Ring) (level : Nat) (p1 p2 : Rows) : Bool × Rows × Rows :=
  let p1' := r.reduceLvl level p1 p1
  let p2' := r.reduceLvl level p2 p2
  ((List.range (level + 1)).all fun i => (List.range r.n).all fun j =>
    (p1'.row i).at j == (p2'.row i).at j, p1', p2')

end FastKsw
