import Verif.Model.CRT
import Verif.Model.Float

/-!
# `ckks/encoder.go`, `ckks/utils.go`: coefficient encoding

float64 values are the rational numbers of `Model/Float`.  A `big.Float` made by `big.NewFloat` has the
53 bits of a float64, so `Add` on it rounds like float64; `Int` truncates.
-/

namespace FastKsw

/-- The word written to `coeffs[j][i]` by `singleFloatToFixedPointCRT`, ckks/utils.go:142-197, for the
modulus of `s`.  `1.8446744073709552e+19` is `2^64`.  For a product of exactly `2^64` the conversion
`uint64(value + 0.5)` is out of range and its result is left open by Go; the model takes 0 there. -/
def SubRing.fixedPoint (s : SubRing) (value scale : ℚ) : UInt64 :=
  let isNegative : Bool := value < 0
  let scale := if isNegative then -scale else scale
  let value := f64 (value * scale)
  if value > 2 ^ 64 then
    let xInt : ℤ := ⌊f64Add value (1 / 2)⌋
    let tmp := bigModU64 xInt s.q
    if isNegative then s.q - tmp else tmp
  else
    let c := UInt64.ofNat (f64ToNat (f64Add value (1 / 2)))
    if isNegative then
      if c > s.q then s.q - bredAdd c s.q s.bred else s.q - c
    else
      if c > 0x1fffffffffffffff then bredAdd c s.q s.bred else c

/-- `floatToFixedPointCRT`, ckks/utils.go:136-140: the first `len(values)` coefficients of the rows up to
`level` are overwritten -/
def Ring.floatToFixedPointCRT (r : Ring) (level : Nat) (values : List ℚ) (scale : ℚ) (coeffs : Rows) : Rows :=
  writeLvl level (fun j => setRow (fun v => (r.sub j).fixedPoint v scale) values (coeffs.row j)) coeffs

/-- `EncodeCoeffs`, ckks/encoder.go:258-266, on the rows of the plaintext; `none` is the panic -/
def Ring.encodeCoeffs (r : Ring) (values : List ℚ) (scale : ℚ) (level : Nat) (pt : Rows) : Option Rows :=
  if values.length > r.n then none
  else
    let c := r.floatToFixedPointCRT level values scale pt
    some (r.nttLvl level c c)

/-- `EncodeCoeffsNew`, ckks/encoder.go:271-275 -/
def Ring.encodeCoeffsNew (r : Ring) (values : List ℚ) (level : Nat) (scale : ℚ) : Option Rows :=
  r.encodeCoeffs values scale level (newPoly r.n (level + 1))

/-- `ecd.bigintChain[level]`, `genBigIntChain`, ckks/utils.go:321-330 -/
def Ring.bigintChain (r : Ring) (level : Nat) : ℤ := r.modulusLvl level

/-- `scaleDown`, ckks/utils.go:313-319 -/
def scaleDown (c : ℤ) (n : ℚ) : ℚ := f64Div (f64 c) n

/-- `decodeCoeffsPublic` with `sigma = 0`, ckks/encoder.go:550-604, on a plaintext in the NTT domain if
`isNTT`.  `polypool` has all the rows of the ring and keeps what earlier calls left in the rows above
`level`; `PolyToBigint` reads every row of it. -/
def Ring.decodeCoeffs (r : Ring) (isNTT : Bool) (level : Nat) (scale : ℚ) (pt polypool : Rows) : List ℚ :=
  let pool := if isNTT then r.invNttLvl level pt polypool else writeLvl level pt.row polypool
  (List.range r.n).map fun i =>
    if level > 0 then
      let Q := r.bigintChain level
      let x := (r.polyToBigintLvl (pool.length - 1) pool 1).getD i 0 % Q
      let x := if x ≥ Q / 2 then x - Q else x
      scaleDown x scale
    else
      let Q := (r.sub 0).q
      let c := (pool.row 0).at i
      let v := if c ≥ Q >>> 1 then -f64OfNat (Q - c).toNat else f64OfNat c.toNat
      f64Div v scale

end FastKsw
