import Verif.Model.Encoder
import Verif.Model.Sparse
import Verif.Model.SpecialFFT
import Mathlib.Data.Rat.Cast.Defs

/-!
# `ckks/encoder.go`: encoding and decoding of slots, for a ring of type `Standard`

The coefficients of the transformed vector are pairs of float64 values (`Model/Float`); the transform
itself is the exact one of `Model/SpecialFFT`.
-/

namespace FastKsw

/-- `Embed` for a ring of type `Standard` up to the inverse transform, ckks/encoder.go:356-417: what `ecd.values[:slots]`
holds; `none` is the panic.  `mem` is the content of the memory from `&ecd.values[0]` on, `ecd.values` has
`M/4` values. -/
def encodeFFT {K : Type} [Field K] (M : Nat) (roots : Nat → K) (mem values : List K) (logSlots : Nat) : Option (List K) :=
  let slots := 2 ^ logSlots
  if slots > M / 4 ∨ values.length > slots then none
  else
    let buf := values ++ List.replicate (slots - values.length) 0 ++ mem.drop slots
    some ((specialiFFT (decide (3 ≤ logSlots)) slots M roots (M / 4) buf).take slots)

/-- `complexToFixedPointCRT` with `isRingStandard`, ckks/utils.go:122-134: the real parts are written from
position 0 on, the imaginary parts from position `len(values)` on -/
def Ring.complexToFixedPointCRT (r : Ring) (level : Nat) (values : List (ℚ × ℚ)) (scale : ℚ) (coeffs : Rows) : Rows :=
  r.floatToFixedPointCRT level (values.map Prod.fst ++ values.map Prod.snd) scale coeffs

/-- `Embed` on a `*ring.Poly` from the call of `complexToFixedPointCRT` on, ckks/encoder.go:427-429; `values` is
`ecd.values[:slots]` after the inverse transform -/
def Ring.embedPoly (r : Ring) (level logSlots : Nat) (values : List (ℚ × ℚ)) (scale : ℚ) (montgomery : Bool)
    (p : Rows) : Rows :=
  r.nttAndMontgomeryLvl level logSlots montgomery (r.complexToFixedPointCRT level values scale p)

/-- `polyToComplexNoCRT`, ckks/encoder.go:435-463, not `isreal`.  The division of a complex number by
`complex(scale, 0)` divides both parts by `scale`. -/
def Ring.polyToComplexNoCRT (r : Ring) (coeffs : Row) (scale : ℚ) (logSlots : Nat) : List (ℚ × ℚ) :=
  let slots := 2 ^ logSlots
  let maxSlots := r.nthRoot / 4
  let gap := maxSlots / slots
  let Q := (r.sub 0).q
  let conv (c : UInt64) : ℚ := if c ≥ Q >>> 1 then -f64OfNat (Q - c).toNat else f64OfNat c.toNat
  (List.range slots).map fun i =>
    (f64Div (conv (coeffs.at (i * gap))) scale, f64Div (conv (coeffs.at (maxSlots + i * gap))) scale)

/-- `polyToComplexCRT`, ckks/encoder.go:465-499, not `isreal` -/
def Ring.polyToComplexCRT (r : Ring) (pool : Rows) (scale : ℚ) (logSlots : Nat) (Q : ℤ) : List (ℚ × ℚ) :=
  let slots := 2 ^ logSlots
  let gap := r.nthRoot / 4 / slots
  let big := r.polyToBigintLvl (pool.length - 1) pool gap
  let center (c : ℤ) : ℤ := let c := c % Q; if c ≥ Q / 2 then c - Q else c
  (List.range slots).map fun i =>
    (scaleDown (center (big.getD i 0)) scale, scaleDown (center (big.getD (slots + i) 0)) scale)

/-- `decodePublic` with `sigma = 0` up to the transform, ckks/encoder.go:519-536 and `plaintextToComplex`,
501-508: what is written in `ecd.values[:slots]`; `none` is the panic.  `polypool` as in `Ring.decodeCoeffs`. -/
def Ring.decodeToComplex (r : Ring) (isNTT : Bool) (level : Nat) (scale : ℚ) (logSlots : Nat) (pt polypool : Rows) :
    Option (List (ℚ × ℚ)) :=
  if 2 ^ logSlots > r.nthRoot / 4 then none
  else
    let pool := if isNTT then r.invNttLvl level pt polypool else writeLvl level pt.row polypool
    if level = 0 then some (r.polyToComplexNoCRT (pool.row 0) scale logSlots)
    else some (r.polyToComplexCRT pool scale logSlots (r.bigintChain level))

/-- `decodePublic` with `sigma = 0`, ckks/encoder.go:519-548.  `im` is the imaginary unit; `mem` is the content
of the memory from `&ecd.values[0]` on, of which the first `slots` values are overwritten. -/
def Ring.decodeSlots {K : Type} [Field K] (r : Ring) (roots : Nat → K) (im : K) (mem : List K) (isNTT : Bool)
    (level : Nat) (scale : ℚ) (logSlots : Nat) (pt polypool : Rows) : Option (List K) :=
  (r.decodeToComplex isNTT level scale logSlots pt polypool).map fun v =>
    let values := v.map (fun c => (c.1 : K) + (c.2 : K) * im) ++ mem.drop (2 ^ logSlots)
    (specialFFT (decide (3 ≤ logSlots)) (2 ^ logSlots) r.nthRoot roots values).take (2 ^ logSlots)

end FastKsw
