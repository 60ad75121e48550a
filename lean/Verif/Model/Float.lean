import Mathlib.Data.Int.Log
import Mathlib.Data.Rat.Floor

/-!
# float64 arithmetic as used by the RNS basis extension

Values are rational numbers; an operation is the exact one followed by
`f64`, rounding to nearest with ties to even on a 53-bit significand (IEEE 754
binary64, Go's float64).  The exponent range is left out: the operands here are 0
or between `2^-64` and `2^64`, so neither overflow nor underflow can occur.
-/

namespace FastKsw

/-- nearest integer, ties to even -/
def roundEven (x : ℚ) : ℤ :=
  let f := ⌊x⌋
  let d := x - f
  if d < 1 / 2 then f
  else if 1 / 2 < d then f + 1
  else if f % 2 = 0 then f else f + 1

/-- rounding of a real number to float64 -/
def f64 (x : ℚ) : ℚ :=
  if x = 0 then 0
  else
    let e := Int.log 2 |x| - 52
    (roundEven (x / 2 ^ e) : ℚ) * 2 ^ e

/-- `float64(x)` of a `uint64` -/
def f64OfNat (x : ℕ) : ℚ := f64 (x : ℚ)

/-- float64 division -/
def f64Div (x y : ℚ) : ℚ := f64 (x / y)

/-- float64 addition -/
def f64Add (x y : ℚ) : ℚ := f64 (x + y)

/-- `uint64(x)` for `0 ≤ x < 2^64`: truncation -/
def f64ToNat (x : ℚ) : ℕ := ⌊x⌋.toNat

end FastKsw
