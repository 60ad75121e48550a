/-!
# Machine words

`uint64` is `UInt64`.  The three `math/bits` intrinsics used by the library are
modelled by their documented results.
-/

namespace FastKsw

/-- `bits.Mul64(x, y)`, high word: `⌊x*y / 2^64⌋`. -/
def mulHi (x y : UInt64) : UInt64 := UInt64.ofNat (x.toNat * y.toNat / 2 ^ 64)

/-- `bits.Mul64(x, y)`, low word: `x*y mod 2^64`. -/
def mulLo (x y : UInt64) : UInt64 := x * y

/-- `bits.Add64(x, y, 0)`, carry out. -/
def addCarry (x y : UInt64) : UInt64 := if x.toNat + y.toNat < 2 ^ 64 then 0 else 1

end FastKsw
