import Verif.Model.Ring

/-!
# `rlwe/params.go`: generic parameters

`sigma float64` is kept as its IEEE-754 bit pattern (`math.Float64bits`), on
which Go's `==` is `floatEq`.  Ring generation takes the fuel of `newRing`.
-/

namespace FastKsw

/-- NaN test on a float64 bit pattern -/
def floatNaN (b : UInt64) : Bool := decide (b.toNat % 2 ^ 63 > 2047 * 2 ^ 52)

/-- Go's `==` on float64 -/
def floatEq (a b : UInt64) : Bool :=
  !floatNaN a && !floatNaN b && (a == b || (a.toNat % 2 ^ 63 == 0 && b.toNat % 2 ^ 63 == 0))

/-- constants, rlwe/params.go:31-40 -/
def maxLogN : Nat := 17
def minLogN : Nat := 4
def maxModuliCount : Nat := 100
def maxModuliSize : Nat := 60

/-- outcome of a failed parameter creation -/
inductive ParamErr
  | size
  | count
  | moduliSize
  | notPrime
  | ring (e : RingErr)
  | format
  deriving DecidableEq

/-- `checkSizeParams`, rlwe/params.go:533-547 (`logN` is an `int`) -/
def checkSizeParams (logN : Nat) (lenQ lenP : Nat) : Except ParamErr Unit :=
  if logN > maxLogN then .error .size
  else if logN < minLogN then .error .size
  else if lenQ > maxModuliCount then .error .count
  else if lenP > maxModuliCount then .error .count
  else .ok ()

/-- `uint64(bits.Len64(x)-1)`: for `x = 0` the conversion of `-1` -/
def lenMinusOne (x : UInt64) : Nat := if x = 0 then 2 ^ 64 - 1 else len64 x.toNat - 1

/-- `CheckModuli`, rlwe/params.go:496-531 -/
def checkModuli (q p : List UInt64) : Except ParamErr Unit :=
  if q.length > maxModuliCount then .error .count
  else if p.length > maxModuliCount then .error .count
  else if q.any (fun qi => decide (lenMinusOne qi > maxModuliSize + 1)) then .error .moduliSize
  else if p.any (fun pi => decide (lenMinusOne pi > maxModuliSize + 2)) then .error .moduliSize
  else if ¬ ∀ qi ∈ q, isPrime qi then .error .notPrime
  else if ¬ ∀ pi ∈ p, isPrime pi then .error .notPrime
  else .ok ()

/-- `Parameters`, rlwe/params.go:73-82.  `ringP = none` is the nil pointer. -/
structure RParams where
  logN : Nat
  qi : List UInt64
  pi : List UInt64
  sigma : UInt64
  h : Nat
  ringQ : Ring
  ringP : Option Ring
  ringType : RingType

/-- `NewParameters` with `initRings`, rlwe/params.go:88-116, 608-616 -/
def newParameters (fuel : Nat) (logN : Nat) (q p : List UInt64) (h : Nat) (sigma : UInt64)
    (ty : RingType) : Except ParamErr RParams :=
  match checkSizeParams logN q.length p.length with
  | .error e => .error e
  | .ok _ =>
    match checkModuli q p with
    | .error e => .error e
    | .ok _ =>
      match newRingFromType fuel (2 ^ logN) q ty with
      | .error e => .error (.ring e)
      | .ok rQ =>
        if p.length ≠ 0 then
          match newRingFromType fuel (2 ^ logN) p ty with
          | .error e => .error (.ring e)
          | .ok rP => .ok ⟨logN, q, p, sigma, h, rQ, some rP, ty⟩
        else .ok ⟨logN, q, p, sigma, h, rQ, none, ty⟩

end FastKsw
