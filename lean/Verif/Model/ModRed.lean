import Verif.Model.Word

/-!
# `ring/modular_reduction.go` and the arithmetic part of `ring/utils.go`
-/

namespace FastKsw

/-- The two-word slice returned by `BRedParams` (`u[0]` = `hi`, `u[1]` = `lo`). -/
structure BredParams where
  hi : UInt64
  lo : UInt64
deriving DecidableEq, Repr, Inhabited

/-- `BRedParams`, modular_reduction.go:97-105.  Go computes `2^128 / q` with
`big.Int` (`Quo` panics for `q = 0`; here `n / 0 = 0`, so theorems ask `1 < q`)
and splits it in two words. -/
def bredParams (q : UInt64) : BredParams :=
  let r := 2 ^ 128 / q.toNat
  ⟨UInt64.ofNat (r / 2 ^ 64), UInt64.ofNat r⟩

/-- `CRed`, modular_reduction.go:198-203. -/
def cred (a q : UInt64) : UInt64 := if a ≥ q then a - q else a

/-- `MFormConstant`, modular_reduction.go:38-42. -/
def mformConstant (a q : UInt64) (u : BredParams) : UInt64 :=
  (-(a * u.hi + mulHi a u.lo)) * q

/-- `MForm`, modular_reduction.go:26-33. -/
def mform (a q : UInt64) (u : BredParams) : UInt64 :=
  let r := (-(a * u.hi + mulHi a u.lo)) * q
  if r ≥ q then r - q else r

/-- `InvMFormConstant`, modular_reduction.go:58-62. -/
def invMformConstant (a q qInv : UInt64) : UInt64 :=
  let r := mulHi (a * qInv) q
  q - r

/-- `InvMForm`, modular_reduction.go:46-53. -/
def invMform (a q qInv : UInt64) : UInt64 :=
  let r := mulHi (a * qInv) q
  let r := q - r
  if r ≥ q then r - q else r

/-- The loop of `MRedParams` (modular_reduction.go:68-71), `n` iterations. -/
def mredParamsLoop : Nat → UInt64 → UInt64 → UInt64
  | 0, qInv, _ => qInv
  | n + 1, qInv, q => mredParamsLoop n (qInv * q) (q * q)

/-- `MRedParams`, modular_reduction.go:66-73. -/
def mredParams (q : UInt64) : UInt64 := mredParamsLoop 63 1 q

/-- `MRed`, modular_reduction.go:76-84. -/
def mred (x y q qInv : UInt64) : UInt64 :=
  let mhi := mulHi x y
  let mlo := mulLo x y
  let hhi := mulHi (mlo * qInv) q
  let r := mhi - hhi + q
  if r ≥ q then r - q else r

/-- `MRedConstant`, modular_reduction.go:88-93. -/
def mredConstant (x y q qInv : UInt64) : UInt64 :=
  let ahi := mulHi x y
  let alo := mulLo x y
  let h := mulHi (alo * qInv) q
  ahi - h + q

/-- `BRedAdd`, modular_reduction.go:108-115. -/
def bredAdd (a q : UInt64) (u : BredParams) : UInt64 :=
  let mhi := mulHi a u.hi
  let r := a - mhi * q
  if r ≥ q then r - q else r

/-- `BRedAddConstant`, modular_reduction.go:119-122. -/
def bredAddConstant (x q : UInt64) (u : BredParams) : UInt64 :=
  let s0 := mulHi x u.hi
  x - s0 * q

/-- `BRedConstant`, modular_reduction.go:164-195. -/
def bredConstant (x y q : UInt64) (u : BredParams) : UInt64 :=
  let mhi := mulHi x y
  let mlo := mulLo x y
  let r := mhi * u.hi
  let hhi := mulHi mlo u.hi
  let hlo := mulLo mlo u.hi
  let r := r + hhi
  let lhi := mulHi mlo u.lo
  let s0 := hlo + lhi
  let carry := addCarry hlo lhi
  let r := r + carry
  let hhi := mulHi mhi u.lo
  let hlo := mulLo mhi u.lo
  let r := r + hhi
  let carry := addCarry hlo s0
  let r := r + carry
  mlo - r * q

/-- `BRed`, modular_reduction.go:125-160: the same computation followed by one
conditional subtraction. -/
def bred (x y q : UInt64) (u : BredParams) : UInt64 :=
  let r := bredConstant x y q u
  if r ≥ q then r - q else r

/-- `PowerOf2`, utils.go:33-42, for `0 ≤ n ≤ 64` (Go panics on a negative shift
count; shifts by 64 or more yield 0 in Go, unlike Lean's `UInt64` shifts, hence
the explicit cases). -/
def powerOf2 (x : UInt64) (n : Nat) (q qInv : UInt64) : UInt64 :=
  let ahi := UInt64.ofNat (x.toNat / 2 ^ (64 - n))
  let alo := UInt64.ofNat (x.toNat * 2 ^ n)
  let r := alo * qInv
  let h := mulHi r q
  let r := ahi - h + q
  if r ≥ q then r - q else r

/-- The loop of `ModExp` (utils.go:49-54); `fuel` bounds the number of
iterations, 64 are enough since `i` is halved. -/
def modExpLoop (p : UInt64) (params : BredParams) : Nat → UInt64 → UInt64 → UInt64 → UInt64
  | 0, _, _, result => result
  | fuel + 1, i, x, result =>
    if i > 0 then
      let result := if i &&& 1 = 1 then bred result x p params else result
      let x := bred x x p params
      modExpLoop p params fuel (i >>> 1) x result
    else result

/-- `ModExp`, utils.go:46-56. -/
def modExp (x e p : UInt64) : UInt64 :=
  modExpLoop p (bredParams p) 64 e x 1

/-- The loop of `ModexpMontgomery` (utils.go:64-69).  `e` is a Go `int`; the
loop body runs only for positive `i`, so a natural number below `2^63`. -/
def modexpMontgomeryLoop (q qInv : UInt64) : Nat → Nat → UInt64 → UInt64 → UInt64
  | 0, _, _, result => result
  | fuel + 1, i, x, result =>
    if i > 0 then
      let result := if i % 2 = 1 then mred result x q qInv else result
      let x := mred x x q qInv
      modexpMontgomeryLoop q qInv fuel (i / 2) x result
    else result

/-- `ModexpMontgomery`, utils.go:60-71. -/
def modexpMontgomery (x : UInt64) (e : Nat) (q qInv : UInt64) (u : BredParams) : UInt64 :=
  modexpMontgomeryLoop q qInv 64 e x (mform 1 q u)

/-- The loop of `gcd` (utils.go:78-80).  Fuel: `b` strictly decreases. -/
def gcdLoop : Nat → UInt64 → UInt64 → UInt64
  | 0, a, _ => a
  | fuel + 1, a, b => if b ≠ 0 then gcdLoop fuel b (a % b) else a

/-- `gcd`, utils.go:74-82. -/
def gcd (a b : UInt64) : UInt64 :=
  if a = 0 ∨ b = 0 then 0 else gcdLoop (b.toNat + 1) a b

end FastKsw
