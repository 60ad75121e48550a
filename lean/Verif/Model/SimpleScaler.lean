import Verif.Model.Scaling
import Verif.Model.Float

/-!
# `ring/ring_scaling.go:116-302`: the tables of `NewSimpleScaler` and `reconstructAndScale`

A `big.Float` is a rational number, an operation the exact one followed by rounding to nearest even with the precision of the
receiver; the exponent range is left out.  `new(big.Float)` takes 64 bits from `SetUint64` and `SetInt` (operands of at most 64
bits) and the larger precision of its operands from `Quo`, so that `tBF`, `QiBF`, `QiBarreBF` and `tmp` have 64 bits; `ti`,
`p1j` and `bBF` are set to 80 bits.  The tables `p1BI`, `r`, `one`, `tBI` of the other algorithm are in `Model/Scaling.lean`.
-/

namespace FastKsw

/-- rounding to a `big.Float` of `prec` bits, mode `ToNearestEven` -/
def bigRoundQ (prec : ℕ) (x : ℚ) : ℚ :=
  if x = 0 then 0
  else
    let e : ℤ := Int.log 2 |x| + 1 - prec
    (roundEven (x / 2 ^ e) : ℚ) * 2 ^ e

/-- `(*big.Float).Uint64` (Go standard library): truncation, with the largest word beyond the range and 0 below it -/
def bigToU64 (x : ℚ) : UInt64 :=
  if 2 ^ 64 ≤ x then UInt64.ofNat (2 ^ 64 - 1) else UInt64.ofNat ⌊x⌋.toNat

/-- `SimpleScaler`, ring_scaling.go:119-136, the fields used by `reconstructAndScale` -/
structure SimpleScaler where
  ringQ : Ring
  t : UInt64
  wi : List UInt64
  ti : List ℚ
  addParam : UInt64
  mulParam : UInt64

/-- `(t&(t-1)) == 0 && t != 0`, ring_scaling.go:164 -/
def isPow2 (t : UInt64) : Bool := t &&& (t - 1) == 0 && t != 0

/-- `QiBarre`, ring_scaling.go:223-225 -/
def Ring.qiBarre (r : Ring) (i : Nat) : ℤ :=
  let qi : ℤ := (r.sub i).q.toNat
  bigModInverse (r.modulusBigint / qi) qi % qi

/-- `ss.wi[i]`, ring_scaling.go:221-237 -/
def scalerWi (t : UInt64) (r : Ring) (i : Nat) : UInt64 :=
  let tmp := bigRoundQ 64 ((t.toNat : ℚ) / ((r.sub i).q.toNat : ℚ))
  let tmp := bigRoundQ 64 (tmp * (r.qiBarre i : ℚ))
  let w := bigToU64 tmp
  if t &&& (t - 1) != 0 && t != 0 then mform w t (bredParams t) else w

/-- `ss.ti[i]`, ring_scaling.go:239-243 -/
def scalerTi (t : UInt64) (r : Ring) (i : Nat) : ℚ :=
  let qi : ℤ := (r.sub i).q.toNat
  bigRoundQ 80 (((r.qiBarre i * (t.toNat : ℤ)) % qi : ℤ) / (qi : ℚ))

/-- `NewSimpleScaler`, ring_scaling.go:143-247, for `t ≠ 0` (`BRedParams(0)` panics) -/
def newSimpleScaler (t : UInt64) (ringQ : Ring) : SimpleScaler :=
  { ringQ := ringQ
    t := t
    wi := (List.range ringQ.subs.length).map (scalerWi t ringQ)
    ti := (List.range ringQ.subs.length).map (scalerTi t ringQ)
    addParam := if isPow2 t then t - 1 else (bredParams t).hi
    mulParam := if isPow2 t then t - 1 else mredParams t }

/-- `ss.reducealgoMul`, ring_scaling.go:169-171 and 182-193.  The mask uses the parameter of the addition. -/
def SimpleScaler.reduceMul (ss : SimpleScaler) (x y : UInt64) : UInt64 :=
  if isPow2 ss.t then (x * y) &&& ss.addParam
  else
    let ahi := mulHi x y
    let alo := mulLo x y
    let h := mulHi (alo * ss.mulParam) ss.t
    let r := ahi - h + ss.t
    if r ≥ ss.t then r - ss.t else r

/-- `ss.reducealgoAdd`, ring_scaling.go:173-175 and 195-206.  The mask uses the parameter of the multiplication. -/
def SimpleScaler.reduceAdd (ss : SimpleScaler) (x : UInt64) : UInt64 :=
  if isPow2 ss.t then x &&& ss.mulParam
  else
    let s0 := mulHi x ss.addParam
    let r := x - s0 * ss.t
    if r ≥ ss.t then r - ss.t else r

/-- one iteration of the loop ring_scaling.go:283-289 on `(a, bBF)`; `x` is `p1.Coeffs[j][i]` -/
def SimpleScaler.step (ss : SimpleScaler) (acc : UInt64 × ℚ) (j : Nat) (x : UInt64) : UInt64 × ℚ :=
  (acc.1 + ss.reduceMul (ss.wi.getD j 0) x,
    bigRoundQ 80 (acc.2 + bigRoundQ 80 ((x.toNat : ℚ) * ss.ti.getD j 0)))

/-- coefficient of the result of `reconstructAndScale`, ring_scaling.go:278-296; `x j` is `p1.Coeffs[j][i]` -/
def SimpleScaler.andScaleCoeff (ss : SimpleScaler) (x : Nat → UInt64) : UInt64 :=
  let acc := (List.range ss.ringQ.subs.length).foldl (fun acc j => ss.step acc j (x j)) (0, 0)
  let b := bigRoundQ 80 (acc.2 + 1 / 2)
  ss.reduceAdd (acc.1 + bigToU64 b)

/-- `reconstructAndScale`, ring_scaling.go:276-302: all rows of `p2` get the same words.  Coefficient `i` is read on all rows of
`p1` before it is written, so `p1 = p2` is allowed. -/
def SimpleScaler.reconstructAndScale (ss : SimpleScaler) (p1 p2 : Rows) : Rows :=
  p2.map fun old => setRow (fun i => ss.andScaleCoeff fun j => (p1.row j).at i) (List.range ss.ringQ.n) old

end FastKsw
