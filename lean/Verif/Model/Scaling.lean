import Verif.Model.BasisExtension
import Verif.Model.CRT

/-!
# `ring/ring_scaling.go`

The receivers of the division functions are written on rows `0 … level-1`.
Scratch polynomials are written before they are read.
-/

namespace FastKsw

/-- loop `for i := 0; i < level; i++` writing row `i` of `out` -/
def writeLt (level : Nat) (f : Nat → Row) (out : Rows) : Rows :=
  match level with
  | 0 => out
  | l + 1 => writeLvl l f out

/-- `r.RescaleParams[level-1][i]` -/
def Ring.rescaleParam (r : Ring) (level i : Nat) : UInt64 :=
  (r.rescaleParams.getD (level - 1) []).getD i 0

/-- `DivFloorByLastModulusNTTLvl`, ring_scaling.go:308-315 -/
def Ring.divFloorByLastModulusNTTLvl (r : Ring) (level : Nat) (p0 p1 : Rows) : Rows :=
  let pool0 := (r.sub level).invNttLazy r.n (p0.row level)
  writeLt level (fun i =>
    let s := r.sub i
    subVecAndMulScalarMontgomeryTwoQiVec (s.nttLazy r.n pool0) (p0.row i) (r.rescaleParam level i)
      s.q s.mred) p1

/-- `DivFloorByLastModulusLvl`, ring_scaling.go:319-323 -/
def Ring.divFloorByLastModulusLvl (r : Ring) (level : Nat) (p0 p1 : Rows) : Rows :=
  writeLt level (fun i =>
    let s := r.sub i
    subVecAndMulScalarMontgomeryTwoQiVec (p0.row level) (p0.row i) (r.rescaleParam level i) s.q s.mred) p1

/-- `CopyValuesLvl`, ring_poly.go:103-109, for rows of equal length -/
def copyValuesLvl (level : Nat) (p0 p1 : Rows) : Rows := writeLvl level (fun i => p0.row i) p1

/-- `for i := 0; i < nb; i++ { r.DivFloorByLastModulusLvl(level-i, pool, pool) }` -/
def Ring.divFloorIter (r : Ring) : Nat → Nat → Rows → Rows
  | _, 0, pool => pool
  | level, nb + 1, pool => r.divFloorIter (level - 1) nb (r.divFloorByLastModulusLvl level pool pool)

/-- `DivFloorByLastModulusManyNTTLvl`, ring_scaling.go:327-345 -/
def Ring.divFloorByLastModulusManyNTTLvl (r : Ring) (level nb : Nat) (p0 pool p1 : Rows) : Rows :=
  if nb = 0 then copyValuesLvl level p0 p1
  else
    let pool := r.invNttLvl level p0 pool
    let pool := r.divFloorIter level nb pool
    r.nttLvl (level - nb) pool p1

/-- `DivFloorByLastModulusManyLvl`, ring_scaling.go:349-375.  With `nb > 1` the first division goes to
`pool`, the last from `pool` to `p1`. -/
def Ring.divFloorByLastModulusManyLvl (r : Ring) (level nb : Nat) (p0 pool p1 : Rows) : Rows :=
  if nb = 0 then copyValuesLvl level p0 p1
  else if nb > 1 then
    let pool := r.divFloorByLastModulusLvl level p0 pool
    let pool := r.divFloorIter (level - 1) (nb - 2) pool
    r.divFloorByLastModulusLvl (level - (nb - 1)) pool p1
  else r.divFloorByLastModulusLvl level p0 p1

/-- `pHalf` -/
def pHalf (pj : UInt64) : UInt64 := (pj - 1) >>> 1

/-- `DivRoundByLastModulusNTTLvl`, ring_scaling.go:378-395 -/
def Ring.divRoundByLastModulusNTTLvl (r : Ring) (level : Nat) (p0 p1 : Rows) : Rows :=
  let pj := (r.sub level).q
  let top := addScalarVec ((r.sub level).invNttLazy r.n (p0.row level)) (pHalf pj) pj
  writeLt level (fun i =>
    let s := r.sub i
    let x := addScalarNoModVec top (s.q - bredAdd (pHalf pj) s.q s.bred)
    subVecAndMulScalarMontgomeryTwoQiVec (s.nttLazy r.n x) (p0.row i) (r.rescaleParam level i)
      s.q s.mred) p1

/-- row `level` after the centring of `DivRoundByLastModulusLvl`, ring_scaling.go:402-405 -/
def Ring.divRoundTop (r : Ring) (level : Nat) (p0 : Rows) : Row :=
  addScalarVec (p0.row level) (pHalf (r.sub level).q) (r.sub level).q

/-- row `i` of `p0` after ring_scaling.go:409 -/
def Ring.divRoundNeg (r : Ring) (level : Nat) (p0 : Rows) (i : Nat) : Row :=
  let s := r.sub i
  addScalarNoModAndNegTwoQiNoModVec (p0.row i) (s.q - bredAdd (pHalf (r.sub level).q) s.q s.bred) s.q

/-- row `i` of the result, ring_scaling.go:410 -/
def Ring.divRoundRow (r : Ring) (level : Nat) (p0 : Rows) (i : Nat) : Row :=
  let s := r.sub i
  addVecNoModAndMulScalarMontgomeryVec (r.divRoundTop level p0) (r.divRoundNeg level p0 i)
    (r.rescaleParam level i) s.q s.mred

/-- `DivRoundByLastModulusLvl`, ring_scaling.go:399-412, for `p0 ≠ p1`: final `p0` (overwritten by
intermediate values) and `p1` -/
def Ring.divRoundByLastModulusLvl (r : Ring) (level : Nat) (p0 p1 : Rows) : Rows × Rows :=
  ((writeLt level (r.divRoundNeg level p0) p0).set level (r.divRoundTop level p0),
    writeLt level (r.divRoundRow level p0) p1)

/-- `DivRoundByLastModulusLvl` called with `p0 = p1` -/
def Ring.divRoundByLastModulusLvlInPlace (r : Ring) (level : Nat) (p : Rows) : Rows :=
  (writeLt level (r.divRoundRow level p) p).set level (r.divRoundTop level p)

/-- `for i := 0; i < nb; i++ { r.DivRoundByLastModulusLvl(level-i, pool, pool) }` -/
def Ring.divRoundIter (r : Ring) : Nat → Nat → Rows → Rows
  | _, 0, pool => pool
  | level, nb + 1, pool => r.divRoundIter (level - 1) nb (r.divRoundByLastModulusLvlInPlace level pool)

/-- `DivRoundByLastModulusManyNTTLvl`, ring_scaling.go:416-438 -/
def Ring.divRoundByLastModulusManyNTTLvl (r : Ring) (level nb : Nat) (p0 pool p1 : Rows) : Rows :=
  if nb = 0 then copyValuesLvl level p0 p1
  else if nb > 1 then
    let pool := r.invNttLvl level p0 pool
    let pool := r.divRoundIter level nb pool
    r.nttLvl (level - nb) pool p1
  else r.divRoundByLastModulusNTTLvl level p0 p1

/-- `DivRoundByLastModulusManyLvl`, ring_scaling.go:442-469, result `p1` -/
def Ring.divRoundByLastModulusManyLvl (r : Ring) (level nb : Nat) (p0 pool p1 : Rows) : Rows :=
  if nb = 0 then copyValuesLvl level p0 p1
  else if nb > 1 then
    let pool := (r.divRoundByLastModulusLvl level p0 pool).2
    let pool := r.divRoundIter (level - 1) (nb - 2) pool
    (r.divRoundByLastModulusLvl (level - (nb - 1)) pool p1).2
  else (r.divRoundByLastModulusLvl level p0 p1).2

/-! ### Scaling by `t/Q` -/

/-- `RNSScaler`, ring_scaling.go:33-43, without scratch polynomials -/
structure RNSScaler where
  ringQ : Ring
  ringT : Ring
  qHalf : ℤ
  qHalfModT : UInt64
  qInv : UInt64
  paramsQP : ModupParams

/-- `NewRNSScaler`, ring_scaling.go:46-73 -/
def newRNSScaler (ringQ ringT : Ring) : RNSScaler :=
  let t := (ringT.sub 0).q
  let q := ringQ.modulusBigint
  { ringQ := ringQ
    ringT := ringT
    qHalf := q / 2
    qHalfModT := bigModU64 (q / 2) t
    qInv := mform (modExp (bigModU64 q t) (t - 2) t) t (bredParams t)
    paramsQP := basisExtenderParameters ringQ.moduli [t] }

/-- `(*RNSScaler).DivByQOverTRounded`, ring_scaling.go:80-114: row 0 of `p2T` is overwritten.
`AddScalarBigint` is called in place, so its first operand is the result. -/
def RNSScaler.divByQOverTRounded (s : RNSScaler) (p1Q p2T : Rows) : Rows :=
  let ringQ := s.ringQ
  let T := (s.ringT.sub 0).q
  let qInv := T - s.qInv
  let qHalfModT := T - s.qHalfModT
  let levelQ := ringQ.subs.length - 1
  let pool := ringQ.mulScalarLvl levelQ T p1Q (newPoly ringQ.n ringQ.subs.length)
  let pool := (ringQ.addScalarBigintLvl levelQ pool s.qHalf pool).1
  let poolT := modUpExact levelQ 0 pool (newPoly s.ringT.n s.ringT.subs.length) ringQ s.ringT s.paramsQP
  p2T.set 0 ((poolT.row 0).map fun x => mred (qHalfModT + x) qInv T (s.ringT.sub 0).mred)

/-- one coefficient of `reconstructThenScale`, ring_scaling.go:255-264; `q` is the modulus, `x` the
reconstructed coefficient -/
def scaleCoeff (t q x : ℤ) : ℤ :=
  let c := (x * t).tdiv q
  let r := (x * t).tmod q
  if |r * 2| ≥ |q| then c + 1 else c

/-- `(*SimpleScaler).DivByQOverTRounded`, ring_scaling.go:242-264: all rows of `p2` get the same
words -/
def simpleScale (t : UInt64) (ringQ : Ring) (p1 p2 : Rows) : Rows :=
  p2.map fun _ => (ringQ.polyToBigintLvl (p1.length - 1) p1 1).map fun x =>
    UInt64.ofNat (scaleCoeff t.toNat ringQ.modulusBigint x).toNat

end FastKsw
