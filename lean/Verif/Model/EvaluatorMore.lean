import Verif.Model.Evaluator

/-!
# `ckks/evaluator.go`: fused products, scale management and the operations with a new receiver
-/

namespace FastKsw

/-- one row of the fused product: `z + x·a` on the lower half, `z + x·b` on the upper half -/
def mulAddPairRow (N : Nat) (s : SubRing) (a b : UInt64) (x z : Row) : Row :=
  mulScalarMontgomeryAndAddVec (x.take (N >>> 1)) (z.take (N >>> 1)) a s.q s.mred ++
    mulScalarMontgomeryAndAddVec (x.drop (N >>> 1)) (z.drop (N >>> 1)) b s.q s.mred

/-- rows `0 … level` of a fused product by the pair `c i` of row `i` -/
def Ring.mulAddPairLvl (r : Ring) (level : Nat) (c : Nat → UInt64 × UInt64) (p0 p1 : Rows) : Rows :=
  writeLvl level (fun i => mulAddPairRow r.n (r.sub i) (c i).1 (c i).2 (p0.row i) (p1.row i)) p1

/-- the loops over the rows of the fused products, ckks/evaluator.go:638-674 and 806-842: components of the operand -/
def Evaluator.mulAddPair (ev : Evaluator) (h : Heap) (ct0 : Ref) (level : Nat) (c : Nat → UInt64 × UInt64) (out : Ref) :
    Option Heap :=
  if (h out).value.length < (h ct0).value.length then none
  else some (overComponents (fun u h => h.setRows out u
    (ev.ringQ.mulAddPairLvl level c (h.rows ct0 u) (h.rows out u))) (h ct0).value.length h)

/-- `MultByGaussianIntegerAndAdd`, ckks/evaluator.go:798-843; the constants are those of `MultByGaussianInteger` -/
def Evaluator.multByGaussianIntegerAndAdd (ev : Evaluator) (h : Heap) (ct0 : Ref) (cReal cImag : GInt) (out : Ref) :
    Option Heap :=
  ev.mulAddPair h ct0 (min (h ct0).level (h out).level) (gaussPair ev.ringQ cReal cImag) out

/-- `if scale := math.Floor(t / ctOut.Scale); scale > 1 { eval.MultByConst(ctOut, scale, ctOut) }`,
ckks/evaluator.go:600-604 and 622-624 -/
def Evaluator.raise (ev : Evaluator) (h : Heap) (out : Ref) (t : ℚ) : Option Heap :=
  let k := ⌊f64Div t (h out).scale⌋
  if 1 < k then ev.multByConst h out (.float k) out else some h

/-- `MultByConstAndAdd`, ckks/evaluator.go:576-675.  The scale of `ct0` is read again after the receiver was
multiplied. -/
def Evaluator.multByConstAndAdd (ev : Evaluator) (h : Heap) (ct0 : Ref) (c : Constant) (out : Ref) : Option Heap :=
  let level := min (h ct0).level (h out).level
  let h := h.set out ((h out).dropTo level)
  let k := getConstAndScale ev.ringQ level c
  let sc := k.2.2
  let run (h : Heap) (scale : ℚ) := ev.mulAddPair h ct0 level (constPairMont ev.ringQ k.1 k.2.1 scale) out
  if sc ≠ 1 then
    let t := f64 ((h ct0).scale * sc)
    if (h out).scale < t then
      (ev.raise h out t).bind fun h => run (h.setScale out (f64 (sc * (h ct0).scale))) sc
    else if (h out).scale > t then run h (f64Div (h out).scale (h ct0).scale)
    else run h sc
  else
    if (h out).scale > (h ct0).scale then run h (f64Div (h out).scale (h ct0).scale)
    else if (h ct0).scale > (h out).scale then
      (ev.raise h out (h ct0).scale).bind fun h => run (h.setScale out (h ct0).scale) sc
    else run h sc

/-! ## Operations with a new receiver; `new` is its reference -/

/-- `NewCiphertext(params, ct0.Degree(), ct0.Level(), ct0.Scale)` -/
def Evaluator.alloc (ev : Evaluator) (h : Heap) (ct0 new : Ref) : Heap :=
  h.set new (newCiphertext ev.ringQ.n (h ct0).degree (h ct0).level (h ct0).scale)

/-- `NegNew`, ckks/evaluator.go:455-459 -/
def Evaluator.negNew (ev : Evaluator) (h : Heap) (ct0 new : Ref) : Option Heap := ev.neg (ev.alloc h ct0 new) ct0 new

/-- `MultByConstNew`, ckks/evaluator.go:680-684 -/
def Evaluator.multByConstNew (ev : Evaluator) (h : Heap) (ct0 : Ref) (c : Constant) (new : Ref) : Option Heap :=
  ev.multByConst (ev.alloc h ct0 new) ct0 c new

/-- `MultByiNew`, ckks/evaluator.go:847-856: the new ciphertext has degree 1 -/
def Evaluator.multByiNew (ev : Evaluator) (h : Heap) (ct0 new : Ref) : Option Heap :=
  if ev.ringQ.type = .conjugateInvariant then none
  else ev.multByi (h.set new (newCiphertext ev.ringQ.n 1 (h ct0).level (h ct0).scale)) ct0 new

/-- `DivByiNew`, ckks/evaluator.go:899-908 -/
def Evaluator.divByiNew (ev : Evaluator) (h : Heap) (ct0 new : Ref) : Option Heap :=
  if ev.ringQ.type = .conjugateInvariant then none
  else ev.divByi (h.set new (newCiphertext ev.ringQ.n 1 (h ct0).level (h ct0).scale)) ct0 new

/-- `uint64(scale)` of a float64 in `[0, 2^64)`: truncation -/
def f64ToUInt64 (x : ℚ) : ℤ := ⌊x⌋

/-- `ScaleUp`, ckks/evaluator.go:960-963, for `0 ≤ scale < 2^64`; `ct0.Scale` is read after the product -/
def Evaluator.scaleUp (ev : Evaluator) (h : Heap) (ct0 : Ref) (scale : ℚ) (out : Ref) : Option Heap :=
  (ev.multByConst h ct0 (.int (f64ToUInt64 scale)) out).map fun h => h.setScale out (f64 ((h ct0).scale * scale))

/-- `ScaleUpNew`, ckks/evaluator.go:952-956 -/
def Evaluator.scaleUpNew (ev : Evaluator) (h : Heap) (ct0 : Ref) (scale : ℚ) (new : Ref) : Option Heap :=
  ev.scaleUp (ev.alloc h ct0 new) ct0 scale new

/-- `SetScale`, ckks/evaluator.go:966-972; an error of `Rescale` becomes a panic -/
def Evaluator.setScale (ev : Evaluator) (h : Heap) (ct : Ref) (scale : ℚ) : Option Heap :=
  (ev.multByConst h ct (.float (f64Div scale (h ct).scale)) ct).bind fun h =>
    match ev.rescale h ct scale ct with
    | some (.ok h) => some (h.setScale ct scale)
    | _ => none

/-- `MulByPow2`, ckks/evaluator.go:982-988; `none`: the receiver has more components than the operand -/
def Evaluator.mulByPow2 (ev : Evaluator) (h : Heap) (ct0 : Ref) (pow2 : Nat) (out : Ref) : Option Heap :=
  let level := min (h ct0).level (h out).level
  if (h ct0).value.length < (h out).value.length then none
  else some (overComponents (fun i h => h.setRows out i
    (if ct0 = out then ev.ringQ.mulByPow2LvlInPlace level pow2 (h.rows out i)
      else ev.ringQ.mulByPow2LvlDistinct level pow2 (h.rows ct0 i) (h.rows out i)))
    (h out).value.length (h.setScale out (h ct0).scale))

/-- `MulByPow2New`, ckks/evaluator.go:975-979 -/
def Evaluator.mulByPow2New (ev : Evaluator) (h : Heap) (ct0 : Ref) (pow2 : Nat) (new : Ref) : Option Heap :=
  ev.mulByPow2 (ev.alloc h ct0 new) ct0 pow2 new

/-- `Reduce`, ckks/evaluator.go:1003-1016 -/
def Evaluator.reduce (ev : Evaluator) (h : Heap) (ct0 out : Ref) : Except String Heap :=
  if (h ct0).degree ≠ (h out).degree then
    .error "cannot Reduce: degrees of receiver Ciphertext and input Ciphertext do not match"
  else
    let level := min (h ct0).level (h out).level
    .ok ((overComponents (fun i h => h.setRows out i (ev.ringQ.reduceLvl level (h.rows ct0 i) (h.rows out i)))
      (h ct0).value.length h).setScale out (h ct0).scale)

/-- `ReduceNew`, ckks/evaluator.go:992-999: the error is discarded -/
def Evaluator.reduceNew (ev : Evaluator) (h : Heap) (ct0 new : Ref) : Heap :=
  match ev.reduce (ev.alloc h ct0 new) ct0 new with
  | .ok h => h
  | .error _ => ev.alloc h ct0 new

/-- `DropLevelNew`, ckks/evaluator.go:1020-1024; `CopyNew` is a deep copy -/
def Evaluator.dropLevelNew (h : Heap) (ct0 : Ref) (levels : Nat) (new : Ref) : Heap :=
  h.set new ((h ct0).dropLevel levels)

/-- `RescaleNew`, ckks/evaluator.go:1041-1046 -/
def Evaluator.rescaleNew (ev : Evaluator) (h : Heap) (ct0 : Ref) (threshold : ℚ) (new : Ref) :
    Option (Except String Heap) :=
  ev.rescale (ev.alloc h ct0 new) ct0 threshold new

end FastKsw
