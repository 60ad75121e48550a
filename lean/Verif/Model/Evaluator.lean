import Verif.Model.Encrypt
import Verif.Model.Scaling
import Verif.Model.KeySwitch
import Verif.Model.Automorphism
import Mathlib.Logic.Function.Basic

/-!
# `ckks/evaluator.go`: the homomorphic operations

Operands are references into a heap, so that the same ciphertext may be passed several times and as the receiver.
Different references share no storage.  A plaintext is an operand of degree 0.  Scales are float64 values inside
the exponent range.  Pool polynomials start as zero polynomials (they are written before they are read), except
`ctxpool`, which is a reference.  `none` is a panic; the panics of Go's bound checks are modelled for the list of
components; rows a component lacks are read as empty rows.
-/

namespace FastKsw

/-- `ckks.Ciphertext`, ckks/ciphertext.go:29-33 (and `ckks.Plaintext`) -/
structure Ct where
  value : List Poly
  scale : ℚ
deriving Inhabited

/-- `Degree`, rlwe/elements.go:130-132 -/
def Ct.degree (c : Ct) : Nat := c.value.length - 1

/-- `Level`, rlwe/elements.go:135-137 -/
def Ct.level (c : Ct) : Nat := (c.value.getD 0 default).level

/-- `ct.Value[i].Coeffs` -/
def Ct.rows (c : Ct) (i : Nat) : Rows := (c.value.getD i default).coeffs

/-- overwrite the rows of one component -/
def Ct.setRows (c : Ct) (i : Nat) (p : Rows) : Ct :=
  { c with value := c.value.modify i fun q => { q with coeffs := p } }

/-- `NewCiphertext`, ckks/ciphertext.go:36-43, rlwe/elements.go:97-104 -/
def newCiphertext (N degree level : Nat) (scale : ℚ) : Ct :=
  ⟨List.replicate (degree + 1) ⟨newPoly N (level + 1), true⟩, scale⟩

/-- `Resize`, rlwe/elements.go:142-155 -/
def Ct.resize (N : Nat) (c : Ct) (degree : Nat) : Ct :=
  if degree < c.degree then { c with value := c.value.take (degree + 1) }
  else
    let p : Poly := ⟨newPoly N (c.level + 1), (c.value.getD 0 default).isNTT⟩
    { c with value := c.value ++ List.replicate (degree - c.degree) p }

/-- `DropLevel`, ckks/evaluator.go:1028-1033 -/
def Ct.dropLevel (c : Ct) (levels : Nat) : Ct :=
  { c with value := c.value.map fun p => { p with coeffs := p.coeffs.take (c.level + 1 - levels) } }

abbrev Ref := Nat

abbrev Heap := Ref → Ct

def Heap.rows (h : Heap) (a : Ref) (i : Nat) : Rows := (h a).rows i

def Heap.set (h : Heap) (a : Ref) (c : Ct) : Heap := Function.update h a c

def Heap.setRows (h : Heap) (a : Ref) (i : Nat) (p : Rows) : Heap := h.set a ((h a).setRows i p)

def Heap.setScale (h : Heap) (a : Ref) (s : ℚ) : Heap := h.set a { h a with scale := s }

/-- the fields of `evaluator`, ckks/evaluator.go:133-150, that the operations use; `rlk` is `rlk.Keys[0]` -/
structure Evaluator where
  ringQ : Ring
  ks : KeySwitcher
  rlk : Option SwitchingKey
  rtks : UInt64 → Option SwitchingKey
  ctxpool : Ref

/-- `NewEvaluator`, ckks/evaluator.go:180-196; `ctxpool` is a new ciphertext of degree 2 at the maximal level -/
def newEvaluator (rQ rP : Ring) (rlk : Option SwitchingKey) (rtks : UInt64 → Option SwitchingKey) (pool : Ref) :
    Evaluator := ⟨rQ, newKeySwitcher rQ rP, rlk, rtks, pool⟩

/-- `checkBinary`, ckks/evaluator.go:214-240: does it return? -/
def checkBinary (h : Heap) (op0 op1 out : Ref) (minDegree : Nat) : Bool :=
  (h op0).degree + (h op1).degree ≠ 0 && minDegree ≤ (h out).degree &&
    (h op0).value.all (·.isNTT) && (h op1).value.all (·.isNTT)

/-- `if ctOut.Level() > level { eval.DropLevel(ctOut, ctOut.Level()-level) }` -/
def Ct.dropTo (c : Ct) (level : Nat) : Ct := if c.level > level then c.dropLevel (c.level - level) else c

/-! ## Products by constants -/

/-- `constant interface{}`: the types the switch of `getConstAndScale` knows (`int`, `int64` and `uint64` are
treated alike) -/
inductive Constant
  | complex (re im : ℚ)
  | float (x : ℚ)
  | int (x : ℤ)

/-- `int64(x)` of a float64: truncation; out of range, the amd64 instruction gives `-2^63` -/
def f64ToInt64 (x : ℚ) : ℤ :=
  let t := if 0 ≤ x then ⌊x⌋ else ⌈x⌉
  if -2 ^ 63 ≤ t ∧ t < 2 ^ 63 then t else -2 ^ 63

/-- `valueFloat != 0`, ckks/evaluator.go:478-481 -/
def hasFraction (x : ℚ) : Bool := f64 (x - f64 (f64ToInt64 x)) ≠ 0

/-- `getConstAndScale`, ckks/evaluator.go:468-526: `(cReal, cImag, scale)` -/
def getConstAndScale (r : Ring) (level : Nat) (c : Constant) : ℚ × ℚ × ℚ :=
  let ql := f64OfNat (r.sub level).q.toNat
  let (re, im, sc) := match c with
    | .complex re im => (re, im,
        if (re ≠ 0 && hasFraction re) || (im ≠ 0 && hasFraction im) then ql else 1)
    | .float x => (x, 0, if x ≠ 0 && hasFraction x then ql else 1)
    | .int x => (f64 x, 0, 1)
  (re, if r.type = .conjugateInvariant then 0 else im, sc)

/-- `scaleUpExact`, ckks/utils.go:199-226.  `big.NewFloat` has 53 bits of precision, so `Add` rounds like a
float64 addition; `Int` truncates. -/
def scaleUpExact (value n : ℚ) (q : UInt64) : UInt64 :=
  let x := f64Add (f64 (if value < 0 then -n * value else n * value)) (1 / 2)
  let res := UInt64.ofNat (⌊x⌋.toNat % q.toNat)
  if value < 0 then q - res else res

/-- apply `f` to `x[:N/2]` and `g` to `x[N/2:]` -/
def halves (N : Nat) (f g : Row → Row) (x : Row) : Row := f (x.take (N >>> 1)) ++ g (x.drop (N >>> 1))

/-- the two values of `scaledConst` of row `i` in `MultByConst` and `MultByConstAndAdd`, before `MForm`:
ckks/evaluator.go:706-721, 734-736.  When `cImag = 0` the second loop uses the first value. -/
def constPair (s : SubRing) (cReal cImag scale : ℚ) : UInt64 × UInt64 :=
  let re := if cReal ≠ 0 then scaleUpExact cReal scale s.q else 0
  if cImag ≠ 0 then
    let im := mred (scaleUpExact cImag scale s.q) (s.nttPsi.at 1) s.q s.mred
    (cred (re + im) s.q, cred (re + (s.q - im)) s.q)
  else (re, re)

/-- one row of `MultByConst`: product by `a` on the lower half, by `b` on the upper half, both already in
Montgomery form -/
def mulPairRow (N : Nat) (s : SubRing) (a b : UInt64) (x : Row) : Row :=
  halves N (fun x => mulScalarMontgomeryVec x a s.q s.mred) (fun x => mulScalarMontgomeryVec x b s.q s.mred) x

/-- rows `0 … level` of a product by the pair `c i` of row `i` -/
def Ring.mulPairLvl (r : Ring) (level : Nat) (c : Nat → UInt64 × UInt64) (p0 p1 : Rows) : Rows :=
  writeLvl level (fun i => mulPairRow r.n (r.sub i) (c i).1 (c i).2 (p0.row i)) p1

/-- `for u := range …`: `f u` writes component `u`.  The Go loops run over the rows outside and the components
inside; the row written depends on the same row of the same component only. -/
def overComponents (f : Nat → Heap → Heap) : Nat → Heap → Heap
  | 0, h => h
  | n + 1, h => f n (overComponents f n h)

/-- the pair of row `i` in Montgomery form -/
def constPairMont (r : Ring) (cReal cImag scale : ℚ) (i : Nat) : UInt64 × UInt64 :=
  let s := r.sub i
  let c := constPair s cReal cImag scale
  (mform c.1 s.q s.bred, mform c.2 s.q s.bred)

/-- `MultByConst`, ckks/evaluator.go:689-743, on the components only (the callers in `evaluateInPlace` discard the
scale); `none`: the receiver has too few components -/
def Evaluator.multByConstRows (ev : Evaluator) (h : Heap) (ct0 : Ref) (c : Constant) (out : Ref) : Option Heap :=
  let level := min (h ct0).level (h out).level
  let k := getConstAndScale ev.ringQ level c
  if (h out).value.length < (h ct0).value.length then none
  else some (overComponents (fun u h => h.setRows out u
    (ev.ringQ.mulPairLvl level (constPairMont ev.ringQ k.1 k.2.1 k.2.2) (h.rows ct0 u) (h.rows out u)))
    (h ct0).value.length h)

/-- `MultByConst`, ckks/evaluator.go:689-743 -/
def Evaluator.multByConst (ev : Evaluator) (h : Heap) (ct0 : Ref) (c : Constant) (out : Ref) : Option Heap :=
  let level := min (h ct0).level (h out).level
  let k := getConstAndScale ev.ringQ level c
  (ev.multByConstRows h ct0 c out).map fun h' => h'.setScale out (f64 ((h ct0).scale * k.2.2))

/-- constants of `MultByGaussianInteger`: `uint64`, `int64`, `*big.Int` -/
inductive GInt
  | u64 (x : UInt64)
  | i64 (x : Int64)
  | big (x : ℤ)

/-- `interfaceMod`, ckks/utils.go:93-120 -/
def interfaceMod (x : GInt) (q : UInt64) : UInt64 :=
  match x with
  | .u64 x => x % q
  | .i64 x =>
    if 0 < x then x.toUInt64
    else if x < 0 then (q.toInt64 + x % q.toInt64).toUInt64
    else 0
  | .big x => UInt64.ofNat (x % (q.toNat : ℤ)).toNat

/-- the constants of row `i` in `MultByGaussianInteger`, ckks/evaluator.go:757-787.  The test `cImag != 0`
compares an interface holding a `uint64`, `int64` or `*big.Int` with an `int`: it is always true. -/
def gaussPair (r : Ring) (cReal cImag : GInt) (i : Nat) : UInt64 × UInt64 :=
  let s := r.sub i
  let re := interfaceMod cReal s.q
  let im := if r.type ≠ .conjugateInvariant then interfaceMod cImag s.q else 0
  let im' := if im ≠ 0 then mred im (s.nttPsi.at 1) s.q s.mred else im
  let a := if im ≠ 0 then cred (re + im') s.q else re
  (mform a s.q s.bred, mform (cred (re + (s.q - im')) s.q) s.q s.bred)

/-- `MultByGaussianInteger`, ckks/evaluator.go:747-794 -/
def Evaluator.multByGaussianInteger (ev : Evaluator) (h : Heap) (ct0 : Ref) (cReal cImag : GInt) (out : Ref) :
    Option Heap :=
  let level := min (h ct0).level (h out).level
  if (h out).value.length < (h ct0).value.length then none
  else some (overComponents (fun u h => h.setRows out u
    (ev.ringQ.mulPairLvl level (gaussPair ev.ringQ cReal cImag) (h.rows ct0 u) (h.rows out u)))
    (h ct0).value.length (h.setScale out (h ct0).scale))

/-- the common loops of `MultByi` and `DivByi`: components of the receiver -/
def Evaluator.mulPairOut (ev : Evaluator) (h : Heap) (ct0 : Ref) (c : Nat → UInt64 × UInt64) (out : Ref) :
    Option Heap :=
  if ev.ringQ.type = .conjugateInvariant then none
  else
    let level := min (h ct0).level (h out).level
    if (h ct0).value.length < (h out).value.length then none
    else some (overComponents (fun u h => h.setRows out u
      (ev.ringQ.mulPairLvl level c (h.rows ct0 u) (h.rows out u)))
      (h out).value.length (h.setScale out (h ct0).scale))

/-- `MultByi`, ckks/evaluator.go:860-895 -/
def Evaluator.multByi (ev : Evaluator) (h : Heap) (ct0 out : Ref) : Option Heap :=
  ev.mulPairOut h ct0 (fun i => ((ev.ringQ.sub i).nttPsi.at 1, (ev.ringQ.sub i).q - (ev.ringQ.sub i).nttPsi.at 1)) out

/-- `DivByi`, ckks/evaluator.go:912-948 -/
def Evaluator.divByi (ev : Evaluator) (h : Heap) (ct0 out : Ref) : Option Heap :=
  ev.mulPairOut h ct0 (fun i => ((ev.ringQ.sub i).q - (ev.ringQ.sub i).nttPsi.at 1, (ev.ringQ.sub i).nttPsi.at 1)) out

/-- `AddConst`, ckks/evaluator.go:529-569 -/
def Evaluator.addConst (ev : Evaluator) (h : Heap) (ct0 : Ref) (c : Constant) (out : Ref) : Heap :=
  let level := min (h ct0).level (h out).level
  let k := getConstAndScale ev.ringQ level c
  let h := h.setScale out (h ct0).scale
  h.setRows out 0 (writeLvl level (fun i =>
    let s := ev.ringQ.sub i
    let c := constPair s k.1 k.2.1 (h out).scale
    halves ev.ringQ.n (fun x => addScalarVec x c.1 s.q) (fun x => addScalarVec x c.2 s.q) ((h.rows ct0 0).row i))
    (h.rows out 0))

/-- `AddConstNew`, ckks/evaluator.go:462-466; `new` is the reference of the copy -/
def Evaluator.addConstNew (ev : Evaluator) (h : Heap) (ct0 : Ref) (c : Constant) (new : Ref) : Heap :=
  ev.addConst (h.set new (h ct0)) ct0 c new

/-! ## Addition and subtraction -/

/-- `tmp0`, `tmp1` of `evaluateInPlace`, ckks/evaluator.go:343-413, and the heap after the scaling.
`up s t` is the condition `s > t && math.Floor(s/t) > 1`. -/
def Evaluator.matchScales (ev : Evaluator) (h : Heap) (c0 c1 out : Ref) : Option (Heap × Ref × Ref) :=
  let s0 := (h c0).scale
  let s1 := (h c1).scale
  let up (s t : ℚ) : Bool := s > t && ⌊f64Div s t⌋ > 1
  let ratio (s t : ℚ) : Constant := .float ⌊f64Div s t⌋
  if out = c0 then
    if up s0 s1 then
      (ev.multByConstRows h c1 (ratio s0 s1) ev.ctxpool).map fun h => (h, c0, ev.ctxpool)
    else if up s1 s0 then
      (ev.multByConstRows h c0 (ratio s1 s0) c0).map fun h => (h.setScale out s1, c0, c1)
    else some (h, c0, c1)
  else if out = c1 then
    if up s1 s0 then
      (ev.multByConstRows h c0 (ratio s1 s0) ev.ctxpool).map fun h => (h, ev.ctxpool, c1)
    else if up s0 s1 then
      (ev.multByConstRows h c1 (ratio s0 s1) out).map fun h => (h.setScale out s0, c0, c1)
    else some (h, c0, c1)
  else
    if up s1 s0 then
      (ev.multByConstRows h c0 (ratio s1 s0) ev.ctxpool).map fun h => (h, ev.ctxpool, c1)
    else if up s0 s1 then
      (ev.multByConstRows h c1 (ratio s0 s1) ev.ctxpool).map fun h => (h, c0, ev.ctxpool)
    else some (h, c0, c1)

/-- `evaluateInPlace` after the scaling, ckks/evaluator.go:415-436 -/
def evaluateTail (h : Heap) (c0 c1 out tmp0 tmp1 : Ref) (level minDegree maxDegree : Nat) (scale : ℚ)
    (f : Nat → Rows → Rows → Rows → Rows) : Heap :=
  let h := overComponents (fun i h => h.setRows out i (f level (h.rows tmp0 i) (h.rows tmp1 i) (h.rows out i)))
    (minDegree + 1) h
  let h := h.setScale out scale
  let copy (tmp : Ref) := overComponents (fun i h => h.setRows out (minDegree + 1 + i)
    (copyValuesLvl level (h.rows tmp (minDegree + 1 + i)) (h.rows out (minDegree + 1 + i))))
    (maxDegree - minDegree) h
  if (h c0).degree > (h c1).degree ∧ tmp0 ≠ out then copy tmp0
  else if (h c1).degree > (h c0).degree ∧ tmp1 ≠ out then copy tmp1
  else h

/-- `evaluateInPlace`, ckks/evaluator.go:325-436; `f level p1 p2 p3` is `evaluate` -/
def Evaluator.evaluateInPlace (ev : Evaluator) (h : Heap) (c0 c1 out : Ref)
    (f : Nat → Rows → Rows → Rows → Rows) : Option Heap :=
  let level := min (min (h c0).level (h c1).level) (h out).level
  let maxDegree := max (h c0).degree (h c1).degree
  let minDegree := min (h c0).degree (h c1).degree
  let h := h.set out ((h out).resize ev.ringQ.n maxDegree)
  let s0 := (h c0).scale
  let s1 := (h c1).scale
  let h := if (h out).level > level then
      h.set out ((h out).dropLevel ((h out).level - min (h c0).level (h c1).level)) else h
  (ev.matchScales h c0 c1 out).map fun (h, tmp0, tmp1) =>
    evaluateTail h c0 c1 out tmp0 tmp1 level minDegree maxDegree (max s0 s1) f

/-- `Add`, ckks/evaluator.go:252-255 -/
def Evaluator.add (ev : Evaluator) (h : Heap) (op0 op1 out : Ref) : Option Heap :=
  if checkBinary h op0 op1 out (max (h op0).degree (h op1).degree) then
    ev.evaluateInPlace h op0 op1 out ev.ringQ.addLvl
  else none

/-- `Sub`, ckks/evaluator.go:278-292 -/
def Evaluator.sub (ev : Evaluator) (h : Heap) (op0 op1 out : Ref) : Option Heap :=
  if checkBinary h op0 op1 out (max (h op0).degree (h op1).degree) then
    (ev.evaluateInPlace h op0 op1 out ev.ringQ.subLvl).map fun h =>
      let level := min (min (h op0).level (h op1).level) (h out).level
      let d0 := (h op0).degree
      if d0 < (h op1).degree then
        overComponents (fun i h => h.setRows out (d0 + 1 + i)
          (ev.ringQ.negLvl level (h.rows out (d0 + 1 + i)) (h.rows out (d0 + 1 + i)))) ((h op1).degree - d0) h
      else h
  else none

/-- `newCiphertextBinary`, ckks/evaluator.go:242-249, at the reference `new` -/
def Evaluator.newBinary (ev : Evaluator) (h : Heap) (op0 op1 new : Ref) : Heap :=
  h.set new (newCiphertext ev.ringQ.n (max (h op0).degree (h op1).degree) (min (h op0).level (h op1).level)
    (max (h op0).scale (h op1).scale))

/-- `AddNew`, ckks/evaluator.go:264-268 -/
def Evaluator.addNew (ev : Evaluator) (h : Heap) (op0 op1 new : Ref) : Option Heap :=
  ev.add (ev.newBinary h op0 op1 new) op0 op1 new

/-- `SubNew`, ckks/evaluator.go:311-315 -/
def Evaluator.subNew (ev : Evaluator) (h : Heap) (op0 op1 new : Ref) : Option Heap :=
  ev.sub (ev.newBinary h op0 op1 new) op0 op1 new

/-- `Neg`, ckks/evaluator.go:439-452 -/
def Evaluator.neg (ev : Evaluator) (h : Heap) (ct0 out : Ref) : Option Heap :=
  let level := min (h ct0).level (h out).level
  if (h ct0).degree ≠ (h out).degree then none
  else some ((overComponents (fun i h => h.setRows out i (ev.ringQ.negLvl level (h.rows ct0 i) (h.rows out i)))
    (h ct0).value.length h).setScale out (h ct0).scale)

/-! ## Rescaling -/

/-- the loop of `Rescale`, ckks/evaluator.go:1079-1082.  The first argument is `ctIn.Level() - nbRescales + 1`; at 0
the condition reads `Modulus[-1]` before it tests the index: `none`. -/
def rescaleLoop (r : Ring) (minScale : ℚ) : Nat → Nat → ℚ → Option (Nat × ℚ)
  | 0, _, _ => none
  | i + 1, nb, scale =>
    let s := f64Div scale (f64OfNat (r.sub i).q.toNat)
    if s ≥ f64Div minScale 2 then rescaleLoop r minScale i (nb + 1) s else some (nb, scale)

/-- `Poly.Copy`, ring_poly.go:136-140 -/
def Poly.copy (pol p1 : Poly) : Poly := ⟨copyValuesLvl (min pol.level p1.level) p1.coeffs pol.coeffs, p1.isNTT⟩

/-- `Copy`, ckks/ciphertext.go:71-74, rlwe/elements.go:223-230; `none`: the receiver has too few components -/
def Heap.copy (h : Heap) (dst src : Ref) : Option Heap :=
  if dst = src then some h
  else if (h dst).value.length < (h src).value.length then none
  else some (h.set dst ⟨(h dst).value.mapIdx fun i p =>
    if i < (h src).value.length then p.copy ((h src).value.getD i default) else p, (h src).scale⟩)

/-- `Rescale`, ckks/evaluator.go:1054-1097.  The receiver's components need a row for every modulus written. -/
def Evaluator.rescale (ev : Evaluator) (h : Heap) (ctIn : Ref) (minScale : ℚ) (out : Ref) :
    Option (Except String Heap) :=
  if minScale ≤ 0 then some (.error "cannot Rescale: minScale is 0")
  else if (h ctIn).scale = 0 then some (.error "cannot Rescale: ciphertext scale is 0")
  else if (h ctIn).level = 0 then some (.error "cannot Rescale: input Ciphertext already at level 0")
  else if (h out).degree ≠ (h ctIn).degree then some (.error "cannot Rescale : ctIn.Degree() != ctOut.Degree()")
  else
    let level := (h ctIn).level
    match rescaleLoop ev.ringQ minScale (level + 1) 0 (h ctIn).scale with
    | none => none
    | some (nb, scale) =>
      let h := h.setScale out scale
      if nb > 0 then
        if (h out).level + nb < level then none
        else
          let pool := newPoly ev.ringQ.n ev.ringQ.subs.length
          some (.ok (overComponents (fun i h => h.setRows out i
            ((ev.ringQ.divRoundByLastModulusManyNTTLvl level nb (h.rows ctIn i) pool (h.rows out i)).take
              (level + 1 - nb))) (h out).value.length h))
      else (h.copy out ctIn).map .ok

/-! ## Products -/

/-- `ringQ.MFormLvl(level, p, pool)` -/
def Evaluator.mformPool (ev : Evaluator) (level : Nat) (p : Rows) : Rows :=
  ev.ringQ.mformLvl level p (newPoly ev.ringQ.n ev.ringQ.subs.length)

/-- what the two branches of `mulRelin` and of `mulRelinAndAdd` have in common, ckks/evaluator.go:1133-1148 -/
def Evaluator.mulPrepare (h : Heap) (op0 op1 out : Ref) : Option (Heap × Nat) :=
  if checkBinary h op0 op1 out (max (h op0).degree (h op1).degree) then
    let level := min (min (h op0).level (h op1).level) (h out).level
    let h := h.set out ((h out).dropTo level)
    if (h op0).degree > 1 ∨ (h op1).degree > 1 then none else some (h, level)
  else none

/-- `eval.Pool[1].Q`, `eval.Pool[2].Q` after `SwitchKeysInPlace(level, c2, evk, Pool[1].Q, Pool[2].Q)` -/
def Evaluator.switchPool (ev : Evaluator) (level : Nat) (isNTT : Bool) (c2 : Rows) (evk : SwitchingKey) : Rows × Rows :=
  let pool := newPoly ev.ringQ.n ev.ringQ.subs.length
  ev.ks.switchKeysInPlace level isNTT c2 evk pool pool

/-- Ciphertext by ciphertext without relinearisation, ckks/evaluator.go:1161-1196; `sq` is `op0 == op1` -/
def Evaluator.mulCt (ev : Evaluator) (h : Heap) (level : Nat) (tmp0 tmp1 out : Ref) (sq : Bool) : Heap :=
  let r := ev.ringQ
  let h := if (h out).degree < 2 then h.set out ((h out).resize r.n 2) else h
  let c00 := ev.mformPool level (h.rows tmp0 0)
  let c01 := ev.mformPool level (h.rows tmp0 1)
  let h := h.setRows out 0 (r.mulCoeffsMontgomeryLvl level c00 (h.rows tmp1 0) (h.rows out 0))
  let h := h.setRows out 2 (r.mulCoeffsMontgomeryLvl level c01 (h.rows tmp1 1) (h.rows out 2))
  let h := h.setRows out 1 (r.mulCoeffsMontgomeryLvl level c00 (h.rows tmp1 1) (h.rows out 1))
  if sq then h.setRows out 1 (r.addLvl level (h.rows out 1) (h.rows out 1) (h.rows out 1))
  else h.setRows out 1 (r.mulCoeffsMontgomeryAndAddLvl level c01 (h.rows tmp1 0) (h.rows out 1))

/-- Ciphertext by ciphertext with relinearisation, ckks/evaluator.go:1161-1207 -/
def Evaluator.mulCtRelin (ev : Evaluator) (h : Heap) (level : Nat) (tmp0 tmp1 out : Ref) (sq : Bool)
    (rlk : SwitchingKey) : Heap :=
  let r := ev.ringQ
  let pool := newPoly r.n r.subs.length
  let c00 := ev.mformPool level (h.rows tmp0 0)
  let c01 := ev.mformPool level (h.rows tmp0 1)
  let h := h.setRows out 0 (r.mulCoeffsMontgomeryLvl level c00 (h.rows tmp1 0) (h.rows out 0))
  let c2 := r.mulCoeffsMontgomeryLvl level c01 (h.rows tmp1 1) pool
  let h := h.setRows out 1 (r.mulCoeffsMontgomeryLvl level c00 (h.rows tmp1 1) (h.rows out 1))
  let h := if sq then h.setRows out 1 (r.addLvl level (h.rows out 1) (h.rows out 1) (h.rows out 1))
    else h.setRows out 1 (r.mulCoeffsMontgomeryAndAddLvl level c01 (h.rows tmp1 0) (h.rows out 1))
  let c2 := r.invNttLvl level c2 c2
  let d := ev.switchPool level false c2 rlk
  let d0 := r.nttLazyLvl level d.1 d.1
  let d1 := r.nttLazyLvl level d.2 d.2
  let h := h.setRows out 0 (r.addLvl level (h.rows out 0) d0 (h.rows out 0))
  h.setRows out 1 (r.addLvl level (h.rows out 1) d1 (h.rows out 1))

/-- plaintext by ciphertext, ckks/evaluator.go:1210-1226 -/
def Evaluator.mulPt (ev : Evaluator) (h : Heap) (level : Nat) (pt ct out : Ref) : Heap :=
  let r := ev.ringQ
  let c00 := ev.mformPool level (h.rows pt 0)
  let h := h.setRows out 0 (r.mulCoeffsMontgomeryLvl level c00 (h.rows ct 0) (h.rows out 0))
  h.setRows out 1 (r.mulCoeffsMontgomeryLvl level c00 (h.rows ct 1) (h.rows out 1))

/-- `mulRelin`, ckks/evaluator.go:1131-1222 -/
def Evaluator.mulRelin (ev : Evaluator) (h : Heap) (op0 op1 : Ref) (relin : Bool) (out : Ref) : Option Heap :=
  (Evaluator.mulPrepare h op0 op1 out).bind fun (h, level) =>
    let h := h.setScale out (f64 ((h op0).scale * (h op1).scale))
    if (h op0).degree + (h op1).degree = 2 then
      let (tmp0, tmp1) := if op1 = out then (op1, op0) else (op0, op1)
      if relin then ev.rlk.map fun rlk => ev.mulCtRelin h level tmp0 tmp1 out (op0 = op1) rlk
      else some (ev.mulCt h level tmp0 tmp1 out (op0 = op1))
    else if (h op0).degree = 1 then some (ev.mulPt h level op1 op0 out)
    else some (ev.mulPt h level op0 op1 out)

/-- `MulNew`, ckks/evaluator.go:1101-1105 -/
def Evaluator.mulNew (ev : Evaluator) (h : Heap) (op0 op1 new : Ref) : Option Heap :=
  ev.mulRelin (h.set new (newCiphertext ev.ringQ.n ((h op0).degree + (h op1).degree)
    (min (h op0).level (h op1).level) 0)) op0 op1 false new

/-- `MulRelinNew`, ckks/evaluator.go:1117-1121 -/
def Evaluator.mulRelinNew (ev : Evaluator) (h : Heap) (op0 op1 new : Ref) : Option Heap :=
  ev.mulRelin (h.set new (newCiphertext ev.ringQ.n 1 (min (h op0).level (h op1).level) 0)) op0 op1 true new

/-- the ciphertext by ciphertext case of `mulRelinAndAdd`, ckks/evaluator.go:1273-1313 -/
def Evaluator.mulCtAndAdd (ev : Evaluator) (h : Heap) (level : Nat) (tmp0 tmp1 out : Ref)
    (rlk : Option SwitchingKey) : Heap :=
  let r := ev.ringQ
  let h := if rlk.isNone ∧ (h out).degree < 2 then h.set out ((h out).resize r.n 2) else h
  let c00 := ev.mformPool level (h.rows tmp0 0)
  let c01 := ev.mformPool level (h.rows tmp0 1)
  let h := h.setRows out 0 (r.mulCoeffsMontgomeryAndAddLvl level c00 (h.rows tmp1 0) (h.rows out 0))
  let h := h.setRows out 1 (r.mulCoeffsMontgomeryAndAddLvl level c00 (h.rows tmp1 1) (h.rows out 1))
  let h := h.setRows out 1 (r.mulCoeffsMontgomeryAndAddLvl level c00 (h.rows tmp1 1) (h.rows out 1))
  match rlk with
  | some rlk =>
    let c2 := r.mulCoeffsMontgomeryLvl level c01 (h.rows tmp1 1) (newPoly r.n r.subs.length)
    let d := ev.switchPool level true c2 rlk
    let h := h.setRows out 0 (r.addLvl level (h.rows out 0) d.1 (h.rows out 0))
    h.setRows out 1 (r.addLvl level (h.rows out 1) d.2 (h.rows out 1))
  | none => h.setRows out 2 (r.mulCoeffsMontgomeryAndAddLvl level c01 (h.rows tmp1 1) (h.rows out 2))

/-- plaintext by ciphertext, ckks/evaluator.go:1316-1332 -/
def Evaluator.mulPtAndAdd (ev : Evaluator) (h : Heap) (level : Nat) (pt ct out : Ref) : Heap :=
  let r := ev.ringQ
  let c00 := ev.mformPool level (h.rows pt 0)
  let h := h.setRows out 0 (r.mulCoeffsMontgomeryAndAddLvl level c00 (h.rows ct 0) (h.rows out 0))
  h.setRows out 1 (r.mulCoeffsMontgomeryAndAddLvl level c00 (h.rows ct 1) (h.rows out 1))

/-- `math.Round`: half away from zero, for `x ≥ 0` -/
def f64Round (x : ℚ) : ℤ := ⌊x + 1 / 2⌋

/-- `mulRelinAndAdd`, ckks/evaluator.go:1243-1328 -/
def Evaluator.mulRelinAndAdd (ev : Evaluator) (h : Heap) (op0 op1 : Ref) (relin : Bool) (out : Ref) : Option Heap :=
  (Evaluator.mulPrepare h op0 op1 out).bind fun (h, level) =>
    let resScale := f64 ((h op0).scale * (h op1).scale)
    (if (h out).scale < resScale then
      (ev.multByConst h out (.float (f64Round (f64Div resScale (h out).scale))) out).map fun h =>
        h.setScale out resScale
     else some h).bind fun h =>
      if (h op0).degree + (h op1).degree = 2 then
        let (tmp0, tmp1) := if op1 = out then (op1, op0) else (op0, op1)
        if relin then ev.rlk.map fun rlk => ev.mulCtAndAdd h level tmp0 tmp1 out (some rlk)
        else some (ev.mulCtAndAdd h level tmp0 tmp1 out none)
      else if (h op0).degree = 1 then some (ev.mulPtAndAdd h level op1 op0 out)
      else some (ev.mulPtAndAdd h level op0 op1 out)

/-! ## Key switching -/

/-- `Relinearize`, ckks/evaluator.go:1339-1359; `none` also when the receiver has one component only or there is no
key -/
def Evaluator.relinearize (ev : Evaluator) (h : Heap) (ct0 out : Ref) : Option Heap :=
  if (h ct0).degree ≠ 2 ∨ (h out).degree < 1 then none
  else ev.rlk.map fun rlk =>
    let h := h.set out ((h out).dropTo (h ct0).level)
    let h := h.setScale out (h ct0).scale
    let level := min (h ct0).level (h out).level
    let d := ev.switchPool level ((h ct0).value.getD 2 default).isNTT (h.rows ct0 2) rlk
    let h := h.setRows out 0 (ev.ringQ.addLvl level (h.rows ct0 0) d.1 (h.rows out 0))
    let h := h.setRows out 1 (ev.ringQ.addLvl level (h.rows ct0 1) d.2 (h.rows out 1))
    h.set out ((h out).resize ev.ringQ.n 1)

/-- `RelinearizeNew`, ckks/evaluator.go:1332-1336 -/
def Evaluator.relinearizeNew (ev : Evaluator) (h : Heap) (ct0 new : Ref) : Option Heap :=
  ev.relinearize (h.set new (newCiphertext ev.ringQ.n 1 (h ct0).level (h ct0).scale)) ct0 new

/-- `SwitchKeys`, ckks/evaluator.go:1373-1388 -/
def Evaluator.switchKeys (ev : Evaluator) (h : Heap) (ct0 : Ref) (evk : SwitchingKey) (out : Ref) : Option Heap :=
  if (h ct0).degree ≠ 1 ∨ (h out).degree ≠ 1 then none
  else
    let level := min (h ct0).level (h out).level
    let h := h.setScale out (h ct0).scale
    let d := ev.switchPool level ((h ct0).value.getD 1 default).isNTT (h.rows ct0 1) evk
    let h := h.setRows out 0 (ev.ringQ.addLvl level (h.rows ct0 0) d.1 (h.rows out 0))
    some (h.setRows out 1 (copyValuesLvl level d.2 (h.rows out 1)))

/-- `SwitchKeysNew`, ckks/evaluator.go:1364-1368 -/
def Evaluator.switchKeysNew (ev : Evaluator) (h : Heap) (ct0 : Ref) (evk : SwitchingKey) (new : Ref) : Option Heap :=
  ev.switchKeys (h.set new (newCiphertext ev.ringQ.n (h ct0).degree (h ct0).level (h ct0).scale)) ct0 evk new

/-- `permuteNTT`, ckks/evaluator.go:1449-1472 -/
def Evaluator.permuteNTT (ev : Evaluator) (h : Heap) (ct0 : Ref) (galEl : UInt64) (out : Ref) : Option Heap :=
  (ev.rtks galEl).map fun rtk =>
    let r := ev.ringQ
    let level := min (h ct0).level (h out).level
    let pool := newPoly r.n r.subs.length
    let pool2 := r.invNttLvl level (h.rows ct0 1) pool
    let d := ev.ks.switchKeysInPlace level false pool2 rtk (h.rows out 0) (h.rows out 1)
    let h := (h.setRows out 0 d.1).setRows out 1 d.2
    let pool2 := r.nttLvl level (h.rows out 0) pool2
    let pool3 := r.nttLvl level (h.rows out 1) pool
    let pool2 := r.addLvl level pool2 (h.rows ct0 0) pool2
    let h := h.setRows out 0 (r.permuteNTTLvl level pool2 galEl (h.rows out 0))
    h.setRows out 1 (r.permuteNTTLvl level pool3 galEl (h.rows out 1))

/-- `Rotate`, ckks/evaluator.go:1400-1416 -/
def Evaluator.rotate (ev : Evaluator) (h : Heap) (ct0 : Ref) (k : ℤ) (out : Ref) : Option Heap :=
  if (h ct0).degree ≠ 1 ∨ (h out).degree ≠ 1 then none
  else if k = 0 then h.copy out ct0
  else ev.permuteNTT (h.setScale out (h ct0).scale) ct0 (ev.ringQ.galoisElementForColumnRotationBy k) out

/-- `RotateNew`, ckks/evaluator.go:1392-1396 -/
def Evaluator.rotateNew (ev : Evaluator) (h : Heap) (ct0 : Ref) (k : ℤ) (new : Ref) : Option Heap :=
  ev.rotate (h.set new (newCiphertext ev.ringQ.n (h ct0).degree (h ct0).level (h ct0).scale)) ct0 k new

/-- `Conjugate`, ckks/evaluator.go:1434-1447 -/
def Evaluator.conjugate (ev : Evaluator) (h : Heap) (ct0 out : Ref) : Option Heap :=
  if (h ct0).degree ≠ 1 ∨ (h out).degree ≠ 1 then none
  else ev.ringQ.galoisElementForRowRotation.bind fun galEl =>
    ev.permuteNTT (h.setScale out (h ct0).scale) ct0 galEl out

/-- `ConjugateNew`, ckks/evaluator.go:1421-1430 -/
def Evaluator.conjugateNew (ev : Evaluator) (h : Heap) (ct0 new : Ref) : Option Heap :=
  ev.conjugate (h.set new (newCiphertext ev.ringQ.n (h ct0).degree (h ct0).level (h ct0).scale)) ct0 new

end FastKsw
