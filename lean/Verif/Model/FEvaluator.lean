import Verif.Model.Evaluator
import Verif.Model.FKeySwitch

/-!
# `fckks/evaluator.go`

`eval.polyQPool[0]` is never marked as being in the NTT domain.
-/

namespace FastKsw

/-- `Evaluator`, fckks/evaluator.go:12-17 -/
structure FEvaluator where
  ckks : Evaluator
  ksw : FKeySwitcher

/-- `NewEvaluator`, fckks/evaluator.go:19-31 -/
def newFEvaluator (fuel : Nat) (p : FParams) (pool : Ref) : Option FEvaluator :=
  (newFKeySwitcher fuel p).map fun ksw => ⟨newEvaluator p.ringQ p.ringP none (fun _ => none) pool, ksw⟩

/-- `MulRelin` after the product, fckks/evaluator.go:58-69: a function of the receiver only -/
def FEvaluator.relinTail (ev : FEvaluator) (rlk : FSwitchingKey × FSwitchingKey) (c : Ct) : Option Ct :=
  let r := ev.ckks.ringQ
  let pool := newPoly r.n r.subs.length
  if c.value.length < 3 then none
  else
    let p0 := r.invNttLvl c.level (c.rows 2) pool
    (ev.ksw.switchKey c.level false p0 rlk.1 rlk.2 pool pool).map fun d =>
      let d0 := r.nttLvl c.level d.1 d.1
      let d1 := r.nttLvl c.level d.2 d.2
      let c := c.setRows 0 (r.addLvl c.level d0 (c.rows 0) (c.rows 0))
      let c := c.setRows 1 (r.addLvl c.level d1 (c.rows 1) (c.rows 1))
      { c with value := c.value.take 2 }

/-- `MulRelin`, fckks/evaluator.go:55-70 -/
def FEvaluator.mulRelin (ev : FEvaluator) (h : Heap) (ct0 ct1 : Ref) (rlk : FSwitchingKey × FSwitchingKey)
    (out : Ref) : Option Heap :=
  (ev.ckks.mulRelin h ct0 ct1 false out).bind fun h => (ev.relinTail rlk (h out)).map (h.set out)

/-- `MulRelinNew`, fckks/evaluator.go:49-53; `new` is the reference of the result -/
def FEvaluator.mulRelinNew (ev : FEvaluator) (h : Heap) (ct0 ct1 : Ref) (rlk : FSwitchingKey × FSwitchingKey)
    (new : Ref) : Option Heap :=
  ev.mulRelin (h.set new (newCiphertext ev.ckks.ringQ.n 2 (min (h ct0).level (h ct1).level) 0)) ct0 ct1 rlk new

/-- `Rotate`, fckks/evaluator.go:78-96; `rtk` is `(Rotidx, Value)`.  `int(rtk.Rotidx)` reads the word as two's
complement.  `none` also when `ctIn` has fewer rows than the receiver, or one of them is not of degree ≥ 1. -/
def FEvaluator.rotate (ev : FEvaluator) (h : Heap) (ctIn : Ref) (rtk : UInt64 × FSwitchingKey × FSwitchingKey)
    (out : Ref) : Option Heap :=
  let r := ev.ckks.ringQ
  let pool := newPoly r.n r.subs.length
  let level := (h out).level
  if (h ctIn).level < level ∨ (h ctIn).degree < 1 ∨ (h out).degree < 1 then none
  else
    let p0 := r.invNttLvl level (h.rows ctIn 1) pool
    (ev.ksw.switchKey level false p0 rtk.2.1 rtk.2.2 pool pool).map fun d =>
      let p1 := r.nttLvl level d.1 d.1
      let p2 := r.nttLvl level d.2 d.2
      let p1 := r.addLvl level (h.rows ctIn 0) p1 p1
      let galEl := r.galoisElementForColumnRotationBy rtk.1.toInt64.toInt
      let h := h.setRows out 0 (r.permuteNTTLvl level p1 galEl (h.rows out 0))
      h.setRows out 1 (r.permuteNTTLvl level p2 galEl (h.rows out 1))

/-- `RotateNew`, fckks/evaluator.go:72-76 -/
def FEvaluator.rotateNew (ev : FEvaluator) (h : Heap) (ctIn : Ref) (rtk : UInt64 × FSwitchingKey × FSwitchingKey)
    (new : Ref) : Option Heap :=
  ev.rotate (h.set new (newCiphertext ev.ckks.ringQ.n 1 (h ctIn).level (h ctIn).scale)) ctIn rtk new

/-- `SwitchKeys`, fckks/evaluator.go:98-109; `none` also when an operand is not of degree ≥ 1 -/
def FEvaluator.switchKeys (ev : FEvaluator) (h : Heap) (ct0 : Ref) (swk : FSwitchingKey × FSwitchingKey) (out : Ref) :
    Option Heap :=
  let r := ev.ckks.ringQ
  let pool := newPoly r.n r.subs.length
  let level := min (h ct0).level (h out).level
  if (h ct0).degree < 1 ∨ (h out).degree < 1 then none
  else
    let h := h.setScale out (h ct0).scale
    (ev.ksw.switchKey level ((h ct0).value.getD 1 default).isNTT (h.rows ct0 1) swk.1 swk.2 pool pool).map fun d =>
      let h := h.setRows out 0 (r.addLvl level (h.rows ct0 0) d.1 (h.rows out 0))
      h.setRows out 1 (copyValuesLvl level d.2 (h.rows out 1))

/-- `SwitchKeysNew`, fckks/evaluator.go:111-115 -/
def FEvaluator.switchKeysNew (ev : FEvaluator) (h : Heap) (ct0 : Ref) (swk : FSwitchingKey × FSwitchingKey) (new : Ref) :
    Option Heap :=
  ev.switchKeys (h.set new (newCiphertext ev.ckks.ringQ.n (h ct0).degree (h ct0).level (h ct0).scale)) ct0 swk new

end FastKsw
