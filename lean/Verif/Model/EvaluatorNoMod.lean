import Verif.Model.EvaluatorMore

/-!
# `AddNoMod` and `SubNoMod` of the CKKS evaluator

ckks/evaluator.go:257-323.
-/

namespace FastKsw

/-- `AddNoMod`, ckks/evaluator.go:258-261 -/
def Evaluator.addNoMod (ev : Evaluator) (h : Heap) (op0 op1 out : Ref) : Option Heap :=
  if checkBinary h op0 op1 out (max (h op0).degree (h op1).degree) then
    ev.evaluateInPlace h op0 op1 out ev.ringQ.addNoModLvl
  else none

/-- `AddNoModNew`, ckks/evaluator.go:271-275; `new` is the reference of the new ciphertext -/
def Evaluator.addNoModNew (ev : Evaluator) (h : Heap) (op0 op1 new : Ref) : Option Heap :=
  ev.addNoMod (ev.newBinary h op0 op1 new) op0 op1 new

/-- `SubNoMod`, ckks/evaluator.go:295-309 -/
def Evaluator.subNoMod (ev : Evaluator) (h : Heap) (op0 op1 out : Ref) : Option Heap :=
  if checkBinary h op0 op1 out (max (h op0).degree (h op1).degree) then
    (ev.evaluateInPlace h op0 op1 out ev.ringQ.subNoModLvl).map fun h =>
      let level := min (min (h op0).level (h op1).level) (h out).level
      let d0 := (h op0).degree
      if d0 < (h op1).degree then
        overComponents (fun i h => h.setRows out (d0 + 1 + i)
          (ev.ringQ.negLvl level (h.rows out (d0 + 1 + i)) (h.rows out (d0 + 1 + i)))) ((h op1).degree - d0) h
      else h
  else none

/-- `SubNoModNew`, ckks/evaluator.go:319-323 -/
def Evaluator.subNoModNew (ev : Evaluator) (h : Heap) (op0 op1 new : Ref) : Option Heap :=
  ev.subNoMod (ev.newBinary h op0 op1 new) op0 op1 new

end FastKsw
