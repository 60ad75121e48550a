import Verif.Model.Evaluator

/-!
# Rotations of decomposed ciphertexts: the hoisted operations of `ckks/evaluator.go`

The two pool polynomials are parameters with arbitrary contents.  `permuteNTTIndex[galEl]` is `PermuteNTTIndex(galEl)` of `ringQ`
for every key (ckks/evaluator.go:198-207).
-/

namespace FastKsw

/-- `PermuteNTTHoistedNoModDown`, ckks/evaluator.go:1489-1521: new contents of
`((ct0OutQ, ct0OutP), (ct1OutQ, ct1OutP))` and of the two pools; `none`: no key -/
def Evaluator.permuteNTTHoistedNoModDown (ev : Evaluator) (level : Nat) (c0 : Rows) (dig : List PolyQP) (k : ℤ)
    (pool2 pool3 out0 out1 : PolyQP) : Option ((PolyQP × PolyQP) × PolyQP × PolyQP) :=
  let levelP := ev.ks.ringP.subs.length - 1
  let galEl := ev.ringQ.galoisElementForColumnRotationBy k
  (ev.rtks galEl).map fun rtk =>
    let index := ev.ringQ.permuteNTTIndex galEl
    let d := ev.ks.hoistedNoModDown level dig rtk pool2 pool3
    let out1 : PolyQP := ⟨ev.ringQ.permuteNTTWithIndexLvl level d.2.q index out1.q,
      ev.ringQ.permuteNTTWithIndexLvl levelP d.2.p index out1.p⟩
    let pool3Q := ev.ringQ.mulScalarBigintLvl level ev.ks.ringP.modulusBigint c0 d.2.q
    let pool2Q := ev.ringQ.addLvl level d.1.q pool3Q d.1.q
    ((⟨ev.ringQ.permuteNTTWithIndexLvl level pool2Q index out0.q,
      ev.ringQ.permuteNTTWithIndexLvl levelP d.1.p index out0.p⟩, out1), ⟨pool2Q, d.1.p⟩, ⟨pool3Q, d.2.p⟩)

/-- `PermuteNTTHoisted`, ckks/evaluator.go:1523-1553: new contents of `(cOut0, cOut1)`; `none`: no key -/
def Evaluator.permuteNTTHoisted (ev : Evaluator) (level : Nat) (c0 c1 : Poly) (dig : List PolyQP) (k : ℤ)
    (pool2 pool3 : PolyQP) (out0 out1 : Poly) : Option (Poly × Poly) :=
  if k = 0 then some (out0.copy c0, out1.copy c1)
  else
    let galEl := ev.ringQ.galoisElementForColumnRotationBy k
    (ev.rtks galEl).map fun rtk =>
      let index := ev.ringQ.permuteNTTIndex galEl
      let d := ev.ks.hoisted level dig rtk pool2 pool3
      let pool2Q := ev.ringQ.addLvl level d.1 c0.coeffs d.1
      (⟨ev.ringQ.permuteNTTWithIndexLvl level pool2Q index out0.coeffs, out0.isNTT⟩,
       ⟨ev.ringQ.permuteNTTWithIndexLvl level d.2 index out1.coeffs, out1.isNTT⟩)

/-- `RotateHoistedNoModDownNew`, ckks/evaluator.go:1474-1487: the map of the results and the pools; `none`: a key is missing -/
def Evaluator.rotateHoistedNoModDownNew (ev : Evaluator) (level : Nat) (rotations : List ℤ) (c0 : Rows) (dig : List PolyQP)
    (pools : PolyQP × PolyQP) : Option ((ℤ → Option (PolyQP × PolyQP)) × PolyQP × PolyQP) :=
  let fresh : PolyQP := ⟨newPoly ev.ringQ.n (level + 1), newPoly ev.ks.ringP.n ev.ks.ringP.subs.length⟩
  rotations.foldlM (fun st i =>
    if i = 0 then some st
    else (ev.permuteNTTHoistedNoModDown level c0 dig i st.2.1 st.2.2 fresh fresh).map fun d =>
      (fun j => if j = i then some d.1 else st.1 j, d.2)) (fun _ => none, pools)

end FastKsw
