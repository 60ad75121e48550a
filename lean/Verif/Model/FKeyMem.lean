import Verif.Model.KeyGen
import Verif.Model.RingQP

/-!
# The memory of the keys of the fast key-switch

`frlwe/keys.go` allocates the keys and `frlwe/keygen.go` fills them, through one buffer of the generator that is never cleared.
`convertKey` of `Model/FKeySwitch` is the value that is computed, on a cleared buffer and without checks of indices; here the buffer is
carried along, `copy` is Go's, and `none` is a panic.
-/

namespace FastKsw

/-- `NewSwitchingKey`, frlwe/keys.go:21-42 -/
def newFSwitchingKey (p : FParams) : FSwitchingKey :=
  List.replicate p.beta (List.replicate (ceilDivF (p.maxLevel + p.alpha + 1) p.gamma) (newPoly p.ringT.n p.ringT.subs.length))

/-- `NewRelinKey`, frlwe/keys.go:44-51, and the two keys of `NewRotationKey`, 53-61 -/
def newFRelinKey (p : FParams) : FSwitchingKey × FSwitchingKey := (newFSwitchingKey p, newFSwitchingKey p)

/-- the copies into `polyRiPool` for block `i`, frlwe/keygen.go:75-84; the first component is `levelRi + 1`.  `coeffsQ` and `coeffsP` are
copies of the rows of the polynomial (`GetCoefficients`, ring/ring_poly.go:175-183). -/
def FParams.fillPool (p : FParams) (x : PolyQP) (i : Nat) (pool : Rows) : Option (Nat × Rows) :=
  (List.range p.gamma).foldlM (fun (s : Nat × Rows) j =>
    if i * p.gamma + j < p.alpha then
      if j < s.2.length ∧ i * p.gamma + j < x.p.length then
        some (s.1 + 1, s.2.set j (copySlice (s.2.row j) (x.p.row (i * p.gamma + j)))) else none
    else if i * p.gamma + j < p.maxLevel + p.alpha + 1 then
      if j < s.2.length ∧ i * p.gamma + j - p.alpha < x.q.length then
        some (s.1 + 1, s.2.set j (copySlice (s.2.row j) (x.q.row (i * p.gamma + j - p.alpha)))) else none
    else some s) (0, pool)

/-- block `i` of `polyQPToPolyTs`, frlwe/keygen.go:74-89, into `out`: the buffer and the new content of `out`.  `ModUpQtoP` slices its
arguments and indexes its parameters (ring_basis_extension.go:192-194), has room for 32 source rows (283) and reads and writes rows of
one length through unsafe pointers. -/
def FKeyGenerator.polyTInto (kg : FKeyGenerator) (x : PolyQP) (i : Nat) (pool out : Rows) : Option (Rows × Rows) :=
  let p := kg.params
  (p.fillPool x i pool).bind fun s =>
    if i < kg.convRiT.length then
      let be := kg.convRiT.getD i (newBasisExtender p.ringQ p.ringP)
      if 0 < s.1 ∧ s.1 ≤ 32 ∧ s.1 ≤ s.2.length ∧ s.1 ≤ be.paramsQtoP.length ∧ p.levelT < out.length ∧
          (∀ j < s.1, (s.2.row j).length = (s.2.row 0).length) ∧ ∀ t < p.levelT + 1, (out.row t).length = (s.2.row 0).length then
        let t := be.modUpQtoP (s.1 - 1) p.levelT s.2 out
        let t := p.ringT.reduceLvl p.levelT t t
        let t := p.ringT.nttLvl p.levelT t t
        some (s.2, p.ringT.mformLvl p.levelT t t)
      else none
    else none

/-- `polyQPToPolyTs`, frlwe/keygen.go:59-91: the buffer and the new content of `polyTs` -/
def FKeyGenerator.polyQPToPolyTsInto (kg : FKeyGenerator) (x : PolyQP) (pool : Rows) (polyTs : List Rows) : Option (Rows × List Rows) :=
  let p := kg.params
  (List.range (ceilDivF (p.maxLevel + p.alpha + 1) p.gamma)).foldlM (fun (s : Rows × List Rows) i =>
    if i < s.2.length then (kg.polyTInto x i s.1 (s.2.getD i [])).map fun r => (r.1, s.2.set i r.2) else none) (pool, polyTs)

/-- the loop of `GenRelinKey` and `GenRotKey`, frlwe/keygen.go:106-114, 134-142, into the two keys `rlk`.  The polynomials of `k` are brought
to coefficient form in place; they are read nowhere else. -/
def FKeyGenerator.convertKeyInto (kg : FKeyGenerator) (pool : Rows) (k : SwitchingKey) (rlk : FSwitchingKey × FSwitchingKey) :
    Option (Rows × (FSwitchingKey × FSwitchingKey)) :=
  let p := kg.params
  let levelP := p.alpha - 1
  let plain := fun (x : PolyQP) =>
    let x : PolyQP := ⟨p.ringQ.invMformLvl p.maxLevel x.q x.q, p.ringP.invMformLvl levelP x.p x.p⟩
    (⟨p.ringQ.invNttLvl p.maxLevel x.q x.q, p.ringP.invNttLvl levelP x.p x.p⟩ : PolyQP)
  (List.range p.beta).foldlM (fun (s : Rows × (FSwitchingKey × FSwitchingKey)) i =>
    if i < k.length ∧ i < s.2.1.length ∧ i < s.2.2.length then
      (kg.polyQPToPolyTsInto (plain (k.getD i default).1) s.1 (s.2.1.getD i [])).bind fun r =>
        (kg.polyQPToPolyTsInto (plain (k.getD i default).2) r.1 (s.2.2.getD i [])).map fun r' =>
          (r'.1, (s.2.1.set i r.2, s.2.2.set i r'.2))
    else none) (pool, rlk)

/-- `GenRelinKey`, frlwe/keygen.go:93-117, with the buffer -/
def FKeyGenerator.genRelinKeyMem (kg : FKeyGenerator) (pool : Rows) (sk : PolyQP) (tape : Nat → KeyTape) :
    Option (Rows × (FSwitchingKey × FSwitchingKey)) :=
  kg.convertKeyInto pool ((genRelinearizationKey kg.params.ringQ kg.params.ringP sk 1 fun _ => tape).getD 0 []) (newFRelinKey kg.params)

/-- `GenRotKey`, frlwe/keygen.go:119-145, with the buffer -/
def FKeyGenerator.genRotKeyMem (kg : FKeyGenerator) (pool : Rows) (rotidx : Int) (sk : PolyQP) (tape : Nat → KeyTape) :
    Option (Rows × (UInt64 × FSwitchingKey × FSwitchingKey)) :=
  let rotidx := rotidx.tmod ((kg.params.ringQ.n / 2 : Nat) : Int)
  (kg.convertKeyInto pool (genSwitchingKeyForRotationBy kg.params.ringQ kg.params.ringP rotidx sk tape) (newFRelinKey kg.params)).map fun r =>
    (r.1, (UInt64.ofInt rotidx, r.2))

end FastKsw
