import Verif.Model.KeyGen
import Verif.Model.ConjInv

/-!
# `rlwe/keygen.go`: switching keys between ring degrees

Here the pools of the generator are explicit: they hold whatever earlier calls left in them, and
`GenSwitchingKeysForRingSwap` passes one of them to `GenSwitchingKey` as a secret key.
-/

namespace FastKsw

/-- `keygen.poolQ` and `keygen.poolQP`, rlwe/keygen.go:49-58 -/
structure KeyPools where
  q : Rows
  qp : PolyQP

/-- `genSwitchingKey`, rlwe/keygen.go:345-411, with the pool: the key and the new content of `poolQ` -/
def genSwitchingKeyPool (rQ rP : Ring) (levelQ levelP : Nat) (skIn : Rows) (skOut : PolyQP) (tape : Nat → KeyTape)
    (poolQ : Rows) : SwitchingKey × Rows :=
  let poolQ := rQ.mulScalarBigintLvl levelQ (keyPBig rP levelP) skIn poolQ
  ((List.range (ceilDivF (levelQ + 1) (levelP + 1))).map fun i =>
    genSwitchingDigit rQ rP levelQ levelP poolQ skOut i (tape i), poolQ)

/-- rlwe/keygen.go:305-337 with the pools: the secret in `poolQ` is brought from level `lIn` to level `lOut`; `poolQP.Q` is used for
its coefficients -/
def liftSecretPool (rQ : Ring) (lIn lOut : Nat) (pools : KeyPools) : KeyPools :=
  let polQ := rQ.invNttLvl 0 pools.q pools.qp.q
  let polQ := rQ.invMformLvl 0 polQ polQ
  let poolQ := pools.q.mapIdx fun i x => if lIn + 1 ≤ i ∧ i < lOut + 1 then
      let y := (List.range rQ.n).map fun j => extendWord (rQ.sub 0).q (rQ.sub i).q ((polQ.row 0).at j)
      mformVec ((rQ.sub i).ntt rQ.n y) (rQ.sub i).q (rQ.sub i).bred
    else x
  ⟨poolQ, ⟨polQ, pools.qp.p⟩⟩

/-- `GenSwitchingKey`, rlwe/keygen.go:290-343, `P` not empty, for secrets of any ring degree.  `skOut` may refer to the pools:
it is read when `genSwitchingKey` is called. -/
def genSwitchingKeyDeg (rQ rP : Ring) (skIn : PolyQP) (skOut : KeyPools → PolyQP) (tape : Nat → KeyTape) (pools : KeyPools) :
    SwitchingKey × KeyPools :=
  let lIn := skIn.q.length - 1
  let lOut := (skOut pools).q.length - 1
  let lP := (skOut pools).p.length - 1
  if (skIn.q.row 0).length > ((skOut pools).q.row 0).length then
    let qp : PolyQP := ⟨mapSmallToLarge (skOut pools).q pools.qp.q, mapSmallToLarge (skOut pools).p pools.qp.p⟩
    let k := genSwitchingKeyPool rQ rP lOut lP skIn.q qp tape pools.q
    (k.1, ⟨k.2, qp⟩)
  else
    let pools : KeyPools := ⟨mapSmallToLarge skIn.q pools.q, pools.qp⟩
    let pools := if lIn < lOut then liftSecretPool rQ lIn lOut pools else pools
    let k := genSwitchingKeyPool rQ rP lOut lP pools.q (skOut pools) tape pools.q
    (k.1, ⟨k.2, pools.qp⟩)

/-- `GenSwitchingKeysForRingSwap`, rlwe/keygen.go:270-279: the keys from the standard to the conjugate-invariant secret and back.
`skCIMappedToStandard` is `keygen.poolQP` itself.  `none`: panic. -/
def genSwitchingKeysForRingSwap (rQ rP : Ring) (skStd skCI : PolyQP) (tape tape' : Nat → KeyTape) (pools : KeyPools) :
    Option (SwitchingKey × SwitchingKey × KeyPools) := do
  let q ← unfold (skCI.q.length - 1) skCI.q pools.qp.q
  let p ← unfold (skCI.p.length - 1) skCI.p pools.qp.p
  let pools : KeyPools := ⟨pools.q, ⟨q, p⟩⟩
  let toStd := genSwitchingKeyDeg rQ rP pools.qp (fun _ => skStd) tape pools
  let toCI := genSwitchingKeyDeg rQ rP skStd (fun pools => pools.qp) tape' toStd.2
  some (toCI.1, toStd.1, toCI.2)

end FastKsw
