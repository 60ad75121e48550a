import Verif.Model.RandomKeys

/-!
# The keys of the fast key-switch from the bytes of the generator

`GenRelinKey` and `GenRotKey` of `frlwe` make a key of `rlwe` and cut it in blocks; the randomness is that of the first.  The pools of the
generator of `rlwe` are arguments, with whatever earlier calls left in them.  `none`: an allowance for a rejection loop did not suffice.
-/

namespace FastKsw

variable {F : Type} (O : FloatOps F)

/-- `GenRelinKey`, frlwe/keygen.go:93-117, with `GenRelinearizationKey(sk, 1)`, rlwe/keygen.go:183-206, on the bytes of the generator -/
def FKeyGenerator.genRelinKeyBytes (kg : FKeyGenerator) (fuel : Nat) (sigma : F) (bound : UInt64) (pools : KgPools) (sk : PolyQP)
    (st : GaussState) : Option ((FSwitchingKey × FSwitchingKey) × GaussState) :=
  let rQ := kg.params.ringQ
  let rP := kg.params.ringP
  (genSwitchingKeyBytes O fuel rQ rP sigma bound pools.poolQ (relinPower rQ sk.q 1) sk
    (newSwitchingKey rQ rP (rQ.subs.length - 1) (rP.subs.length - 1)) st).map fun k => (kg.convertKey k.1, k.2)

/-- `GenRotKey`, frlwe/keygen.go:119-145, with `GenSwitchingKeyForRotationBy` and `genrotKey`, rlwe/keygen.go:218-223, 256-267, on the
bytes of the generator: the index stored in the key, the key and the state of the samplers -/
def FKeyGenerator.genRotKeyBytes (kg : FKeyGenerator) (fuel : Nat) (sigma : F) (bound : UInt64) (pools : KgPools) (rotidx : Int)
    (sk : PolyQP) (st : GaussState) : Option ((UInt64 × (FSwitchingKey × FSwitchingKey)) × GaussState) :=
  let rQ := kg.params.ringQ
  let rP := kg.params.ringP
  let rotidx := rotidx.tmod ((rQ.n / 2 : Nat) : Int)
  let index := rQ.permuteNTTIndex (rQ.galoisElementForColumnRotationBy (-rotidx))
  let skOut : PolyQP :=
    ⟨rQ.permuteNTTWithIndexLvl (rQ.subs.length - 1) sk.q index pools.poolQP.q,
     rQ.permuteNTTWithIndexLvl (rP.subs.length - 1) sk.p index pools.poolQP.p⟩
  (genSwitchingKeyBytes O fuel rQ rP sigma bound pools.poolQ sk.q skOut
    (newSwitchingKey rQ rP (rQ.subs.length - 1) (rP.subs.length - 1)) st).map fun k => ((UInt64.ofInt rotidx, kg.convertKey k.1), k.2)

end FastKsw
