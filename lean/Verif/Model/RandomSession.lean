import Verif.Model.RandomPair
import Verif.Model.RandomFKeys

/-!
# The keys of a session from the bytes of one generator

A user of `fckks` makes the key pair and the relinearization key with one key generator: `GenKeyPair` is the promoted method of the
embedded generator of `rlwe` (frlwe/keygen.go:10-12), so both read the samplers of the latter.
-/

namespace FastKsw

variable {F : Type} (O : FloatOps F)

/-- `GenKeyPair`, rlwe/keygen.go:177-180, then `GenRelinKey`, frlwe/keygen.go:93-117, of one key generator; the pools of the generator,
which `GenKeyPair` does not write, are an argument -/
def FKeyGenerator.genKeysBytes (kg : FKeyGenerator) (fuel h : Nat) (sigma : F) (bound : UInt64) (pools : KgPools) (st : GaussState) :
    Option (((PolyQP × (PolyQP × PolyQP)) × (FSwitchingKey × FSwitchingKey)) × GaussState) :=
  (genKeyPairBytes O fuel kg.params.ringQ kg.params.ringP h sigma bound st).bind fun a =>
    (kg.genRelinKeyBytes O fuel sigma bound pools a.1.1 a.2).map fun b => ((a.1, b.1), b.2)

/-- `GenKeyPair`, `GenRelinKey` and then `GenRotKey`, frlwe/keygen.go:119-145, of one key generator; `pools'` are the pools that the
first two leave -/
def FKeyGenerator.genSessionBytes (kg : FKeyGenerator) (fuel h : Nat) (sigma : F) (bound : UInt64) (pools pools' : KgPools) (rotidx : Int)
    (st : GaussState) : Option ((((PolyQP × (PolyQP × PolyQP)) × (FSwitchingKey × FSwitchingKey)) ×
      (UInt64 × (FSwitchingKey × FSwitchingKey))) × GaussState) :=
  (kg.genKeysBytes O fuel h sigma bound pools st).bind fun a =>
    (kg.genRotKeyBytes O fuel sigma bound pools' rotidx a.1.1.1 a.2).map fun b => ((a.1, b.1), b.2)

end FastKsw
