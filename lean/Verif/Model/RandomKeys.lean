import Verif.Model.RotKeys
import Verif.Model.GaussianBytes
import Verif.Model.Evaluator

/-!
# Key generation and random ciphertexts from the bytes of the generator

`Model/KeyGen.lean` and `Model/RotKeys.lean` take what the samplers write as a parameter.  Here the samplers read it from the one
generator that they share (rlwe/keygen.go:60-83): the state is that of the Gaussian sampler, which includes the generator; a uniform
sampler has no state of its own between calls.  The values drawn do not depend on the arithmetic between the calls, so all the draws
come first.  `none`: an allowance for a rejection loop did not suffice.
-/

namespace FastKsw

variable {F : Type} (O : FloatOps F)

/-- the draws for one digit of a switching key, into the memory `old` of the digit, rlwe/keygen.go:374, 380-381 -/
def readDigit (fuel : Nat) (rQ rP : Ring) (sigma : F) (bound : UInt64) (levelQ levelP : Nat) (old : PolyQP × PolyQP) (st : GaussState) :
    Option (KeyTape × GaussState) :=
  (gaussianReadLvl O fuel rQ sigma bound levelQ st old.1.q).bind fun e =>
    (uniformReadLvl fuel rQ levelQ e.2.prng old.2.q).bind fun aQ =>
      (uniformReadLvl fuel rP levelP aQ.2 old.2.p).map fun aP => (⟨e.1, ⟨aQ.1, aP.1⟩⟩, { e.2 with prng := aP.2 })

/-- the draws for the digits `swk` -/
def readDigits (fuel : Nat) (rQ rP : Ring) (sigma : F) (bound : UInt64) (levelQ levelP : Nat) :
    SwitchingKey → GaussState → Option (List KeyTape × GaussState)
  | [], st => some ([], st)
  | old :: swk, st =>
    (readDigit O fuel rQ rP sigma bound levelQ levelP old st).bind fun t =>
      (readDigits fuel rQ rP sigma bound levelQ levelP swk t.2).map fun ts => (t.1 :: ts.1, ts.2)

/-- `genSwitchingKey`, rlwe/keygen.go:344-411, on the bytes of the generator: the key and the state of the samplers afterwards.  `swk`
has `ceil((levelQ+1)/(levelP+1))` digits, as `NewSwitchingKey` makes it. -/
def genSwitchingKeyBytes (fuel : Nat) (rQ rP : Ring) (sigma : F) (bound : UInt64) (poolQ skIn : Rows) (skOut : PolyQP)
    (swk : SwitchingKey) (st : GaussState) : Option (SwitchingKey × GaussState) :=
  let levelQ := (swk.getD 0 default).1.q.length - 1
  let levelP := (swk.getD 0 default).1.p.length - 1
  (readDigits O fuel rQ rP sigma bound levelQ levelP swk st).map fun ts =>
    ((genSwitchingKeyInto rQ rP poolQ skIn skOut (fun i => ts.1.getD i ⟨[], ⟨[], []⟩⟩) swk).2, ts.2)

/-- `GenPublicKey`, rlwe/keygen.go:139-157 (`P` not empty), on the bytes of the generator -/
def genPublicKeyBytes (fuel : Nat) (rQ rP : Ring) (sigma : F) (bound : UInt64) (sk : PolyQP) (st : GaussState) :
    Option ((PolyQP × PolyQP) × GaussState) :=
  let z : PolyQP := ⟨newPoly rQ.n rQ.subs.length, newPoly rP.n rP.subs.length⟩
  (readDigit O fuel rQ rP sigma bound (rQ.subs.length - 1) (rP.subs.length - 1) (z, z) st).map fun t =>
    (genPublicKey rQ rP sk t.1.e t.1.a, t.2)

/-- `PopulateElementRandom`, rlwe/elements.go:255-260 -/
def populateElementRandom (fuel : Nat) (rQ : Ring) : List Rows → Prng → Option (List Rows × Prng)
  | [], prng => some ([], prng)
  | p :: ps, prng =>
    (uniformReadLvl fuel rQ (p.length - 1) prng p).bind fun a =>
      (populateElementRandom fuel rQ ps a.2).map fun b => (a.1 :: b.1, b.2)

/-- `NewCiphertextRandom`, rlwe/elements.go:118-122 and ckks/ciphertext.go:46-48: the flags `IsNTT` stay false, as `NewPoly` makes them -/
def newCiphertextRandom (fuel : Nat) (rQ : Ring) (degree level : Nat) (scale : ℚ) (prng : Prng) : Option (Ct × Prng) :=
  (populateElementRandom fuel rQ (List.replicate (degree + 1) (newPoly rQ.n (level + 1))) prng).map fun a =>
    (⟨a.1.map fun x => ⟨x, false⟩, scale⟩, a.2)

end FastKsw
