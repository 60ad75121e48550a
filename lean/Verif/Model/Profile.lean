import Verif.Model.Defaults
import Verif.Model.FEvaluator
import Verif.Model.KeyGen
import Verif.Model.FloatFFT

/-!
# profile/new/main.go and profile/old/main.go

Simplifications.
* What the samplers write is given (`ProfileDraws`); the samplers are modelled in `Model/Samplers.lean` and
  `Model/GaussianBytes.lean`.
* The command line flags and the writing of a CPU profile (profile/new/main.go:74-85, profile/old/main.go:75-86) are left out.
* Every pass of the loop leaves its ciphertext in an object of its own; the Go programs drop it.
* `GenKeyPair` is the method of the embedded `rlwe` generator, which returns (C55).
* `none` is a panic or a constructor that does not return.
-/

namespace FastKsw

/-- `PN16QP1760`, profile/new/main.go:16-52 -/
def profileNewLit : FCParamLit :=
  ⟨⟨⟨16,
    some [0xffff00001, 0xfff9c0001, 0xfff8e0001, 0xfff840001, 0xfff700001, 0xfff640001, 0xfff4c0001,
         0xfff3c0001, 0xfff280001, 0xfff100001, 0xffefe0001, 0xffee80001, 0x10004a0001, 0x1000500001,
         0x1000960001, 0x1000a20001, 0x1000b40001, 0x1000f60001, 0x10011a0001, 0x1001220001, 0x10014c0001,
         0x1001680001, 0x10017c0001, 0x1001880001, 0xffee20001, 0xffeda0001, 0xffeca0001, 0xffea40001,
         0xffe940001, 0xffe920001, 0xffe760001, 0xffe040001, 0xffdf80001, 0xffdf00001, 0xffdd20001,
         0xffdbc0001, 0x1001940001, 0x1001a40001, 0x1001d00001, 0x1001fa0001, 0x1002180001, 0x10021c0001,
         0x10021e0001, 0x1002300001, 0x1002340001, 0x1002480001, 0x1002540001],
    some [0x1002700001], none, none, defaultSigma, 0, .standard⟩,
    [0xffffffffffc0001, 0xfffffffff840001, 0xfffffffff6a0001, 0xfffffffff5a0001], 5⟩,
    15, 0x4230000000000000⟩

/-- `PN16QP1760`, profile/old/main.go:16-52, the same literal -/
def profileOldLit : FCParamLit := profileNewLit

/-- what the samplers write: the secret, the error and the mask of the public key, the errors and masks of the relinearization key, and
the draws of the encryption -/
structure ProfileDraws where
  s : Rows
  e : Rows
  a : PolyQP
  rlk : Nat → KeyTape
  enc : EncTape

/-- the value of a positive normal `float64` -/
def f64OfBits (b : UInt64) : ℚ := (2 ^ 52 + (b.toNat % 2 ^ 52 : ℕ)) * 2 ^ (((b.toNat / 2 ^ 52 : ℕ) : ℤ) - 1075)

/-- the parts of the parameters that the fast key switch uses; without special primes `NewKeySwitcher` panics -/
def FullFParams.parts (f : FullFParams) : Option FParams :=
  f.rl.ringP.map fun rP => ⟨f.rl.ringQ, rP, f.ringR, f.ringT, f.gamma⟩

/-- `InvNTTLvl` of both components and `IsNTT = false`, profile/new/main.go:68-72, profile/old/main.go:69-73 -/
def toCoefficients (r : Ring) (ct : Ct) : Ct :=
  let c0 : Poly := ⟨r.invNttLvl ct.level (ct.rows 0) (ct.rows 0), false⟩
  let c1 : Poly := ⟨r.invNttLvl ct.level (ct.rows 1) (ct.rows 1), false⟩
  ⟨(ct.value.set 0 c0).set 1 c1, ct.scale⟩

/-- `fckks.NewEncryptor`, fckks/encryptor.go:15-23, `fckks.NewMessage`, fckks/elements.go:7-13, and `EncryptMsgNew`: profile/new/main.go:62, 65-66,
profile/old/main.go:61, 66-67 -/
def encryptZero (c : CParams) (rQ rP : Ring) (roots : Nat → ℚ × ℚ) (pk : PolyQP × PolyQP) (t : EncTape) : Option Ct :=
  let maxLevel := rQ.subs.length - 1
  let scale := f64OfBits c.defaultScale
  let logSlots := c.logSlots.toNat
  (encryptMsgF rQ rP roots (List.replicate (rQ.nthRoot / 4) 0) logSlots pk t (List.replicate (2 ^ logSlots) 0)
    (newPlaintext rQ.n maxLevel scale) (newCiphertext rQ.n 1 maxLevel scale)).map Prod.snd

/-- `for i := 0; i < count; i++` over a call that returns a new object, which gets the reference `i + 1` -/
def callNew (call : Heap → Ref → Option Heap) : Nat → Heap → Option Heap
  | 0, h => some h
  | i + 1, h => (callNew call i h).bind fun h => call h (i + 1)

/-- `main`, profile/new/main.go:54-91, with the literal as an argument; the ciphertext `ct0` has the reference 0 -/
def profileNewWith (lit : FCParamLit) (fuel : Nat) (roots : Nat → ℚ × ℚ) (D : ProfileDraws) : Option Heap :=
  match fckksNewParametersFromLiteral fuel lit with
  | some (.ok S) =>
    S.frlwe.parts.bind fun fp =>
      (newFKeyGenerator fuel fp).bind fun kgen =>
        let sk := genSecretKey fp.ringQ fp.ringP D.s
        let pk := genPublicKey fp.ringQ fp.ringP sk D.e D.a
        let rlk := kgen.genRelinKey sk D.rlk
        (newFEvaluator fuel fp 51).bind fun eval =>
          (encryptZero S.ckks fp.ringQ fp.ringP roots pk D.enc).bind fun ct0 =>
            callNew (fun h new => eval.switchKeysNew h 0 rlk new) 50 fun _ => toCoefficients fp.ringQ ct0
  | _ => none

/-- `main`, profile/new/main.go:54-91 -/
def profileNew : Nat → (Nat → ℚ × ℚ) → ProfileDraws → Option Heap := profileNewWith profileNewLit

/-- `main`, profile/old/main.go:54-93, with the literal as an argument -/
def profileOldWith (lit : FCParamLit) (fuel : Nat) (roots : Nat → ℚ × ℚ) (D : ProfileDraws) : Option Heap :=
  match fckksNewParametersFromLiteral fuel lit with
  | some (.ok S) =>
    S.frlwe.parts.bind fun fp =>
      (newFKeyGenerator fuel fp).bind fun _ =>
        let sk := genSecretKey fp.ringQ fp.ringP D.s
        let pk := genPublicKey fp.ringQ fp.ringP sk D.e D.a
        (encryptZero S.ckks fp.ringQ fp.ringP roots pk D.enc).bind fun ct0 =>
          let rlk := (genRelinearizationKey fp.ringQ fp.ringP sk 1 fun _ => D.rlk).getD 0 []
          let eval := newEvaluator fp.ringQ fp.ringP (some rlk) (fun _ => none) 51
          callNew (fun h new => eval.switchKeysNew h 0 rlk new) 50 fun _ => toCoefficients fp.ringQ ct0
  | _ => none

/-- `main`, profile/old/main.go:54-93 -/
def profileOld : Nat → (Nat → ℚ × ℚ) → ProfileDraws → Option Heap := profileOldWith profileOldLit

end FastKsw
