import Verif.Model.RandomEncrypt

/-!
# Key pairs and public-key encryption from the bytes of the generator

As in `Model/RandomKeys.lean`, the samplers of a key generator and those of an encryptor share one generator each
(rlwe/keygen.go:60-83, rlwe/encryptor.go:85-96).  `h` is the Hamming weight of the parameters.
-/

namespace FastKsw

variable {F : Type} (O : FloatOps F)

/-- `GenSecretKey`, rlwe/keygen.go:86-88 and 116-127 (`P` not empty), on the bytes of the generator -/
def genSecretKeyBytes (fuel : Nat) (rQ rP : Ring) (h : Nat) (st : GaussState) : Option (PolyQP × GaussState) :=
  (ternarySparse fuel rQ false h (rQ.subs.length - 1) st.prng (newPoly rQ.n rQ.subs.length)).map fun a =>
    (genSecretKey rQ rP a.1, { st with prng := a.2 })

/-- `GenKeyPair`, rlwe/keygen.go:177-180, on the bytes of the generator -/
def genKeyPairBytes (fuel : Nat) (rQ rP : Ring) (h : Nat) (sigma : F) (bound : UInt64) (st : GaussState) :
    Option ((PolyQP × (PolyQP × PolyQP)) × GaussState) :=
  (genSecretKeyBytes fuel rQ rP h st).bind fun sk =>
    (genPublicKeyBytes O fuel rQ rP sigma bound sk.1 sk.2).map fun pk => ((sk.1, pk.1), pk.2)

/-- what the samplers write in `pkEncryptor.Encrypt`: the uniform polynomial that goes to the second component and is overwritten
later, the ternary polynomial, and the draws for the errors of the two components -/
structure PkDraws where
  a : Rows
  u : Rows
  g0 : List (UInt64 × Bool)
  g1 : List (UInt64 × Bool)

/-- the draws of `pkEncryptor.Encrypt`, rlwe/encryptor.go:127, 214, 235, 239; `poolQ` is the pool polynomial `enc.poolQ[0]` and `c1` the
second component of the ciphertext before the call -/
def pkDraws (fuel : Nat) (r : Ring) (h : Nat) (sigma : F) (bound : UInt64) (level : Nat) (poolQ c1 : Rows) (st : GaussState) :
    Option (PkDraws × GaussState) :=
  (uniformReadLvl fuel r level st.prng c1).bind fun a =>
    (ternarySparse fuel r false h level a.2 poolQ).bind fun u =>
      (gaussCoeffs O sigma bound fuel r.n (GaussState.clock { st with prng := u.2 })).bind fun g0 =>
        (gaussCoeffs O sigma bound fuel r.n (GaussState.clock g0.2)).map fun g1 => (⟨a.1, u.1, g0.1, g1.1⟩, g1.2)

/-- `pkEncryptor.Encrypt`, rlwe/encryptor.go:126-134 and 196-277 (`P` not empty), on the bytes of the generator -/
def pkEncryptBytes (fuel : Nat) (rQ rP : Ring) (h : Nat) (sigma : F) (bound : UInt64) (poolQ : Rows) (pk : PolyQP × PolyQP)
    (pt c0 c1 : Poly) (st : GaussState) : Option ((Poly × Poly) × GaussState) :=
  (pkDraws O fuel rQ h sigma bound (min pt.level c0.level) poolQ c1.coeffs st).map fun d =>
    (pkEncrypt rQ rP pk d.1.u d.1.g0 d.1.g1 pt c0 ⟨d.1.a, c1.isNTT⟩, d.2)

end FastKsw
