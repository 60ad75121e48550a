import Verif.Model.RandomKeys

/-!
# Secret-key encryption from the bytes of the generator

The samplers of an encryptor share one generator (rlwe/encryptor.go:85-96); the state is that of the Gaussian sampler, which includes the
generator.  The values drawn do not depend on the arithmetic between the calls, so the draws come first.
-/

namespace FastKsw

variable {F : Type} (O : FloatOps F)

/-- `skEncryptor.Encrypt`, rlwe/encryptor.go:143-148 and 342-394: the ciphertext and the state of the samplers afterwards -/
def skEncryptBytes (fuel : Nat) (r : Ring) (sigma : F) (bound : UInt64) (sk : Rows) (pt c0 c1 : Poly) (st : GaussState) :
    Option ((Poly × Poly) × GaussState) :=
  (uniformReadLvl fuel r (min pt.level c0.level) st.prng c1.coeffs).bind fun a =>
    (gaussCoeffs O sigma bound fuel r.n (GaussState.clock { st with prng := a.2 })).map fun g =>
      (skEncrypt r sk g.1 pt c0 ⟨a.1, c1.isNTT⟩, g.2)

end FastKsw
