import Verif.Model.RandomPair

/-!
# Key pairs and public-key encryption without special primes, from the bytes of the generator
-/

namespace FastKsw

variable {F : Type} (O : FloatOps F)

/-- `genSecretKeyFromSampler`, rlwe/keygen.go:127-134, `P` empty; `s` is what the sampler writes -/
def genSecretKeyQ (rQ : Ring) (s : Rows) : Rows :=
  let levelQ := rQ.subs.length - 1
  let q := rQ.nttLvl levelQ s s
  rQ.mformLvl levelQ q q

/-- `GenKeyPair`, rlwe/keygen.go:86-88, 127-134, 159-174 and 177-180 (`P` empty), on the bytes of the generator.  As in
`Model/RandomKeys.lean` all the draws come first; they do not depend on the arithmetic. -/
def genKeyPairQBytes (fuel : Nat) (rQ : Ring) (h : Nat) (sigma : F) (bound : UInt64) (st : GaussState) :
    Option ((Rows × (Rows × Rows)) × GaussState) :=
  let levelQ := rQ.subs.length - 1
  let z := newPoly rQ.n rQ.subs.length
  (ternarySparse fuel rQ false h levelQ st.prng z).bind fun s =>
    (gaussianReadLvl O fuel rQ sigma bound levelQ { st with prng := s.2 } z).bind fun e =>
      (uniformReadLvl fuel rQ levelQ e.2.prng z).map fun a =>
        let sk := genSecretKeyQ rQ s.1
        ((sk, genPublicKeyQ rQ sk e.1 a.1), { e.2 with prng := a.2 })

/-- `pkEncryptor.Encrypt`, rlwe/encryptor.go:126-134 and 279-340 (`P` empty), on the bytes of the generator: in the NTT domain the first
Gaussian polynomial goes to the second component (line 300), otherwise to the first one (line 325).  `ReadAndAddLvl` draws as `ReadLvl`
does (ring/ring_sampler_gaussian.go:84-118). -/
def pkEncryptNoPBytes (fuel : Nat) (r : Ring) (h : Nat) (sigma : F) (bound : UInt64) (poolQ : Rows) (pk : Rows × Rows)
    (pt c0 c1 : Poly) (st : GaussState) : Option ((Poly × Poly) × GaussState) :=
  (pkDraws O fuel r h sigma bound (min pt.level c0.level) poolQ c1.coeffs st).map fun d =>
    let g := if c0.isNTT then (d.1.g1, d.1.g0) else (d.1.g0, d.1.g1)
    (pkEncryptNoP r pk d.1.u g.1 g.2 pt c0 ⟨d.1.a, c1.isNTT⟩, d.2)

end FastKsw
