import Verif.Model.Samplers

/-!
# `RandUniform`
-/

namespace FastKsw

/-- `randInt64`, ring/ring_sampler_uniform.go:170-181 -/
def randInt64 (prng : Prng) (mask : UInt64) : UInt64 × Prng :=
  let c := prng.read 8
  (mask &&& beUint c.1, c.2)

/-- `RandUniform`, ring/ring_sampler_uniform.go:146-153; at most `fuel` turns of the loop -/
def randUniform (v mask : UInt64) : Nat → Prng → Option (UInt64 × Prng)
  | 0, _ => none
  | fuel + 1, prng =>
    let x := randInt64 prng mask
    if x.1 < v then some x else randUniform v mask fuel x.2

end FastKsw
