import Verif.Model.Ring
import Mathlib.Data.Nat.Prime.Basic

/-!
# Degrees and moduli that should be accepted
-/

namespace FastKsw

/-- order of the roots of unity a modulus must have for the degree -/
def rootOrder (N : ℕ) : RingType → ℕ
  | .standard => 2 * N
  | .conjugateInvariant => 4 * N

/-- moduli on which a ring of degree `N` can be built -/
structure RingAcceptable (N : ℕ) (ty : RingType) (moduli : List UInt64) : Prop where
  degree : ∃ n, 4 ≤ n ∧ N = 2 ^ n
  nonempty : moduli ≠ []
  nodup : moduli.Nodup
  prime : ∀ q ∈ moduli, q.toNat.Prime
  root : ∀ q ∈ moduli, q.toNat % rootOrder N ty = 1

/-- parameters accepted by `NewParameters` -/
structure ParamsAcceptable (logN : ℕ) (ty : RingType) (q p : List UInt64) : Prop where
  degree : 4 ≤ logN ∧ logN ≤ 17
  countQ : 0 < q.length ∧ q.length ≤ 100
  countP : p.length ≤ 100
  sizeQ : ∀ x ∈ q, x.toNat < 2 ^ 62
  sizeP : ∀ x ∈ p, x.toNat < 2 ^ 63
  nodup : q.Nodup ∧ p.Nodup
  prime : ∀ x ∈ q ++ p, x.toNat.Prime
  root : ∀ x ∈ q ++ p, x.toNat % rootOrder (2 ^ logN) ty = 1

end FastKsw
