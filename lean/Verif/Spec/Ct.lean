import Verif.Model.Evaluator
import Verif.Spec.EltIs

/-!
# What a ciphertext holds

`CtShape deg level c`: a ciphertext with `deg + 1` components of `level + 1` rows, all marked as being in the NTT
domain.  `CtIs n r level A deg c x`: moreover component `i` denotes `x i`, with entries of row `u` below `A u`.
-/

namespace FastKsw

structure CtShape (deg level : ℕ) (c : Ct) : Prop where
  len : c.value.length = deg + 1
  ntt : ∀ i ≤ deg, (c.value.getD i default).isNTT = true
  size : ∀ i ≤ deg, (c.rows i).length = level + 1

structure CtIs (n : ℕ) (r : Ring) (level : ℕ) (A : ℕ → ℕ) (deg : ℕ) (c : Ct) (x : ℕ → ∀ u, Rq (2 ^ n) (r.qs u)) :
    Prop where
  shape : CtShape deg level c
  elt : ∀ i ≤ deg, EltIs n r level A true (c.rows i) (x i)

/-- `c`, at level `level`, of degree `deg` and with entries below `A`, decrypts to `m` under `s`: `∑ c_i s^i = m`
modulo every prime -/
def CtEnc (n : ℕ) (r : Ring) (level : ℕ) (A : ℕ → ℕ) (deg : ℕ) (c : Ct) (s m : ∀ u, Rq (2 ^ n) (r.qs u)) : Prop :=
  ∃ x, CtIs n r level A deg c x ∧ ∀ u ≤ level, ∑ i ∈ Finset.range (deg + 1), x i u * s u ^ i = m u

/-- any word -/
abbrev anyWord : ℕ → ℕ := fun _ => 2 ^ 64

end FastKsw
