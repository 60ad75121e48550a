import Verif.Spec.KeySwitch

/-!
# What a polynomial of the evaluator holds

`EltIs n r level A isNTT p x`: rows `0 … level` of `p` are complete, their entries in row `u` are below `A u`, and
row `u` denotes the element `x u` of `(Z/q_u)[X]/(X^(2^n)+1)`, in the NTT or in the coefficient domain.
-/

namespace FastKsw

structure EltIs (n : ℕ) (r : Ring) (level : ℕ) (A : ℕ → ℕ) (isNTT : Bool) (p : Rows)
    (x : ∀ u, Rq (2 ^ n) (r.qs u)) : Prop where
  lvl : level < p.length
  len : ∀ u ≤ level, (p.row u).length = 2 ^ n
  lt : ∀ u ≤ level, ∀ k < 2 ^ n, ((p.row u).at k).toNat < A u
  val : ∀ u ≤ level, r.elt n isNTT p u = x u

/-- `new` results from `old` by overwriting rows `0 … level` with `x` -/
structure EltWritten (n : ℕ) (r : Ring) (level : ℕ) (A : ℕ → ℕ) (isNTT : Bool) (old new : Rows)
    (x : ∀ u, Rq (2 ^ n) (r.qs u)) : Prop where
  is : EltIs n r level A isNTT new x
  len : new.length = old.length
  above : ∀ u > level, new.row u = old.row u

end FastKsw
