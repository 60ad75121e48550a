import Verif.Model.Evaluator
import Verif.Spec.NegaRing

/-!
# Constants as ring elements
-/

namespace FastKsw

/-- the element `a + b X^(N/2)`, `N = 2^n`, of `(Z/q)[X]/(X^N+1)`: `X^(N/2)` is a square root of `-1` -/
noncomputable def gauss (n q : ℕ) (a b : ℤ) : Rq (2 ^ n) q :=
  (a : Rq (2 ^ n) q) + (b : Rq (2 ^ n) q) * AdjoinRoot.root _ ^ 2 ^ (n - 1)

/-- the integer that stands for the real number `v` at scale `s`: `s |v| + 1/2` in float64 arithmetic, rounded down,
with the sign of `v` -/
def fixedPoint (v s : ℚ) : ℤ :=
  let m := ⌊f64Add (f64 (s * |v|)) (1 / 2)⌋
  if v < 0 then -m else m

/-- the integer a constant of `MultByGaussianInteger` stands for -/
def GInt.val : GInt → ℤ
  | .u64 x => x.toNat
  | .i64 x => x.toInt
  | .big x => x

end FastKsw
