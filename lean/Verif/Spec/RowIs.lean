import Verif.Spec.NegaRing
import Verif.Spec.Ring
import Verif.Model.RingOps

/-!
# What a row of residues holds

`RowIs N q A x v`: the row `x` has `N` entries, each below `A`, and entry `k` is
congruent to `v k` modulo `q`.
-/

namespace FastKsw

structure RowIs (N q A : ℕ) (x : Row) (v : ℕ → ZMod q) : Prop where
  len : x.length = N
  lt : ∀ k < N, (x.at k).toNat < A
  val : ∀ k < N, zval q x k = v k

/-- Constants of one modulus as far as arithmetic without NTT is concerned. -/
structure SubRing.Arith (s : SubRing) : Prop where
  one_lt : 1 < s.q.toNat
  lt : s.q.toNat < 2 ^ 63
  bred : s.bred = bredParams s.q
  mred : s.q * s.mred = 1

/-- `2^-64` modulo `q` -/
def rinv (q : ℕ) : ZMod q := ((2 : ZMod q) ^ 64)⁻¹

end FastKsw
