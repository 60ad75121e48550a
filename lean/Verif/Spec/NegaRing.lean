import Mathlib.RingTheory.AdjoinRoot
import Mathlib.Data.ZMod.Basic
import Verif.Model.VecOps
import Verif.Model.Bits
import Verif.Model.NTT

/-!
# The negacyclic ring `(Z/q)[X]/(X^N+1)`

Independent of the code: the ring is Mathlib's `AdjoinRoot`; a row of
coefficients denotes `∑ x_j X^j`; a row in the NTT domain denotes the element
with the given values at the odd powers of a root of `X^N+1`, given by the
inverse DFT formula.
-/

namespace FastKsw

open Polynomial

/-- `(Z/q)[X]/(X^N+1)`. -/
abbrev Rq (N q : ℕ) := AdjoinRoot ((X : (ZMod q)[X]) ^ N + 1)

/-- class of `∑_{j<N} c_j X^j` -/
noncomputable def toR (N q : ℕ) (c : ℕ → ZMod q) : Rq N q :=
  ∑ j ∈ Finset.range N, AdjoinRoot.of _ (c j) * AdjoinRoot.root _ ^ j

/-- residue of coefficient `k` of a row -/
def zval (q : ℕ) (x : Row) (k : ℕ) : ZMod q := ((x.at k).toNat : ZMod q)

/-- ring element denoted by a row in the coefficient domain -/
noncomputable def rowR (N q : ℕ) (x : Row) : Rq N q := toR N q (zval q x)

/-- class of an integer polynomial `∑_{j<N} c_j X^j` -/
noncomputable def intR (N q : ℕ) (c : ℕ → ℤ) : Rq N q := toR N q (fun j => (c j : ZMod q))

/-- point at which output index `i` of the degree-`2^n` transform evaluates -/
def nttPoint {q : ℕ} (psi : ZMod q) (n i : ℕ) : ZMod q := psi ^ (2 * revBits n i + 1)

/-- ring element with value `v i` at `nttPoint psi n i` (inverse DFT formula) -/
noncomputable def ofNtt {q : ℕ} (psi : ZMod q) (n : ℕ) (v : ℕ → ZMod q) : Rq (2 ^ n) q :=
  toR (2 ^ n) q fun j =>
    ((2 : ZMod q) ^ n)⁻¹ * ∑ i ∈ Finset.range (2 ^ n), v i * (nttPoint psi n i)⁻¹ ^ j

/-- ring element denoted by a row in the NTT domain -/
noncomputable def nttR {q : ℕ} (psi : ZMod q) (n : ℕ) (x : Row) : Rq (2 ^ n) q :=
  ofNtt psi n (zval q x)

/-- negacyclic convolution: coefficients of the product modulo `X^N+1` -/
def negConv {K : Type*} [CommRing K] (N : ℕ) (a b : ℕ → K) (k : ℕ) : K :=
  ∑ i ∈ Finset.range N, if i ≤ k then a i * b (k - i) else -(a i * b (N + k - i))

end FastKsw
