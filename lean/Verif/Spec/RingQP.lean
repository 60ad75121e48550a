import Verif.Lemmas.KeyGen
import Verif.Model.RingQP

/-!
# Integer polynomials held by a `PolyQP`
-/

namespace FastKsw

/-- the form of the rows of a polynomial: coefficients or values -/
inductive Dom where
  | coeff
  | ntt

/-- residues of an integer polynomial in a form -/
noncomputable def Ring.vec (r : Ring) (n : ℕ) : Dom → (ℕ → ℤ) → ∀ i, ℕ → ZMod (r.sub i).q.toNat
  | .coeff, z => r.intVec z
  | .ntt, z => r.nttVec n z

/-- what multiplying rows entry by entry does: a product of coefficients, or the product modulo `X^N + 1` -/
def Dom.mul (N : ℕ) : Dom → (ℕ → ℤ) → (ℕ → ℤ) → ℕ → ℤ
  | .coeff, a, b => fun k => a k * b k
  | .ntt, a, b => negConv N a b

/-- if the ring is there, the part is there and its rows `0 … l` hold `z`, with entries below `c` times the modulus -/
def PartHolds (n : ℕ) (r : Option Ring) (l : ℕ) (d : Dom) (c : ℕ) (z : ℕ → ℤ) (x : Option Rows) : Prop :=
  ∀ s, r = some s → ∃ y, x = some y ∧ PolyIs s l (fun i => c * s.qs i) y (s.vec n d z)

/-- if the ring is there, the part is there with more than `l` rows -/
def PartRecv (r : Option Ring) (l : ℕ) (x : Option Rows) : Prop := ∀ s, r = some s → ∃ y, x = some y ∧ l < y.length

/-- `new` is `old` with rows `0 … l` overwritten with `z` if the ring is there, and `old` otherwise -/
def PartWritten (n : ℕ) (r : Option Ring) (l : ℕ) (d : Dom) (c : ℕ) (z : ℕ → ℤ) (old new : Option Rows) : Prop :=
  (r = none → new = old) ∧ ∀ s, r = some s → ∃ x y, old = some x ∧ new = some y ∧
    PolyWritten s l (fun i => c * s.qs i) x y (s.vec n d z)

/-- the parts of `x` over the rings that are there hold the integer polynomial `z` at levels `lQ`, `lP` -/
structure PolyQPN.Holds (n : ℕ) (R : RingQP) (lQ lP : ℕ) (d : Dom) (c : ℕ) (z : ℕ → ℤ) (x : PolyQPN) : Prop where
  q : PartHolds n R.q lQ d c z x.q
  p : PartHolds n R.p lP d c z x.p

/-- `x` can receive a polynomial at levels `lQ`, `lP` -/
structure PolyQPN.Recv (R : RingQP) (lQ lP : ℕ) (x : PolyQPN) : Prop where
  q : PartRecv R.q lQ x.q
  p : PartRecv R.p lP x.p

/-- the call returns; the receiver holds `z` at levels `lQ`, `lP` and is as before otherwise -/
def RingQP.Writes (n : ℕ) (R : RingQP) (lQ lP : ℕ) (d : Dom) (c : ℕ) (z : ℕ → ℤ) (old : PolyQPN) (out : Go PolyQPN) : Prop :=
  ∃ new, out = .ok new ∧ PartWritten n R.q lQ d c z old.q new.q ∧ PartWritten n R.p lP d c z old.p new.p

/-- the rings that are there come from `NewRing` with the degree `2^n` and moduli below `2^61`, more than the level -/
structure RingQP.Valid (n : ℕ) (R : RingQP) (lQ lP : ℕ) : Prop where
  q : ∀ s, R.q = some s → s.Valid n ∧ s.Small ∧ lQ < s.subs.length
  p : ∀ s, R.p = some s → s.Valid n ∧ s.Small ∧ lP < s.subs.length

end FastKsw
