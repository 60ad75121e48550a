import Verif.Model.Automorphism
import Verif.Model.Bytes
import Verif.Model.KeySwitch
import Verif.Model.Samplers
import Verif.Model.Scaling

/-!
# `rlwe/ring_qp.go`: `RingQP`, `PolyQP` with nil parts, `UniformSamplerQP`

`none` is a nil pointer.  A part is the list of its rows: the flags `IsNTT`, `IsMForm` of `ring.Poly` are not read or written here
(`Poly.Copy` transfers them, C88).  Rows have the degree of the ring as length, and levels are not negative.  A result is returned
instead of written to the receiver, so an operation that panics half-way is just a panic.
-/

namespace FastKsw

/-- `RingQP`, rlwe/ring_qp.go:85-87 -/
structure RingQP where
  q : Option Ring
  p : Option Ring

/-- `PolyQP`, rlwe/ring_qp.go:30-32 -/
structure PolyQPN where
  q : Option Rows
  p : Option Rows
  deriving DecidableEq

/-- `if r != nil { r.Op(level, a, b, out) }` -/
def qpPart3 (f : Ring → Nat → Rows → Rows → Rows → Rows) (r : Option Ring) (l : Nat) (a b o : Option Rows) :
    Go (Option Rows) :=
  match r with
  | none => .ok o
  | some r => match a, b, o with
    | some a, some b, some o =>
      if l < r.subs.length ∧ l < a.length ∧ l < b.length ∧ l < o.length then .ok (some (f r l a b o)) else .panic
    | _, _, _ => .panic

/-- `if r != nil { r.Op(level, a, out) }`; `k` is the number of moduli that the operation reads -/
def qpPart2 (f : Ring → Nat → Rows → Rows → Rows) (k : Ring → Nat → Nat) (r : Option Ring) (l : Nat) (a o : Option Rows) :
    Go (Option Rows) :=
  match r with
  | none => .ok o
  | some r => match a, o with
    | some a, some o => if k r l ≤ r.subs.length ∧ l < a.length ∧ l < o.length then .ok (some (f r l a o)) else .panic
    | _, _ => .panic

namespace RingQP

/-- an operation with two operands and a receiver -/
def op3 (f : Ring → Nat → Rows → Rows → Rows → Rows) (R : RingQP) (lQ lP : Nat) (a b o : PolyQPN) : Go PolyQPN := do
  let q ← qpPart3 f R.q lQ a.q b.q o.q
  let p ← qpPart3 f R.p lP a.p b.p o.p
  return ⟨q, p⟩

/-- an operation with one operand and a receiver -/
def op2 (f : Ring → Nat → Rows → Rows → Rows) (k : Ring → Nat → Nat) (R : RingQP) (lQ lP : Nat) (a o : PolyQPN) :
    Go PolyQPN := do
  let q ← qpPart2 f k R.q lQ a.q o.q
  let p ← qpPart2 f k R.p lP a.p o.p
  return ⟨q, p⟩

/-- `NewPoly`, rlwe/ring_qp.go:90-100 -/
def newPoly (R : RingQP) : PolyQPN :=
  ⟨R.q.map fun r => FastKsw.newPoly r.n r.subs.length, R.p.map fun r => FastKsw.newPoly r.n r.subs.length⟩

/-- `NewPolyLvl`, rlwe/ring_qp.go:103-114 -/
def newPolyLvl (R : RingQP) (lQ lP : Nat) : PolyQPN :=
  ⟨R.q.map fun r => FastKsw.newPoly r.n (lQ + 1), R.p.map fun r => FastKsw.newPoly r.n (lP + 1)⟩

/-- `AddLvl`, rlwe/ring_qp.go:118-125 -/
def addLvl : RingQP → Nat → Nat → PolyQPN → PolyQPN → PolyQPN → Go PolyQPN := op3 Ring.addLvl

/-- `AddNoModLvl`, rlwe/ring_qp.go:129-136 -/
def addNoModLvl : RingQP → Nat → Nat → PolyQPN → PolyQPN → PolyQPN → Go PolyQPN := op3 Ring.addNoModLvl

/-- `SubLvl`, rlwe/ring_qp.go:140-147 -/
def subLvl : RingQP → Nat → Nat → PolyQPN → PolyQPN → PolyQPN → Go PolyQPN := op3 Ring.subLvl

/-- `NTTLvl`, rlwe/ring_qp.go:151-158 -/
def nttLvl : RingQP → Nat → Nat → PolyQPN → PolyQPN → Go PolyQPN := op2 Ring.nttLvl fun _ l => l + 1

/-- `InvNTTLvl`, rlwe/ring_qp.go:162-169 -/
def invNttLvl : RingQP → Nat → Nat → PolyQPN → PolyQPN → Go PolyQPN := op2 Ring.invNttLvl fun _ l => l + 1

/-- `NTTLazyLvl`, rlwe/ring_qp.go:174-181 -/
def nttLazyLvl : RingQP → Nat → Nat → PolyQPN → PolyQPN → Go PolyQPN := op2 Ring.nttLazyLvl fun _ l => l + 1

/-- `MFormLvl`, rlwe/ring_qp.go:185-192 -/
def mformLvl : RingQP → Nat → Nat → PolyQPN → PolyQPN → Go PolyQPN := op2 Ring.mformLvl fun _ l => l + 1

/-- `InvMFormLvl`, rlwe/ring_qp.go:196-203 -/
def invMformLvl : RingQP → Nat → Nat → PolyQPN → PolyQPN → Go PolyQPN := op2 Ring.invMformLvl fun _ l => l + 1

/-- `MulCoeffsMontgomeryLvl`, rlwe/ring_qp.go:207-214 -/
def mulCoeffsMontgomeryLvl : RingQP → Nat → Nat → PolyQPN → PolyQPN → PolyQPN → Go PolyQPN :=
  op3 Ring.mulCoeffsMontgomeryLvl

/-- `MulCoeffsMontgomeryConstantLvl`, rlwe/ring_qp.go:219-226 -/
def mulCoeffsMontgomeryConstantLvl : RingQP → Nat → Nat → PolyQPN → PolyQPN → PolyQPN → Go PolyQPN :=
  op3 Ring.mulCoeffsMontgomeryConstantLvl

/-- `MulCoeffsMontgomeryConstantAndAddNoModLvl`, rlwe/ring_qp.go:231-238 -/
def mulCoeffsMontgomeryConstantAndAddNoModLvl : RingQP → Nat → Nat → PolyQPN → PolyQPN → PolyQPN → Go PolyQPN :=
  op3 Ring.mulCoeffsMontgomeryConstantAndAddNoModLvl

/-- `MulCoeffsMontgomeryAndSubLvl`, rlwe/ring_qp.go:243-250 -/
def mulCoeffsMontgomeryAndSubLvl : RingQP → Nat → Nat → PolyQPN → PolyQPN → PolyQPN → Go PolyQPN :=
  op3 Ring.mulCoeffsMontgomeryAndSubLvl

/-- `MulCoeffsMontgomeryConstantAndSubNoModLvl`, rlwe/ring_qp.go:255-262 -/
def mulCoeffsMontgomeryConstantAndSubNoModLvl : RingQP → Nat → Nat → PolyQPN → PolyQPN → PolyQPN → Go PolyQPN :=
  op3 Ring.mulCoeffsMontgomeryConstantAndSubNoModLvl

/-- `MulCoeffsMontgomeryAndAddLvl`, rlwe/ring_qp.go:267-274 -/
def mulCoeffsMontgomeryAndAddLvl : RingQP → Nat → Nat → PolyQPN → PolyQPN → PolyQPN → Go PolyQPN :=
  op3 Ring.mulCoeffsMontgomeryAndAddLvl

/-- `PermuteNTTWithIndexLvl`, rlwe/ring_qp.go:280-287; the moduli are not read -/
def permuteNTTWithIndexLvl (index : Row) : RingQP → Nat → Nat → PolyQPN → PolyQPN → Go PolyQPN :=
  op2 (fun r l a o => r.permuteNTTWithIndexLvl l a index o) fun _ _ => 0

/-- `PermuteNTTWithIndexAndAddNoModLvl`, rlwe/ring_qp.go:293-300; the moduli are not read -/
def permuteNTTWithIndexAndAddNoModLvl (index : Row) : RingQP → Nat → Nat → PolyQPN → PolyQPN → Go PolyQPN :=
  op2 (fun r l a o => r.permuteNTTWithIndexAndAddNoModLvl l a index o) fun _ _ => 0

/-- `if r != nil { ring.CopyValuesLvl(level, p1, p2) }`, ring/ring_poly.go:103-109: two nil pointers are equal, and nothing is done;
other pointers are taken to be different -/
def copyPartLvl (r : Option Ring) (l : Nat) (a o : Option Rows) : Go (Option Rows) :=
  match r, a, o with
  | none, _, o => .ok o
  | some _, none, none => .ok none
  | some _, some a, some o => if l < a.length ∧ l < o.length then .ok (some (FastKsw.copyValuesLvl l a o)) else .panic
  | some _, _, _ => .panic

/-- `CopyValuesLvl`, rlwe/ring_qp.go:304-311 -/
def copyValuesLvl (R : RingQP) (lQ lP : Nat) (a o : PolyQPN) : Go PolyQPN := do
  let q ← copyPartLvl R.q lQ a.q o.q
  let p ← copyPartLvl R.p lP a.p o.p
  return ⟨q, p⟩

end RingQP

/-- `copy(dst, src)` -/
def copySlice (dst src : Row) : Row := src.take dst.length ++ dst.drop src.length

/-- `Poly.CopyValues` between different polynomials, ring/ring_poly.go:124-131: the first `min` rows are copied -/
def copyMin (dst src : Rows) : Rows := List.zipWith copySlice dst src ++ dst.drop src.length

namespace PolyQPN

/-- `if p.Q != nil { p.Q.CopyValues(other.Q) }`: the level of a nil polynomial is a nil dereference -/
def copyValuesPart : Option Rows → Option Rows → Go (Option Rows)
  | none, _ => .ok none
  | some d, some s => .ok (some (copyMin d s))
  | some _, none => .panic

/-- `PolyQP.CopyValues`, rlwe/ring_qp.go:54-62 -/
def copyValues (x other : PolyQPN) : Go PolyQPN := do
  let q ← copyValuesPart x.q other.q
  let p ← copyValuesPart x.p other.p
  return ⟨q, p⟩

/-- `if polFrom.Q != nil { p.Q.Copy(polFrom.Q) }` -/
def copyPart : Option Rows → Option Rows → Go (Option Rows)
  | d, none => .ok d
  | some d, some s => .ok (some (copyMin d s))
  | none, some _ => .panic

/-- `PolyQP.Copy`, rlwe/ring_qp.go:341-348 -/
def copy (x other : PolyQPN) : Go PolyQPN := do
  let q ← copyPart x.q other.q
  let p ← copyPart x.p other.p
  return ⟨q, p⟩

end PolyQPN

/-- `if p != nil && s != nil { s.Read(p) }`: `Read` samples all rows (ring/ring_sampler_uniform.go:41-82).  Polynomials have at least
one row, and at most as many as there are moduli. -/
def uniformReadPart (fuel : Nat) (r : Option Ring) (prng : Prng) (x : Option Rows) : Option (Option Rows × Prng) :=
  match r, x with
  | some r, some x => (uniformReadLvl fuel r (x.length - 1) prng x).map fun a => (some a.1, a.2)
  | _, x => some (x, prng)

/-- `NewUniformSamplerQP` and `UniformSamplerQP.Read`, rlwe/ring_qp.go:422-448: a sampler exists for each ring that exists, both read the
same generator -/
def uniformReadQP (fuel : Nat) (R : RingQP) (prng : Prng) (x : PolyQPN) : Option (PolyQPN × Prng) :=
  (uniformReadPart fuel R.q prng x.q).bind fun q =>
    (uniformReadPart fuel R.p q.2 x.p).map fun p => (⟨q.1, p.1⟩, p.2)

end FastKsw
