import Verif.Model.Shift

/-!
# Copies: polynomials, ciphertexts and keys in memory

Memory holds arrays of words (`rows`) and `ring.Poly` structures (`polys`); a polynomial refers to its rows by address.  Addresses
from `nRows`, `nPolys` on are free.  The outer slice `Coeffs` is part of the structure: two polynomials may share rows, but assigning
an element of `Coeffs` of one does not change the other (only `Shift` and the constructors assign elements).
-/

namespace FastKsw

/-- `ring.Poly`, ring/ring_poly.go:28-32 -/
structure MPoly where
  coeffs : List Nat
  isNTT : Bool
  isMForm : Bool
  deriving DecidableEq

instance : Inhabited MPoly := ⟨⟨[], false, false⟩⟩

structure Mem where
  rows : Nat → Row
  nRows : Nat
  polys : Nat → MPoly
  nPolys : Nat

/-- the contents of a polynomial -/
structure PolyVal where
  coeffs : Rows
  isNTT : Bool
  isMForm : Bool
  deriving DecidableEq

namespace Mem

def read (m : Mem) (a : Nat) : PolyVal :=
  ⟨(m.polys a).coeffs.map m.rows, (m.polys a).isNTT, (m.polys a).isMForm⟩

def setRow (m : Mem) (a : Nat) (x : Row) : Mem := { m with rows := fun b => if b = a then x else m.rows b }

def setPoly (m : Mem) (a : Nat) (p : MPoly) : Mem := { m with polys := fun b => if b = a then p else m.polys b }

/-- `make` followed by writes of `x` -/
def newRow (m : Mem) (x : Row) : Nat × Mem := (m.nRows, { m.setRow m.nRows x with nRows := m.nRows + 1 })

/-- allocation of rows with the given contents -/
def newRows (m : Mem) : List Row → List Nat × Mem
  | [] => ([], m)
  | x :: xs =>
    let a := m.newRow x
    let as := a.2.newRows xs
    (a.1 :: as.1, as.2)

/-- `new(Poly)` with the given fields -/
def newPolyAt (m : Mem) (p : MPoly) : Nat × Mem := (m.nPolys, { m.setPoly m.nPolys p with nPolys := m.nPolys + 1 })

/-- `NewPoly(N, nbModuli)`, ring/ring_poly.go:35-42 -/
def newPoly (m : Mem) (N nbModuli : Nat) : Nat × Mem :=
  let a := m.newRows (List.replicate nbModuli (List.replicate N 0))
  a.2.newPolyAt ⟨a.1, false, false⟩

/-- `Poly.CopyNew`, ring/ring_poly.go:70-81: the rows have the length of the copied rows, and `copy` fills them -/
def copyNew (m : Mem) (a : Nat) : Nat × Mem :=
  let as := m.newRows ((m.polys a).coeffs.map m.rows)
  as.2.newPolyAt ⟨as.1, (m.polys a).isNTT, (m.polys a).isMForm⟩

/-- `copy(dst, src)` of Go: the first `min(len(dst), len(src))` words -/
def copyRow (m : Mem) (dst src : Nat) : Mem :=
  m.setRow dst ((m.rows src).take (m.rows dst).length ++ (m.rows dst).drop (m.rows src).length)

/-- `for i := 0; i < k; i++ { copy(p1.Coeffs[i], p0.Coeffs[i]) }`; an index out of range panics -/
def copyRows (m : Mem) : List Nat → List Nat → Nat → Go Mem
  | _, _, 0 => .ok m
  | d :: ds, s :: ss, k + 1 => (m.copyRow d s).copyRows ds ss k
  | _, _, _ + 1 => .panic

/-- `CopyValuesLvl(level, p0, p1)`, ring/ring_poly.go:104-110 -/
def copyValuesLvl (m : Mem) (level p0 p1 : Nat) : Go Mem :=
  if p0 ≠ p1 then m.copyRows (m.polys p1).coeffs (m.polys p0).coeffs (level + 1) else .ok m

/-- the flags of `p0` written to `p1` -/
def copyFlags (m : Mem) (p0 p1 : Nat) : Mem :=
  m.setPoly p1 { m.polys p1 with isNTT := (m.polys p0).isNTT, isMForm := (m.polys p0).isMForm }

/-- `min(p0.Level(), p1.Level()) + 1` as a number of rows; with an empty polynomial the level is `-1` and nothing is copied -/
def minRows (m : Mem) (p0 p1 : Nat) : Nat := min (m.polys p0).coeffs.length (m.polys p1).coeffs.length

/-- `CopyValues(p0, p1)` and the method `p1.CopyValues(p0)`, ring/ring_poly.go:86-89 and 125-132 -/
def copyValues (m : Mem) (p0 p1 : Nat) : Go Mem :=
  if p0 ≠ p1 then m.copyRows (m.polys p1).coeffs (m.polys p0).coeffs (m.minRows p0 p1) else .ok m

/-- `Copy(p0, p1)` and the method `p1.Copy(p0)`, ring/ring_poly.go:94-98 and 137-141 -/
def copy (m : Mem) (p0 p1 : Nat) : Go Mem := (m.copyValues p0 p1).bind fun m => .ok (m.copyFlags p0 p1)

/-- `CopyLvl(level, p0, p1)`, ring/ring_poly.go:115-119 -/
def copyLvl (m : Mem) (level p0 p1 : Nat) : Go Mem := (m.copyValuesLvl level p0 p1).bind fun m => .ok (m.copyFlags p0 p1)

/-- `Poly.GetCoefficients`, ring/ring_poly.go:175-183 -/
def getCoefficients (m : Mem) (a : Nat) : List Nat × Mem := m.newRows ((m.polys a).coeffs.map m.rows)

/-- `Poly.SetCoefficients`, ring/ring_poly.go:168-172 -/
def setCoefficients (m : Mem) (a : Nat) (coeffs : List Nat) : Go Mem := m.copyRows (m.polys a).coeffs coeffs coeffs.length

/-- a loop that allocates: `f` is applied to the elements in order -/
def mapNew {α β : Type} (f : Mem → α → β × Mem) (m : Mem) : List α → List β × Mem
  | [] => ([], m)
  | a :: as =>
    let b := f m a
    let bs := mapNew f b.2 as
    (b.1 :: bs.1, bs.2)

/-- `Ciphertext.CopyNew`, rlwe/elements.go:210-220 -/
def ctCopyNew (m : Mem) (value : List Nat) : List Nat × Mem := mapNew copyNew m value

/-- `Ciphertext.Copy`, rlwe/elements.go:223-230, for different ciphertexts: the receiver `el` first.  `el.Value[i]` panics if the
receiver has a smaller degree. -/
def ctCopy (m : Mem) : List Nat → List Nat → Go Mem
  | _, [] => .ok m
  | e :: es, c :: cs => (m.copy c e).bind fun m => m.ctCopy es cs
  | [], _ :: _ => .panic

/-- `NewCiphertextAtLevelFromPoly`, ckks/ciphertext.go:53-58; the slice expressions panic if the polynomials are too short -/
def ctAtLevelFromPoly (m : Mem) (level p0 p1 : Nat) : Go (List Nat × Mem) :=
  if (m.polys p0).coeffs.length ≤ level ∨ (m.polys p1).coeffs.length ≤ level then .panic
  else
    let a := m.newPolyAt ⟨(m.polys p0).coeffs.take (level + 1), true, false⟩
    let b := a.2.newPolyAt ⟨(m.polys p1).coeffs.take (level + 1), true, false⟩
    .ok ([a.1, b.1], b.2)

end Mem

/-- `PolyQP`, rlwe/ring_qp.go:30-32, with `nil` parts -/
structure QPRef where
  q : Option Nat
  p : Option Nat
  deriving DecidableEq

namespace Mem

/-- `if p != nil { p.CopyNew() }` -/
def optCopyNew (m : Mem) : Option Nat → Option Nat × Mem
  | none => (none, m)
  | some a => let b := m.copyNew a; (some b.1, b.2)

/-- `PolyQP.CopyNew`, rlwe/ring_qp.go:65-80 -/
def qpCopyNew (m : Mem) (x : QPRef) : QPRef × Mem :=
  let q := m.optCopyNew x.q
  let p := q.2.optCopyNew x.p
  (⟨q.1, p.1⟩, p.2)

/-- `SecretKey.CopyNew`, rlwe/keys.go:124-129 -/
def skCopyNew (m : Mem) : Option QPRef → Option QPRef × Mem
  | none => (none, m)
  | some x => let y := m.qpCopyNew x; (some y.1, y.2)

/-- the copy of a pair of `PolyQP` -/
def pairCopyNew (m : Mem) (x : QPRef × QPRef) : (QPRef × QPRef) × Mem :=
  let a := m.qpCopyNew x.1
  let b := a.2.qpCopyNew x.2
  ((a.1, b.1), b.2)

/-- `PublicKey.CopyNew`, rlwe/keys.go:132-137 -/
def pkCopyNew (m : Mem) : Option (QPRef × QPRef) → Option (QPRef × QPRef) × Mem
  | none => (none, m)
  | some x => let y := m.pairCopyNew x; (some y.1, y.2)

/-- `SwitchingKey.CopyNew`, rlwe/keys.go:190-199: `nil` for a key without digits -/
def swkCopyNew (m : Mem) : Option (List (QPRef × QPRef)) → Option (List (QPRef × QPRef)) × Mem
  | none => (none, m)
  | some x => if x.length = 0 then (none, m) else let y := mapNew pairCopyNew m x; (some y.1, y.2)

/-- `RelinearizationKey.CopyNew`, rlwe/keys.go:159-168: `nil` for a key without switching keys -/
def rlkCopyNew (m : Mem) : Option (List (Option (List (QPRef × QPRef)))) → Option (List (Option (List (QPRef × QPRef)))) × Mem
  | none => (none, m)
  | some x => if x.length = 0 then (none, m) else let y := mapNew swkCopyNew m x; (some y.1, y.2)

/-- one row of `Shift` in memory, ring_operations.go:395: `append` of no words returns the slice itself, otherwise it allocates, because the
capacity of a row of `NewPoly` is its length -/
def shiftRowM (m : Mem) (src : Nat) (k : Int) : Go (Nat × Mem) :=
  if k < 0 ∨ ((m.rows src).length : Int) < k then .panic
  else if k = 0 then .ok (src, m)
  else .ok (m.newRow ((m.rows src).drop k.toNat ++ (m.rows src).take k.toNat))

end Mem

end FastKsw
