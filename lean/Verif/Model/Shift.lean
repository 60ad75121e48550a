import Verif.Model.RingOps
import Verif.Model.Bytes

/-!
# `Rotate`, `Shift` and `BitReverse` of `ring/ring_operations.go`
-/

namespace FastKsw

/-- `n & ((1 << r.N) - 1)` on a 64-bit `int`, ring_operations.go:393-395 and 585: for `r.N < 64` the mask has `r.N` low bits set,
from 64 on the shift is 0 and the mask is `-1` -/
def maskShift (N : Nat) (n : Int) : Int := if N < 64 then n % 2 ^ N else n

/-- one row of `Rotate`, ring_operations.go:591-605, in place.  `ModexpMontgomery` with a negative exponent does not enter its
loop. -/
def rotateRow (s : SubRing) (N : Nat) (n : Int) (x : Row) : Row :=
  let root := mred s.psiMont s.psiMont s.q s.mred
  let root := modexpMontgomery root n.toNat s.q s.mred s.bred
  ((List.range (N - 1)).foldl (fun (st : UInt64 × Row) j =>
    let gal := mred st.1 root s.q s.mred
    (gal, st.2.set (j + 1) (mred (st.2.at (j + 1)) gal s.q s.mred))) (mform 1 s.q s.bred, x)).2

/-- `Rotate(p1, n, p2)`, ring_operations.go:581-607, on a heap of polynomials: line 599 takes both slices from `p1` -/
def Ring.rotate (r : Ring) (h : Nat → Rows) (p1 : Nat) (n : Int) (_p2 : Nat) : Nat → Rows :=
  let n := maskShift r.n n
  fun a => if a = p1 then writeLvl (r.subs.length - 1) (fun i => rotateRow (r.sub i) r.n n ((h p1).row i)) (h p1) else h a

/-- one row of `Shift`, `append(x[m:], x[:m]...)`, ring_operations.go:395; the slice expression panics if `m` is negative or larger than
the length (for the rows of `NewPoly`, whose capacity is their length) -/
def shiftRow (x : Row) (m : Int) : Go Row :=
  if m < 0 ∨ (x.length : Int) < m then .panic else .ok (x.drop m.toNat ++ x.take m.toNat)

/-- the loop of `Shift` over the moduli from index `i` on -/
def shiftRows (p1 : Rows) (m : Int) : Nat → Nat → Rows → Go Rows
  | 0, _, p2 => .ok p2
  | fuel + 1, i, p2 =>
    if p1.length ≤ i ∨ p2.length ≤ i then .panic
    else match shiftRow (p1.row i) m with
      | .ok x => shiftRows p1 m fuel (i + 1) (p2.set i x)
      | _ => .panic

/-- `Shift(p1, n, p2)`, ring_operations.go:392-397, for different polynomials -/
def Ring.shift (r : Ring) (p1 : Rows) (n : Int) (p2 : Rows) : Go Rows :=
  shiftRows p1 (maskShift r.n n) r.subs.length 0 p2

/-- `BitReverse(p, p)`, ring_operations.go:555-576 -/
def Ring.bitReverseInPlace (r : Ring) (p : Rows) : Rows :=
  writeLvl (r.subs.length - 1) (fun i => bitReverseRowInPlace r.n (p.row i)) p

end FastKsw
