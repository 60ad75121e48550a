import Verif.Model.VecOps
import Verif.Model.Bits

/-!
# `ring/ring_ntt.go`: number theoretic transform on one row
-/

namespace FastKsw

/-- `x[i]` on a row. -/
abbrev Row.at (x : Row) (i : Nat) : UInt64 := x.getD i 0

/-- `butterfly`, ring_ntt.go:100-106. -/
def butterfly (u v psi twoQ fourQ q qInv : UInt64) : UInt64 × UInt64 :=
  let u := if u ≥ fourQ then u - fourQ else u
  let v := mredConstant v psi q qInv
  (u + v, u + twoQ - v)

/-- The butterfly without conditional subtraction, inlined in `NTTLazy`
(ring_ntt.go:144-145, 212-213, 265-266, 318-319). -/
def butterflyNoRed (u v psi twoQ q qInv : UInt64) : UInt64 × UInt64 :=
  let v := mredConstant v psi q qInv
  (u + v, u + twoQ - v)

/-- `invbutterfly`, ring_ntt.go:109-116. -/
def invbutterfly (u v psi twoQ fourQ q qInv : UInt64) : UInt64 × UInt64 :=
  let x := u + v
  let x := if x ≥ twoQ then x - twoQ else x
  let y := mredConstant (u + fourQ - v) psi q qInv
  (x, y)

/-- One in-place layer of butterflies: `m` blocks of size `2t`, block `i` uses the
twiddle `tab[m+i]` and combines `x[j]` with `x[j+t]` for `j` in the first half of
the block.  This is the loop nest of ring_ntt.go:180-237 (t ≥ 8), 243-289 (t = 4),
297-341 (t = 2), 346-359 (t = 1) for the forward transform and 406-420 (t = 1),
430-448 (t ≥ 8), 452-465 (t = 4), 469-482 (t = 2) for the inverse; the special
cases for small `t` are the same loop nest unrolled. -/
def nttLayer (bf : UInt64 → UInt64 → UInt64 → UInt64 × UInt64) (tab : Row) (m t : Nat)
    (x : Row) : Row :=
  (List.range m).foldl (fun x i =>
    (List.range t).foldl (fun x j =>
      let jx := 2 * (i * t) + j
      let r := bf (x.at jx) (x.at (jx + t)) (tab.at (m + i))
      (x.set jx r.1).set (jx + t) r.2) x) x

/-- The loop `for m := 2; m < N; m <<= 1` of `NTTLazy`, ring_ntt.go:172-393; `t`
is the value before the `t >>= 1` at the top of the body.  For `t = 1` (last
layer) the reducing butterfly is always used (ring_ntt.go:344-359). -/
def nttLoop (N : Nat) (tab : Row) (q qInv : UInt64) : Nat → Nat → Nat → Row → Row
  | 0, _, _, x => x
  | fuel + 1, m, t, x =>
    if m < N then
      let reduce := len64 m % 2 = 1
      let t := t / 2
      let x :=
        if reduce ∨ t = 1 then
          nttLayer (fun u v psi => butterfly u v psi (2 * q) (4 * q) q qInv) tab m t x
        else
          nttLayer (fun u v psi => butterflyNoRed u v psi (2 * q) q qInv) tab m t x
      nttLoop N tab q qInv fuel (2 * m) t x
    else x

/-- `NTTLazy`, ring_ntt.go:125-394.  The first layer (lines 132-167) reads
`coeffsIn` and writes every position of `coeffsOut`, so the result does not
depend on the previous content of `coeffsOut`. -/
def nttLazy (x : Row) (N : Nat) (tab : Row) (q qInv : UInt64) : Row :=
  let t := N / 2
  let x := nttLayer (fun u v psi => butterflyNoRed u v psi (2 * q) q qInv) tab 1 t x
  nttLoop N tab q qInv N 2 t x

/-- `NTT`, ring_ntt.go:119-122. -/
def ntt (x : Row) (N : Nat) (tab : Row) (q qInv : UInt64) (u : BredParams) : Row :=
  reduceVec (nttLazy x N tab q qInv) q u

/-- The loop `for m := N >> 1; m > 1; m >>= 1` of `invNTTCore`,
ring_ntt.go:424-486. -/
def invNttLoop (tab : Row) (q qInv : UInt64) : Nat → Nat → Nat → Row → Row
  | 0, _, _, x => x
  | fuel + 1, m, t, x =>
    if m > 1 then
      let h := m / 2
      let x := nttLayer (fun u v psi => invbutterfly u v psi (q <<< 1) (q <<< 2) q qInv) tab h t x
      invNttLoop tab q qInv fuel (m / 2) (2 * t) x
    else x

/-- `invNTTCore`, ring_ntt.go:396-487. -/
def invNttCore (x : Row) (N : Nat) (tab : Row) (q qInv : UInt64) : Row :=
  let h := N / 2
  let x := nttLayer (fun u v psi => invbutterfly u v psi (q <<< 1) (q <<< 2) q qInv) tab h 1 x
  invNttLoop tab q qInv N (N / 2) 2 x

/-- `InvNTT`, ring_ntt.go:490-493. -/
def invNtt (x : Row) (N : Nat) (tab : Row) (nInv q qInv : UInt64) : Row :=
  mulScalarMontgomeryVec (invNttCore x N tab q qInv) nInv q qInv

/-- `InvNTTLazy`, ring_ntt.go:496-499. -/
def invNttLazy (x : Row) (N : Nat) (tab : Row) (nInv q qInv : UInt64) : Row :=
  mulScalarMontgomeryConstantVec (invNttCore x N tab q qInv) nInv q qInv

end FastKsw
