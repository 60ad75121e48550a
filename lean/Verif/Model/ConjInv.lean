import Verif.Model.Sparse
import Verif.Model.Automorphism

/-!
# The conjugate-invariant ring: `ring/conjugate_invariant.go` and its transform in `ring/ring_ntt.go`

A polynomial `a₀ + Σ aⱼ(X^j + X^-j)` of `Z_q[X+X^-1]/(X^2N+1)` is stored as the row `a₀, …, a_{N-1}`.
-/

namespace FastKsw

/-- First layer of `NTTConjugateInvariantLazy`, ring_ntt.go:516-553: positions `j` and `N-j` are combined,
both are read before they are written; `N ≥ 16` a power of two, so every `j` from 1 to `N-1` is met once. -/
def ciFirst (N : Nat) (F q qInv : UInt64) (x : Row) : Row :=
  (List.range N).map fun j =>
    if j = 0 then x.at 0 else x.at j + 2 * q - mredConstant (x.at (N - j)) F q qInv

/-- The loop `for m := 2; m < 2*N; m <<= 1`, ring_ntt.go:556-775: the left half of the layers of degree
`2N`, that is `m/2` blocks with the twiddles `nttPsi[m+i]`.  Unlike `NTTLazy`, the layer `t = 1` has no
special case. -/
def ciNttLoop (N : Nat) (tab : Row) (q qInv : UInt64) : Nat → Nat → Nat → Row → Row
  | 0, _, _, x => x
  | fuel + 1, m, t, x =>
    if m < 2 * N then
      let t := t / 2
      let x :=
        if len64 m % 2 = 1 then
          nttLayerUp (fun u v psi => butterfly u v psi (2 * q) (4 * q) q qInv) tab m (m / 2) t t x
        else
          nttLayerUp (fun u v psi => butterflyNoRed u v psi (2 * q) q qInv) tab m (m / 2) t t x
      ciNttLoop N tab q qInv fuel (2 * m) t x
    else x

/-- `NTTConjugateInvariantLazy`, ring_ntt.go:508-776 -/
def ciNttLazy (x : Row) (N : Nat) (tab : Row) (q qInv : UInt64) : Row :=
  ciNttLoop N tab q qInv N 2 N (ciFirst N (tab.at 1) q qInv x)

/-- `NTTConjugateInvariant`, ring_ntt.go:502-505 -/
def ciNtt (x : Row) (N : Nat) (tab : Row) (q qInv : UInt64) (u : BredParams) : Row :=
  reduceVec (ciNttLazy x N tab q qInv) q u

/-- The loop `for m := N >> 1; m > 1; m >>= 1` of `invNTTConjugateInvariantCore`, ring_ntt.go:818-889 -/
def ciInvNttLoop (tab : Row) (q qInv : UInt64) : Nat → Nat → Nat → Row → Row
  | 0, _, _, x => x
  | fuel + 1, m, t, x =>
    if m > 1 then
      let x := nttLayerUp (fun u v psi => invbutterfly u v psi (q <<< 1) (q <<< 2) q qInv) tab m (m / 2) t t x
      ciInvNttLoop tab q qInv fuel (m / 2) (2 * t) x
    else x

/-- Last layer of `invNTTConjugateInvariantCore`, ring_ntt.go:891-921 -/
def ciLast (N : Nat) (F q qInv : UInt64) (x : Row) : Row :=
  (List.range N).map fun j =>
    if j = 0 then cred (x.at 0 <<< 1) q else x.at j + (q <<< 1) - mredConstant (x.at (N - j)) F q qInv

/-- `invNTTConjugateInvariantCore`, ring_ntt.go:790-922 -/
def ciInvNttCore (x : Row) (N : Nat) (tab : Row) (q qInv : UInt64) : Row :=
  let x := nttLayerUp (fun u v psi => invbutterfly u v psi (q <<< 1) (q <<< 2) q qInv) tab N (N / 2) 1 1 x
  ciLast N (tab.at 1) q qInv (ciInvNttLoop tab q qInv N (N / 2) 2 x)

/-- `InvNTTConjugateInvariant`, ring_ntt.go:779-782 -/
def ciInvNtt (x : Row) (N : Nat) (tab : Row) (nInv q qInv : UInt64) : Row :=
  mulScalarMontgomeryVec (ciInvNttCore x N tab q qInv) nInv q qInv

/-- `NTTConjugateInvariant` with the constants of one modulus -/
def SubRing.ciNtt (s : SubRing) (N : Nat) (x : Row) : Row := FastKsw.ciNtt x N s.nttPsi s.q s.mred s.bred

/-- `InvNTTConjugateInvariant` with the constants of one modulus -/
def SubRing.ciInvNtt (s : SubRing) (N : Nat) (x : Row) : Row :=
  FastKsw.ciInvNtt x N s.nttPsiInv s.nttNInv s.q s.mred

/-- `NumberTheoreticTransformerConjugateInvariant.ForwardLvl`, ring_ntt_interface.go:144-148 -/
def Ring.ciNttLvl (r : Ring) (level : Nat) (p1 p2 : Rows) : Rows :=
  writeLvl level (fun i => (r.sub i).ciNtt r.n (p1.row i)) p2

/-- `NumberTheoreticTransformerConjugateInvariant.BackwardLvl`, ring_ntt_interface.go:175-179 -/
def Ring.ciInvNttLvl (r : Ring) (level : Nat) (p1 p2 : Rows) : Rows :=
  writeLvl level (fun i => (r.sub i).ciInvNtt r.n (p1.row i)) p2

/-- one row of `UnfoldConjugateInvariantToStandard`: `copy(tmp2, tmp1)` and the loop
`for idx, jdx := N-1, N; jdx < 2*N`, conjugate_invariant.go:36-40 -/
def unfoldRow (N : Nat) (tmp1 tmp2 : Row) : Row :=
  let tmp2 := tmp1 ++ tmp2.drop tmp1.length
  (List.range N).foldl (fun tmp2 k => tmp2.set (N + k) (tmp1.at (N - 1 - k))) tmp2

/-- `UnfoldConjugateInvariantToStandard`, conjugate_invariant.go:27-42; `none`: panic -/
def unfold (level : Nat) (polyCI polyStd : Rows) : Option Rows :=
  if 2 * (polyCI.row 0).length ≠ (polyStd.row 0).length then none
  else some (writeLvl level (fun i => unfoldRow (polyCI.row 0).length (polyCI.row i) (polyStd.row i)) polyStd)

/-- `FoldStandardToConjugateInvariant`, conjugate_invariant.go:47-57, for different polynomials; `r` is
the conjugate-invariant ring; `none`: panic -/
def Ring.fold (r : Ring) (level : Nat) (polyStd : Rows) (index : Row) (polyCI : Rows) : Option Rows :=
  if (polyStd.row 0).length ≠ 2 * (polyCI.row 0).length then none
  else
    let p := r.permuteNTTWithIndexLvl level polyStd index polyCI
    some (writeLvl level (fun i => addVec ((p.row i).take r.n) ((polyStd.row i).take r.n) (r.sub i).q) p)

/-- one row of `PadDefaultRingToConjuateInvariant`, conjugate_invariant.go:73-89 -/
def padRow (n : Nat) (q : UInt64) (isNTT : Bool) (x y : Row) : Row :=
  let tmp := x ++ y.drop x.length
  if isNTT then (List.range n).foldl (fun tmp j => tmp.set (n - j - 1) (tmp.at j)) tmp
  else (List.range (n - 1)).foldl (fun tmp j => tmp.set (n - (j + 1)) (q - tmp.at (j + 1))) (tmp.set 0 0)

end FastKsw
