import Verif.Model.Ring

/-!
# Polynomials in RNS form and the operations of `ring/ring_operations.go`

A `ring.Poly` is the list of its coefficient rows (`Coeffs [][]uint64`), one row
per modulus.  A function writing `p3` returns the new content of `p3`: rows
`0 … level` are overwritten, rows above `level` are kept.  Slices `[:r.N]` are
whole rows (a row has exactly `N` entries).  Every operation below is
element-wise and reads an element before writing it, so the result is the same
when the output is one of the inputs; where that fails (`AddScalar`, `MulByPow2`)
the definition says so and both cases are modelled.

The variants without `Lvl` are in Model/LevelFree.lean.
-/

namespace FastKsw

/-- `Poly.Coeffs`, ring/ring_poly.go:28-32 -/
abbrev Rows := List Row

/-- `p.Coeffs[i]` -/
def Rows.row (p : Rows) (i : Nat) : Row := p.getD i []

/-- `p.Level()`, ring/ring_poly.go:55-57 -/
def Rows.level (p : Rows) : Nat := p.length - 1

/-- `for i := 0; i < level+1; i++ { out.Coeffs[i] = f i }` -/
def writeLvl (level : Nat) (f : Nat → Row) (out : Rows) : Rows :=
  out.mapIdx fun i r => if i ≤ level then f i else r

/-- constants of the `i`-th modulus -/
def Ring.sub (r : Ring) (i : Nat) : SubRing := r.subs.getD i default

/-- `r.NewPoly` / `NewPoly(N, nbModuli)`, ring/ring_poly.go:35-42, ring/ring.go:387-408 -/
def newPoly (N nbModuli : Nat) : Rows := List.replicate nbModuli (List.replicate N 0)

/-! ## Transforms of one row -/

/-- `NTT` with the constants of one modulus, ring_ntt_interface.go:41-53, 103-105 -/
def SubRing.ntt (s : SubRing) (N : Nat) (x : Row) : Row :=
  FastKsw.ntt x N s.nttPsi s.q s.mred s.bred

/-- `NTTLazy` with the constants of one modulus, ring_ntt_interface.go:57-69, 109-111 -/
def SubRing.nttLazy (s : SubRing) (N : Nat) (x : Row) : Row :=
  FastKsw.nttLazy x N s.nttPsi s.q s.mred

/-- `InvNTT` with the constants of one modulus, ring_ntt_interface.go:72-84, 114-116 -/
def SubRing.invNtt (s : SubRing) (N : Nat) (x : Row) : Row :=
  FastKsw.invNtt x N s.nttPsiInv s.nttNInv s.q s.mred

/-- `InvNTTLazy` with the constants of one modulus, ring_ntt_interface.go:88-100, 120-122 -/
def SubRing.invNttLazy (s : SubRing) (N : Nat) (x : Row) : Row :=
  FastKsw.invNttLazy x N s.nttPsiInv s.nttNInv s.q s.mred

/-! ## Level operations -/

/-- `AddLvl`, ring_operations.go:41-45 -/
def Ring.addLvl (r : Ring) (level : Nat) (p1 p2 p3 : Rows) : Rows :=
  writeLvl level (fun i => addVec (p1.row i) (p2.row i) (r.sub i).q) p3

/-- `AddNoModLvl`, ring_operations.go:55-59 -/
def Ring.addNoModLvl (_r : Ring) (level : Nat) (p1 p2 p3 : Rows) : Rows :=
  writeLvl level (fun i => addVecNoMod (p1.row i) (p2.row i)) p3

/-- `SubLvl`, ring_operations.go:67-71 -/
def Ring.subLvl (r : Ring) (level : Nat) (p1 p2 p3 : Rows) : Rows :=
  writeLvl level (fun i => subVec (p1.row i) (p2.row i) (r.sub i).q) p3

/-- `SubNoModLvl`, ring_operations.go:81-85 -/
def Ring.subNoModLvl (r : Ring) (level : Nat) (p1 p2 p3 : Rows) : Rows :=
  writeLvl level (fun i => subVecNomod (p1.row i) (p2.row i) (r.sub i).q) p3

/-- `NegLvl`, ring_operations.go:94-98 -/
def Ring.negLvl (r : Ring) (level : Nat) (p1 p2 : Rows) : Rows :=
  writeLvl level (fun i => negVec (p1.row i) (r.sub i).q) p2

/-- `ReduceLvl`, ring_operations.go:107-111 -/
def Ring.reduceLvl (r : Ring) (level : Nat) (p1 p2 : Rows) : Rows :=
  writeLvl level (fun i => reduceVec (p1.row i) (r.sub i).q (r.sub i).bred) p2

/-- `ReduceConstantLvl`, ring_operations.go:122-126 -/
def Ring.reduceConstantLvl (r : Ring) (level : Nat) (p1 p2 : Rows) : Rows :=
  writeLvl level (fun i => reduceConstantVec (p1.row i) (r.sub i).q (r.sub i).bred) p2

/-- `ModLvl`, ring_operations.go:134-139 -/
def Ring.modLvl (_r : Ring) (level : Nat) (p1 : Rows) (m : UInt64) (p2 : Rows) : Rows :=
  writeLvl level (fun i => modVec (p1.row i) m (bredParams m)) p2

/-- `MulCoeffsLvl`, ring_operations.go:149-153 -/
def Ring.mulCoeffsLvl (r : Ring) (level : Nat) (p1 p2 p3 : Rows) : Rows :=
  writeLvl level (fun i => mulCoeffsVec (p1.row i) (p2.row i) (r.sub i).q (r.sub i).bred) p3

/-- `MulCoeffsAndAddLvl`, ring_operations.go:163-167 -/
def Ring.mulCoeffsAndAddLvl (r : Ring) (level : Nat) (p1 p2 p3 : Rows) : Rows :=
  writeLvl level (fun i => mulCoeffsAndAddVec (p1.row i) (p2.row i) (p3.row i) (r.sub i).q (r.sub i).bred) p3

/-- `MulCoeffsAndAddNoModLvl`, ring_operations.go:177-181 -/
def Ring.mulCoeffsAndAddNoModLvl (r : Ring) (level : Nat) (p1 p2 p3 : Rows) : Rows :=
  writeLvl level (fun i => mulCoeffsAndAddNoModVec (p1.row i) (p2.row i) (p3.row i) (r.sub i).q (r.sub i).bred) p3

/-- `MulCoeffsMontgomeryLvl`, ring_operations.go:191-195 -/
def Ring.mulCoeffsMontgomeryLvl (r : Ring) (level : Nat) (p1 p2 p3 : Rows) : Rows :=
  writeLvl level (fun i => mulCoeffsMontgomeryVec (p1.row i) (p2.row i) (r.sub i).q (r.sub i).mred) p3

/-- `MulCoeffsMontgomeryConstantLvl`, ring_operations.go:205-209 -/
def Ring.mulCoeffsMontgomeryConstantLvl (r : Ring) (level : Nat) (p1 p2 p3 : Rows) : Rows :=
  writeLvl level (fun i => mulCoeffsMontgomeryConstantVec (p1.row i) (p2.row i) (r.sub i).q (r.sub i).mred) p3

/-- `MulCoeffsMontgomeryConstantAndNegLvl`, ring_operations.go:213-217 -/
def Ring.mulCoeffsMontgomeryConstantAndNegLvl (r : Ring) (level : Nat) (p1 p2 p3 : Rows) : Rows :=
  writeLvl level (fun i => mulCoeffsMontgomeryConstantAndNeg (p1.row i) (p2.row i) (r.sub i).q (r.sub i).mred) p3

/-- `MulCoeffsMontgomeryAndAddLvl`, ring_operations.go:227-231 -/
def Ring.mulCoeffsMontgomeryAndAddLvl (r : Ring) (level : Nat) (p1 p2 p3 : Rows) : Rows :=
  writeLvl level (fun i => mulCoeffsMontgomeryAndAddVec (p1.row i) (p2.row i) (p3.row i) (r.sub i).q (r.sub i).mred) p3

/-- `MulCoeffsMontgomeryAndAddNoModLvl`, ring_operations.go:241-245 -/
def Ring.mulCoeffsMontgomeryAndAddNoModLvl (r : Ring) (level : Nat) (p1 p2 p3 : Rows) : Rows :=
  writeLvl level (fun i => mulCoeffsMontgomeryAndAddNoModVec (p1.row i) (p2.row i) (p3.row i) (r.sub i).q (r.sub i).mred) p3

/-- `MulCoeffsMontgomeryConstantAndAddNoModLvl`, ring_operations.go:257-261 -/
def Ring.mulCoeffsMontgomeryConstantAndAddNoModLvl (r : Ring) (level : Nat) (p1 p2 p3 : Rows) : Rows :=
  writeLvl level (fun i => mulCoeffsMontgomeryConstantAndAddNoModVec (p1.row i) (p2.row i) (p3.row i) (r.sub i).q (r.sub i).mred) p3

/-- `MulCoeffsMontgomeryAndSubLvl`, ring_operations.go:271-275 -/
def Ring.mulCoeffsMontgomeryAndSubLvl (r : Ring) (level : Nat) (p1 p2 p3 : Rows) : Rows :=
  writeLvl level (fun i => mulCoeffsMontgomeryAndSubVec (p1.row i) (p2.row i) (p3.row i) (r.sub i).q (r.sub i).mred) p3

/-- `MulCoeffsMontgomeryAndSubNoModLvl`, ring_operations.go:285-289 -/
def Ring.mulCoeffsMontgomeryAndSubNoModLvl (r : Ring) (level : Nat) (p1 p2 p3 : Rows) : Rows :=
  writeLvl level (fun i => mulCoeffsMontgomeryAndSubNoMod (p1.row i) (p2.row i) (p3.row i) (r.sub i).q (r.sub i).mred) p3

/-- `MulCoeffsMontgomeryConstantAndSubNoModLvl`, ring_operations.go:294-298 -/
def Ring.mulCoeffsMontgomeryConstantAndSubNoModLvl (r : Ring) (level : Nat) (p1 p2 p3 : Rows) : Rows :=
  writeLvl level (fun i => mulCoeffsMontgomeryConstantAndSubNoMod (p1.row i) (p2.row i) (p3.row i) (r.sub i).q (r.sub i).mred) p3

/-- `MulCoeffsConstantLvl`, ring_operations.go:308-312 -/
def Ring.mulCoeffsConstantLvl (r : Ring) (level : Nat) (p1 p2 p3 : Rows) : Rows :=
  writeLvl level (fun i => mulCoeffsConstantVec (p1.row i) (p2.row i) (r.sub i).q (r.sub i).bred) p3

/-- contents of `(p1, p2)` after `AddScalarLvl(level, p1, scalar, p2)` on two different polynomials,
ring_operations.go:320-324.  The code passes `p1.Coeffs[i]` both as source and as destination.
With `p1 = p2` the result is the first component. -/
def Ring.addScalarLvl (r : Ring) (level : Nat) (p1 : Rows) (scalar : UInt64) (p2 : Rows) : Rows × Rows :=
  (writeLvl level (fun i => addScalarVec (p1.row i) scalar (r.sub i).q) p1, p2)

/-- contents of `(p1, p2)` after `AddScalarBigintLvl(level, p1, scalar, p2)` on two different polynomials,
ring_operations.go:332-337.  The code passes `p1.Coeffs[i]` both as source and as destination; `big.Int.Mod` is Euclidean.
With `p1 = p2` the result is the first component. -/
def Ring.addScalarBigintLvl (r : Ring) (level : Nat) (p1 : Rows) (scalar : Int) (p2 : Rows) : Rows × Rows :=
  (writeLvl level (fun i => addScalarVec (p1.row i) (UInt64.ofNat (scalar % ((r.sub i).q.toNat : Int)).toNat) (r.sub i).q) p1, p2)

/-- contents of `(p1, p2)` after `SubScalarLvl(level, p1, scalar, p2)` on two different polynomials,
ring_operations.go:345-349.  The code passes `p1.Coeffs[i]` both as source and as destination.
With `p1 = p2` the result is the first component. -/
def Ring.subScalarLvl (r : Ring) (level : Nat) (p1 : Rows) (scalar : UInt64) (p2 : Rows) : Rows × Rows :=
  (writeLvl level (fun i => subScalarVec (p1.row i) scalar (r.sub i).q) p1, p2)

/-- contents of `(p1, p2)` after `SubScalarBigintLvl(level, p1, scalar, p2)` on two different polynomials,
ring_operations.go:357-362.  The code passes `p1.Coeffs[i]` both as source and as destination; `big.Int.Mod` is Euclidean.
With `p1 = p2` the result is the first component. -/
def Ring.subScalarBigintLvl (r : Ring) (level : Nat) (p1 : Rows) (scalar : Int) (p2 : Rows) : Rows × Rows :=
  (writeLvl level (fun i => subScalarVec (p1.row i) (UInt64.ofNat (scalar % ((r.sub i).q.toNat : Int)).toNat) (r.sub i).q) p1, p2)

/-- `MulScalarLvl`, ring_operations.go:370-374 -/
def Ring.mulScalarLvl (r : Ring) (level : Nat) (scalar : UInt64) (p1 p2 : Rows) : Rows :=
  writeLvl level (fun i => mulScalarMontgomeryVec (p1.row i) 
    (mform (bredAdd scalar (r.sub i).q (r.sub i).bred) (r.sub i).q (r.sub i).bred) (r.sub i).q (r.sub i).mred) p2

/-- `MulScalarBigintLvl`, ring_operations.go:383-389 -/
def Ring.mulScalarBigintLvl (r : Ring) (level : Nat) (scalar : Int) (p1 p2 : Rows) : Rows :=
  writeLvl level (fun i => mulScalarMontgomeryVec (p1.row i) 
    (mform (bredAdd (UInt64.ofNat (scalar % ((r.sub i).q.toNat : Int)).toNat) (r.sub i).q (r.sub i).bred) (r.sub i).q (r.sub i).bred)
    (r.sub i).q (r.sub i).mred) p2

/-- `MFormLvl`, ring_operations.go:405-409 -/
def Ring.mformLvl (r : Ring) (level : Nat) (p1 p2 : Rows) : Rows :=
  writeLvl level (fun i => mformVec (p1.row i) (r.sub i).q (r.sub i).bred) p2

/-- `MFormConstantLvl`, ring_operations.go:413-417 -/
def Ring.mformConstantLvl (r : Ring) (level : Nat) (p1 p2 : Rows) : Rows :=
  writeLvl level (fun i => mformConstantVec (p1.row i) (r.sub i).q (r.sub i).bred) p2

/-- `InvMFormLvl`, ring_operations.go:425-429 -/
def Ring.invMformLvl (r : Ring) (level : Nat) (p1 p2 : Rows) : Rows :=
  writeLvl level (fun i => invMformVec (p1.row i) (r.sub i).q (r.sub i).mred) p2

/-- `MulByPow2Lvl(level, p1, pow2, p2)` with `p1`, `p2` different polynomials,
ring_operations.go:444-449: `MFormLvl` writes `p2`, then `MulByPow2Vec` reads **`p1`** and
writes `p2`. -/
def Ring.mulByPow2LvlDistinct (r : Ring) (level : Nat) (pow2 : Nat) (p1 p2 : Rows) : Rows :=
  let p2 := r.mformLvl level p1 p2
  writeLvl level (fun i => mulByPow2Vec (p1.row i) pow2 (r.sub i).q (r.sub i).mred) p2

/-- `MulByPow2Lvl(level, p, pow2, p)`, ring_operations.go:444-449, in place. -/
def Ring.mulByPow2LvlInPlace (r : Ring) (level : Nat) (pow2 : Nat) (p : Rows) : Rows :=
  let p := r.mformLvl level p p
  writeLvl level (fun i => mulByPow2Vec (p.row i) pow2 (r.sub i).q (r.sub i).mred) p

/-- `MulByVectorMontgomeryLvl`, ring_operations.go:520-524 -/
def Ring.mulByVectorMontgomeryLvl (r : Ring) (level : Nat) (p1 : Rows) (vector : Row) (p2 : Rows) :
    Rows :=
  writeLvl level (fun i => mulCoeffsMontgomeryVec (p1.row i) vector (r.sub i).q (r.sub i).mred) p2

/-- `MulByVectorMontgomeryAndAddNoModLvl`, ring_operations.go:532-536 -/
def Ring.mulByVectorMontgomeryAndAddNoModLvl (r : Ring) (level : Nat) (p1 : Rows) (vector : Row)
    (p2 : Rows) : Rows :=
  writeLvl level (fun i => mulCoeffsMontgomeryAndAddNoModVec (p1.row i) vector (p2.row i) (r.sub i).q (r.sub i).mred) p2

/-! ## Coefficient permutations -/

/-- one row of `MultByMonomial` once `0 ≤ shift < 2N` is known: lines 470-474 (`shift = 0`), 481-496
(`tmpx`), 498-511 -/
def multByMonomialRow (N : Nat) (q : UInt64) (shift : Nat) (x : Row) : Row :=
  if shift = 0 then (List.range N).map fun j => x.at j
  else
    let tmpx : Row := (List.range N).map fun j => if shift < N then x.at j else q - x.at j
    let shift := shift % N
    (List.range N).map fun j => if j < shift then q - tmpx.at (N - shift + j) else tmpx.at (j - shift)

/-- `MultByMonomial`, ring_operations.go:459-512.  `%` of Go truncates towards zero; for a negative
`shift` (then `shift < r.N`) the loop of lines 506-511 starts at the negative index `shift % N`, which
panics (`none`) unless `shift % N = 0`. -/
def Ring.multByMonomial (r : Ring) (p1 : Rows) (monomialDeg : Int) (p2 : Rows) : Option Rows :=
  let shift := monomialDeg.tmod (2 * r.n : Nat)
  if 0 ≤ shift then
    some (writeLvl (r.subs.length - 1)
      (fun i => multByMonomialRow r.n (r.sub i).q shift.toNat (p1.row i)) p2)
  else if shift.tmod r.n = 0 then
    some (writeLvl (r.subs.length - 1) (fun i => (List.range r.n).map fun j => (p1.row i).at j) p2)
  else none

/-- one row of `BitReverse`, different polynomials, ring_operations.go:559-564 -/
def bitReverseRow (N : Nat) (x y : Row) : Row :=
  (List.range N).foldl (fun y j => y.set (bitReverse64 j (len64 N - 1)) (x.at j)) y

/-- `s[i], s[j] = s[j], s[i]` -/
def swapAt {α : Type*} [Inhabited α] (s : List α) (i j : Nat) : List α :=
  (s.set i (s.getD j default)).set j (s.getD i default)

/-- one row of `BitReverse`, same polynomial, ring_operations.go:566-574 -/
def bitReverseRowInPlace (N : Nat) (x : Row) : Row :=
  (List.range N).foldl (fun x i =>
    let j := bitReverse64 i (len64 N - 1)
    if i < j then swapAt x i j else x) x

/-- one row of `MapSmallDimensionToLargerDimensionNTT`, ring_operations.go:539-551 -/
def mapSmallToLargeRow (small large : Row) : Row :=
  let gap := large.length / small.length
  (List.range small.length).foldl (fun large i =>
    (List.range gap).foldl (fun large w => large.set (i * gap + w) (small.at i)) large) large

/-! ## Transforms of a polynomial (standard ring) -/

/-- `ForwardLvl`, ring_ntt_interface.go:49-53 -/
def Ring.nttLvl (r : Ring) (level : Nat) (p1 p2 : Rows) : Rows :=
  writeLvl level (fun i => (r.sub i).ntt r.n (p1.row i)) p2

/-- `ForwardLazyLvl`, ring_ntt_interface.go:65-69 -/
def Ring.nttLazyLvl (r : Ring) (level : Nat) (p1 p2 : Rows) : Rows :=
  writeLvl level (fun i => (r.sub i).nttLazy r.n (p1.row i)) p2

/-- `BackwardLvl`, ring_ntt_interface.go:80-84 -/
def Ring.invNttLvl (r : Ring) (level : Nat) (p1 p2 : Rows) : Rows :=
  writeLvl level (fun i => (r.sub i).invNtt r.n (p1.row i)) p2

/-- `BackwardLazyLvl`, ring_ntt_interface.go:96-100 -/
def Ring.invNttLazyLvl (r : Ring) (level : Nat) (p1 p2 : Rows) : Rows :=
  writeLvl level (fun i => (r.sub i).invNttLazy r.n (p1.row i)) p2

end FastKsw
