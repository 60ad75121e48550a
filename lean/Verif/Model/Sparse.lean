import Verif.Model.RingOps

/-!
# Sparse polynomials: a smaller ring inside a larger one

`ckks/utils.go:47-91`, `ring/ring_operations.go:538-551`, `rlwe/elements.go:157-207`.

`NTT` is called here with a degree smaller than the row that holds the
coefficients, and (from `ckks`) with degrees below 16.  The loops of `NTTLazy` are
unrolled over fixed-size arrays obtained through `unsafe.Pointer`, so for small
degrees they read and write past the requested degree.  The definitions below
keep these extra iterations; positions are those of the whole row.
-/

namespace FastKsw

/-- least multiple of `c` not below `k` -/
def roundUp (k c : Nat) : Nat := (k + c - 1) / c * c

/-- One layer with the iterations the unrolled loops really perform: `mUp` blocks
and `tUp` butterflies per block, where `m` and `t` are the numbers asked for. -/
def nttLayerUp (bf : UInt64 → UInt64 → UInt64 → UInt64 × UInt64) (tab : Row) (m mUp t tUp : Nat)
    (x : Row) : Row :=
  (List.range mUp).foldl (fun x i =>
    (List.range tUp).foldl (fun x j =>
      let jx := 2 * (i * t) + j
      let r := bf (x.at jx) (x.at (jx + t)) (tab.at (m + i))
      (x.set jx r.1).set (jx + t) r.2) x) x

/-- blocks per iteration of the unrolled layer: one for `t ≥ 8` (ring_ntt.go:180-237), 2 for `t = 4`
(243-289), 4 for `t = 2` (297-341), 8 for `t = 1` (346-359) -/
def blocksPerStep (t : Nat) : Nat := if t ≥ 8 then 1 else 8 / t

/-- The loop `for m := 2; m < N; m <<= 1` of `NTTLazy`, ring_ntt.go:172-393, on a whole row. -/
def nttLoopMem (N : Nat) (tab : Row) (q qInv : UInt64) : Nat → Nat → Nat → Row → Row
  | 0, _, _, x => x
  | fuel + 1, m, t, x =>
    if m < N then
      let reduce := len64 m % 2 = 1
      let t := t / 2
      let mUp := roundUp m (blocksPerStep t)
      let x :=
        if reduce ∨ t = 1 then
          nttLayerUp (fun u v psi => butterfly u v psi (2 * q) (4 * q) q qInv) tab m mUp t t x
        else
          nttLayerUp (fun u v psi => butterflyNoRed u v psi (2 * q) q qInv) tab m mUp t t x
      nttLoopMem N tab q qInv fuel (2 * m) t x
    else x

/-- `NTTLazy`, ring_ntt.go:125-394, in place on a row that may be longer than `N`.  The first layer
runs over multiples of 8 (132-167). -/
def nttLazyMem (x : Row) (N : Nat) (tab : Row) (q qInv : UInt64) : Row :=
  let t := N / 2
  let x := nttLayerUp (fun u v psi => butterflyNoRed u v psi (2 * q) q qInv) tab 1 1 t (roundUp t 8) x
  nttLoopMem N tab q qInv N 2 t x

/-- apply a vector operation to the first `len` entries; the vector loops also
run over multiples of 8 (ring_vector_ops.go:113-127, 571-585) -/
def onPrefix (len : Nat) (f : Row → Row) (x : Row) : Row :=
  f (x.take (roundUp len 8)) ++ x.drop (roundUp len 8)

/-- `NTT(coeffs[:n], coeffs[:n], n, ...)`, ring_ntt.go:119-122 -/
def nttMem (x : Row) (n : Nat) (tab : Row) (q qInv : UInt64) (u : BredParams) : Row :=
  onPrefix n (fun y => reduceVec y q u) (nttLazyMem x n tab q qInv)

/-- `for j := n - 1; j >= 0; j--`, ckks/utils.go:83-88 -/
def spreadRow (n gap : Nat) (x : Row) : Row :=
  (List.range n).reverse.foldl (fun x j =>
    let c := x.at j
    (List.range gap).foldl (fun x w => x.set (j * gap + w) c) x) x

/-- one row of the second branch of `NttAndMontgomeryLvl`, ckks/utils.go:73-88 -/
def SubRing.sparseNttRow (s : SubRing) (N n : Nat) (montgomery : Bool) (x : Row) : Row :=
  let y := nttMem x n s.nttPsi s.q s.mred s.bred
  let y := if montgomery then onPrefix n (fun z => mformVec z s.q s.bred) y else y
  spreadRow n (N / n) y

/-- `NttAndMontgomeryLvl`, ckks/utils.go:49-91, for a ring of type `Standard`. -/
def Ring.nttAndMontgomeryLvl (r : Ring) (level logSlots : Nat) (montgomery : Bool) (pol : Rows) :
    Rows :=
  if 2 ^ logSlots = r.nthRoot / 4 then
    let pol := r.nttLvl level pol pol
    if montgomery then r.mformLvl level pol pol else pol
  else
    writeLvl level (fun i => (r.sub i).sparseNttRow r.n (2 * 2 ^ logSlots) montgomery (pol.row i)) pol

/-- `MapSmallDimensionToLargerDimensionNTT`, ring_operations.go:539-551 -/
def mapSmallToLarge (small large : Rows) : Rows :=
  writeLvl (small.length - 1) (fun j => mapSmallToLargeRow (small.row j) (large.row j)) large

/-- `for w0, w1 := 0, 0; w0 < NOut; …  { out[w0] = in[w1] }`,
rlwe/elements.go:174-176 and 202-204 -/
def strideCopy (nOut step0 step1 : Nat) (inp out : Row) : Row :=
  (List.range ((nOut + step0 - 1) / step0)).foldl (fun out k => out.set (k * step0) (inp.at (k * step1))) out

/-- One row of the first branch of `SwitchCiphertextRingDegreeNTT`, rlwe/elements.go:172-177.  The row
called `tmpOut` in the code is the row of `ctIn`. -/
def switchDownRow (small large : SubRing) (nIn nOut : Nat) (row : Row) : Row :=
  let pool := large.invNtt nIn row
  let tmpOut := strideCopy nOut 1 (nIn / nOut) pool row
  reduceVec (nttLazyMem tmpOut nOut small.nttPsi small.q small.mred) small.q small.bred

/-- `SwitchCiphertextRingDegreeNTT`, rlwe/elements.go:162-184: the pair `(ctIn, ctOut)` after the
call, for ciphertexts that do not share rows, each given by its polynomials.
`ringQSmallDim.N = NOut` and `ringQLargeDim.N = NIn` when they are used; `ctIn` has the components
and rows of `ctOut` (the code panics otherwise). -/
def switchRingDegreeNTT (ctIn : List Rows) (small large : Ring) (ctOut : List Rows) :
    List Rows × List Rows :=
  let nIn := ((ctIn.getD 0 []).row 0).length
  let nOut := ((ctOut.getD 0 []).row 0).length
  if nIn > nOut then
    (ctIn.mapIdx fun i p =>
        if i < ctOut.length then
          p.mapIdx fun j row =>
            if j < (ctOut.getD i []).length then
              switchDownRow (small.sub j) (large.sub j) nIn nOut row
            else row
        else p, ctOut)
  else (ctIn, ctOut.mapIdx fun i p => mapSmallToLarge (ctIn.getD i []) p)

/-- `SwitchCiphertextRingDegree`, rlwe/elements.go:190-207; `ctIn` is only read. -/
def switchRingDegree (ctIn ctOut : List Rows) : List Rows :=
  let nIn := ((ctIn.getD 0 []).row 0).length
  let nOut := ((ctOut.getD 0 []).row 0).length
  let gaps := if nIn > nOut then (1, nIn / nOut) else (nOut / nIn, 1)
  ctOut.mapIdx fun i p => p.mapIdx fun j row => strideCopy nOut gaps.1 gaps.2 ((ctIn.getD i []).row j) row

end FastKsw
