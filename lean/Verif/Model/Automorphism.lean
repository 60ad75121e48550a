import Verif.Model.RingOps

/-!
# `ring/ring_automorphism.go` and the Galois elements of `rlwe/params.go`
-/

namespace FastKsw

/-- `GenGaloisParams(n, gen)`, ring_automorphism.go:27-44 (`n ≥ 2`, else Go panics on the empty
slice) -/
def genGaloisParams (n gen : UInt64) : List UInt64 :=
  let mask := (n <<< 1) - 1
  (List.range (n.toNat / 2 - 1)).foldl (fun l i => l.set (i + 1) ((Row.at l i * gen) &&& mask))
    ((List.replicate (n.toNat / 2) 0).set 0 1)

/-- `PermuteNTTIndex`, ring_automorphism.go:47-61 -/
def Ring.permuteNTTIndex (r : Ring) (galEl : UInt64) : Row :=
  let logNthRoot := len64 r.nthRoot - 2
  let mask := UInt64.ofNat r.nthRoot - 1
  (List.range r.n).map fun i =>
    let tmp1 := UInt64.ofNat (2 * bitReverse64 i logNthRoot + 1)
    let tmp2 := ((galEl * tmp1 &&& mask) - 1) >>> 1
    UInt64.ofNat (bitReverse64 tmp2.toNat logNthRoot)

/-- one row of `PermuteNTTWithIndexLvl` with different input and output, ring_automorphism.go:80-101 -/
def permuteNTTRow (N : Nat) (index x : Row) : Row :=
  (List.range N).map fun j => x.at (index.at j).toNat

/-- one row of `PermuteNTTWithIndexLvl` with `polIn = polOut`: each position is read and written in
turn, ring_automorphism.go:80-101 (documented as not allowed) -/
def permuteNTTRowInPlace (N : Nat) (index x : Row) : Row :=
  (List.range N).foldl (fun x j => x.set j (x.at (index.at j).toNat)) x

/-- `PermuteNTTWithIndexLvl`, ring_automorphism.go:80-101 -/
def Ring.permuteNTTWithIndexLvl (r : Ring) (level : Nat) (polIn : Rows) (index : Row) (polOut : Rows) :
    Rows :=
  writeLvl level (fun i => permuteNTTRow r.n index (polIn.row i)) polOut

/-- `PermuteNTTLvl`, ring_automorphism.go:73-75 -/
def Ring.permuteNTTLvl (r : Ring) (level : Nat) (polIn : Rows) (gen : UInt64) (polOut : Rows) : Rows :=
  r.permuteNTTWithIndexLvl level polIn (r.permuteNTTIndex gen) polOut

/-- `PermuteNTT`, ring_automorphism.go:66-68 -/
def Ring.permuteNTT (r : Ring) (polIn : Rows) (gen : UInt64) (polOut : Rows) : Rows :=
  r.permuteNTTLvl (min polIn.level polOut.level) polIn gen polOut

/-- `PermuteNTTWithIndexAndAddNoModLvl`, ring_automorphism.go:107-128 -/
def Ring.permuteNTTWithIndexAndAddNoModLvl (r : Ring) (level : Nat) (polIn : Rows) (index : Row)
    (polOut : Rows) : Rows :=
  writeLvl level (fun i => addVecNoMod (polOut.row i) (permuteNTTRow r.n index (polIn.row i))) polOut

/-- one row of `Permute`, ring_automorphism.go:133-154 -/
def permuteRow (N : Nat) (q gen : UInt64) (x y : Row) : Row :=
  let mask := UInt64.ofNat (N - 1)
  let logN := len64 (N - 1)
  (List.range N).foldl (fun y i =>
    let indexRaw := UInt64.ofNat i * gen
    let index := indexRaw &&& mask
    let tmp := (indexRaw >>> UInt64.ofNat logN) &&& 1
    y.set index.toNat (x.at i * (tmp ^^^ 1) ||| (q - x.at i) * tmp)) y

/-- `Permute`, ring_automorphism.go:133-154: all moduli of the ring, whatever the levels -/
def Ring.permute (r : Ring) (polIn : Rows) (gen : UInt64) (polOut : Rows) : Rows :=
  writeLvl (r.subs.length - 1) (fun j => permuteRow r.n (r.sub j).q gen (polIn.row j) (polOut.row j))
    polOut

/-- `GaloisGen`, rlwe/params.go:47 -/
def galoisGen : UInt64 := 5

/-- `GaloisElementForColumnRotationBy`, rlwe/params.go:353-355.  `k & int(NthRoot-1)` on a two's
complement `int` with `NthRoot` a power of two is the remainder modulo `NthRoot`. -/
def Ring.galoisElementForColumnRotationBy (r : Ring) (k : Int) : UInt64 :=
  modExp galoisGen (UInt64.ofNat (k % (r.nthRoot : Int)).toNat) (UInt64.ofNat r.nthRoot)

/-- `GaloisElementForRowRotation`, rlwe/params.go:359-364; `none`: panic -/
def Ring.galoisElementForRowRotation (r : Ring) : Option UInt64 :=
  if r.type = .conjugateInvariant then none else some (UInt64.ofNat r.nthRoot - 1)

/-- `GaloisElementsForRowInnerSum`, rlwe/params.go:369-385; `none`: panic (never happens) -/
def Ring.galoisElementsForRowInnerSum (r : Ring) (logN : Nat) : Option (List UInt64) :=
  let l := (List.range (logN - 1)).map fun i => r.galoisElementForColumnRotationBy (2 ^ i)
  match r.type with
  | .standard => r.galoisElementForRowRotation.map fun g => l ++ [g]
  | .conjugateInvariant => some (l ++ [r.galoisElementForColumnRotationBy (2 ^ (logN - 1))])

/-- `InverseGaloisElement`, rlwe/params.go:390-392 -/
def Ring.inverseGaloisElement (r : Ring) (galEl : UInt64) : UInt64 :=
  modExp galEl (UInt64.ofNat r.nthRoot - 1) (UInt64.ofNat r.nthRoot)

end FastKsw
