import Verif.Model.RingOps

/-!
# Helpers of `utils/utils.go` and `ckks/utils.go`
-/

namespace FastKsw

/-- `HammingWeight64`, utils/utils.go:146-151 -/
def hammingWeight64 (x : UInt64) : UInt64 :=
  let x1 : UInt64 := x - ((x >>> 1) &&& (0x5555555555555555 : UInt64))
  let x2 : UInt64 := (x1 &&& (0x3333333333333333 : UInt64)) + ((x1 >>> 2) &&& (0x3333333333333333 : UInt64))
  let x3 : UInt64 := (x2 + (x2 >>> 4)) &&& 0x0f0f0f0f0f0f0f0f
  ((x3 * 0x0101010101010101) &&& (0xffffffffffffffff : UInt64)) >>> 56

/-- `RotateUint64Slice` / `RotateInt64Slice` / `RotateComplex128Slice` / `RotateFloat64Slice`,
utils/utils.go:166-178, 181-193, 206-218, 221-233 (the same code at four element types).  Go's `%` truncates. -/
def rotateSlice {α : Type*} (s : List α) (k : Int) : List α :=
  if k = 0 ∨ s.length = 0 then s
  else
    let r := k.tmod s.length
    let r := if r < 0 then r + s.length else r
    s.drop r.toNat ++ s.take r.toNat

/-- `RotateUint64Slots`, utils/utils.go:197-204 -/
def rotateSlots {α : Type*} (s : List α) (k : Int) : List α :=
  let slots := s.length / 2
  rotateSlice (s.take slots) k ++ rotateSlice (s.drop slots) k

/-- inner loop `for j >= bit { j -= bit; bit >>= 1 }; j += bit`, ckks/utils.go:277-282.  `fuel` bounds
the iterations (for `j < N = 2^n` the loop stops within `n` steps). -/
def nextRev : Nat → Nat → Nat → Nat
  | 0, j, bit => j + bit
  | fuel + 1, j, bit => if j ≥ bit then nextRev fuel (j - bit) (bit / 2) else j + bit

/-- `SliceBitReverseInPlaceComplex128` / `SliceBitReverseInPlaceRingComplex`, ckks/utils.go:269-288,
291-310 -/
def sliceBitReverse {α : Type*} [Inhabited α] (s : List α) (N : Nat) : List α :=
  ((List.range N).foldl (fun (st : List α × Nat) i =>
    if i = 0 then st
    else
      let j := nextRev (N + 1) st.2 (N / 2)
      (if i < j then swapAt st.1 i j else st.1, j)) (s, 0)).1

end FastKsw
