import Verif.Model.Bits
import Mathlib.Algebra.Field.Defs

/-!
# `ckks/ckks_vector_ops.go`, `ckks/utils.go:268-288`: the transforms between slots and coefficients

complex128 arithmetic is replaced by the exact arithmetic of a field `K`: the rounding errors of the
transforms are not modelled.  `roots` is the table of `NewEncoder`: `roots[i]` is the `i`-th power of a
primitive `M`-th root of unity, here a function, with `roots[M] = roots[0]`.

A list stands for the memory from `&values[0]` on.  The unrolled loops work on arrays of 8 or 16 values
obtained through `unsafe.Pointer`, without bounds check; the list may be longer than the slice so that the
values after the slice are visible.
-/

namespace FastKsw

section
variable {K : Type} [Zero K]

/-- `for j >= bit { j -= bit; bit >>= 1 }; j += bit`, ckks/utils.go:277-282 -/
def bitRevNext : Nat → Nat → Nat → Nat
  | 0, j, bit => j + bit
  | fuel + 1, j, bit => if j ≥ bit then bitRevNext fuel (j - bit) (bit / 2) else j + bit

/-- the loop of `SliceBitReverseInPlaceComplex128`, ckks/utils.go:273-287, for `i` from 1 to `m`: the
counter `j` and the slice.  The inner loop ends after at most `N` steps for `m < N`. -/
def cSliceBitReverseLoop (N m : Nat) (x : List K) : Nat × List K :=
  (List.range m).foldl (fun s i' =>
    let i := i' + 1
    let j := bitRevNext N s.1 (N / 2)
    (j, if i < j then (s.2.set i (s.2.getD j 0)).set j (s.2.getD i 0) else s.2)) (0, x)

/-- `SliceBitReverseInPlaceComplex128`, ckks/utils.go:269-288 -/
def cSliceBitReverse (N : Nat) (x : List K) : List K := (cSliceBitReverseLoop N (N - 1) x).2

/-- `rotGroup[j]`, ckks/encoder.go:134-140, for `j < m/4` -/
def rotGroup (m : Nat) : Nat → Nat
  | 0 => 1
  | j + 1 => rotGroup m j * 5 % m

/-- One in-place layer: `nb` blocks of size `2 * lenh`. -/
def fftLayer (bf : K → K → K → K × K) (w : Nat → K) (nb lenh : Nat) (x : List K) : List K :=
  (List.range nb).foldl (fun x b =>
    (List.range lenh).foldl (fun x j =>
      let k := b * (2 * lenh) + j
      let r := bf (x.getD k 0) (x.getD (k + lenh) 0) (w j)
      (x.set k r.1).set (k + lenh) r.2) x) x

/-- the number of blocks of size `len` of a layer: `N/len`; in the unrolled functions, for `len ≤ 16`, the
loop `for i := 0; i < N; i += 16` goes through groups of 16 values (ckks_vector_ops.go:122,152,179,205
and 272,293,311,328) -/
def fftBlocks (unrolled : Bool) (N len : Nat) : Nat :=
  if unrolled && len ≤ 16 then (N + 15) / 16 * 16 / len else N / len

/-- `roots[(rotGroup[j]&mask)<<logGap]` for blocks of `len` values -/
def fftRoot (roots : Nat → K) (M len j : Nat) : K := roots (rotGroup M j % (4 * len) * (M / (4 * len)))

/-- `roots[(lenq-(rotGroup[j]&mask))<<logGap]` -/
def ifftRoot (roots : Nat → K) (M len j : Nat) : K := roots ((4 * len - rotGroup M j % (4 * len)) * (M / (4 * len)))

end

variable {K : Type} [Field K]

/-- the loop over `loglen` of `SpecialFFTVec` (ckks_vector_ops.go:53-65) and `SpecialFFTUL8Vec`
(76-228), up to blocks of `2^l` values -/
def fftLayers (unrolled : Bool) (N M : Nat) (roots : Nat → K) : Nat → List K → List K
  | 0, x => x
  | l + 1, x => fftLayer (fun u v w => (u + v * w, u - v * w)) (fftRoot roots M (2 ^ (l + 1)))
      (fftBlocks unrolled N (2 ^ (l + 1))) (2 ^ l) (fftLayers unrolled N M roots l x)

/-- the loop over `loglen` of `SpecialiFFTVec` (ckks_vector_ops.go:28-39) and `SpecialiFFTUL8Vec`
(237-342), from blocks of `2^l` values down -/
def ifftLayers (unrolled : Bool) (N M : Nat) (roots : Nat → K) : Nat → List K → List K
  | 0, x => x
  | l + 1, x => ifftLayers unrolled N M roots l
      (fftLayer (fun u v w => (u + v, (u - v) * w)) (ifftRoot roots M (2 ^ (l + 1)))
        (fftBlocks unrolled N (2 ^ (l + 1))) (2 ^ l) x)

/-- `SpecialFFTVec`, ckks_vector_ops.go:49-66, and `SpecialFFTUL8Vec`, 69-229 -/
def specialFFT (unrolled : Bool) (N M : Nat) (roots : Nat → K) (x : List K) : List K :=
  fftLayers unrolled N M roots (len64 N - 1) (cSliceBitReverse N x)

/-- `DivideComplex128SliceVec`, ckks_vector_ops.go:350-365: groups of 8 values, on a slice of `len` values -/
def divideSlice (len : Nat) (d : K) (x : List K) : List K :=
  (x.take ((len + 7) / 8 * 8)).map (· / d) ++ x.drop ((len + 7) / 8 * 8)

/-- `SpecialiFFTVec`, ckks_vector_ops.go:25-46, and `SpecialiFFTUL8Vec`, 232-347; `len` is `len(values)` -/
def specialiFFT (unrolled : Bool) (N M : Nat) (roots : Nat → K) (len : Nat) (x : List K) : List K :=
  let x := ifftLayers unrolled N M roots (len64 N - 1) x
  let x := if unrolled then divideSlice len (N : K) x
    else (x.take N).map (· / (N : K)) ++ x.drop N
  cSliceBitReverse N x

end FastKsw
