import Verif.Model.SlotEncoder
import Verif.Model.Facade
import Verif.Model.Float

/-!
# `ckks/ckks_vector_ops.go`: the transforms between slots and coefficients in complex128 arithmetic

The loops are those of `Model/SpecialFFT`; every operation on float64 values is followed by the rounding of IEEE 754 binary64
with gradual underflow.  Overflow is left out: the bounds of the theorems show how large the values get.
`x*y ± z` is not fused (amd64 without the v3 feature level).
-/

namespace FastKsw

/-- rounding to float64: nearest, ties to even, 53 bits, least positive value `2^-1074` -/
def f64s (x : ℚ) : ℚ :=
  if x = 0 then 0
  else
    let e := max (Int.log 2 |x| - 52) (-1074)
    (roundEven (x / 2 ^ e) : ℚ) * 2 ^ e

/-- complex128 addition -/
def fcAdd (a b : ℚ × ℚ) : ℚ × ℚ := (f64s (a.1 + b.1), f64s (a.2 + b.2))

/-- complex128 subtraction -/
def fcSub (a b : ℚ × ℚ) : ℚ × ℚ := (f64s (a.1 - b.1), f64s (a.2 - b.2))

/-- complex128 multiplication: four products, one difference and one sum -/
def fcMul (a b : ℚ × ℚ) : ℚ × ℚ :=
  (f64s (f64s (a.1 * b.1) - f64s (a.2 * b.2)), f64s (f64s (a.1 * b.2) + f64s (a.2 * b.1)))

/-- complex128 division by `complex(c, 0)`: the ratio of the parts of the divisor is 0, so both parts are divided by `c` -/
def fcDiv (a : ℚ × ℚ) (c : ℚ) : ℚ × ℚ := (f64s (a.1 / c), f64s (a.2 / c))

/-- the loop over `loglen` of `SpecialFFTVec` (ckks_vector_ops.go:53-65) and `SpecialFFTUL8Vec` (76-228) -/
def fftLayersF (unrolled : Bool) (N M : Nat) (roots : Nat → ℚ × ℚ) : Nat → List (ℚ × ℚ) → List (ℚ × ℚ)
  | 0, x => x
  | l + 1, x => fftLayer (fun u v w => let v := fcMul v w; (fcAdd u v, fcSub u v)) (fftRoot roots M (2 ^ (l + 1)))
      (fftBlocks unrolled N (2 ^ (l + 1))) (2 ^ l) (fftLayersF unrolled N M roots l x)

/-- the loop over `loglen` of `SpecialiFFTVec` (ckks_vector_ops.go:28-39) and `SpecialiFFTUL8Vec` (237-342) -/
def ifftLayersF (unrolled : Bool) (N M : Nat) (roots : Nat → ℚ × ℚ) : Nat → List (ℚ × ℚ) → List (ℚ × ℚ)
  | 0, x => x
  | l + 1, x => ifftLayersF unrolled N M roots l
      (fftLayer (fun u v w => (fcAdd u v, fcMul (fcSub u v) w)) (ifftRoot roots M (2 ^ (l + 1)))
        (fftBlocks unrolled N (2 ^ (l + 1))) (2 ^ l) x)

/-- `SpecialFFTVec`, ckks_vector_ops.go:49-66, and `SpecialFFTUL8Vec`, 69-229 -/
def specialFFTF (unrolled : Bool) (N M : Nat) (roots : Nat → ℚ × ℚ) (x : List (ℚ × ℚ)) : List (ℚ × ℚ) :=
  fftLayersF unrolled N M roots (len64 N - 1) (cSliceBitReverse N x)

/-- `DivideComplex128SliceVec`, ckks_vector_ops.go:350-365: groups of 8 values, on a slice of `len` values -/
def divideSliceF (len : Nat) (d : ℚ) (x : List (ℚ × ℚ)) : List (ℚ × ℚ) :=
  (x.take ((len + 7) / 8 * 8)).map (fcDiv · d) ++ x.drop ((len + 7) / 8 * 8)

/-- `SpecialiFFTVec`, ckks_vector_ops.go:25-46, and `SpecialiFFTUL8Vec`, 232-347; `len` is `len(values)` -/
def specialiFFTF (unrolled : Bool) (N M : Nat) (roots : Nat → ℚ × ℚ) (len : Nat) (x : List (ℚ × ℚ)) : List (ℚ × ℚ) :=
  let x := ifftLayersF unrolled N M roots (len64 N - 1) x
  let x := if unrolled then divideSliceF len N x else (x.take N).map (fcDiv · N) ++ x.drop N
  cSliceBitReverse N x

/-- `Embed` for a ring of type `Standard` up to the inverse transform, ckks/encoder.go:356-417, in complex128 arithmetic; see
`encodeFFT` -/
def encodeFFTF (M : Nat) (roots : Nat → ℚ × ℚ) (mem values : List (ℚ × ℚ)) (logSlots : Nat) : Option (List (ℚ × ℚ)) :=
  let slots := 2 ^ logSlots
  if slots > M / 4 ∨ values.length > slots then none
  else
    let buf := values ++ List.replicate (slots - values.length) 0 ++ mem.drop slots
    some ((specialiFFTF (decide (3 ≤ logSlots)) slots M roots (M / 4) buf).take slots)

/-- `decodePublic` with `sigma = 0`, ckks/encoder.go:519-548, in complex128 arithmetic; see `Ring.decodeSlots` -/
def Ring.decodeSlotsF (r : Ring) (roots : Nat → ℚ × ℚ) (mem : List (ℚ × ℚ)) (isNTT : Bool) (level : Nat) (scale : ℚ)
    (logSlots : Nat) (pt polypool : Rows) : Option (List (ℚ × ℚ)) :=
  (r.decodeToComplex isNTT level scale logSlots pt polypool).map fun v =>
    (specialFFTF (decide (3 ≤ logSlots)) (2 ^ logSlots) r.nthRoot roots (v ++ mem.drop (2 ^ logSlots))).take (2 ^ logSlots)

/-- the table of `NewEncoder`, ckks/encoder.go:162-182, with `cosF`, `sinF` for `math.Cos`, `math.Sin`; `2 * 3.141592653589793` is
an exact constant, converted once -/
def encRootsF (cosF sinF : ℚ → ℚ) (M : Nat) (i : Nat) : ℚ × ℚ :=
  let i := if i = M then 0 else i
  let angle := f64s (f64s (f64s (2 * 3.141592653589793) * i) / M)
  (cosF angle, sinF angle)

/-- `Encode`, ckks/encoder.go:190-192, for a ring of type `Standard`, in complex128 arithmetic; see `Ring.encodeSlots` -/
def Ring.encodeSlotsF (r : Ring) (roots : Nat → ℚ × ℚ) (mem values : List (ℚ × ℚ)) (logSlots : Nat) (pt : Pt) : Option Pt :=
  (encodeFFTF r.nthRoot roots mem values logSlots).map fun w =>
    { pt with value := ⟨r.embedPoly pt.value.level logSlots w pt.scale false pt.value.coeffs, pt.value.isNTT⟩ }

/-- `EncryptMsg`, fckks/encryptor.go:29-32, in complex128 arithmetic; see `encryptMsg` -/
def encryptMsgF (rQ rP : Ring) (roots : Nat → ℚ × ℚ) (mem : List (ℚ × ℚ)) (logSlots : Nat) (pk : PolyQP × PolyQP) (t : EncTape)
    (msg : List (ℚ × ℚ)) (pool : Pt) (ct : Ct) : Option (Pt × Ct) :=
  (rQ.encodeSlotsF roots mem msg logSlots pool).bind fun pool =>
    (ckksEncrypt rQ rP pk t pool ct).map fun ct => (pool, ct)

/-- `DecryptToMsg`, fckks/decryptor.go:29-32, in complex128 arithmetic; see `decryptToMsg` -/
def decryptToMsgF (r : Ring) (roots : Nat → ℚ × ℚ) (mem : List (ℚ × ℚ)) (polypool : Rows) (logSlots : Nat) (sk : Rows) (ct : Ct)
    (pool : Pt) : Option (List (ℚ × ℚ) × Pt) :=
  let pt := ckksDecrypt r sk ct pool
  (r.decodeSlotsF roots mem pt.value.isNTT pt.value.level pt.scale logSlots pt.value.coeffs polypool).map fun v => (v, pt)

end FastKsw
