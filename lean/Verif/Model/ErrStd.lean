import Verif.Model.FloatFFT

/-!
# `ckks/utils.go:26-45`, `ckks/encoder.go:288-328`: standard deviation of an error

float64 arithmetic as in `Model/FloatFFT`: every operation is followed by `f64s`.  `sqrtF` stands for `math.Sqrt`.  Overflow is
left out.  Go does not fuse `err += tmp * tmp` on amd64.
-/

namespace FastKsw

/-- `StandardDeviation`, ckks/utils.go:27-45; `none` is the NaN of an empty slice -/
def standardDeviation (sqrtF : ℚ → ℚ) (vec : List ℚ) (scale : ℚ) : Option ℚ :=
  if vec.length = 0 then none
  else
    let n := f64s vec.length
    let mean := f64s (vec.foldl (fun m c => f64s (m + c)) 0 / n)
    let err := vec.foldl (fun e c => let tmp := f64s (c - mean); f64s (e + f64s (tmp * tmp))) 0
    some (f64s (sqrtF (f64s (err / n)) * scale))

/-- `valuesFloat[2*i], valuesFloat[2*i+1] = real(v[i]), imag(v[i])`, ckks/encoder.go:310-313 and 321-325 -/
def interleave (v : List (ℚ × ℚ)) : List ℚ := v.flatMap fun z => [z.1, z.2]

/-- `GetErrSTDCoeffDomain`, ckks/encoder.go:291-316.  `M` is `ecd.m`; `mem` is the memory from `&ecd.values[0]` on, `M/4` values
belong to the slice.  `none` is a panic (index out of range), or the NaN for empty inputs. -/
def getErrSTDCoeffDomain (sqrtF : ℚ → ℚ) (M : Nat) (roots : Nat → ℚ × ℚ) (mem valuesWant valuesHave : List (ℚ × ℚ)) (scale : ℚ) :
    Option ℚ :=
  let l := valuesHave.length
  if l = 0 ∨ valuesWant.length < l ∨ M / 4 < valuesWant.length then none
  else
    let values := List.zipWith fcSub valuesWant valuesHave ++ List.replicate (M / 4 - l) 0 ++ mem.drop (M / 4)
    let logSlots := len64 (l - 1)
    let values := specialiFFTF (decide (3 ≤ logSlots)) (2 ^ logSlots) M roots (M / 4) values
    standardDeviation sqrtF (interleave (values.take valuesWant.length)) scale

/-- `GetErrSTDSlotDomain`, ckks/encoder.go:320-328 -/
def getErrSTDSlotDomain (sqrtF : ℚ → ℚ) (M : Nat) (valuesWant valuesHave : List (ℚ × ℚ)) (scale : ℚ) : Option ℚ :=
  if valuesHave.length < valuesWant.length ∨ M / 4 < valuesWant.length then none
  else standardDeviation sqrtF (interleave (List.zipWith fcSub valuesWant valuesHave)) scale

end FastKsw
