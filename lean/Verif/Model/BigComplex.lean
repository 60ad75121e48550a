import Verif.Model.Float
import Verif.Model.SpecialFFT
import Verif.Model.Encoder
import Verif.Model.Bytes
import Mathlib.Analysis.Real.Pi.Bounds
import Mathlib.Algebra.Order.Archimedean.Real.Basic

/-!
# `ring/complex128.go`, `ckks/encoder.go:622-895`, `ckks/utils.go:228-266`: the arbitrary precision encoder

`ring.Cos` and the table of roots are modelled with the rounding of `big.Float`: a value is a real number, an
operation the exact one followed by rounding to nearest even with `prec` bits.  The exponent of a
`big.Float` has 32 bits; overflow and underflow are left out.

In the complex operations, the transforms and the encoder the rounding is a parameter `rnd`, so that they can be read with the
rounding of `big.Float` and, with `id`, as exact arithmetic.  A `*ring.Complex` is a pair of real numbers.  The buffers of the
encoder and the temporary variables all have the precision of the encoder (`new(big.Float)` takes it from its first operands).
-/

namespace FastKsw

/-! ### big.Float -/

/-- nearest integer, ties to even -/
noncomputable def roundEvenR (x : ℝ) : ℤ :=
  let f := ⌊x⌋
  let d := x - f
  if d < 1 / 2 then f
  else if 1 / 2 < d then f + 1
  else if f % 2 = 0 then f else f + 1

/-- rounding to a `big.Float` of `prec` bits, mode `ToNearestEven` -/
noncomputable def bigRound (prec : Nat) (x : ℝ) : ℝ :=
  if x = 0 then 0
  else
    let e : ℤ := Int.log 2 |x| + 1 - prec
    (roundEvenR (x / 2 ^ e) : ℝ) * 2 ^ e

/-- `k`, ring/complex128.go:40; the constant is an exact product rounded to float64 -/
def cosIter (prec : Nat) : Nat := ⌈f64Div prec (f64 (3.3219280948873626 * 0.60206))⌉.toNat

/-- `t` after `n` iterations of the loop ring/complex128.go:45-47 -/
noncomputable def cosT (rnd : ℝ → ℝ) : Nat → ℝ
  | 0 => 0.5
  | n + 1 => rnd (cosT rnd n * 0.5)

/-- `n` iterations of the loop ring/complex128.go:55-58 -/
noncomputable def cosLoop (rnd : ℝ → ℝ) : Nat → ℝ → ℝ
  | 0, s => s
  | n + 1, s => cosLoop rnd n (rnd (s * rnd (4 - s)))

/-- `Cos`, ring/complex128.go:35-64, on a `big.Float` of precision `prec` -/
noncomputable def bigCos (prec : Nat) (x : ℝ) : ℝ :=
  let rnd := bigRound prec
  let k := cosIter prec
  let t := cosT rnd (k - 2)
  let s := rnd (rnd (rnd (x * t) * x) * t)
  let s := cosLoop rnd (k - 1) s
  rnd (1 - rnd (s / 2))

/-- `roots[i]`, `i < m`, ckks/encoder.go:638-655.  `pi` is the value of the string of ckks/encoder.go:36. -/
noncomputable def bigRoot (pi : ℝ) (prec m i : Nat) : ℝ × ℝ :=
  let rnd := bigRound prec
  let PI := rnd pi
  let PIHalf := rnd (PI / rnd 2)
  let angle := rnd (rnd 2 * PI)
  let angle := rnd (angle * rnd i)
  let angle := rnd (angle / rnd m)
  (bigCos prec angle, bigCos prec (rnd (PIHalf - angle)))

/-- the table of `NewEncoderBigComplex`, ckks/encoder.go:638-657: the last entry is a copy of the first one -/
noncomputable def bigTable (pi : ℝ) (prec m i : Nat) : ℝ × ℝ := bigRoot pi prec m (if i = m then 0 else i)

/-! ### complex numbers -/

/-- `(*Complex).Add`, ring/complex128.go:117-120 -/
def bcAdd (rnd : ℝ → ℝ) (a b : ℝ × ℝ) : ℝ × ℝ := (rnd (a.1 + b.1), rnd (a.2 + b.2))

/-- `(*Complex).Sub`, ring/complex128.go:123-126 -/
def bcSub (rnd : ℝ → ℝ) (a b : ℝ × ℝ) : ℝ × ℝ := (rnd (a.1 - b.1), rnd (a.2 - b.2))

/-- `(*ComplexMultiplier).Mul`, ring/complex128.go:147-156.  The results are written after all the products are
computed, so that `c` may be `a` or `b`. -/
def bcMul (rnd : ℝ → ℝ) (a b : ℝ × ℝ) : ℝ × ℝ :=
  let tmp0 := rnd (a.1 * b.1)
  let tmp1 := rnd (a.2 * b.2)
  let tmp2 := rnd (a.1 * b.2)
  let tmp3 := rnd (a.2 * b.1)
  (rnd (tmp0 - tmp1), rnd (tmp2 + tmp3))

/-- `(*ComplexMultiplier).Div`, ring/complex128.go:159-179 -/
noncomputable def bcDiv (rnd : ℝ → ℝ) (a b : ℝ × ℝ) : ℝ × ℝ :=
  let tmp0 := rnd (a.1 * b.1)
  let tmp1 := rnd (a.2 * b.2)
  let tmp2 := rnd (a.2 * b.1)
  let tmp3 := rnd (a.1 * b.2)
  let tmp0 := rnd (tmp0 + tmp1)
  let tmp1 := rnd (tmp2 - tmp3)
  let tmp2 := rnd (b.1 * b.1)
  let tmp3 := rnd (b.2 * b.2)
  let tmp2 := rnd (tmp2 + tmp3)
  (rnd (tmp0 / tmp2), rnd (tmp1 / tmp2))

/-! ### transforms -/

/-- `SliceBitReverseInPlaceRingComplex`, ckks/utils.go:291-310 -/
def bcBitReverse (N : Nat) (x : List (ℝ × ℝ)) : List (ℝ × ℝ) :=
  ((List.range (N - 1)).foldl (fun s i' =>
    let i := i' + 1
    let j := bitRevNext N s.1 (N / 2)
    (j, if i < j then (s.2.set i (s.2.getD j 0)).set j (s.2.getD i 0) else s.2)) (0, x)).2

/-- the loops over `i` and `j` of `FFT`, ckks/encoder.go:754-766, for blocks of `len` values -/
def bcFFTLayer (rnd : ℝ → ℝ) (m N len : Nat) (roots : Nat → ℝ × ℝ) (x : List (ℝ × ℝ)) : List (ℝ × ℝ) :=
  (List.range (N / len)).foldl (fun x b =>
    let i := b * len
    let lenh := len / 2
    let lenq := len * 4
    let gap := m / lenq
    (List.range lenh).foldl (fun x j =>
      let idx := rotGroup m j % lenq * gap
      let u := x.getD (i + j) 0
      let v := bcMul rnd (x.getD (i + j + lenh) 0) (roots idx)
      (x.set (i + j) (bcAdd rnd u v)).set (i + j + lenh) (bcSub rnd u v)) x) x

/-- `for len := 2; len <= N; len <<= 1`, ckks/encoder.go:741; at most `fuel` iterations -/
def bcFFTLoop (rnd : ℝ → ℝ) (m N : Nat) (roots : Nat → ℝ × ℝ) : Nat → Nat → List (ℝ × ℝ) → List (ℝ × ℝ)
  | 0, _, x => x
  | fuel + 1, len, x => if len ≤ N then bcFFTLoop rnd m N roots fuel (len * 2) (bcFFTLayer rnd m N len roots x) else x

/-- `FFT`, ckks/encoder.go:744-768.  The loop ends after less than `N` iterations. -/
def bcFFT (rnd : ℝ → ℝ) (m N : Nat) (roots : Nat → ℝ × ℝ) (x : List (ℝ × ℝ)) : List (ℝ × ℝ) :=
  bcFFTLoop rnd m N roots N 2 (bcBitReverse N x)

/-- the loops over `i` and `j` of `InvFFT`, ckks/encoder.go:778-790, for blocks of `len` values -/
def bcInvLayer (rnd : ℝ → ℝ) (m N len : Nat) (roots : Nat → ℝ × ℝ) (x : List (ℝ × ℝ)) : List (ℝ × ℝ) :=
  (List.range (N / len)).foldl (fun x b =>
    let i := b * len
    let lenh := len / 2
    let lenq := len * 4
    let gap := m / lenq
    (List.range lenh).foldl (fun x j =>
      let idx := (lenq - rotGroup m j % lenq) * gap
      let u := bcAdd rnd (x.getD (i + j) 0) (x.getD (i + j + lenh) 0)
      let v := bcSub rnd (x.getD (i + j) 0) (x.getD (i + j + lenh) 0)
      let v := bcMul rnd v (roots idx)
      (x.set (i + j) u).set (i + j + lenh) v) x) x

/-- `for len := N; len >= 1; len >>= 1`, ckks/encoder.go:765; at most `fuel` iterations -/
def bcInvLoop (rnd : ℝ → ℝ) (m N : Nat) (roots : Nat → ℝ × ℝ) : Nat → Nat → List (ℝ × ℝ) → List (ℝ × ℝ)
  | 0, _, x => x
  | fuel + 1, len, x => if 1 ≤ len then bcInvLoop rnd m N roots fuel (len / 2) (bcInvLayer rnd m N len roots x) else x

/-- `InvFFT`, ckks/encoder.go:771-800.  The loop ends after at most `N` iterations.  All of `values` is
divided by `N`. -/
noncomputable def bcInvFFT (rnd : ℝ → ℝ) (m N : Nat) (roots : Nat → ℝ × ℝ) (x : List (ℝ × ℝ)) : List (ℝ × ℝ) :=
  let x := bcInvLoop rnd m N roots N N x
  let x := x.map fun c => (rnd (c.1 / rnd N), rnd (c.2 / rnd N))
  bcBitReverse N x

/-! ### encoder -/

/-- `(*big.Float).Int`: truncation towards zero -/
noncomputable def truncInt (x : ℝ) : ℤ := if x < 0 then -⌊-x⌋ else ⌊x⌋

/-- the word that `scaleUpVecExactBigFloat` writes for a value and a modulus, ckks/utils.go:243-263;
`big.Int.Mod` is the Euclidean one -/
noncomputable def scaleUpWord (rnd : ℝ → ℝ) (value scale : ℝ) (q : UInt64) : UInt64 :=
  let xFlo := rnd (rnd scale * value)
  let xFlo := if value < 0 then rnd (xFlo - rnd 0.5) else rnd (xFlo + rnd 0.5)
  let xInt := truncInt xFlo
  let tmp := xInt % (q.toNat : ℤ)
  let tmp := if value < 0 then tmp + (q.toNat : ℤ) else tmp
  UInt64.ofNat tmp.toNat

/-- the buffers of an `encoderBigComplex` -/
structure BigEnc where
  values : List (ℝ × ℝ)
  valuesfloat : List ℝ
  polypool : Rows

/-- `(*encoderBigComplex).Encode`, ckks/encoder.go:681-717, for a ring of type `Standard`, on a plaintext of level
`level` (`pt` may have more rows); the content of the plaintext and the encoder afterwards -/
noncomputable def Ring.bigEncode (r : Ring) (rnd : ℝ → ℝ) (roots : Nat → ℝ × ℝ) (ecd : BigEnc) (values : List (ℝ × ℝ)) (scale : ℝ)
    (level logSlots : Nat) (pt : Rows) : Go (Rows × BigEnc) :=
  let slots := 2 ^ logSlots
  if values.length > r.n / 2 ∨ values.length > slots ∨ slots > r.n / 2 then .panic
  else if values.length ≠ slots then .panic
  else
    let vs := (List.range slots).foldl (fun (vs : List (ℝ × ℝ)) i => vs.set i (rnd (values.getD i 0).1, rnd (values.getD i 0).2)) ecd.values
    let vs := bcInvFFT rnd r.nthRoot slots roots vs
    let gap := r.n / 2 / slots
    let vf := (List.range slots).foldl (fun (vf : List ℝ) i =>
      (vf.set (i * gap) (vs.getD i 0).1).set (r.n / 2 + i * gap) (vs.getD i 0).2) ecd.valuesfloat
    let pt := writeLvl level (fun j => setRow (fun v => scaleUpWord rnd v scale (r.sub j).q) vf (pt.row j)) pt
    let vs := (List.range (r.n / 2)).foldl (fun (vs : List (ℝ × ℝ)) i => vs.set i (0, 0)) vs
    let vf := (List.range r.n).foldl (fun (vf : List ℝ) i => vf.set i 0) vf
    .ok (r.nttLvl level pt pt, { ecd with values := vs, valuesfloat := vf })

/-- `decodePublic` with `sigma = 0`, ckks/encoder.go:818-877: the slots and the encoder afterwards -/
noncomputable def Ring.bigDecode (r : Ring) (rnd : ℝ → ℝ) (roots : Nat → ℝ × ℝ) (ecd : BigEnc) (pt : Rows) (scale : ℝ) (level logSlots : Nat) :
    Go (List (ℝ × ℝ) × BigEnc) :=
  let slots := 2 ^ logSlots
  if slots > r.n / 2 then .panic
  else
    let pool := r.invNttLvl level pt ecd.polypool
    let Q := r.bigintChain level
    let maxSlots := r.n / 2
    let gap := maxSlots / slots
    let big := r.polyToBigintLvl (pool.length - 1) pool gap
    let center (c : ℤ) : ℤ := let c := c % Q; if c ≥ Q / 2 then c - Q else c
    let vs := (List.range slots).foldl (fun (vs : List (ℝ × ℝ)) i =>
      vs.set i (rnd (rnd (center (big.getD i 0)) / rnd scale), rnd (rnd (center (big.getD (slots + i) 0)) / rnd scale))) ecd.values
    let vs := bcFFT rnd r.nthRoot slots roots vs
    let res := (List.range slots).map fun i => vs.getD i 0
    let vs := (List.range maxSlots).foldl (fun (vs : List (ℝ × ℝ)) i => vs.set i (0, 0)) vs
    .ok (res, { ecd with values := vs, polypool := pool })

end FastKsw
