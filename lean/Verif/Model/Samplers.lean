import Verif.Model.Prng
import Verif.Model.RingOps

/-!
# `ring/ring_sampler_*.go`: polynomial samplers

Rejection loops have no bound in the code; they take fuel (an allowance per loop) and return `none` when it
runs out.  A run of the code that returns is a run of the model with enough fuel.
-/

namespace FastKsw

/-- `binary.BigEndian.Uint64` / `Uint32` of the bytes given -/
def beUint (b : List UInt8) : UInt64 := b.foldl (fun a x => a <<< 8 ||| x.toUInt64) 0

/-! ## Uniform -/

/-- state of a `Read`: the PRNG, `randomBufferN` and `ptr`, ring/ring_sampler_uniform.go:26-29, 41-42 -/
structure UniState where
  prng : Prng
  buf : List UInt8
  ptr : Nat

/-- the rejection loop for one coefficient, ring/ring_sampler_uniform.go:105-121 (and 61-77) -/
def uniWord (N : Nat) (q mask : UInt64) : Nat → UniState → Option (UInt64 × UniState)
  | 0, _ => none
  | fuel + 1, st =>
    let st := if st.ptr = N then ⟨(st.prng.read N).2, (st.prng.read N).1, 0⟩ else st
    let w := beUint ((st.buf.drop st.ptr).take 8) &&& mask
    let st : UniState := { st with ptr := st.ptr + 8 }
    if w < q then some (w, st) else uniWord N q mask fuel st

/-- the loop over the coefficients, ring/ring_sampler_uniform.go:102-124; `cnt` coefficients remain -/
def uniRow (fuel N : Nat) (q mask : UInt64) : Nat → UniState → Option (Row × UniState)
  | 0, st => some ([], st)
  | cnt + 1, st =>
    (uniWord N q mask fuel st).bind fun a =>
      (uniRow fuel N q mask cnt a.2).bind fun b => some (a.1 :: b.1, b.2)

/-- the loop over the moduli, ring/ring_sampler_uniform.go:92-125 -/
def uniRows (fuel N : Nat) : List SubRing → UniState → Option (Rows × UniState)
  | [], st => some ([], st)
  | s :: ss, st =>
    (uniRow fuel N s.q s.mask N st).bind fun a =>
      (uniRows fuel N ss a.2).bind fun b => some (a.1 :: b.1, b.2)

/-- `UniformSampler.ReadLvl`, ring/ring_sampler_uniform.go:85-126; `Read`, 41-82, is the same with
`level = len(Pol.Coeffs) - 1`.  The buffer is refilled at the start, so nothing but the PRNG is carried over
between calls. -/
def uniformReadLvl (fuel : Nat) (r : Ring) (level : Nat) (prng : Prng) (pol : Rows) : Option (Rows × Prng) :=
  let c := prng.read r.n
  (uniRows fuel r.n (r.subs.take (level + 1)) ⟨c.2, c.1, 0⟩).map fun a =>
    (writeLvl level (fun j => a.1.getD j []) pol, a.2.prng)

/-! ## Ternary -/

/-- `matrixValues[i][index]`, `initializeMatrix`, ring/ring_sampler_ternary.go:94-113 -/
def ternaryValue (s : SubRing) (montgomery : Bool) (index : Nat) : UInt64 :=
  if index = 0 then 0
  else if index = 1 then (if montgomery then mform 1 s.q s.bred else 1)
  else (if montgomery then mform (s.q - 1) s.q s.bred else s.q - 1)

/-- `index = (coeff & (sign ^ 1)) | ((sign & coeff) << 1)`, ring/ring_sampler_ternary.go:160, 180 -/
def ternaryIndex (coeff sign : UInt64) : Nat := ((coeff &&& (sign ^^^ (1 : UInt64))) ||| ((sign &&& coeff) <<< 1)).toNat

/-- bit `i` of byte `b`, as in `uint64(uint8(b)>>i) & 1` -/
def byteBit (b : UInt8) (i : Nat) : UInt64 := (b.toUInt64 >>> UInt64.ofNat i) &&& 1

/-- `sampleProba` with `p = 0.5`, ring/ring_sampler_ternary.go:147-165 -/
def ternaryHalf (r : Ring) (montgomery : Bool) (lvl : Nat) (prng : Prng) (pol : Rows) : Rows × Prng :=
  let c := prng.read (r.n / 8)
  let s := c.2.read (r.n / 8)
  (writeLvl lvl (fun j => (List.range r.n).map fun i =>
    ternaryValue (r.sub j) montgomery
      (ternaryIndex (byteBit (c.1.getD (i / 8) 0) (i % 8)) (byteBit (s.1.getD (i / 8) 0) (i % 8)))) pol, s.2)

/-- `matrixProba`, ring/ring_sampler_ternary.go:115-135: bit `precision - j - 1` of `x`, `j < 55`, for the two
integers `x` computed there as `uint64(p * 2^56)` and `uint64((1 - p) * 2^56)` -/
def probaBit (x : UInt64) (j : Nat) : Int := ((x >>> UInt64.ofNat (55 - j)) &&& 1).toNat

/-- what `kysampling` carries between calls, ring/ring_sampler_ternary.go:242 -/
structure KyState where
  prng : Prng
  bytes : List UInt8
  pointer : Nat
  bytePointer : Nat

/-- `bytePointer++` and refill, ring/ring_sampler_ternary.go:272-279, 296-303 -/
def KyState.nextByte (N : Nat) (st : KyState) : KyState :=
  if st.bytePointer + 1 ≥ N then ⟨(st.prng.read N).2, (st.prng.read N).1, st.pointer, 0⟩
  else { st with bytePointer := st.bytePointer + 1 }

/-- `kysampling`, ring/ring_sampler_ternary.go:242-306.  `st.pointer` is the loop variable `i`; `x0`, `x1` stand
for `matrixProba`.  One unit of fuel per iteration.  `none` also stands for the panic when `col` runs out of
the matrix. -/
def kySampling (N : Nat) (x0 x1 : UInt64) : Nat → KyState → Int → Nat → Option (UInt64 × UInt64 × KyState)
  | 0, _, _, _ => none
  | fuel + 1, st, d, col =>
    if st.pointer ≥ 8 then kySampling N x0 x1 fuel { st.nextByte N with pointer := 0 } d col
    else
      let i := st.pointer
      let d := 2 * d + 1 - (byteBit (st.bytes.getD st.bytePointer 0) i).toNat
      if d > 1 then kySampling N x0 x1 fuel st 0 0
      else if col ≥ 55 then none
      else
        let ret (row : UInt64) : Option (UInt64 × UInt64 × KyState) :=
          if i = 7 then
            let st := st.nextByte N
            some (row, byteBit (st.bytes.getD st.bytePointer 0) 0, { st with pointer := 1 })
          else some (row, byteBit (st.bytes.getD st.bytePointer 0) (i + 1), { st with pointer := i + 1 })
        let d1 := d - probaBit x1 col
        if d1 = -1 then ret 1
        else
          let d0 := d1 - probaBit x0 col
          if d0 = -1 then ret 0
          else kySampling N x0 x1 fuel { st with pointer := i + 1 } d0 (col + 1)

/-- the loop of `sampleProba` over the coefficients, ring/ring_sampler_ternary.go:176-185 -/
def kyIndices (fuel N : Nat) (x0 x1 : UInt64) : Nat → KyState → Option (List Nat × KyState)
  | 0, st => some ([], st)
  | cnt + 1, st =>
    (kySampling N x0 x1 fuel st 0 0).bind fun a =>
      (kyIndices fuel N x0 x1 cnt a.2.2).bind fun b => some (ternaryIndex a.1 a.2.1 :: b.1, b.2)

/-- `sampleProba` with `p ≠ 0.5`, ring/ring_sampler_ternary.go:167-186 -/
def ternaryProba (fuel : Nat) (r : Ring) (montgomery : Bool) (x0 x1 : UInt64) (lvl : Nat) (prng : Prng) (pol : Rows) :
    Option (Rows × Prng) :=
  let c := prng.read r.n
  (kyIndices fuel r.n x0 x1 r.n ⟨c.2, c.1, 0, 0⟩).map fun a =>
    (writeLvl lvl (fun j => (List.range r.n).map fun i => ternaryValue (r.sub j) montgomery (a.1.getD i 0)) pol,
      a.2.prng)

/-- `randInt32` in the rejection loop of `sampleSparse`, ring/ring_sampler_ternary.go:208-213,
ring/ring_sampler_uniform.go:156-167 -/
def sparseDraw (mask bound : UInt64) : Nat → Prng → Option (UInt64 × Prng)
  | 0, _ => none
  | fuel + 1, prng =>
    let c := prng.read 4
    let j := mask &&& beUint c.1
    if j ≥ bound then sparseDraw mask bound fuel c.2 else some (j, c.2)

/-- the loop of `sampleSparse`, ring/ring_sampler_ternary.go:207-232.  `todo` coefficients remain, `i` are done;
`signs` is the whole of the sign bytes (the code drops a byte every eight steps).  The writes
`(position, index in matrixValues)`, the same for every modulus, and the remaining `index` slice. -/
def sparseLoop (fuel N : Nat) (signs : List UInt8) :
    Nat → Nat → List Nat → Prng → Option (List (Nat × Nat) × List Nat × Prng)
  | 0, _, index, prng => some ([], index, prng)
  | todo + 1, i, index, prng =>
    let mask := UInt64.ofNat (2 ^ len64 (N - i)) - 1
    (sparseDraw mask (UInt64.ofNat (N - i)) fuel prng).bind fun a =>
      let j := a.1.toNat
      let coeff := (byteBit (signs.getD (i / 8) 0) (i % 8)).toNat
      let index' := (index.set j (index.getD (index.length - 1) 0)).dropLast
      (sparseLoop fuel N signs todo (i + 1) index' a.2).bind fun b =>
        some ((index.getD j 0, coeff + 1) :: b.1, b.2)

/-- writes to a row -/
def applyWrites (f : Nat → UInt64) (ws : List (Nat × Nat)) (row : Row) : Row :=
  ws.foldl (fun row w => row.set w.1 (f w.2)) row

/-- `sampleSparse`, ring/ring_sampler_ternary.go:189-239 -/
def ternarySparse (fuel : Nat) (r : Ring) (montgomery : Bool) (hw : Nat) (lvl : Nat) (prng : Prng) (pol : Rows) :
    Option (Rows × Prng) :=
  let hw := if hw > r.n then r.n else hw
  let c := prng.read ((hw + 7) / 8)
  (sparseLoop fuel r.n c.1 hw 0 (List.range r.n) c.2).map fun a =>
    let ws := a.1 ++ a.2.1.map fun i => (i, 0)
    (writeLvl lvl (fun k => applyWrites (ternaryValue (r.sub k) montgomery) ws (pol.row k)) pol, a.2.2)

/-! ## Gaussian

`normFloat64` (ring/ring_sampler_gaussian.go:148-217) uses `math.Log`, `math.Exp` and float32 tables.  Here
its successive results, after `uint64(coeffFlo*sigma + 0.5)`, are an arbitrary stream of pairs of a 64-bit word and a
sign bit; `Model/GaussianBytes.lean` has the function itself, on the bytes of the generator. -/

/-- the rejection loop, ring/ring_sampler_gaussian.go:94-100, 119-125; the stream is read from position `k` -/
def gaussDraw (bound : UInt64) (cand : Nat → UInt64 × Bool) : Nat → Nat → Option ((UInt64 × Bool) × Nat)
  | 0, _ => none
  | fuel + 1, k => if (cand k).1 ≤ bound then some (cand k, k + 1) else gaussDraw bound cand fuel (k + 1)

/-- the draws for all coefficients -/
def gaussDraws (fuel : Nat) (bound : UInt64) (cand : Nat → UInt64 × Bool) :
    Nat → Nat → Option (List (UInt64 × Bool) × Nat)
  | 0, k => some ([], k)
  | cnt + 1, k =>
    (gaussDraw bound cand fuel k).bind fun a =>
      (gaussDraws fuel bound cand cnt a.2).bind fun b => some (a.1 :: b.1, b.2)

/-- `(coeffInt * sign) | (qi-coeffInt)*(sign^1)`, ring/ring_sampler_gaussian.go:103, 128 -/
def gaussWord (q : UInt64) (c : UInt64 × Bool) : UInt64 :=
  let sign : UInt64 := if c.2 then 1 else 0
  (c.1 * sign) ||| (q - c.1) * (sign ^^^ (1 : UInt64))

/-- the writes of `readLvl` for accepted draws `g`, ring/ring_sampler_gaussian.go:126-129 -/
def gaussWrite (r : Ring) (level : Nat) (g : List (UInt64 × Bool)) (pol : Rows) : Rows :=
  writeLvl level (fun j => g.map (gaussWord (r.sub j).q)) pol

/-- the writes of `ReadAndAddFromDistLvl` for accepted draws `g`, ring/ring_sampler_gaussian.go:101-104 -/
def gaussAdd (r : Ring) (level : Nat) (g : List (UInt64 × Bool)) (pol : Rows) : Rows :=
  writeLvl level (fun j => List.zipWith (fun x c => cred (x + gaussWord (r.sub j).q c) (r.sub j).q) (pol.row j) g) pol

/-- `readLvl`, ring/ring_sampler_gaussian.go:108-131; also `Read`, `ReadLvl`, `ReadFromDistLvl` -/
def gaussReadLvl (fuel : Nat) (r : Ring) (bound : UInt64) (level : Nat) (cand : Nat → UInt64 × Bool) (k : Nat)
    (pol : Rows) : Option (Rows × Nat) :=
  (gaussDraws fuel bound cand r.n k).map fun a =>
    (gaussWrite r level a.1 pol, a.2)

/-- `ReadAndAddFromDistLvl`, ring/ring_sampler_gaussian.go:84-106; also `ReadAndAddLvl` -/
def gaussReadAndAddLvl (fuel : Nat) (r : Ring) (bound : UInt64) (level : Nat) (cand : Nat → UInt64 × Bool) (k : Nat)
    (pol : Rows) : Option (Rows × Nat) :=
  (gaussDraws fuel bound cand r.n k).map fun a =>
    (gaussAdd r level a.1 pol, a.2)

end FastKsw
