import Verif.Model.SlotEncoder
import Verif.Model.ConjInv
import Verif.Model.FloatFFT
import Mathlib.Analysis.Complex.Basic

/-!
# `ckks/encoder.go`: encoding and decoding of slots, for a ring of type `ConjugateInvariant`

The slots are real; a ring of degree `N` has `N` of them.  Floating point values as in `Model/SlotEncoder`.
-/

namespace FastKsw

/-- `Embed` for a ring of type `ConjugateInvariant` up to the inverse transform, ckks/encoder.go:356-417: the
imaginary parts are discarded (382-386), the rest is as for a ring of type `Standard`. -/
noncomputable def encodeRealFFT (M : Nat) (roots : Nat → ℂ) (mem values : List ℂ) (logSlots : Nat) : Option (List ℂ) :=
  encodeFFT M roots mem (values.map fun v => (v.re : ℂ)) logSlots

/-- `complexToFixedPointCRT` without `isRingStandard`, ckks/utils.go:122-134: only the real parts are written -/
def Ring.realToFixedPointCRT (r : Ring) (level : Nat) (values : List (ℚ × ℚ)) (scale : ℚ) (coeffs : Rows) : Rows :=
  r.floatToFixedPointCRT level (values.map Prod.fst) scale coeffs

/-- one row of the second branch of `NttAndMontgomeryLvl`, ckks/utils.go:73-88, with `NTTConjugateInvariant` in
dimension `n`, on the first `n` entries of the row.  For `n ≥ 16` the unrolled loops of
`NTTConjugateInvariantLazy` stay within these. -/
def SubRing.ciSparseRow (s : SubRing) (N n : Nat) (montgomery : Bool) (x : Row) : Row :=
  let y := s.ciNtt n (x.take n) ++ x.drop n
  let y := if montgomery then onPrefix n (fun z => mformVec z s.q s.bred) y else y
  spreadRow n (N / n) y

/-- `NttAndMontgomeryLvl`, ckks/utils.go:49-91, for a ring of type `ConjugateInvariant`; `none` is the panic
of `&coeffsIn[j]` with `j := (n >> 1) - 7` negative, ring_ntt.go:538-539 -/
def Ring.ciNttAndMontgomeryLvl (r : Ring) (level logSlots : Nat) (montgomery : Bool) (pol : Rows) : Option Rows :=
  if 2 ^ logSlots = r.nthRoot / 4 then
    let pol := r.ciNttLvl level pol pol
    some (if montgomery then r.mformLvl level pol pol else pol)
  else
    let n := 2 ^ logSlots
    if ((n / 2 : Nat) : ℤ) - 7 < 0 then none
    else some (writeLvl level (fun i => (r.sub i).ciSparseRow r.n n montgomery (pol.row i)) pol)

/-- `Embed` on a `*ring.Poly` from the call of `complexToFixedPointCRT` on, ckks/encoder.go:427-429; `values` is
`ecd.values[:slots]` after the inverse transform; `none` is a panic -/
def Ring.embedPolyReal (r : Ring) (level logSlots : Nat) (values : List (ℚ × ℚ)) (scale : ℚ) (montgomery : Bool)
    (p : Rows) : Option Rows :=
  r.ciNttAndMontgomeryLvl level logSlots montgomery (r.realToFixedPointCRT level values scale p)

/-- `polyToComplexNoCRT`, ckks/encoder.go:435-463, with `isreal` -/
def Ring.polyToRealNoCRT (r : Ring) (coeffs : Row) (scale : ℚ) (logSlots : Nat) : List ℚ :=
  let slots := 2 ^ logSlots
  let maxSlots := r.nthRoot / 4
  let gap := maxSlots / slots
  let Q := (r.sub 0).q
  let conv (c : UInt64) : ℚ := if c ≥ Q >>> 1 then -f64OfNat (Q - c).toNat else f64OfNat c.toNat
  (List.range slots).map fun i => f64Div (conv (coeffs.at (i * gap))) scale

/-- `polyToComplexCRT`, ckks/encoder.go:465-499, with `isreal` -/
def Ring.polyToRealCRT (r : Ring) (pool : Rows) (scale : ℚ) (logSlots : Nat) (Q : ℤ) : List ℚ :=
  let slots := 2 ^ logSlots
  let gap := r.nthRoot / 4 / slots
  let big := r.polyToBigintLvl (pool.length - 1) pool gap
  let center (c : ℤ) : ℤ := let c := c % Q; if c ≥ Q / 2 then c - Q else c
  (List.range slots).map fun i => scaleDown (center (big.getD i 0)) scale

/-- `decodePublic` with `sigma = 0` up to the transform, ckks/encoder.go:519-536, and `plaintextToComplex` with
`isreal`, 501-517: `tmp[i] -= complex(0, real(tmp[slots-i]))` for `1 ≤ i < slots`, which leaves the real parts
alone.  `none` is the panic. -/
def Ring.decodeRealToComplex (r : Ring) (isNTT : Bool) (level : Nat) (scale : ℚ) (logSlots : Nat) (pt polypool : Rows) :
    Option (List (ℚ × ℚ)) :=
  if 2 ^ logSlots > r.nthRoot / 4 then none
  else
    let pool := if isNTT then r.ciInvNttLvl level pt polypool else writeLvl level pt.row polypool
    let re := if level = 0 then r.polyToRealNoCRT (pool.row 0) scale logSlots
      else r.polyToRealCRT pool scale logSlots (r.bigintChain level)
    some ((List.range (2 ^ logSlots)).map fun i =>
      (re.getD i 0, if 1 ≤ i then 0 - re.getD (2 ^ logSlots - i) 0 else 0))

/-- `decodePublic` with `sigma = 0`, ckks/encoder.go:519-548, as `Ring.decodeSlots` -/
def Ring.decodeRealSlots {K : Type} [Field K] (r : Ring) (roots : Nat → K) (im : K) (mem : List K) (isNTT : Bool)
    (level : Nat) (scale : ℚ) (logSlots : Nat) (pt polypool : Rows) : Option (List K) :=
  (r.decodeRealToComplex isNTT level scale logSlots pt polypool).map fun v =>
    let values := v.map (fun c => (c.1 : K) + (c.2 : K) * im) ++ mem.drop (2 ^ logSlots)
    (specialFFT (decide (3 ≤ logSlots)) (2 ^ logSlots) r.nthRoot roots values).take (2 ^ logSlots)

/-- `Encode`, ckks/encoder.go:190-192, for a ring of type `ConjugateInvariant`, in complex128 arithmetic; see `encodeRealFFT` and
`Ring.embedPolyReal`; `none` is a panic -/
def Ring.encodeRealSlotsF (r : Ring) (roots : Nat → ℚ × ℚ) (mem values : List (ℚ × ℚ)) (logSlots : Nat) (pt : Pt) : Option Pt :=
  (encodeFFTF r.nthRoot roots mem (values.map fun v => (v.1, 0)) logSlots).bind fun w =>
    (r.embedPolyReal pt.value.level logSlots w pt.scale false pt.value.coeffs).map fun c =>
      { pt with value := ⟨c, pt.value.isNTT⟩ }

/-- `decodePublic` with `sigma = 0`, ckks/encoder.go:519-548, in complex128 arithmetic; see `Ring.decodeRealSlots`.  The
subtraction that sets the imaginary parts is exact. -/
def Ring.decodeRealSlotsF (r : Ring) (roots : Nat → ℚ × ℚ) (mem : List (ℚ × ℚ)) (isNTT : Bool) (level : Nat) (scale : ℚ)
    (logSlots : Nat) (pt polypool : Rows) : Option (List (ℚ × ℚ)) :=
  (r.decodeRealToComplex isNTT level scale logSlots pt polypool).map fun v =>
    (specialFFTF (decide (3 ≤ logSlots)) (2 ^ logSlots) r.nthRoot roots (v ++ mem.drop (2 ^ logSlots))).take (2 ^ logSlots)

end FastKsw
