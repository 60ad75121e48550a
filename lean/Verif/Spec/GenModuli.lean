import Verif.Model.ParamsLit

/-!
# What the generation of moduli from bit sizes has to deliver

Stated on numbers, without the search: which numbers are usable moduli of a size, and which of them are the nearest to
the power of two.
-/

namespace FastKsw

/-- a prime with a primitive root of unity of order `m` (a divisor of `x - 1`) -/
def NttPrime (m x : ℕ) : Prop := x.Prime ∧ x % m = 1

/-- how far a modulus is from the power of two plus one -/
def offTwoPow (s x : ℕ) : ℕ := ((x : ℤ) - (2 ^ s + 1)).natAbs

/-- the usable moduli of size `s`: 64-bit NTT primes; of the largest size only those below the power of two.  The number
`2^s + 1` itself is left out, although it may be prime (ring/primes.go:96-97, 164). -/
structure ModulusOf (m s : ℕ) (x : UInt64) : Prop where
  ntt : NttPrime m x.toNat
  below : s = 61 → x.toNat < 2 ^ 61
  ne : x.toNat ≠ 2 ^ s + 1

/-- `n` distinct usable moduli of size `s`, the nearest ones to the power of two, nearest first -/
structure NearestModuli (m s n : ℕ) (l : List UInt64) : Prop where
  length : l.length = n
  nodup : l.Nodup
  usable : ∀ x ∈ l, ModulusOf m s x
  sorted : l.Pairwise fun x y => offTwoPow s x.toNat ≤ offTwoPow s y.toNat
  nearest : ∀ y, ModulusOf m s y → y ∉ l → ∀ x ∈ l, offTwoPow s x.toNat ≤ offTwoPow s y.toNat

/-- there are not `n` usable moduli of size `s` -/
def TooFew (m s n : ℕ) : Prop := ∀ l : List UInt64, l.Nodup → (∀ x ∈ l, ModulusOf m s x) → l.length < n

/-- `moduli` realises the sizes `sizes` -/
structure ModuliFor (m : ℕ) (sizes : List ℤ) (moduli : List UInt64) : Prop where
  length : moduli.length = sizes.length
  usable : ∀ i (h : i < sizes.length), ModulusOf m (sizes[i]).toNat (moduli.getD i 0)
  distinct : ∀ i j (_ : i < j) (hj : j < sizes.length), sizes[i] = sizes[j] → moduli.getD i 0 ≠ moduli.getD j 0
  sorted : ∀ i j (_ : i < j) (hj : j < sizes.length), sizes[i] = sizes[j] →
    offTwoPow (sizes[i]).toNat (moduli.getD i 0).toNat ≤ offTwoPow (sizes[j]).toNat (moduli.getD j 0).toNat
  nearest : ∀ i (h : i < sizes.length) (y : UInt64), ModulusOf m (sizes[i]).toNat y →
    (∀ j (hj : j < sizes.length), sizes[j] = sizes[i] → moduli.getD j 0 ≠ y) →
    offTwoPow (sizes[i]).toNat (moduli.getD i 0).toNat ≤ offTwoPow (sizes[i]).toNat y.toNat

/-- the sizes are within the documented limits -/
def SizesInRange (logN : ℤ) (logQ logP : List ℤ) : Prop := 4 ≤ logN ∧ logN ≤ 17 ∧ logQ.length ≤ 100 ∧ logP.length ≤ 100 ∧
  (∀ s ∈ logQ, 1 ≤ s ∧ s ≤ 60) ∧ ∀ s ∈ logP, 1 ≤ s ∧ s ≤ 61

/-- the logarithm of half the root order: the degree, twice the degree in the conjugate-invariant ring -/
def sizeDegree (logN : ℤ) : RingType → ℤ
  | .standard => logN
  | .conjugateInvariant => logN + 1

/-- a literal given by sizes -/
def sizeLit (logN : ℤ) (logQ logP : List ℤ) (sigma : UInt64) (h : ℕ) (ty : RingType) : ParamLit :=
  ⟨logN, none, none, some logQ, some logP, sigma, h, ty⟩

end FastKsw
