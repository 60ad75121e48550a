import Verif.Model.NTT
import Verif.Model.SmallPrimes
import Mathlib.Data.Nat.Prime.Defs

/-!
# `ring/ring.go`, `ring/utils.go`: construction of a ring

The Go `Ring` is a structure of slices indexed by the modulus; the model is a
list of per-modulus records (`SubRing`).  Loops whose termination is not
guaranteed by the code (Pollard's rho, the primitive-root search) take fuel and
return `none` when it runs out.
-/

namespace FastKsw

/-- `IsPrime`, ring/primes.go:25-27: `big.Int.ProbablyPrime(0)`, documented as
exact below 2^64 (trusted). -/
def isPrime (x : UInt64) : Prop := Nat.Prime x.toNat

instance (x : UInt64) : Decidable (isPrime x) := by unfold isPrime; infer_instance

/-- `polynomialPollardsRho`, ring/utils.go:110-115. -/
def polynomialPollardsRho (x1 x2 c : UInt64) : UInt64 :=
  (modExp x1 2 x2 + c) % x2

/-- inner `for d != 0` loop of `factorizationPollardsRho`, ring/utils.go:129-144.
`some d` with `d > 1`: returned factor; `some 0`: loop left with `d = 0`. -/
def pollardInner (m c : UInt64) : Nat → UInt64 → UInt64 → Option UInt64
  | 0, _, _ => none
  | fuel + 1, x, y =>
    let x := polynomialPollardsRho x m c
    let y := polynomialPollardsRho (polynomialPollardsRho y m c) m c
    let (x, y) := if y > x then (y, x) else (x, y)
    let d := gcd (x - y) m
    if d > 1 then some d
    else if d ≠ 0 then pollardInner m c fuel x y
    else some 0

/-- `factorizationPollardsRho`, ring/utils.go:119-147; `c` runs from 1 to 9. -/
def pollardOuter (fuel : Nat) (m : UInt64) : List UInt64 → Option UInt64
  | [] => some 0
  | c :: cs =>
    match pollardInner m c fuel 2 2 with
    | none => none
    | some d => if d > 1 then some d else pollardOuter fuel m cs

def factorizationPollardsRho (fuel : Nat) (m : UInt64) : Option UInt64 :=
  pollardOuter fuel m [1, 2, 3, 4, 5, 6, 7, 8, 9]

/-- `for m%smallPrime == 0 { m /= smallPrime; addFactor = true }`,
ring/utils.go:157-161.  64 iterations always suffice for m > 0, p ≥ 2. -/
def divOut (p : UInt64) : Nat → UInt64 → Bool → UInt64 × Bool
  | 0, m, b => (m, b)
  | fuel + 1, m, b => if m % p = 0 then divOut p fuel (m / p) true else (m, b)

/-- loop over the small primes, ring/utils.go:155-165. -/
def smallFactors : List Nat → UInt64 → List UInt64 → UInt64 × List UInt64
  | [], m, fs => (m, fs)
  | p :: ps, m, fs =>
    let r := divOut (UInt64.ofNat p) 64 m false
    smallFactors ps r.1 (if r.2 then fs ++ [UInt64.ofNat p] else fs)

/-- loop over the other factors, ring/utils.go:172-183. -/
def largeFactors (fuelRho : Nat) : Nat → UInt64 → List UInt64 → Option (List UInt64)
  | 0, _, _ => none
  | fuel + 1, m, fs =>
    match factorizationPollardsRho fuelRho m with
    | none => none
    | some factor =>
      if factor = 0 then some (fs ++ [m])
      else
        let m := m / factor
        if fs.length > 0 ∧ fs.getLast? = some factor then largeFactors fuelRho fuel m fs
        else largeFactors fuelRho fuel m (fs ++ [factor])

/-- `getFactors`, ring/utils.go:150-185. -/
def getFactors (fuel : Nat) (n : UInt64) : Option (List UInt64) :=
  let r := smallFactors smallPrimes n []
  if r.1 = 1 then some r.2 else largeFactors fuel 64 r.1 r.2

/-- inner loop of `primitiveRoot`, ring/utils.go:96-104: the new value of
`notFoundPrimitiveRoot`. -/
def rootRejected (q g : UInt64) : List UInt64 → Bool → Bool
  | [], nf => nf
  | factor :: fs, _ =>
    if modExp g ((q - 1) / factor) q = 1 then true else rootRejected q g fs false

/-- outer loop of `primitiveRoot`, ring/utils.go:94-105. -/
def primitiveRootLoop (q : UInt64) (factors : List UInt64) : Nat → UInt64 → Option UInt64
  | 0, _ => none
  | fuel + 1, g =>
    let g := g + 1
    if rootRejected q g factors true then primitiveRootLoop q factors fuel g else some g

/-- `primitiveRoot`, ring/utils.go:85-107. -/
def primitiveRoot (fuel : Nat) (q : UInt64) : Option UInt64 :=
  (getFactors fuel (q - 1)).bind fun factors => primitiveRootLoop q factors fuel 2

/-- Per-modulus part of `Ring`, ring/ring.go:78-110. -/
structure SubRing where
  q : UInt64
  mask : UInt64
  bred : BredParams
  mred : UInt64
  psiMont : UInt64
  psiInvMont : UInt64
  nttPsi : Row
  nttPsiInv : Row
  nttNInv : UInt64
deriving Inhabited

/-- `Ring` type, ring/ring.go:33-40 (`Standard`, `ConjugateInvariant`). -/
inductive RingType
  | standard
  | conjugateInvariant
  deriving DecidableEq, Repr

/-- `Ring`, ring/ring.go:78-110.  `ModulusBigint` is the product of the moduli and
`AllowsNTT` is true of every value `newRing` returns. -/
structure Ring where
  n : Nat
  nthRoot : Nat
  subs : List SubRing
  rescaleParams : List (List UInt64)
  type : RingType

/-- `r.Modulus`. -/
def Ring.moduli (r : Ring) : List UInt64 := r.subs.map (·.q)

/-- Table loop of `genNTTParams`, ring/ring.go:329-338 (one of the two tables).
`start` is the entry 0, the table is allocated with zeroes. -/
def powTable (start psi q mred : UInt64) (logNthRoot len : Nat) : Row :=
  (List.range (len - 1)).foldl (fun tab j =>
    let prev := bitReverse64 j logNthRoot
    let next := bitReverse64 (j + 1) logNthRoot
    tab.set next (mred' (tab.at prev) psi q mred)) ((List.replicate len 0).set 0 start)
where mred' := FastKsw.mred

/-- `BRedParams` etc. and the NTT constants of one modulus,
ring/ring.go:225-253 and 298-338. -/
def genSub (fuel : Nat) (nthRoot : Nat) (qi : UInt64) : Option SubRing :=
  let bp := bredParams qi
  let mp := if (qi &&& (qi - 1)) ≠ 0 ∧ qi ≠ 0 then mredParams qi else 0
  let logNthRoot := len64 (nthRoot / 2) - 1
  (primitiveRoot fuel qi).bind fun g =>
    let power := (qi - 1) / UInt64.ofNat nthRoot
    let powerInv := (qi - 1) - power
    let psiMont := mform (modExp g power qi) qi bp
    let psiInvMont := mform (modExp g powerInv qi) qi bp
    some {
      q := qi
      mask := UInt64.ofNat (2 ^ (len64 qi.toNat)) - 1
      bred := bp
      mred := mp
      psiMont := psiMont
      psiInvMont := psiInvMont
      nttPsi := powTable (mform 1 qi bp) psiMont qi mp logNthRoot (nthRoot / 2)
      nttPsiInv := powTable (mform 1 qi bp) psiInvMont qi mp logNthRoot (nthRoot / 2)
      nttNInv := mform (modExp (UInt64.ofNat (nthRoot / 2)) (qi - 2) qi) qi bp }

/-- `AllDistinct`, utils/utils.go:154-163. -/
def allDistinct : List UInt64 → List UInt64 → Bool
  | [], _ => true
  | x :: xs, seen => if x ∈ seen then false else allDistinct xs (x :: seen)

inductive RingErr
  | degree | empty | notDistinct | notPrime | notNTT | noFuel
  deriving DecidableEq, Repr

/-- `RescaleParams`, ring/ring.go:284-295: entry `[j-1][i]` for `0 < j`, `i < j`. -/
def genRescaleParams (qs : List UInt64) : List (List UInt64) :=
  (List.range (qs.length - 1)).map fun j1 =>
    (List.range (j1 + 1)).map fun i =>
      let qi := qs.getD i 0
      mform (qi - modExp (qs.getD (j1 + 1) 0) (qi - 2) qi) qi (bredParams qi)

/-- `setParameters` checks (ring/ring.go:205-220), `genNTTParams`
(ring/ring.go:260-343).  The first loop checks all moduli before anything is
generated. -/
def newRingCustom (fuel : Nat) (N : Nat) (moduli : List UInt64) (ty : RingType) (nthRoot : Nat) :
    Except RingErr Ring :=
  if N < 16 ∨ (Nat.land N (N - 1) ≠ 0 ∧ N ≠ 0) then .error .degree
  else if moduli.length = 0 then .error .empty
  else if ¬ allDistinct moduli [] then .error .notDistinct
  else
    match moduli.find? (fun qi => decide (¬ isPrime qi) || (qi &&& (UInt64.ofNat nthRoot - 1)) != 1) with
    | some qi => if ¬ isPrime qi then .error .notPrime else .error .notNTT
    | none =>
      match moduli.mapM (genSub fuel nthRoot) with
      | none => .error .noFuel
      | some subs =>
        .ok { n := N, nthRoot := nthRoot, subs := subs,
              rescaleParams := genRescaleParams moduli, type := ty }

/-- `NewRing`, ring/ring.go:115-117. -/
def newRing (fuel : Nat) (N : Nat) (moduli : List UInt64) : Except RingErr Ring :=
  newRingCustom fuel N moduli .standard (2 * N)

/-- `NewRingConjugateInvariant`, ring/ring.go:122-124. -/
def newRingConjugateInvariant (fuel : Nat) (N : Nat) (moduli : List UInt64) : Except RingErr Ring :=
  newRingCustom fuel N moduli .conjugateInvariant (4 * N)

/-- `NewRingFromType`, ring/ring.go:131-140. -/
def newRingFromType (fuel : Nat) (N : Nat) (moduli : List UInt64) : RingType → Except RingErr Ring
  | .standard => newRingCustom fuel N moduli .standard (2 * N)
  | .conjugateInvariant => newRingCustom fuel N moduli .conjugateInvariant (4 * N)

end FastKsw
