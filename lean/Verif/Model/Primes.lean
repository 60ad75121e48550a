import Verif.Model.Ring

/-!
# `ring/primes.go` and `DivRound` of `ring/int.go`

The searches take fuel (`none`: still searching).  `IsPrime` is `isPrime`
(Model/Ring).  A Go `int` root order is a natural number.
-/

namespace FastKsw

/-- loop of `NextNTTPrime`, ring/primes.go:51-58.  `some none`: error return. -/
def nextNTTPrimeLoop (nthRoot : UInt64) : Nat → UInt64 → Option (Option UInt64)
  | 0, _ => none
  | fuel + 1, qNext =>
    if isPrime qNext then some (some qNext)
    else
      let qNext := qNext + nthRoot
      if len64 qNext.toNat > 61 then some none
      else nextNTTPrimeLoop nthRoot fuel qNext

/-- `NextNTTPrime`, ring/primes.go:47-61 -/
def nextNTTPrime (fuel : Nat) (q nthRoot : UInt64) : Option (Option UInt64) :=
  nextNTTPrimeLoop nthRoot fuel (q + nthRoot)

/-- loop of `PreviousNTTPrime`, ring/primes.go:73-80: the test in the loop is on `q`, not `qPrev` -/
def previousNTTPrimeLoop (q nthRoot : UInt64) : Nat → UInt64 → Option (Option UInt64)
  | 0, _ => none
  | fuel + 1, qPrev =>
    if isPrime qPrev then some (some qPrev)
    else if q < nthRoot then some none
    else previousNTTPrimeLoop q nthRoot fuel (qPrev - nthRoot)

/-- `PreviousNTTPrime`, ring/primes.go:65-83 -/
def previousNTTPrime (fuel : Nat) (q nthRoot : UInt64) : Option (Option UInt64) :=
  if q < nthRoot then some none else previousNTTPrimeLoop q nthRoot fuel (q - nthRoot)

/-- loop of `GenerateNTTPrimesQ`, ring/primes.go:102-150.  `some none`: panic. -/
def genPrimesQLoop (nthRoot : UInt64) (levels : Nat) :
    Nat → List UInt64 → UInt64 → UInt64 → Bool → Bool → Option (Option (List UInt64))
  | 0, _, _, _, _, _ => none
  | fuel + 1, primes, next, prev, chkNext, chkPrev =>
    if ¬ (chkNext ∨ chkPrev) then some none
    else
      -- upward half, lines 108-128
      let overflow := next > 0xffffffffffffffff - nthRoot
      let next' := if chkNext ∧ ¬ overflow then next + nthRoot else next
      let primes' := if chkNext ∧ ¬ overflow ∧ isPrime next' then primes ++ [next'] else primes
      let chkNext' := chkNext && !decide overflow
      if chkNext ∧ ¬ overflow ∧ isPrime next' ∧ primes'.length = levels then some (some primes')
      else
        -- downward half, lines 130-149
        let underflow := prev < nthRoot
        let prev' := if chkPrev ∧ ¬ underflow then prev - nthRoot else prev
        let primes'' := if chkPrev ∧ ¬ underflow ∧ isPrime prev' then primes' ++ [prev'] else primes'
        let chkPrev' := chkPrev && !decide underflow
        if chkPrev ∧ ¬ underflow ∧ isPrime prev' ∧ primes''.length = levels then some (some primes'')
        else genPrimesQLoop nthRoot levels fuel primes'' next' prev' chkNext' chkPrev'

/-- `GenerateNTTPrimesQ`, ring/primes.go:87-151.  `1 << logQ` is 0 for `logQ ≥ 64`. -/
def generateNTTPrimesQ (fuel logQ : Nat) (nthRoot : UInt64) (levels : Nat) :
    Option (Option (List UInt64)) :=
  let qpow2 := UInt64.ofNat (2 ^ logQ)
  genPrimesQLoop nthRoot levels fuel [] (qpow2 + 1) (qpow2 + 1) true true

/-- loop of `GenerateNTTPrimesP`, ring/primes.go:166-186 -/
def genPrimesPLoop (nthRoot : UInt64) (n : Nat) :
    Nat → List UInt64 → UInt64 → Option (Option (List UInt64))
  | 0, _, _ => none
  | fuel + 1, primes, x =>
    if x > nthRoot then
      let x := x - nthRoot
      if isPrime x then
        let primes := primes ++ [x]
        if primes.length = n then some (some primes) else genPrimesPLoop nthRoot n fuel primes x
      else genPrimesPLoop nthRoot n fuel primes x
    else some none

/-- `GenerateNTTPrimesP`, ring/primes.go:156-187 -/
def generateNTTPrimesP (fuel logP : Nat) (nthRoot : UInt64) (n : Nat) :
    Option (Option (List UInt64)) :=
  genPrimesPLoop nthRoot n fuel [] (UInt64.ofNat (2 ^ logP) + 1)

/-- `GenerateNTTPrimes`, ring/primes.go:32-43 -/
def generateNTTPrimes (fuel logQ : Nat) (nthRoot : UInt64) (n : Nat) : Option (Option (List UInt64)) :=
  if logQ > 61 then some none
  else if logQ = 61 then generateNTTPrimesP fuel logQ nthRoot n
  else generateNTTPrimesQ fuel logQ nthRoot n

/-- `DivRound(a, b, i)`, ring/int.go:54-66, with `i` different from `b` (`a` is copied, so `i` may be
`a`).  `Quo`/`Rem` truncate; they panic for `b = 0` (`none`). -/
def divRound (a b : Int) : Option Int :=
  if b = 0 then none
  else
    let i := a.tdiv b
    let r := a.tmod b
    let r2 := r * 2
    if r2.natAbs ≥ b.natAbs then
      if a.sign = b.sign then some (i + 1) else some (i - 1)
    else some i

/-- `DivRound(a, b, b)`: the divisor is overwritten by the quotient before the remainder is taken -/
def divRoundAliasB (a b : Int) : Option Int :=
  if b = 0 then none
  else
    let i := a.tdiv b
    if i = 0 then none
    else
      let r := a.tmod i
      let r2 := r * 2
      if r2.natAbs ≥ i.natAbs then
        if a.sign = i.sign then some (i + 1) else some (i - 1)
      else some i

end FastKsw
