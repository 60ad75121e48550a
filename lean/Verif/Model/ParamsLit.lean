import Verif.Model.Params
import Mathlib.Data.List.Dedup
import Verif.Model.Primes
import Verif.Model.Bytes

/-!
# `rlwe/params.go`, `ckks/params.go`: literals, equality and serialization of parameters

Floats are kept as bit patterns.  The `int` fields `h` are kept as their 64-bit two's complement, a natural number below
`2^64`.  An error of `NewParameters` (including exhausted fuel of the root search) is `Go.err`.

`encoding/json` is not modelled as text: a document is an `Option` of the literal that `json.Unmarshal` would fill, `none` being
a text that is not JSON (which leaves the literal zero).  `json.Marshal` fails on NaN and infinities.
-/

namespace FastKsw

/-- an error return -/
def Go.ofExcept {α : Type} : Except ParamErr α → Go α
  | .ok a => .ok a
  | .error _ => .err

/-- `uint8(ringType)`, ring/ring.go:33-40 -/
def RingType.toByte : RingType → UInt8
  | .standard => 0
  | .conjugateInvariant => 1

/-- `ring.Type(b)`; on other bytes `NewRingFromType` returns an error, ring/ring.go:131-140 -/
def RingType.ofByte (b : UInt8) : Option RingType :=
  if b = 0 then some .standard else if b = 1 then some .conjugateInvariant else none

/-- `EqualSliceUint64`, utils/utils.go:50-56: ranges over `a`; `&&` does not evaluate `b[i]` once `v` is false -/
def equalSliceLoop (a b : List UInt64) : Bool → List Nat → Go Bool
  | v, [] => .ok v
  | v, i :: l => if v then do
      let x ← .ofOption a[i]?
      let y ← .ofOption b[i]?
      equalSliceLoop a b (x == y) l
    else equalSliceLoop a b false l

def equalSliceUint64 (a b : List UInt64) : Go Bool := equalSliceLoop a b true (List.range a.length)

/-- `a && b` with a call on the right -/
def Go.and (a : Bool) (b : Go Bool) : Go Bool := if a then b else .ok false

/-- `Parameters.Equals`, rlwe/params.go:395-403 -/
def RParams.equals (p other : RParams) : Go Bool := do
  let res := p.logN == other.logN
  let res ← Go.and res (equalSliceUint64 p.qi other.qi)
  let res ← Go.and res (equalSliceUint64 p.pi other.pi)
  let res := res && p.h == other.h
  let res := res && floatEq p.sigma other.sigma
  let res := res && p.ringType == other.ringType
  return res

/-- the zero value `Parameters{}`; the ring is a nil pointer -/
def RParams.zero : RParams := ⟨0, [], [], 0, 0, ⟨0, 0, [], [], .standard⟩, none, .standard⟩

/-- `MarshalBinarySize`, rlwe/params.go:476-478 -/
def RParams.marshalBinarySize (p : RParams) : Nat := 20 + 8 * (p.qi.length + p.pi.length)

/-- `MarshalBinary`, rlwe/params.go:423-445 -/
def RParams.marshalBinary (p : RParams) : Bytes :=
  if p.logN = 0 then []
  else
    let b : Buffer := ⟨[]⟩
    let b := b.writeUint8 (UInt8.ofNat p.logN)
    let b := b.writeUint8 (UInt8.ofNat p.qi.length)
    let b := b.writeUint8 (UInt8.ofNat p.pi.length)
    let b := b.writeUint64 (UInt64.ofNat p.h)
    let b := b.writeUint64 p.sigma
    let b := b.writeUint8 p.ringType.toByte
    let b := b.writeUint64Slice p.qi
    let b := b.writeUint64Slice p.pi
    b.buf

/-- `UnmarshalBinary`, rlwe/params.go:449-473 -/
def RParams.unmarshalBinary (fuel : Nat) (data : Bytes) : Go RParams :=
  if data.length < 11 then .err
  else do
    let b : Buffer := ⟨data⟩
    let (logN, b) ← b.readUint8
    let (lenQ, b) ← b.readUint8
    let (lenP, b) ← b.readUint8
    let (h, b) ← b.readUint64
    let (sigma, b) ← b.readUint64
    let (ty, b) ← b.readUint8
    let _ ← Go.ofExcept (checkSizeParams logN.toNat lenQ.toNat lenP.toNat)
    let (qi, b) ← b.readUint64Slice lenQ.toNat
    let (pi, _) ← b.readUint64Slice lenP.toNat
    match RingType.ofByte ty with
    | some ty => Go.ofExcept (newParameters fuel logN.toNat qi pi h.toNat sigma ty)
    | none => .err

/-- `ckks.Parameters`, ckks/params.go:361-366 -/
structure CParams where
  rl : RParams
  logSlots : Int
  defaultScale : UInt64

/-- `minLogSlots`, ckks/params.go:32 -/
def minLogSlots : Int := 0

/-- `ckks.NewParameters`, ckks/params.go:370-380 -/
def ckksNewParameters (rl : RParams) (logSlots : Int) (defaultScale : UInt64) : Go CParams := do
  let z ← rl.equals .zero
  if z then .err
  else if logSlots > (len64 rl.ringQ.nthRoot : Int) - 3 ∨ logSlots < minLogSlots then .err
  else return ⟨rl, logSlots, defaultScale⟩

/-- `ckks.Parameters.Equals`, ckks/params.go:542-547 -/
def CParams.equals (p other : CParams) : Go Bool := do
  let res ← p.rl.equals other.rl
  let res := res && p.logSlots == other.logSlots
  let res := res && floatEq p.defaultScale other.defaultScale
  return res

/-- `ckks.Parameters.MarshalBinarySize`, ckks/params.go:593-595 -/
def CParams.marshalBinarySize (p : CParams) : Nat := p.rl.marshalBinarySize + 9

/-- `ckks.Parameters.MarshalBinary`, ckks/params.go:560-577 -/
def CParams.marshalBinary (p : CParams) : Bytes :=
  if p.rl.logN = 0 then []
  else
    let b : Buffer := ⟨[]⟩
    let b := b.writeUint8Slice p.rl.marshalBinary
    let b := b.writeUint8 (UInt8.ofInt p.logSlots)
    let b := b.writeUint64 p.defaultScale
    b.buf

/-- `ckks.Parameters.UnmarshalBinary`, ckks/params.go:581-590: the generic parameters are decoded from the start of the data,
the rest from its end (`UnmarshalBinary` of the generic parameters succeeds on at least 20 bytes only) -/
def CParams.unmarshalBinary (fuel : Nat) (data : Bytes) : Go CParams := do
  let rl ← RParams.unmarshalBinary fuel data
  let logSlots ← byteAt data (data.length - 9)
  let scale ← Go.ofOption (rd64 (data.drop (data.length - 8)))
  ckksNewParameters rl logSlots.toNat scale

/-! ## Literals -/

/-- `checkModuliLogSize`, rlwe/params.go:549-564 -/
def checkModuliLogSize (logQ logP : List Int) : Except ParamErr Unit :=
  if logQ.any (fun qi => decide (qi ≤ 0 ∨ qi > maxModuliSize)) then .error .moduliSize
  else if logP.any (fun pi => decide (pi ≤ 0 ∨ pi > (maxModuliSize : Int) + 1)) then .error .moduliSize
  else .ok ()

/-- the two assignment loops of `GenModuli`, rlwe/params.go:593-603: `primes[s][0]` (panics when there is none), then
`primes[s] = primes[s][1:]` -/
def assignPrimes (primes : Int → List UInt64) : List Int → Go (List UInt64 × (Int → List UInt64))
  | [] => .ok ([], primes)
  | s :: l => match primes s with
    | [] => .panic
    | x :: xs => do
      let (r, primes) ← assignPrimes (Function.update primes s xs) l
      return (x :: r, primes)

/-- the loop that generates the primes of each size, rlwe/params.go:587-591, in any order of the map; `none`: still searching -/
def genPrimesFor (fuel : Nat) (nthRoot : UInt64) (sizes : List Int) : List Int → Option (Go (Int → List UInt64))
  | [] => some (.ok fun _ => [])
  | s :: l => match generateNTTPrimes fuel s.toNat nthRoot (sizes.count s) with
    | none => none
    | some none => some .panic
    | some (some ps) => match genPrimesFor fuel nthRoot sizes l with
      | some (.ok f) => some (.ok (Function.update f s ps))
      | r => r

/-- `GenModuli`, rlwe/params.go:567-606; the sizes are visited in the order of their first occurrence -/
def genModuli (fuel : Nat) (logN : Int) (logQ logP : List Int) : Option (Go (List UInt64 × List UInt64)) :=
  if logN < 0 then some .err
  else match checkSizeParams logN.toNat logQ.length logP.length with
  | .error _ => some .err
  | .ok _ => match checkModuliLogSize logQ logP with
    | .error _ => some .err
    | .ok _ => match genPrimesFor fuel (UInt64.ofNat (2 ^ (logN.toNat + 1))) (logQ ++ logP) (logQ ++ logP).dedup with
      | none => none
      | some .err => some .err
      | some .panic => some .panic
      | some (.ok primes) => some (do
        let (q, primes) ← assignPrimes primes logQ
        let (p, _) ← assignPrimes primes logP
        return (q, p))

/-- `ParametersLiteral`, rlwe/params.go:61-70 -/
structure ParamLit where
  logN : Int
  q : Option (List UInt64)
  p : Option (List UInt64)
  logQ : Option (List Int)
  logP : Option (List Int)
  sigma : UInt64
  h : Nat
  ringType : RingType

/-- `DefaultSigma`, 3.2 -/
def defaultSigma : UInt64 := 0x400999999999999a

/-- `NewParameters` on an `int` degree: a negative one fails the size check -/
def newParametersInt (fuel : Nat) (logN : Int) (q p : List UInt64) (h : Nat) (sigma : UInt64) (ty : RingType) : Go RParams :=
  if logN < 0 then .err else Go.ofExcept (newParameters fuel logN.toNat q p h sigma ty)

/-- `H` of a literal, rlwe/params.go:129-131: a negative shift count panics -/
def ParamLit.fillH (l : ParamLit) : Go Nat :=
  if l.h = 0 then if l.logN - 1 < 0 then .panic else .ok (2 ^ (l.logN - 1).toNat % 2 ^ 64) else .ok l.h

/-- `NewParametersFromLiteral`, rlwe/params.go:127-160 -/
def newParametersFromLiteral (fuel : Nat) (l : ParamLit) : Option (Go RParams) :=
  match l.fillH with
  | .panic => some .panic
  | .err => some .err
  | .ok h =>
    let sigma := if floatEq l.sigma 0 then defaultSigma else l.sigma
    match l.q, l.logQ, l.p, l.logP with
    | some q, none, some p, none => some (newParametersInt fuel l.logN q p h sigma l.ringType)
    | none, some logQ, none, some logP =>
      match genModuli fuel (match l.ringType with | .standard => l.logN | .conjugateInvariant => l.logN + 1) logQ logP with
      | none => none
      | some r => some (do
        let (q, p) ← r
        newParametersInt fuel l.logN q p h sigma l.ringType)
    | _, _, _, _ => some .err

/-- neither NaN nor infinite -/
def floatFinite (b : UInt64) : Bool := decide (b.toNat % 2 ^ 63 < 2047 * 2 ^ 52)

/-- `Parameters.MarshalJSON`, rlwe/params.go:481-483: the ring type is left at its zero value -/
def RParams.marshalJSON (p : RParams) : Go ParamLit :=
  if floatFinite p.sigma then
    .ok { logN := p.logN, q := some p.qi, p := some p.pi, logQ := none, logP := none, sigma := p.sigma, h := p.h,
          ringType := .standard }
  else .err

/-- `Parameters.UnmarshalJSON`, rlwe/params.go:486-493 -/
def RParams.unmarshalJSON (fuel : Nat) (doc : Option ParamLit) : Option (Go RParams) := match doc with
  | none => some .err
  | some l => newParametersFromLiteral fuel l

/-- `ckks.ParametersLiteral`, ckks/params.go:334-346 -/
structure CParamLit where
  rl : ParamLit
  logSlots : Int
  defaultScale : UInt64

/-- the zero value of the literal -/
def CParamLit.zero : CParamLit := ⟨⟨0, none, none, none, none, 0, 0, .standard⟩, 0, 0⟩

/-- `ckks.NewParametersFromLiteral`, ckks/params.go:389-405 -/
def ckksNewParametersFromLiteral (fuel : Nat) (l : CParamLit) : Option (Go CParams) :=
  match newParametersFromLiteral fuel l.rl with
  | none => none
  | some r => some (do
    let rl ← r
    let logSlots := if l.logSlots = 0 then
        match l.rl.ringType with
        | .standard => l.rl.logN - 1
        | .conjugateInvariant => l.rl.logN
      else l.logSlots
    ckksNewParameters rl logSlots l.defaultScale)

/-- `ckks.Parameters.MarshalJSON`, ckks/params.go:598-600 -/
def CParams.marshalJSON (p : CParams) : Go CParamLit :=
  if floatFinite p.rl.sigma ∧ floatFinite p.defaultScale then
    .ok ⟨{ logN := p.rl.logN, q := some p.rl.qi, p := some p.rl.pi, logQ := none, logP := none, sigma := p.rl.sigma,
           h := p.rl.h, ringType := p.rl.ringType }, p.logSlots, p.defaultScale⟩
  else .err

/-- `ckks.Parameters.UnmarshalJSON`, ckks/params.go:603-608: the error of `json.Unmarshal` is ignored -/
def CParams.unmarshalJSON (fuel : Nat) (doc : Option CParamLit) : Option (Go CParams) := match doc with
  | none => ckksNewParametersFromLiteral fuel .zero
  | some l => ckksNewParametersFromLiteral fuel l

end FastKsw
