import Verif.Model.ParamsLit

/-!
# `ring/ring.go`, `rlwe/params.go`, `ckks/params.go`: rings and parameters derived from others, serialization of rings

`encoding/gob` is not modelled as bytes: a document is the structure that is encoded.
-/

namespace FastKsw

/-- `genNTTParams`, ring/ring.go:260-343, on a ring whose moduli are set.  `genSub` recomputes the reduction parameters of the
moduli as well, which are the same. -/
def Ring.genNTTParams (fuel : Nat) (r : Ring) (nthRoot : Nat) : Except RingErr Ring :=
  match r.moduli.find? (fun qi => decide (¬ isPrime qi) || (qi &&& (UInt64.ofNat nthRoot - 1)) != 1) with
  | some qi => if ¬ isPrime qi then .error .notPrime else .error .notNTT
  | none =>
    match r.moduli.mapM (genSub fuel nthRoot) with
    | none => .error .noFuel
    | some subs => .ok { r with nthRoot := nthRoot, subs := subs, rescaleParams := genRescaleParams r.moduli }

/-- `ConjugateInvariantRing`, ring/ring.go:166-174 -/
def Ring.conjugateInvariantRing (fuel : Nat) (r : Ring) : Except RingErr Ring :=
  if r.type = .conjugateInvariant then .ok r
  else Ring.genNTTParams fuel { r with n := r.n / 2, type := .conjugateInvariant } (r.n / 2 * 4)

/-- `StandardRing`, ring/ring.go:180-189 -/
def Ring.standardRing (fuel : Nat) (r : Ring) : Except RingErr Ring :=
  if r.type = .standard then .ok r
  else Ring.genNTTParams fuel { r with n := r.n * 2, type := .standard } (r.n * 2 * 2)

/-- `ringParams`, ring/ring.go:346-350 -/
structure RingDoc where
  n : Int
  nthRoot : UInt64
  modulus : List UInt64

/-- `MarshalBinary`, ring/ring.go:353-363 -/
def Ring.marshalBinary (r : Ring) : RingDoc := ⟨r.n, UInt64.ofNat r.nthRoot, r.moduli⟩

/-- a `Ring` in memory: the embedded interface `NumberTheoreticTransformer` may be nil -/
structure RawRing where
  ring : Ring
  ntt : Option RingType

/-- `UnmarshalBinary`, ring/ring.go:366-384, with `setParameters` and `genNTTParams`; `doc` is `none` when `Decode` fails and
`ntt` is the transformer of the receiver, which is not assigned.  `none`: the search of a primitive root does not end, or
`NthRoot` is not a power of two (the index computations of the tables are then not modelled). -/
def RawRing.unmarshalBinary (fuel : Nat) (ntt : Option RingType) (doc : Option RingDoc) : Option (Go RawRing) :=
  match doc with
  | none => some .err
  | some d =>
    if d.n < 16 ∨ Nat.land d.n.toNat (d.n.toNat - 1) ≠ 0 ∨ d.modulus = [] ∨ allDistinct d.modulus [] = false then some .err
    else if d.nthRoot = 0 then some .panic
    else if Nat.land d.nthRoot.toNat (d.nthRoot.toNat - 1) ≠ 0 then none
    else match newRingCustom fuel d.n.toNat d.modulus (ntt.getD .standard) d.nthRoot.toNat with
      | .error .noFuel => none
      | .error _ => some .err
      | .ok r => some (.ok ⟨r, ntt⟩)

/-- a call of a method of the transformer (`NTT`, `InvNTT`, …): a nil interface panics -/
def RawRing.call {α : Type} (r : RawRing) (f : Ring → RingType → α) : Go α := match r.ntt with
  | none => .panic
  | some ty => .ok (f r.ring ty)

/-- `initRings`, rlwe/params.go:608-616 -/
def RParams.initRings (fuel : Nat) (p : RParams) : Except ParamErr RParams :=
  match newRingFromType fuel (2 ^ p.logN) p.qi p.ringType with
  | .error e => .error (.ring e)
  | .ok rQ =>
    if p.pi.length ≠ 0 then
      match newRingFromType fuel (2 ^ p.logN) p.pi p.ringType with
      | .error e => .error (.ring e)
      | .ok rP => .ok { p with ringQ := rQ, ringP := some rP }
    else .ok { p with ringQ := rQ }

/-- `StandardParameters`, rlwe/params.go:165-181 -/
def RParams.standardParameters (fuel : Nat) (p : RParams) : Except ParamErr RParams := match p.ringType with
  | .standard => .ok p
  | .conjugateInvariant => RParams.initRings fuel { p with logN := p.logN + 1, ringType := .standard }

/-- `CopyNew`, rlwe/params.go:410-420; errors are ignored (the ring is then nil or unusable, here `none`) -/
def RParams.copyNew (fuel : Nat) (p : RParams) : Option RParams :=
  match newRingFromType fuel (2 ^ p.logN) p.qi p.ringType with
  | .error _ => none
  | .ok rQ =>
    if p.pi.length > 0 then
      match newRingFromType fuel (2 ^ p.logN) p.pi p.ringType with
      | .error _ => none
      | .ok rP => some { p with ringQ := rQ, ringP := some rP }
    else some { p with ringQ := rQ }

/-- `StandardParameters`, ckks/params.go:410-417 -/
def CParams.standardParameters (fuel : Nat) (p : CParams) : Except ParamErr CParams :=
  if p.rl.ringType = .standard then .ok p
  else (p.rl.standardParameters fuel).map fun rl => { p with rl := rl }

/-- `Slots`, ckks/params.go:430-432 -/
def CParams.slots (p : CParams) : Nat := 1 <<< p.logSlots.toNat

/-- `MaxSlots`, ckks/params.go:435-444 -/
def CParams.maxSlots (p : CParams) : Nat := match p.rl.ringType with
  | .standard => (1 <<< p.rl.logN) >>> 1
  | .conjugateInvariant => 1 <<< p.rl.logN

/-- `MaxLogSlots`, ckks/params.go:447-456 -/
def CParams.maxLogSlots (p : CParams) : Int := match p.rl.ringType with
  | .standard => (p.rl.logN : Int) - 1
  | .conjugateInvariant => p.rl.logN

/-- `QLvl`, ckks/params.go:470-476; a level above the maximum panics -/
def CParams.qLvl (p : CParams) (level : Nat) : Option Nat :=
  if level < p.rl.qi.length then some ((p.rl.qi.take (level + 1)).foldl (fun a q => a * q.toNat) 1) else none

/-- `LogQLvl`, ckks/params.go:464-467: `BitLen` of the product -/
def CParams.logQLvl (p : CParams) (level : Nat) : Option Nat := (p.qLvl level).map len64

end FastKsw
