import Verif.Model.Bytes
import Verif.Model.VecOps
import Verif.Model.Ring

/-!
# Serialization of polynomials, ciphertexts and keys

`ring/ring_poly.go`, `rlwe/ring_qp.go`, `rlwe/marshaler.go`, `ckks/ciphertext.go`.  A write into `data[pointer:]` is a write
into the suffix of the list.  When a call returns an error the state of the receiver is not modelled.
-/

namespace FastKsw

/-- `Poly`, ring/ring_poly.go:28-32; `coeffs = none` is the nil slice -/
structure WPoly where
  coeffs : Option (List Row)
  isNTT : Bool
  isMForm : Bool
  deriving DecidableEq

/-- `new(ring.Poly)` -/
def WPoly.fresh : WPoly := ⟨none, false, false⟩

/-- `Degree`, ring_poly.go:45-47: panics without rows -/
def WPoly.degree (p : WPoly) : Go Nat := match p.coeffs.getD [] with
  | [] => .panic
  | r :: _ => .ok r.length

/-- `LenModuli`, ring_poly.go:50-52 -/
def WPoly.lenModuli (p : WPoly) : Nat := (p.coeffs.getD []).length

/-- `data[k] = v` -/
def setByte (data : Bytes) (k : Nat) (v : UInt8) : Go Bytes := putAt data k [v]

/-- `WriteCoeffsTo`, ring_poly.go:186-196, and `WriteCoeffsTo32`, 251-261: `w` is the word size in bytes and `enc` the
`PutUint` call -/
def writeCoeffs (w : Nat) (enc : UInt64 → Bytes) (pointer N num : Nat) (coeffs : List Row) (data : Bytes) : Go (Bytes × Nat) :=
  Go.foldList (fun (s : Bytes × Nat) i => do
    let row ← Go.ofOption coeffs[i]?
    let data ← Go.foldList (fun data j => do
      let v ← Go.ofOption row[j]?
      putAt data (s.2 + j * w) (enc v)) s.1 (List.range N)
    return (data, s.2 + N * w)) (data, pointer) (List.range num)

/-- `GetDataLen`, ring_poly.go:283-290, and `GetDataLen32`, 265-272 -/
def WPoly.dataLen (w : Nat) (p : WPoly) (withMetadata : Bool) : Go Nat := do
  let N ← p.degree
  return p.lenModuli * N * w + if withMetadata then 4 else 0

/-- `WriteTo`, ring_poly.go:200-222, and `WriteTo32`, 226-247: returns the data and the number of bytes written -/
def WPoly.writeToW (w : Nat) (enc : UInt64 → Bytes) (p : WPoly) (data : Bytes) : Go (Bytes × Nat) := do
  let N ← p.degree
  let len ← p.dataLen w true
  if data.length < len then .err
  else do
    let data ← setByte data 0 (UInt8.ofNat (len64 N) - 1)
    let data ← setByte data 1 (UInt8.ofNat p.lenModuli)
    let data ← if p.isNTT then setByte data 2 1 else .ok data
    let data ← if p.isMForm then setByte data 3 1 else .ok data
    writeCoeffs w enc 4 N p.lenModuli (p.coeffs.getD []) data

def WPoly.writeTo := WPoly.writeToW 8 be64
def WPoly.writeTo32 := WPoly.writeToW 4 be32

/-- `1 << b` as an `int` -/
def shl1 (b : UInt8) : Int := if b.toNat < 63 then 2 ^ b.toNat else if b.toNat = 63 then -2 ^ 63 else 0

/-- `make([]uint64, N)`: panics for a negative length or more than `2^48` bytes (the address space of the runtime) -/
def makeWords (N : Int) : Go Nat := if 0 ≤ N ∧ 8 * N ≤ 2 ^ 48 then .ok N.toNat else .panic

/-- `DecodeCoeffsNew`, ring_poly.go:306-317, and `DecodeCoeffsNew32`, 410-421 -/
def decodeCoeffsNew (w : Nat) (dec : Bytes → Option UInt64) (pointer : Nat) (N : Int) (num : Nat) (coeffs : List Row)
    (data : Bytes) : Go (List Row × Nat) :=
  Go.foldList (fun (s : List Row × Nat) i => do
    let n ← makeWords N
    if i < s.1.length then do
      let row ← Go.mapList (fun j => Go.ofOption (dec (data.drop (s.2 + j * w)))) (List.range n)
      return (s.1.set i row, s.2 + n * w)
    else .panic) (coeffs, pointer) (List.range num)

/-- `DecodePolyNew`, ring_poly.go:355-379, and `DecodePolyNew32`, 383-407, into the receiver `rcv`: returns the receiver and the
number of bytes decoded -/
def WPoly.decodePolyNewW (w : Nat) (dec : Bytes → Option UInt64) (rcv : WPoly) (data : Bytes) : Go (WPoly × Nat) := do
  let b0 ← byteAt data 0
  let b1 ← byteAt data 1
  let b2 ← byteAt data 2
  let b3 ← byteAt data 3
  let coeffs := rcv.coeffs.getD (List.replicate b1.toNat [])
  let (coeffs, pointer) ← decodeCoeffsNew w dec 4 (shl1 b0) b1.toNat coeffs data
  return (⟨some coeffs, rcv.isNTT || b2 == 1, rcv.isMForm || b3 == 1⟩, pointer)

def WPoly.decodePolyNew := WPoly.decodePolyNewW 8 rd64
def WPoly.decodePolyNew32 := WPoly.decodePolyNewW 4 rd32

/-- `MarshalBinary`, ring_poly.go:320-324 -/
def WPoly.marshalBinary (p : WPoly) : Go Bytes := do
  let len ← p.dataLen 8 true
  let (data, _) ← p.writeTo (List.replicate len 0)
  return data

/-- `UnmarshalBinary`, ring_poly.go:327-352; the product of two `int`s wraps -/
def WPoly.unmarshalBinary (rcv : WPoly) (data : Bytes) : Go WPoly := do
  let b0 ← byteAt data 0
  let b1 ← byteAt data 1
  let b2 ← byteAt data 2
  let b3 ← byteAt data 3
  if ((data.length - 4) / 8 : Nat) ≠ (shl1 b0 * b1.toNat).bmod (2 ^ 64) then .err
  else do
    let (p, _) ← (⟨rcv.coeffs, rcv.isNTT || b2 == 1, rcv.isMForm || b3 == 1⟩ : WPoly).decodePolyNew data
    return p

/-! ## `rlwe/ring_qp.go` -/

/-- `PolyQP`, ring_qp.go:30-32; `none` is the nil pointer -/
structure WPolyQP where
  Q : Option WPoly
  P : Option WPoly
  deriving DecidableEq

/-- `GetDataLen(true)`, ring_qp.go:352-363 -/
def WPolyQP.dataLen (p : WPolyQP) : Go Nat := do
  let q ← match p.Q with
    | none => .ok 0
    | some q => q.dataLen 8 true
  let p ← match p.P with
    | none => .ok 0
    | some p => p.dataLen 8 true
  return 2 + q + p

/-- writing a polynomial into `data[pt:]` -/
def WPoly.writeAt (p : WPoly) (data : Bytes) (pt : Nat) : Go (Bytes × Nat) :=
  if data.length < pt then .panic
  else do
    let (d, inc) ← p.writeTo (data.drop pt)
    return (data.take pt ++ d, pt + inc)

/-- `WriteTo`, ring_qp.go:366-394.  The flags are read back from `data`; a nil pointer panics in `Degree`. -/
def WPolyQP.writeTo (p : WPolyQP) (data : Bytes) : Go (Bytes × Nat) := do
  let data ← if p.Q.isSome then setByte data 0 1 else .ok data
  let data ← if p.P.isSome then setByte data 1 1 else .ok data
  let b0 ← byteAt data 0
  let (data, pt) ← if b0 == 1 then (match p.Q with
    | none => .panic
    | some q => q.writeAt data 2) else .ok (data, 2)
  let b1 ← byteAt data 1
  if b1 == 1 then (match p.P with
    | none => .panic
    | some q => q.writeAt data pt) else return (data, pt)

/-- decoding into `data[pt:]` -/
def WPoly.decodeAt (rcv : WPoly) (data : Bytes) (pt : Nat) : Go (WPoly × Nat) :=
  if data.length < pt then .panic
  else do
    let (p, inc) ← rcv.decodePolyNew (data.drop pt)
    return (p, pt + inc)

/-- `DecodePolyNew`, ring_qp.go:397-420, into the receiver `rcv` -/
def WPolyQP.decodePolyNew (rcv : WPolyQP) (data : Bytes) : Go (WPolyQP × Nat) := do
  let b0 ← byteAt data 0
  let (q, pt) ← if b0 == 1 then do
    let (q, pt) ← WPoly.fresh.decodeAt data 2
    pure (some q, pt)
  else pure (rcv.Q, 2)
  let b1 ← byteAt data 1
  let (p, pt) ← if b1 == 1 then do
    let (p, pt) ← WPoly.fresh.decodeAt data pt
    pure (some p, pt)
  else pure (rcv.P, pt)
  return (⟨q, p⟩, pt)

/-! ## `rlwe/marshaler.go` -/

/-- `Ciphertext.GetDataLen(true)`, marshaler.go:27-39 -/
def ctDataLen (value : List WPoly) : Go Nat :=
  Go.foldList (fun len (el : WPoly) => do
    let l ← el.dataLen 8 true
    return len + l) 1 value

/-- `Ciphertext.MarshalBinary`, marshaler.go:43-63 -/
def ctMarshalBinary (value : List WPoly) : Go Bytes := do
  let len ← ctDataLen value
  let data ← setByte (List.replicate len 0) 0 (UInt8.ofNat value.length)
  let (data, _) ← Go.foldList (fun (s : Bytes × Nat) (el : WPoly) => el.writeAt s.1 s.2) (data, 1) value
  return data

/-- `Ciphertext.UnmarshalBinary`, marshaler.go:66-92 -/
def ctUnmarshalBinary (data : Bytes) : Go (List WPoly) :=
  if data.length < 10 then .err
  else do
    let b0 ← byteAt data 0
    let (value, pointer) ← Go.foldList (fun (s : List WPoly × Nat) _ => do
      let (p, pt) ← WPoly.fresh.decodeAt data s.2
      return (s.1 ++ [p], pt)) ([], 1) (List.range b0.toNat)
    if pointer ≠ data.length then .err else return value

/-- `ckks.Ciphertext`, the scale as its bit pattern -/
structure WCt where
  value : List WPoly
  scale : UInt64
  deriving DecidableEq

/-- `MarshalBinary`, ckks/ciphertext.go:97-109 -/
def WCt.marshalBinary (ct : WCt) : Go Bytes := do
  let d ← ctMarshalBinary ct.value
  return le64 ct.scale ++ d

/-- `UnmarshalBinary`, ckks/ciphertext.go:112-120 -/
def WCt.unmarshalBinary (data : Bytes) : Go WCt :=
  if data.length < 10 then .err
  else do
    let scale ← Go.ofOption (rdLe64 (data.take 8))
    let value ← ctUnmarshalBinary (data.drop 8)
    return ⟨value, scale⟩

/-- `SecretKey.MarshalBinary`, marshaler.go:95-106 -/
def skMarshalBinary (sk : WPolyQP) : Go Bytes := do
  let len ← sk.dataLen
  let (data, _) ← sk.writeTo (List.replicate len 0)
  return data

/-- `SecretKey.UnmarshalBinary`, marshaler.go:109-112 -/
def skUnmarshalBinary (rcv : WPolyQP) (data : Bytes) : Go WPolyQP := do
  let (p, _) ← rcv.decodePolyNew data
  return p

/-- writing into `data[pt:]` -/
def WPolyQP.writeAt (p : WPolyQP) (data : Bytes) (pt : Nat) : Go (Bytes × Nat) :=
  if data.length < pt then .panic
  else do
    let (d, inc) ← p.writeTo (data.drop pt)
    return (data.take pt ++ d, pt + inc)

/-- decoding from `data[pt:]` -/
def WPolyQP.decodeAt (rcv : WPolyQP) (data : Bytes) (pt : Nat) : Go (WPolyQP × Nat) :=
  if data.length < pt then .panic
  else do
    let (p, inc) ← rcv.decodePolyNew (data.drop pt)
    return (p, pt + inc)

/-- `PublicKey.MarshalBinary`, marshaler.go:115-133 -/
def pkMarshalBinary (pk : WPolyQP × WPolyQP) : Go Bytes := do
  let l0 ← pk.1.dataLen
  let l1 ← pk.2.dataLen
  let (data, pt) ← pk.1.writeAt (List.replicate (l0 + l1) 0) 0
  let (data, _) ← pk.2.writeAt data pt
  return data

/-- `PublicKey.UnmarshalBinary`, marshaler.go:136-149 -/
def pkUnmarshalBinary (rcv : WPolyQP × WPolyQP) (data : Bytes) : Go (WPolyQP × WPolyQP) := do
  let (p0, pt) ← rcv.1.decodeAt data 0
  let (p1, _) ← rcv.2.decodeAt data pt
  return (p0, p1)

/-- `SwitchingKey.Value` -/
abbrev WSwk := List (WPolyQP × WPolyQP)

/-- `SwitchingKey.GetDataLen(true)`, marshaler.go:209-221 -/
def WSwk.dataLen (swk : WSwk) : Go Nat :=
  Go.foldList (fun len (v : WPolyQP × WPolyQP) => do
    let l0 ← v.1.dataLen
    let l1 ← v.2.dataLen
    return len + l0 + l1) 1 swk

/-- writing into `data[pt : pt+p.GetDataLen(true)]` -/
def WPolyQP.writeIn (p : WPolyQP) (data : Bytes) (pt : Nat) : Go (Bytes × Nat) := do
  let len ← p.dataLen
  if data.length < pt + len then .panic
  else do
    let (d, inc) ← p.writeTo ((data.drop pt).take len)
    return (data.take pt ++ d ++ data.drop (pt + len), pt + inc)

/-- `SwitchingKey.encode`, marshaler.go:245-270 -/
def WSwk.encode (swk : WSwk) (pointer : Nat) (data : Bytes) : Go (Bytes × Nat) := do
  let data ← setByte data pointer (UInt8.ofNat swk.length)
  Go.foldList (fun (s : Bytes × Nat) (v : WPolyQP × WPolyQP) => do
    let (data, pt) ← v.1.writeIn s.1 s.2
    v.2.writeIn data pt) (data, pointer + 1) swk

/-- `SwitchingKey.decode`, marshaler.go:272-298: component 0 starts with a non-nil `Q`, component 1 with a non-nil `P` -/
def WSwk.decode (data : Bytes) : Go (WSwk × Nat) := do
  let b0 ← byteAt data 0
  Go.foldList (fun (s : WSwk × Nat) _ => do
    let (p0, pt) ← (⟨some .fresh, none⟩ : WPolyQP).decodeAt data s.2
    let (p1, pt) ← (⟨none, some .fresh⟩ : WPolyQP).decodeAt data pt
    return (s.1 ++ [(p0, p1)], pt)) ([], 1) (List.range b0.toNat)

/-- `SwitchingKey.MarshalBinary`, marshaler.go:224-233 -/
def WSwk.marshalBinary (swk : WSwk) : Go Bytes := do
  let len ← swk.dataLen
  let (data, _) ← swk.encode 0 (List.replicate len 0)
  return data

/-- `SwitchingKey.UnmarshalBinary`, marshaler.go:236-243 -/
def WSwk.unmarshalBinary (data : Bytes) : Go WSwk := do
  let (swk, _) ← WSwk.decode data
  return swk

/-- `RelinearizationKey.MarshalBinary` with `GetDataLen`, marshaler.go:152-186 -/
def rlkMarshalBinary (keys : List WSwk) : Go Bytes := do
  let len ← Go.foldList (fun len (k : WSwk) => do
    let l ← k.dataLen
    return len + l) 1 keys
  let data ← setByte (List.replicate len 0) 0 (UInt8.ofNat keys.length)
  let (data, _) ← Go.foldList (fun (s : Bytes × Nat) (k : WSwk) => k.encode s.2 s.1) (data, 1) keys
  return data

/-- decoding from `data[pt:]` -/
def WSwk.decodeAt (data : Bytes) (pt : Nat) : Go (WSwk × Nat) :=
  if data.length < pt then .panic
  else do
    let (k, inc) ← WSwk.decode (data.drop pt)
    return (k, pt + inc)

/-- `RelinearizationKey.UnmarshalBinary`, marshaler.go:189-206 -/
def rlkUnmarshalBinary (data : Bytes) : Go (List WSwk) := do
  let b0 ← byteAt data 0
  let (keys, _) ← Go.foldList (fun (s : List WSwk × Nat) _ => do
    let (k, pt) ← WSwk.decodeAt data s.2
    return (s.1 ++ [k], pt)) ([], 1) (List.range b0.toNat)
  return keys

/-- `RotationKeySet.MarshalBinary` with `GetDataLen`, marshaler.go:301-329.  `keys` lists the map in the order of iteration. -/
def rtkMarshalBinary (keys : List (UInt64 × WSwk)) : Go Bytes := do
  let len ← Go.foldList (fun len (k : UInt64 × WSwk) => do
    let l ← k.2.dataLen
    return len + 4 + l) 0 keys
  let (data, _) ← Go.foldList (fun (s : Bytes × Nat) (k : UInt64 × WSwk) => do
    let data ← putAt s.1 s.2 (be32 k.1)
    k.2.encode (s.2 + 4) data) (List.replicate len 0, 0) keys
  return data

/-- the loop of `RotationKeySet.UnmarshalBinary`, marshaler.go:332-352; every round consumes bytes, so `fuel = data.length`
rounds suffice -/
def rtkLoop : Nat → (UInt64 → Option WSwk) → Bytes → Go (UInt64 → Option WSwk)
  | 0, m, _ => .ok m
  | fuel + 1, m, data =>
    if data.length = 0 then .ok m
    else do
      let galEl ← Go.ofOption (rd32 data)
      let data := data.drop 4
      let (swk, inc) ← WSwk.decode data
      rtkLoop fuel (fun g => if g = galEl then some swk else m g) (data.drop inc)

/-- `RotationKeySet.UnmarshalBinary`, marshaler.go:332-352 -/
def rtkUnmarshalBinary (data : Bytes) : Go (UInt64 → Option WSwk) := rtkLoop data.length (fun _ => none) data

end FastKsw
