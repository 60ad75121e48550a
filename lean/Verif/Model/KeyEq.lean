import Verif.Model.Serialize

/-!
# `rlwe/keys.go`: equality of keys and look-ups in a rotation key set

A nil pointer is `none`.  The shortcuts `if swk == other` on equal pointers are modelled for nil only; the structural comparison
that follows returns true on identical contents (`C59_refl`), so they do not change the result.  A map is a list of entries with
distinct keys, in iteration order; a nil map has no entries.
-/

namespace FastKsw

/-- `Poly.Equals` on non-nil polynomials, ring/ring_poly.go:151-163 -/
def rowsEqual (a b : List Row) : Bool :=
  a.length == b.length && (List.range a.length).all fun i =>
    (b.getD i []).length == (a.getD i []).length && (List.range (a.getD i []).length).all fun j =>
      (b.getD i []).at j == (a.getD i []).at j

/-- `Poly.Equals`, ring/ring_poly.go:147-165; the flags are not compared -/
def polyEquals : Option WPoly → Option WPoly → Bool
  | none, none => true
  | some a, some b => rowsEqual (a.coeffs.getD []) (b.coeffs.getD [])
  | _, _ => false

/-- `PolyQP.Equals`, rlwe/ring_qp.go:36-50 (`p == &other` is never true: `other` is a copy) -/
def WPolyQP.equals (p other : WPolyQP) : Bool :=
  let v := true
  let v := if p.Q.isSome then polyEquals p.Q other.Q else v
  let v := if p.P.isSome then v && polyEquals p.P other.P else v
  v

/-- `PublicKey.Equals`, rlwe/keys.go:69-74 -/
def pkEquals (pk other : WPolyQP × WPolyQP) : Bool := pk.1.equals other.1 && pk.2.equals other.2

/-- `SwitchingKey.Equals`, rlwe/keys.go:171-187 -/
def swkEquals : Option WSwk → Option WSwk → Bool
  | none, none => true
  | some k, some other => k.length == other.length && (List.range k.length).all fun i =>
      pkEquals (k.getD i (⟨none, none⟩, ⟨none, none⟩)) (other.getD i (⟨none, none⟩, ⟨none, none⟩))
  | _, _ => false

/-- `RelinearizationKey.Equals`, rlwe/keys.go:140-156 -/
def rlkEquals : Option (List (Option WSwk)) → Option (List (Option WSwk)) → Bool
  | none, none => true
  | some k, some other => k.length == other.length && (List.range k.length).all fun i =>
      swkEquals (k.getD i none) (other.getD i none)
  | _, _ => false

/-- `RotationKeySet`, rlwe/keys.go:47-49 -/
abbrev WRtks := List (UInt64 × Option WSwk)

/-- a look-up in the map with the comma-ok form -/
def WRtks.find (k : WRtks) (galEl : UInt64) : Option (Option WSwk) := List.lookup galEl k

/-- `GetRotationKey`, rlwe/keys.go:88-94 -/
def getRotationKey (rtks : WRtks) (galEl : UInt64) : Option WSwk × Bool :=
  match rtks.find galEl with
  | none => (none, false)
  | some k => (k, true)

/-- `RotationKeySet.Equals`, rlwe/keys.go:202-218 -/
def rtksEquals : Option WRtks → Option WRtks → Bool
  | none, none => true
  | some rtks, some other => rtks.length == other.length && other.all fun e =>
      match rtks.find e.1 with
      | none => false
      | some key => swkEquals e.2 key
  | _, _ => false

/-- `RotationKeySet.Includes`, rlwe/keys.go:221-231 -/
def rtksIncludes : Option WRtks → Option WRtks → Bool
  | some rtks, some other => other.all fun e => (rtks.find e.1).isSome
  | _, _ => false

end FastKsw
