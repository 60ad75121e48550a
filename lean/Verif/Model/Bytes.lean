/-!
# Byte slices

A `[]byte` is a list of `UInt8`; its capacity is taken to be its length, so reslicing past the end panics.  Indices and
lengths of slices in memory are natural numbers (they are below `2^63`).  `Go α` is the outcome of a Go call that may return
an error or panic.
-/

namespace FastKsw

abbrev Bytes := List UInt8

/-- outcome of a call: a result, a non-nil `error`, or a run-time panic -/
inductive Go (α : Type) where
  | ok (a : α)
  | err
  | panic
  deriving DecidableEq

namespace Go

@[simp] def bind {α β : Type} (x : Go α) (f : α → Go β) : Go β := match x with
  | ok a => f a
  | err => err
  | panic => panic

instance : Monad Go where
  pure := ok
  bind := bind

@[simp] theorem bind_ok {α β : Type} (a : α) (f : α → Go β) : (ok a >>= f) = f a := rfl
@[simp] theorem bind_err {α β : Type} (f : α → Go β) : ((err : Go α) >>= f) = err := rfl
@[simp] theorem bind_panic {α β : Type} (f : α → Go β) : ((panic : Go α) >>= f) = panic := rfl
@[simp] theorem pure_eq {α : Type} (a : α) : (pure a : Go α) = ok a := rfl

/-- a loop that collects its results -/
def mapList {α β : Type} (f : α → Go β) : List α → Go (List β)
  | [] => ok []
  | a :: l => do
    let b ← f a
    let bs ← mapList f l
    return b :: bs

/-- a loop over a state -/
def foldList {σ α : Type} (f : σ → α → Go σ) : σ → List α → Go σ
  | s, [] => ok s
  | s, a :: l => do
    let s' ← f s a
    foldList f s' l

/-- an index or slice expression that panics out of range -/
def ofOption {α : Type} : Option α → Go α
  | some a => ok a
  | none => panic

end Go

/-- `binary.BigEndian.PutUint64` and `WriteUint64`, utils/buffer.go:35-44 -/
def be64 (v : UInt64) : Bytes :=
  [(v >>> 56).toUInt8, (v >>> 48).toUInt8, (v >>> 40).toUInt8, (v >>> 32).toUInt8, (v >>> 24).toUInt8, (v >>> 16).toUInt8,
    (v >>> 8).toUInt8, v.toUInt8]

/-- `binary.BigEndian.Uint64` and `ReadUint64`, utils/buffer.go:68-73; panics on fewer than 8 bytes -/
def rd64 (v : Bytes) : Option UInt64 := match v with
  | v0 :: v1 :: v2 :: v3 :: v4 :: v5 :: v6 :: v7 :: _ =>
    some (v7.toUInt64 ||| v6.toUInt64 <<< 8 ||| v5.toUInt64 <<< 16 ||| v4.toUInt64 <<< 24 ||| v3.toUInt64 <<< 32 |||
      v2.toUInt64 <<< 40 ||| v1.toUInt64 <<< 48 ||| v0.toUInt64 <<< 56)
  | _ => none

/-- `binary.BigEndian.PutUint32` of the low half of a word -/
def be32 (v : UInt64) : Bytes := [(v >>> 24).toUInt8, (v >>> 16).toUInt8, (v >>> 8).toUInt8, v.toUInt8]

/-- `uint64(binary.BigEndian.Uint32(v))` -/
def rd32 (v : Bytes) : Option UInt64 := match v with
  | v0 :: v1 :: v2 :: v3 :: _ =>
    some (v3.toUInt64 ||| v2.toUInt64 <<< 8 ||| v1.toUInt64 <<< 16 ||| v0.toUInt64 <<< 24)
  | _ => none

/-- `binary.LittleEndian.PutUint64` -/
def le64 (v : UInt64) : Bytes :=
  [v.toUInt8, (v >>> 8).toUInt8, (v >>> 16).toUInt8, (v >>> 24).toUInt8, (v >>> 32).toUInt8, (v >>> 40).toUInt8,
    (v >>> 48).toUInt8, (v >>> 56).toUInt8]

/-- `binary.LittleEndian.Uint64` -/
def rdLe64 (v : Bytes) : Option UInt64 := match v with
  | v0 :: v1 :: v2 :: v3 :: v4 :: v5 :: v6 :: v7 :: _ =>
    some (v0.toUInt64 ||| v1.toUInt64 <<< 8 ||| v2.toUInt64 <<< 16 ||| v3.toUInt64 <<< 24 ||| v4.toUInt64 <<< 32 |||
      v5.toUInt64 <<< 40 ||| v6.toUInt64 <<< 48 ||| v7.toUInt64 <<< 56)
  | _ => none

/-- write `bs` at `off`; panics when the slice is too short -/
def putAt (data : Bytes) (off : Nat) (bs : Bytes) : Go Bytes :=
  if off + bs.length ≤ data.length then .ok (data.take off ++ bs ++ data.drop (off + bs.length)) else .panic

/-- `data[off]`; panics out of range -/
def byteAt (data : Bytes) (off : Nat) : Go UInt8 := .ofOption data[off]?

/-! ## `utils/buffer.go` -/

/-- `Buffer`, utils/buffer.go:21-23 -/
structure Buffer where
  buf : Bytes

namespace Buffer

/-- `WriteUint8`, utils/buffer.go:31-33 -/
def writeUint8 (b : Buffer) (c : UInt8) : Buffer := ⟨b.buf ++ [c]⟩

/-- `WriteUint64`, utils/buffer.go:35-45 -/
def writeUint64 (b : Buffer) (v : UInt64) : Buffer := ⟨b.buf ++ be64 v⟩

/-- `WriteUint64Slice`, utils/buffer.go:48-52 -/
def writeUint64Slice (b : Buffer) (s : List UInt64) : Buffer := s.foldl writeUint64 b

/-- `WriteUint8Slice`, utils/buffer.go:55-59 -/
def writeUint8Slice (b : Buffer) (s : List UInt8) : Buffer := s.foldl writeUint8 b

/-- `ReadUint8`, utils/buffer.go:62-66 -/
def readUint8 (b : Buffer) : Go (UInt8 × Buffer) := match b.buf with
  | [] => .panic
  | v :: rest => .ok (v, ⟨rest⟩)

/-- `ReadUint64`, utils/buffer.go:69-74 -/
def readUint64 (b : Buffer) : Go (UInt64 × Buffer) := match rd64 b.buf with
  | none => .panic
  | some v => .ok (v, ⟨b.buf.drop 8⟩)

/-- `ReadUint64Slice` into a slice of length `n`, utils/buffer.go:77-81 -/
def readUint64Slice (b : Buffer) : Nat → Go (List UInt64 × Buffer)
  | 0 => .ok ([], b)
  | n + 1 => do
    let (v, b) ← b.readUint64
    let (vs, b) ← b.readUint64Slice n
    return (v :: vs, b)

/-- `ReadUint8Slice` into a slice of length `n`, utils/buffer.go:84-88 -/
def readUint8Slice (b : Buffer) : Nat → Go (List UInt8 × Buffer)
  | 0 => .ok ([], b)
  | n + 1 => do
    let (v, b) ← b.readUint8
    let (vs, b) ← b.readUint8Slice n
    return (v :: vs, b)

end Buffer

end FastKsw
