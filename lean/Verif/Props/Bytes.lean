import Verif.Lemmas.Bytes

/-!
# C46: what is written to a byte buffer is read back
-/

namespace FastKsw.Props

open FastKsw

/-- a value written to, or read from, a buffer -/
inductive Item
  | u8 (c : UInt8)
  | u64 (v : UInt64)
  | slice8 (s : List UInt8)
  | slice64 (s : List UInt64)

/-- the write call for a value -/
def Item.write (b : Buffer) : Item → Buffer
  | u8 c => b.writeUint8 c
  | u64 v => b.writeUint64 v
  | slice8 s => b.writeUint8Slice s
  | slice64 s => b.writeUint64Slice s

/-- the read call matching a write: only the kind and length of `it` are used -/
def Item.read (b : Buffer) (it : Item) : Go (Item × Buffer) := match it with
  | u8 _ => do let (c, b) ← b.readUint8; return (.u8 c, b)
  | u64 _ => do let (v, b) ← b.readUint64; return (.u64 v, b)
  | slice8 s => do let (t, b) ← b.readUint8Slice s.length; return (.slice8 t, b)
  | slice64 s => do let (t, b) ← b.readUint64Slice s.length; return (.slice64 t, b)

/-- a sequence of reads -/
def Item.readAll (b : Buffer) : List Item → Go (List Item × Buffer)
  | [] => .ok ([], b)
  | it :: l => do
    let (x, b) ← it.read b
    let (xs, b) ← readAll b l
    return (x :: xs, b)

/-- the size in bytes of a value -/
def Item.size : Item → ℕ
  | u8 _ => 1
  | u64 _ => 8
  | slice8 s => s.length
  | slice64 s => 8 * s.length

theorem writeUint8Slice_buf (s : List UInt8) (b : Buffer) : b.writeUint8Slice s = ⟨b.buf ++ s⟩ := by
  unfold Buffer.writeUint8Slice
  induction s generalizing b with
  | nil => simp
  | cons c s ih => rw [List.foldl_cons, ih]; simp [Buffer.writeUint8]

theorem writeUint64Slice_buf (s : List UInt64) (b : Buffer) : b.writeUint64Slice s = ⟨b.buf ++ s.flatMap be64⟩ := by
  unfold Buffer.writeUint64Slice
  induction s generalizing b with
  | nil => simp
  | cons c s ih => rw [List.foldl_cons, ih]; simp [Buffer.writeUint64]

theorem readUint64_append (v : UInt64) (rest : Bytes) : Buffer.readUint64 ⟨be64 v ++ rest⟩ = .ok (v, ⟨rest⟩) := by
  unfold Buffer.readUint64
  dsimp only
  rw [rd64_be64]
  rfl

theorem readUint8Slice_append (s : List UInt8) (rest : Bytes) :
    Buffer.readUint8Slice ⟨s ++ rest⟩ s.length = .ok (s, ⟨rest⟩) := by
  induction s with
  | nil => rfl
  | cons c s ih =>
    simp only [List.length_cons, Buffer.readUint8Slice, List.cons_append, Buffer.readUint8, Go.bind_ok, ih, Go.pure_eq]

theorem readUint64Slice_append (s : List UInt64) (rest : Bytes) :
    Buffer.readUint64Slice ⟨s.flatMap be64 ++ rest⟩ s.length = .ok (s, ⟨rest⟩) := by
  induction s with
  | nil => rfl
  | cons c s ih =>
    simp only [List.length_cons, Buffer.readUint64Slice, List.flatMap_cons, List.append_assoc, readUint64_append, Go.bind_ok, ih,
      Go.pure_eq]

/-- the bytes of a value -/
def Item.bytes : Item → Bytes
  | u8 c => [c]
  | u64 v => be64 v
  | slice8 s => s
  | slice64 s => s.flatMap be64

theorem Item.write_eq (b : Buffer) (it : Item) : it.write b = ⟨b.buf ++ it.bytes⟩ := by
  cases it with
  | u8 c => rfl
  | u64 v => rfl
  | slice8 s => exact writeUint8Slice_buf s b
  | slice64 s => exact writeUint64Slice_buf s b

theorem Item.read_eq (it : Item) (rest : Bytes) : it.read ⟨it.bytes ++ rest⟩ = .ok (it, ⟨rest⟩) := by
  cases it with
  | u8 c => rfl
  | u64 v => simp only [read, bytes, readUint64_append, Go.bind_ok, Go.pure_eq]
  | slice8 s => simp only [read, bytes, readUint8Slice_append, Go.bind_ok, Go.pure_eq]
  | slice64 s => simp only [read, bytes, readUint64Slice_append, Go.bind_ok, Go.pure_eq]

theorem foldl_write (l : List Item) (b : Buffer) : l.foldl Item.write b = ⟨b.buf ++ l.flatMap Item.bytes⟩ := by
  induction l generalizing b with
  | nil => simp
  | cons it l ih => rw [List.foldl_cons, ih, Item.write_eq]; simp

theorem readAll_append (l : List Item) (rest : Bytes) :
    Item.readAll ⟨l.flatMap Item.bytes ++ rest⟩ l = .ok (l, ⟨rest⟩) := by
  induction l with
  | nil => rfl
  | cons it l ih =>
    simp only [Item.readAll, List.flatMap_cons, List.append_assoc, Item.read_eq, Go.bind_ok, ih, Go.pure_eq]

/-- **C46.** Any sequence of writes is read back in order by the matching reads, and what was written afterwards remains. -/
theorem C46_roundTrip (l later : List Item) :
    Item.readAll (later.foldl Item.write (l.foldl Item.write ⟨[]⟩)) l = .ok (l, later.foldl Item.write ⟨[]⟩) := by
  rw [foldl_write, foldl_write, foldl_write]
  simpa using readAll_append l (later.flatMap Item.bytes)

/-- **C46 (earlier contents).** Writes append: they leave what is in the buffer, and add exactly the size of the values. -/
theorem C46_appends (l : List Item) (b : Buffer) :
    b.buf <+: (l.foldl Item.write b).buf ∧ (l.foldl Item.write b).buf.length = b.buf.length + (l.map Item.size).sum := by
  rw [foldl_write]
  refine ⟨List.prefix_append _ _, ?_⟩
  rw [List.length_append]
  congr 1
  induction l with
  | nil => rfl
  | cons it l ih =>
    rw [List.flatMap_cons, List.length_append, ih, List.map_cons, List.sum_cons]
    congr 1
    cases it with
    | u8 c => rfl
    | u64 v => rfl
    | slice8 s => rfl
    | slice64 s =>
      show (s.flatMap be64).length = 8 * s.length
      induction s with
      | nil => rfl
      | cons a s ih => rw [List.flatMap_cons, List.length_append, ih, length_be64, List.length_cons]; omega

/-- **C46 (exhaustion).** Reading a word panics exactly when fewer than eight bytes are left, a byte when none is left. -/
theorem C46_panics (b : Buffer) : (b.readUint64 = .panic ↔ b.buf.length < 8) ∧ (b.readUint8 = .panic ↔ b.buf = []) := by
  constructor
  · unfold Buffer.readUint64
    constructor
    · intro h
      by_contra hc
      obtain ⟨w, hw⟩ := Option.isSome_iff_exists.1 (rd64_isSome (v := b.buf) (by omega))
      rw [hw] at h
      cases h
    · intro h
      rw [rd64_none h]
  · unfold Buffer.readUint8
    rcases b.buf with _ | ⟨c, s⟩ <;> simp

/-- a parameter header: two bytes, a word and two slices, of which all but the last byte are read -/
example : (Item.readAll ((([.u8 12, .u8 2, .u64 0xfedcba9876543210, .slice64 [97, 0xffffffffffffffff], .slice8 [7, 9]] :
    List Item)).foldl Item.write ⟨[]⟩) [.u8 0, .u8 0, .u64 0, .slice64 [0, 0], .slice8 [0]]).bind (fun x => .ok x.2.buf)
    = .ok [9] := by
  decide

end FastKsw.Props
