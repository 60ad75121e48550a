import Verif.Lemmas.Bytes
import Verif.Model.Serialize
import Mathlib.Data.Nat.Log

/-!
# Lemmas on the serialization model
-/

namespace FastKsw

namespace Go

theorem foldList_append {σ α : Type} (f : σ → α → Go σ) (s : σ) (l l' : List α) :
    foldList f s (l ++ l') = (foldList f s l).bind fun s => foldList f s l' := by
  induction l generalizing s with
  | nil => rfl
  | cons a l ih =>
    simp only [List.cons_append, foldList]
    rcases h : f s a with b | _ | _
    · simp only [bind_ok]; exact ih b
    · rfl
    · rfl

/-- a loop that runs through the states `S 0, S 1, …` -/
theorem foldList_range {σ : Type} {f : σ → ℕ → Go σ} (S : ℕ → σ) {n : ℕ} (h : ∀ i < n, f (S i) i = ok (S (i + 1))) :
    foldList f (S 0) (List.range n) = ok (S n) := by
  induction n with
  | zero => rfl
  | succ n ih =>
    rw [List.range_succ, foldList_append, ih fun i hi => h i (by omega)]
    simp only [bind, foldList, h n (by omega), bind_ok]

theorem mapList_eq {α β : Type} {f : α → Go β} {g : α → β} {l : List α} (h : ∀ a ∈ l, f a = ok (g a)) :
    mapList f l = ok (l.map g) := by
  induction l with
  | nil => rfl
  | cons a l ih =>
    simp only [mapList, h a (by simp), bind_ok, ih fun b hb => h b (by simp [hb]), pure_eq, List.map_cons]

theorem mapList_panic {α β : Type} {f : α → Go β} {l : List α} {a : α} (ha : a ∈ l) (h : f a = panic)
    (hl : ∀ b ∈ l, f b ≠ err) : mapList f l = panic := by
  induction l with
  | nil => simp at ha
  | cons c l ih =>
    rcases hc : f c with b | _ | _
    · simp only [mapList, hc, bind_ok]
      rcases List.mem_cons.1 ha with rfl | ha
      · rw [h] at hc; cases hc
      · rw [ih ha fun b hb => hl b (by simp [hb])]; rfl
    · exact absurd hc (hl c (by simp))
    · simp only [mapList, hc, bind_panic]

end Go

theorem putAt_append (a b bs : Bytes) (h : bs.length ≤ b.length) :
    putAt (a ++ b) a.length bs = .ok (a ++ bs ++ b.drop bs.length) := by
  unfold putAt
  rw [if_pos (by rw [List.length_append]; omega), List.take_left, List.drop_append]
  simp

/-- the bytes of the rows -/
def encRows (enc : UInt64 → Bytes) (rows : List Row) : Bytes := rows.flatMap fun r => r.flatMap enc

theorem length_flatMap_const {α : Type} {w : ℕ} {f : α → Bytes} (hf : ∀ a, (f a).length = w) (l : List α) :
    (l.flatMap f).length = l.length * w := by
  induction l with
  | nil => simp
  | cons a l ih => rw [List.flatMap_cons, List.length_append, ih, hf, List.length_cons]; ring

theorem length_encRows {enc : UInt64 → Bytes} {w : ℕ} (hw : ∀ v, (enc v).length = w) {rows : List Row} {N : ℕ}
    (h : ∀ r ∈ rows, r.length = N) : (encRows enc rows).length = rows.length * (N * w) := by
  unfold encRows
  induction rows with
  | nil => simp
  | cons a l ih =>
    rw [List.flatMap_cons, List.length_append, ih fun r hr => h r (by simp [hr]), length_flatMap_const hw, h a (by simp),
      List.length_cons]
    ring

theorem flatMap_take_succ {α β : Type} (f : α → List β) {l : List α} {j : ℕ} (hj : j < l.length) :
    (l.take (j + 1)).flatMap f = (l.take j).flatMap f ++ f l[j] := by
  rw [List.take_succ_eq_append_getElem hj, List.flatMap_append, List.flatMap_singleton]

theorem flatMap_split {α β : Type} (f : α → List β) {l : List α} {j : ℕ} (hj : j < l.length) :
    l.flatMap f = (l.take j).flatMap f ++ (f l[j] ++ (l.drop (j + 1)).flatMap f) := by
  conv_lhs => rw [← List.take_append_drop j l, List.drop_eq_getElem_cons hj, List.flatMap_append, List.flatMap_cons]

theorem writeRow {enc : UInt64 → Bytes} {w : ℕ} (hw : ∀ v, (enc v).length = w) (row : Row) (pre rest : Bytes)
    (h : row.length * w ≤ rest.length) :
    Go.foldList (fun data j => do
      let v ← Go.ofOption row[j]?
      putAt data (pre.length + j * w) (enc v)) (pre ++ rest) (List.range row.length)
      = .ok (pre ++ row.flatMap enc ++ rest.drop (row.length * w)) := by
  have := Go.foldList_range (f := fun data j => do
      let v ← Go.ofOption row[j]?
      putAt data (pre.length + j * w) (enc v)) (fun j => pre ++ (row.take j).flatMap enc ++ rest.drop (j * w))
    (n := row.length) (fun j hj => ?_)
  · simpa using this
  · rw [List.getElem?_eq_getElem hj]
    simp only [Go.ofOption, Go.bind_ok]
    have hl : pre.length + j * w = (pre ++ (row.take j).flatMap enc).length := by
      rw [List.length_append, length_flatMap_const hw, List.length_take, Nat.min_eq_left (by omega)]
    have hj1 : (j + 1) * w ≤ rest.length := le_trans (Nat.mul_le_mul_right _ hj) h
    have hj2 : (j + 1) * w = j * w + w := by ring
    rw [hl, putAt_append _ _ _ (by rw [hw, List.length_drop]; omega), hw, List.drop_drop, ← hj2, flatMap_take_succ _ hj,
      ← List.append_assoc]

theorem writeCoeffs_eq {enc : UInt64 → Bytes} {w : ℕ} (hw : ∀ v, (enc v).length = w) {rows : List Row} {N : ℕ}
    (hN : ∀ r ∈ rows, r.length = N) (pre rest : Bytes) (h : rows.length * (N * w) ≤ rest.length) :
    writeCoeffs w enc pre.length N rows.length rows (pre ++ rest)
      = .ok (pre ++ encRows enc rows ++ rest.drop (rows.length * (N * w)), pre.length + rows.length * (N * w)) := by
  unfold writeCoeffs
  have := Go.foldList_range (f := fun (s : Bytes × Nat) i => do
    let row ← Go.ofOption rows[i]?
    let data ← Go.foldList (fun data j => do
      let v ← Go.ofOption row[j]?
      putAt data (s.2 + j * w) (enc v)) s.1 (List.range N)
    return (data, s.2 + N * w)) (fun i => (pre ++ encRows enc (rows.take i) ++ rest.drop (i * (N * w)), pre.length + i * (N * w)))
    (n := rows.length) (fun i hi => ?_)
  · simpa [encRows] using this
  · have ho : Go.ofOption rows[i]? = .ok rows[i] := by rw [List.getElem?_eq_getElem hi]; rfl
    simp only [ho, Go.bind_ok]
    have hr : (rows[i]).length = N := hN _ (List.getElem_mem hi)
    have hi1 : (i + 1) * (N * w) ≤ rest.length := le_trans (Nat.mul_le_mul_right _ hi) h
    have hi2 : (i + 1) * (N * w) = i * (N * w) + N * w := by ring
    have hl : pre.length + i * (N * w) = (pre ++ encRows enc (rows.take i)).length := by
      rw [List.length_append, length_encRows hw (N := N) (fun r hr => hN r (List.mem_of_mem_take hr)), List.length_take,
        Nat.min_eq_left (by omega)]
    have key := writeRow hw rows[i] (pre ++ encRows enc (rows.take i)) (rest.drop (i * (N * w)))
      (by rw [hr, List.length_drop]; omega)
    rw [hr, ← hl] at key
    rw [key]
    simp only [Go.bind_ok, Go.pure_eq, List.drop_drop, ← hi2, Nat.add_assoc]
    congr 2
    unfold encRows
    rw [flatMap_take_succ _ hi, ← List.append_assoc]

theorem readRow {enc : UInt64 → Bytes} {dec : Bytes → Option UInt64} {w : ℕ} (hw : ∀ v, (enc v).length = w)
    {row : Row} (hd : ∀ v ∈ row, ∀ rest, dec (enc v ++ rest) = some v) (pre rest : Bytes) :
    Go.mapList (fun j => Go.ofOption (dec ((pre ++ (row.flatMap enc ++ rest)).drop (pre.length + j * w)))) (List.range row.length)
      = .ok row := by
  rw [Go.mapList_eq (g := fun j => row.getD j 0)]
  · congr 1
    apply List.ext_getElem (by simp)
    intro j h1 h2
    simp [h2]
  · intro j hj
    have hj : j < row.length := by simpa using hj
    have hsplit : row.flatMap enc = (row.take j).flatMap enc ++ (enc row[j] ++ (row.drop (j + 1)).flatMap enc) :=
      flatMap_split _ hj
    have hl : pre.length + j * w = (pre ++ (row.take j).flatMap enc).length := by
      rw [List.length_append, length_flatMap_const hw, List.length_take, Nat.min_eq_left (by omega)]
    rw [hsplit, hl]
    simp only [← List.append_assoc]
    rw [List.append_assoc _ (enc _), List.append_assoc _ (enc _ ++ _), List.append_assoc (enc _), List.drop_left,
      hd _ (List.getElem_mem hj)]
    simp [Go.ofOption, hj]

theorem makeWords_ok {N : ℕ} (h : 8 * N ≤ 2 ^ 48) : makeWords (N : ℤ) = .ok N := by
  unfold makeWords
  rw [if_pos ⟨by omega, by exact_mod_cast h⟩]
  simp

theorem decodeCoeffsNew_eq {enc : UInt64 → Bytes} {dec : Bytes → Option UInt64} {w : ℕ} (hw : ∀ v, (enc v).length = w)
    {rows : List Row} {N : ℕ} (hd : ∀ r ∈ rows, ∀ v ∈ r, ∀ rest, dec (enc v ++ rest) = some v) (hN : ∀ r ∈ rows, r.length = N)
    (h48 : 8 * N ≤ 2 ^ 48) (rcv : List Row) (hrcv : rows.length ≤ rcv.length) (pre rest : Bytes) :
    decodeCoeffsNew w dec pre.length (N : ℤ) rows.length rcv (pre ++ (encRows enc rows ++ rest))
      = .ok (rows ++ rcv.drop rows.length, pre.length + rows.length * (N * w)) := by
  unfold decodeCoeffsNew
  have := Go.foldList_range (f := fun (s : List Row × Nat) i => do
    let n ← makeWords (N : ℤ)
    if i < s.1.length then do
      let row ← Go.mapList (fun j => Go.ofOption (dec ((pre ++ (encRows enc rows ++ rest)).drop (s.2 + j * w)))) (List.range n)
      return (s.1.set i row, s.2 + n * w)
    else .panic) (fun i => (rows.take i ++ rcv.drop i, pre.length + i * (N * w)))
    (n := rows.length) (fun i hi => ?_)
  · simpa using this
  · rw [makeWords_ok h48]
    have hr : (rows[i]).length = N := hN _ (List.getElem_mem hi)
    have hlt : (rows.take i).length = i := by rw [List.length_take, Nat.min_eq_left (by omega)]
    simp only [Go.bind_ok]
    rw [if_pos (by rw [List.length_append, List.length_drop, hlt]; omega)]
    have hsplit : encRows enc rows ++ rest
        = encRows enc (rows.take i) ++ ((rows[i]).flatMap enc ++ (encRows enc (rows.drop (i + 1)) ++ rest)) := by
      unfold encRows
      rw [flatMap_split _ hi]
      simp only [List.append_assoc]
    have hl : pre.length + i * (N * w) = (pre ++ encRows enc (rows.take i)).length := by
      rw [List.length_append, length_encRows hw (N := N) (fun r hr => hN r (List.mem_of_mem_take hr)), List.length_take,
        Nat.min_eq_left (by omega)]
    have key := readRow (dec := dec) hw (row := rows[i]) (fun v hv => hd _ (List.getElem_mem hi) v hv)
      (pre ++ encRows enc (rows.take i)) (encRows enc (rows.drop (i + 1)) ++ rest)
    rw [hr, ← hl, List.append_assoc, ← hsplit] at key
    rw [key]
    simp only [Go.bind_ok, Go.pure_eq]
    congr 2
    · rw [List.set_append_right _ _ (by omega), hlt, Nat.sub_self,
        List.drop_eq_getElem_cons (show i < rcv.length by omega), List.set_cons_zero, List.take_succ_eq_append_getElem hi,
        List.append_assoc]
      rfl
    · ring

/-! ## Well-formed polynomials -/

/-- `k` and the rows of a polynomial of degree `2^k` that can be encoded: one to 255 rows of the same length, at most
`2^45` words each -/
structure WPoly.WF (p : WPoly) (k : ℕ) (rows : List Row) : Prop where
  coeffs : p.coeffs = some rows
  pos : 0 < rows.length
  le : rows.length ≤ 255
  log : k ≤ 45
  len : ∀ r ∈ rows, r.length = 2 ^ k

/-- a flag byte -/
def flagByte (b : Bool) : UInt8 := if b then 1 else 0

theorem flagByte_eq_one (b : Bool) : (flagByte b == 1) = b := by cases b <;> rfl

/-- the encoding of a polynomial -/
def WPoly.bytesW (enc : UInt64 → Bytes) (p : WPoly) (k : ℕ) (rows : List Row) : Bytes :=
  [UInt8.ofNat k, UInt8.ofNat rows.length, flagByte p.isNTT, flagByte p.isMForm] ++ encRows enc rows

namespace WPoly.WF

variable {p : WPoly} {k : ℕ} {rows : List Row} (h : p.WF k rows)
include h

theorem degree : p.degree = .ok (2 ^ k) := by
  unfold WPoly.degree
  rw [h.coeffs]
  obtain ⟨r, l, rfl⟩ := List.exists_cons_of_length_pos h.pos
  simp [h.len r (by simp)]

theorem lenModuli : p.lenModuli = rows.length := by unfold WPoly.lenModuli; rw [h.coeffs]; rfl

theorem length_bytesW {enc : UInt64 → Bytes} {w : ℕ} (hw : ∀ v, (enc v).length = w) :
    (p.bytesW enc k rows).length = 4 + rows.length * (2 ^ k * w) := by
  unfold WPoly.bytesW
  rw [List.length_append, length_encRows hw h.len]; rfl

theorem dataLen {enc : UInt64 → Bytes} {w : ℕ} (hw : ∀ v, (enc v).length = w) :
    p.dataLen w true = .ok (p.bytesW enc k rows).length := by
  unfold WPoly.dataLen
  rw [h.degree, h.lenModuli, h.length_bytesW hw]
  simp only [Go.bind_ok, Go.pure_eq, if_true]
  congr 1
  ring

/-- writing into a buffer whose third and fourth bytes are `b2`, `b3` -/
theorem writeToW {enc : UInt64 → Bytes} {w : ℕ} (hw : ∀ v, (enc v).length = w) (b0 b1 b2 b3 : UInt8) (rest : Bytes)
    (hl : rows.length * (2 ^ k * w) ≤ rest.length) :
    p.writeToW w enc (b0 :: b1 :: b2 :: b3 :: rest) = .ok ([UInt8.ofNat k, UInt8.ofNat rows.length,
      if p.isNTT then 1 else b2, if p.isMForm then 1 else b3] ++ encRows enc rows ++ rest.drop (rows.length * (2 ^ k * w)),
      4 + rows.length * (2 ^ k * w)) := by
  unfold WPoly.writeToW
  rw [h.degree, h.dataLen hw, h.length_bytesW hw, h.lenModuli, h.coeffs]
  simp only [Go.bind_ok]
  rw [if_neg (by simp only [List.length_cons]; omega)]
  have hk : UInt8.ofNat (len64 (2 ^ k)) - 1 = UInt8.ofNat k := by
    have := h.log
    have e : len64 (2 ^ k) = k + 1 := by
      unfold len64
      rw [if_neg (by positivity), Nat.log2_two_pow]
    rw [e, UInt8.ofNat_add]
    simp
  have s0 : ∀ c, setByte (b0 :: b1 :: b2 :: b3 :: rest) 0 c = .ok (c :: b1 :: b2 :: b3 :: rest) := fun c =>
    putAt_append [] _ [c] (by simp)
  have s1 : ∀ a c, setByte (a :: b1 :: b2 :: b3 :: rest) 1 c = .ok (a :: c :: b2 :: b3 :: rest) := fun a c =>
    putAt_append [a] _ [c] (by simp)
  have s2 : ∀ a b c, setByte (a :: b :: b2 :: b3 :: rest) 2 c = .ok (a :: b :: c :: b3 :: rest) := fun a b c =>
    putAt_append [a, b] _ [c] (by simp)
  have s3 : ∀ a b c d, setByte (a :: b :: c :: b3 :: rest) 3 d = .ok (a :: b :: c :: d :: rest) := fun a b c d =>
    putAt_append [a, b, c] _ [d] (by simp)
  rw [s0, Go.bind_ok, s1, Go.bind_ok, hk]
  generalize p.isNTT = f2
  generalize p.isMForm = f3
  cases f2 <;> cases f3 <;> simp only [if_true, Bool.false_eq_true, if_false, s2, s3, Go.bind_ok] <;>
  exact writeCoeffs_eq hw h.len [_, _, _, _] rest hl

/-- writing into a buffer that starts with zeros -/
theorem writeToW_zero {enc : UInt64 → Bytes} {w : ℕ} (hw : ∀ v, (enc v).length = w) (rest : Bytes) :
    p.writeToW w enc (List.replicate (p.bytesW enc k rows).length 0 ++ rest)
      = .ok (p.bytesW enc k rows ++ rest, (p.bytesW enc k rows).length) := by
  have hl := h.length_bytesW hw
  have e : List.replicate (p.bytesW enc k rows).length (0 : UInt8) ++ rest
      = 0 :: 0 :: 0 :: 0 :: (List.replicate (rows.length * (2 ^ k * w)) 0 ++ rest) := by
    rw [hl, ← List.replicate_append_replicate]; rfl
  rw [e, h.writeToW hw _ _ _ _ _ (by rw [List.length_append, List.length_replicate]; omega), hl, List.drop_append_of_le_length
    (by rw [List.length_replicate]), List.drop_replicate, Nat.sub_self]
  congr 2

/-- decoding into a receiver -/
theorem decodePolyNewW {enc : UInt64 → Bytes} {dec : Bytes → Option UInt64} {w : ℕ} (hw : ∀ v, (enc v).length = w)
    (hd : ∀ r ∈ rows, ∀ v ∈ r, ∀ rest, dec (enc v ++ rest) = some v) (rcv : WPoly)
    (hrcv : ∀ c, rcv.coeffs = some c → rows.length ≤ c.length) (rest : Bytes) :
    rcv.decodePolyNewW w dec (p.bytesW enc k rows ++ rest) = .ok (⟨some (rows ++ (rcv.coeffs.getD []).drop rows.length),
      rcv.isNTT || p.isNTT, rcv.isMForm || p.isMForm⟩, (p.bytesW enc k rows).length) := by
  have hle := h.le
  have hlog := h.log
  have hn : (UInt8.ofNat rows.length).toNat = rows.length := by
    rw [UInt8.toNat_ofNat']; omega
  have hk : shl1 (UInt8.ofNat k) = ((2 ^ k : ℕ) : ℤ) := by
    unfold shl1
    have : (UInt8.ofNat k).toNat = k := by rw [UInt8.toNat_ofNat']; omega
    rw [this, if_pos (by omega)]
    push_cast
    rfl
  have h48 : 8 * 2 ^ k ≤ 2 ^ 48 := by
    calc 8 * 2 ^ k ≤ 8 * 2 ^ 45 := Nat.mul_le_mul_left _ (Nat.pow_le_pow_right (by omega) hlog)
      _ = 2 ^ 48 := by norm_num
  unfold WPoly.decodePolyNewW
  have b0 : byteAt (p.bytesW enc k rows ++ rest) 0 = .ok (UInt8.ofNat k) := rfl
  have b1 : byteAt (p.bytesW enc k rows ++ rest) 1 = .ok (UInt8.ofNat rows.length) := rfl
  have b2 : byteAt (p.bytesW enc k rows ++ rest) 2 = .ok (flagByte p.isNTT) := rfl
  have b3 : byteAt (p.bytesW enc k rows ++ rest) 3 = .ok (flagByte p.isMForm) := rfl
  rw [b0, Go.bind_ok, b1, Go.bind_ok, b2, Go.bind_ok, b3, Go.bind_ok]
  rw [hn, hk, flagByte_eq_one, flagByte_eq_one]
  have key := decodeCoeffsNew_eq (dec := dec) hw hd h.len h48 (rcv.coeffs.getD (List.replicate rows.length []))
    (by
      rcases hc : rcv.coeffs with _ | c
      · simp
      · exact hrcv c hc)
    [UInt8.ofNat k, UInt8.ofNat rows.length, flagByte p.isNTT, flagByte p.isMForm] rest
  have e : p.bytesW enc k rows ++ rest = [UInt8.ofNat k, UInt8.ofNat rows.length, flagByte p.isNTT, flagByte p.isMForm]
      ++ (encRows enc rows ++ rest) := by unfold WPoly.bytesW; rw [List.append_assoc]
  rw [e]
  have e4 : [UInt8.ofNat k, UInt8.ofNat rows.length, flagByte p.isNTT, flagByte p.isMForm].length = 4 := rfl
  rw [e4] at key
  dsimp only
  rw [key, h.length_bytesW hw]
  simp only [Go.bind_ok, Go.pure_eq]
  congr 4
  rcases rcv.coeffs with _ | c
  · simp
  · rfl

end WPoly.WF

end FastKsw
