import Verif.Lemmas.Serialize

/-!
# Encodings of composed objects
-/

namespace FastKsw

/-- zero bytes -/
abbrev zeros (n : ℕ) : Bytes := List.replicate n 0

theorem zeros_add (a b : ℕ) : zeros (a + b) = zeros a ++ zeros b := by
  unfold zeros; rw [List.replicate_append_replicate]

/-! ## Loops -/

theorem Go.foldList_write {α : Type} {f : Bytes × ℕ → α → Go (Bytes × ℕ)} {bytes : α → Bytes} {l : List α}
    (hf : ∀ a ∈ l, ∀ pre rest, f (pre ++ (zeros (bytes a).length ++ rest), pre.length) a
      = .ok (pre ++ (bytes a ++ rest), pre.length + (bytes a).length)) (pre rest : Bytes) :
    Go.foldList f (pre ++ (zeros (l.flatMap bytes).length ++ rest), pre.length) l
      = .ok (pre ++ (l.flatMap bytes ++ rest), pre.length + (l.flatMap bytes).length) := by
  induction l generalizing pre with
  | nil => rfl
  | cons a l ih =>
    simp only [Go.foldList, List.flatMap_cons, List.length_append, zeros_add, List.append_assoc]
    rw [hf a (by simp), Go.bind_ok, ← List.append_assoc, ← List.length_append,
      ih (fun b hb => hf b (by simp [hb])) (pre ++ bytes a)]
    simp only [List.append_assoc, List.length_append, Nat.add_assoc]

theorem Go.foldList_len {α : Type} {dl : α → Go ℕ} {bytes : α → Bytes} {l : List α}
    (hf : ∀ a ∈ l, dl a = .ok (bytes a).length) (n : ℕ) :
    Go.foldList (fun len a => do
      let k ← dl a
      return len + k) n l = .ok (n + (l.flatMap bytes).length) := by
  induction l generalizing n with
  | nil => rfl
  | cons a l ih =>
    rw [Go.foldList, hf a (by simp), Go.bind_ok, Go.pure_eq, Go.bind_ok, ih fun b hb => hf b (by simp [hb])]
    simp only [List.flatMap_cons, List.length_append, Nat.add_assoc]

theorem Go.foldList_read {α β : Type} {f : List β × ℕ → ℕ → Go (List β × ℕ)} {bytes : α → Bytes} {g : α → β} {l : List α}
    (start : ℕ) (hf : ∀ i (hi : i < l.length), ∀ acc, f (acc, start + ((l.take i).flatMap bytes).length) i
      = .ok (acc ++ [g l[i]], start + ((l.take i).flatMap bytes).length + (bytes l[i]).length)) :
    Go.foldList f ([], start) (List.range l.length) = .ok (l.map g, start + (l.flatMap bytes).length) := by
  have := Go.foldList_range (f := f) (fun i => ((l.take i).map g, start + ((l.take i).flatMap bytes).length)) (n := l.length)
    (fun i hi => ?_)
  · simpa using this
  · rw [hf i hi, flatMap_take_succ _ hi, List.length_append, List.take_succ_eq_append_getElem hi, List.map_append, List.map_singleton,
      Nat.add_assoc]

/-! ## Polynomials -/

/-- a polynomial that can be encoded -/
def WPoly.OK (p : WPoly) : Prop := ∃ k rows, p.WF k rows

/-- the encoding of a polynomial -/
def WPoly.bytes (p : WPoly) : Bytes := match p.marshalBinary with
  | .ok d => d
  | _ => []

namespace WPoly.OK

variable {p : WPoly} (h : p.OK)
include h

theorem spec : ∃ k rows, p.WF k rows ∧ p.bytes = p.bytesW be64 k rows := by
  obtain ⟨k, rows, h⟩ := h
  refine ⟨k, rows, h, ?_⟩
  have := h.writeToW_zero length_be64 []
  rw [List.append_nil, List.append_nil] at this
  unfold WPoly.bytes WPoly.marshalBinary
  rw [h.dataLen length_be64]
  simp only [Go.bind_ok]
  rw [show p.writeTo = p.writeToW 8 be64 from rfl, this]
  rfl

theorem dataLen : p.dataLen 8 true = .ok p.bytes.length := by
  obtain ⟨k, rows, h, e⟩ := h.spec
  rw [e]; exact h.dataLen length_be64

theorem writeTo (rest : Bytes) : p.writeTo (zeros p.bytes.length ++ rest) = .ok (p.bytes ++ rest, p.bytes.length) := by
  obtain ⟨k, rows, h, e⟩ := h.spec
  rw [e]; exact h.writeToW_zero length_be64 rest

theorem decode (rest : Bytes) : WPoly.fresh.decodePolyNew (p.bytes ++ rest) = .ok (p, p.bytes.length) := by
  obtain ⟨k, rows, h, e⟩ := h.spec
  rw [e]
  have := h.decodePolyNewW (dec := rd64) length_be64 (fun _ _ v _ rest => rd64_be64 v rest) .fresh (fun c hc => by cases hc) rest
  rw [show WPoly.decodePolyNew = WPoly.decodePolyNewW 8 rd64 from rfl, this]
  simp [WPoly.fresh, ← h.coeffs]

theorem writeAt (pre rest : Bytes) : p.writeAt (pre ++ (zeros p.bytes.length ++ rest)) pre.length
    = .ok (pre ++ (p.bytes ++ rest), pre.length + p.bytes.length) := by
  unfold WPoly.writeAt
  rw [if_neg (by rw [List.length_append]; omega), List.drop_left, h.writeTo, List.take_left]
  rfl

theorem decodeAt (pre rest : Bytes) : WPoly.fresh.decodeAt (pre ++ (p.bytes ++ rest)) pre.length
    = .ok (p, pre.length + p.bytes.length) := by
  unfold WPoly.decodeAt
  rw [if_neg (by rw [List.length_append]; omega), List.drop_left, h.decode]
  rfl

theorem length_ge : 12 ≤ p.bytes.length := by
  obtain ⟨k, rows, h, e⟩ := h.spec
  rw [e, h.length_bytesW length_be64]
  have h1 := h.pos
  have h2 := Nat.two_pow_pos k
  have : 1 * (1 * 8) ≤ rows.length * (2 ^ k * 8) := Nat.mul_le_mul h1 (Nat.mul_le_mul_right _ h2)
  omega

end WPoly.OK

/-! ## Pairs -/

/-- a pair whose non-nil parts can be encoded -/
structure WPolyQP.OK (p : WPolyQP) : Prop where
  q : ∀ x, p.Q = some x → x.OK
  p : ∀ x, p.P = some x → x.OK

/-- the encoding of an optional polynomial -/
def optBytes (p : Option WPoly) : Bytes := match p with
  | none => []
  | some p => p.bytes

/-- the encoding of a pair -/
def WPolyQP.bytes (p : WPolyQP) : Bytes := flagByte p.Q.isSome :: flagByte p.P.isSome :: (optBytes p.Q ++ optBytes p.P)

namespace WPolyQP.OK

variable {p : WPolyQP} (h : p.OK)
include h

theorem dataLen : p.dataLen = .ok p.bytes.length := by
  obtain ⟨Q, P⟩ := p
  have hq := h.q
  have hp := h.p
  unfold WPolyQP.dataLen WPolyQP.bytes
  cases Q with
  | none => cases P with
    | none => rfl
    | some y => simp only [Go.bind_ok, (hp y rfl).dataLen, Go.pure_eq, optBytes, List.length_cons, List.length_append]
                congr 1; simp; omega
  | some x => cases P with
    | none => simp only [Go.bind_ok, (hq x rfl).dataLen, Go.pure_eq, optBytes, List.length_cons, List.length_append]
              congr 1; simp; omega
    | some y => simp only [Go.bind_ok, (hq x rfl).dataLen, (hp y rfl).dataLen, Go.pure_eq, optBytes, List.length_cons,
                  List.length_append]
                congr 1; omega

theorem writeTo (rest : Bytes) : p.writeTo (zeros p.bytes.length ++ rest) = .ok (p.bytes ++ rest, p.bytes.length) := by
  obtain ⟨Q, P⟩ := p
  have hq := h.q
  have hp := h.p
  have s0 : ∀ a b c r, setByte (a :: b :: r) 0 c = .ok (c :: b :: r) := fun a b c r => putAt_append [] _ [c] (by simp)
  have s1 : ∀ a b c r, setByte (a :: b :: r) 1 c = .ok (a :: c :: r) := fun a b c r => putAt_append [a] _ [c] (by simp)
  have g0 : ∀ a r, byteAt (a :: r) 0 = .ok a := fun _ _ => rfl
  have g1 : ∀ a b r, byteAt (a :: b :: r) 1 = .ok b := fun _ _ _ => rfl
  have z : ∀ n, zeros (n + 1) = 0 :: zeros n := fun _ => rfl
  have f01 : ((0 : UInt8) == 1) = false := rfl
  have f11 : ((1 : UInt8) == 1) = true := rfl
  have w := fun (a b : UInt8) {x : WPoly} (hx : x.OK) r => hx.writeAt [a, b] r
  unfold WPolyQP.writeTo WPolyQP.bytes
  cases Q with
  | none => cases P with
    | none => rfl
    | some y =>
      have := w 0 1 (hp y rfl) rest
      simp only [List.cons_append, List.nil_append, List.length_cons, List.length_nil] at this
      simp only [optBytes, List.nil_append, List.length_cons, z, List.cons_append, Option.isSome_none, Option.isSome_some,
        Bool.false_eq_true, if_false, if_true, s1, g0, g1, Go.bind_ok, f01, f11, flagByte, this]
      congr 2
      omega
  | some x => cases P with
    | none =>
      have := w 1 0 (hq x rfl) rest
      simp only [List.cons_append, List.nil_append, List.length_cons, List.length_nil] at this
      simp only [optBytes, List.append_nil, List.length_cons, z, List.cons_append, Option.isSome_none, Option.isSome_some,
        Bool.false_eq_true, if_false, if_true, s0, g0, g1, Go.bind_ok, f01, f11, flagByte, this, Go.pure_eq]
      congr 2
      omega
    | some y =>
      have w1 := w 1 1 (hq x rfl) (zeros y.bytes.length ++ rest)
      have w2 := (hp y rfl).writeAt ([1, 1] ++ x.bytes) rest
      simp only [List.cons_append, List.nil_append, List.length_cons, List.length_nil, List.append_assoc] at w1 w2
      have e2 : ∀ n, 0 + 1 + 1 + n = n + 1 + 1 := fun n => by omega
      simp only [e2] at w1 w2
      simp only [optBytes, List.length_cons, List.length_append, z, zeros_add, List.cons_append, List.append_assoc,
        Option.isSome_some, if_true, s0, s1, g0, g1, Go.bind_ok, f11, flagByte, w1, w2]
      congr 2
      omega

theorem decode (rcv : WPolyQP) (rest : Bytes) :
    rcv.decodePolyNew (p.bytes ++ rest) = .ok (⟨p.Q.or rcv.Q, p.P.or rcv.P⟩, p.bytes.length) := by
  obtain ⟨Q, P⟩ := p
  have hq := h.q
  have hp := h.p
  have g0 : ∀ a r, byteAt (a :: r) 0 = .ok a := fun _ _ => rfl
  have g1 : ∀ a b r, byteAt (a :: b :: r) 1 = .ok b := fun _ _ _ => rfl
  have f01 : ((0 : UInt8) == 1) = false := rfl
  have f11 : ((1 : UInt8) == 1) = true := rfl
  have w := fun (a b : UInt8) {x : WPoly} (hx : x.OK) r => hx.decodeAt [a, b] r
  unfold WPolyQP.decodePolyNew WPolyQP.bytes
  cases Q with
  | none => cases P with
    | none => rfl
    | some y =>
      have := w 0 1 (hp y rfl) rest
      simp only [List.cons_append, List.nil_append, List.length_cons, List.length_nil] at this
      simp only [optBytes, List.nil_append, List.length_cons, List.cons_append, Option.isSome_none, Option.isSome_some,
        Bool.false_eq_true, if_false, if_true, g0, g1, Go.bind_ok, f01, f11, flagByte, this, Go.pure_eq]
      congr 2
      omega
  | some x => cases P with
    | none =>
      have := w 1 0 (hq x rfl) rest
      simp only [List.cons_append, List.nil_append, List.length_cons, List.length_nil] at this
      simp only [optBytes, List.append_nil, List.length_cons, List.cons_append, Option.isSome_none, Option.isSome_some,
        Bool.false_eq_true, if_false, if_true, g0, g1, Go.bind_ok, f01, f11, flagByte, this, Go.pure_eq]
      congr 2
      omega
    | some y =>
      have w1 := w 1 1 (hq x rfl) (y.bytes ++ rest)
      have w2 := (hp y rfl).decodeAt ([1, 1] ++ x.bytes) rest
      simp only [List.cons_append, List.nil_append, List.length_cons, List.length_nil, List.append_assoc] at w1 w2
      have e2 : ∀ n, 0 + 1 + 1 + n = n + 1 + 1 := fun n => by omega
      simp only [e2] at w1 w2
      simp only [optBytes, List.length_cons, List.length_append, List.cons_append, List.append_assoc,
        Option.isSome_some, if_true, g0, g1, Go.bind_ok, f11, flagByte, w1, w2, Go.pure_eq]
      congr 2
      omega

theorem writeAt (pre rest : Bytes) : p.writeAt (pre ++ (zeros p.bytes.length ++ rest)) pre.length
    = .ok (pre ++ (p.bytes ++ rest), pre.length + p.bytes.length) := by
  unfold WPolyQP.writeAt
  rw [if_neg (by rw [List.length_append]; omega), List.drop_left, h.writeTo, List.take_left]
  rfl

theorem decodeAt (rcv : WPolyQP) (pre rest : Bytes) : rcv.decodeAt (pre ++ (p.bytes ++ rest)) pre.length
    = .ok (⟨p.Q.or rcv.Q, p.P.or rcv.P⟩, pre.length + p.bytes.length) := by
  unfold WPolyQP.decodeAt
  rw [if_neg (by rw [List.length_append]; omega), List.drop_left, h.decode]
  rfl

theorem writeIn (pre rest : Bytes) : p.writeIn (pre ++ (zeros p.bytes.length ++ rest)) pre.length
    = .ok (pre ++ (p.bytes ++ rest), pre.length + p.bytes.length) := by
  have hz : (zeros p.bytes.length).length = p.bytes.length := by simp
  have hw := h.writeTo []
  rw [List.append_nil, List.append_nil] at hw
  unfold WPolyQP.writeIn
  rw [h.dataLen, Go.bind_ok, if_neg (by rw [List.length_append, List.length_append, hz]; omega), List.drop_left, List.take_left' hz,
    hw, List.take_left, ← List.append_assoc (bs := zeros _), List.drop_left' (by rw [List.length_append, hz])]
  simp

end WPolyQP.OK

/-! ## Switching keys -/

/-- a switching key that can be encoded: at most 255 digits -/
structure WSwk.OK (k : WSwk) : Prop where
  len : k.length ≤ 255
  val : ∀ v ∈ k, v.1.OK ∧ v.2.OK

/-- the encoding of the two components of a digit -/
def pairBytes (v : WPolyQP × WPolyQP) : Bytes := v.1.bytes ++ v.2.bytes

/-- the encoding of a switching key -/
def WSwk.bytes (k : WSwk) : Bytes := UInt8.ofNat k.length :: k.flatMap pairBytes

/-- what `decode` makes of a digit: a missing part that the receiver starts with is an empty polynomial -/
def WSwk.fillNil (v : WPolyQP × WPolyQP) : WPolyQP × WPolyQP :=
  (⟨v.1.Q.or (some .fresh), v.1.P⟩, ⟨v.2.Q, v.2.P.or (some .fresh)⟩)

namespace WSwk.OK

variable {k : WSwk} (h : k.OK)
include h

theorem dataLen : WSwk.dataLen k = .ok (WSwk.bytes k).length := by
  unfold WSwk.dataLen WSwk.bytes
  have e : (fun len (v : WPolyQP × WPolyQP) => (do
      let l0 ← v.1.dataLen
      let l1 ← v.2.dataLen
      return len + l0 + l1 : Go ℕ)) = fun len v => (do
      let k ← (do
        let l0 ← v.1.dataLen
        let l1 ← v.2.dataLen
        return l0 + l1 : Go ℕ)
      return len + k : Go ℕ) := by
    funext len v
    rcases v.1.dataLen with a | _ | _
    · rcases v.2.dataLen with b | _ | _
      · simp only [Go.bind_ok, Go.pure_eq, Nat.add_assoc]
      · rfl
      · rfl
    · rfl
    · rfl
  rw [e, Go.foldList_len (bytes := pairBytes) fun v hv => by
    rw [(h.val v hv).1.dataLen, (h.val v hv).2.dataLen]
    simp only [Go.bind_ok, Go.pure_eq, pairBytes, List.length_append]]
  congr 1
  simp only [List.length_cons]
  omega

theorem encode (pre rest : Bytes) : WSwk.encode k pre.length (pre ++ (zeros (WSwk.bytes k).length ++ rest))
    = .ok (pre ++ (WSwk.bytes k ++ rest), pre.length + (WSwk.bytes k).length) := by
  unfold WSwk.encode WSwk.bytes
  have z : ∀ n, zeros (n + 1) = 0 :: zeros n := fun _ => rfl
  have s : ∀ r, setByte (pre ++ (0 :: r)) pre.length (UInt8.ofNat k.length) = .ok (pre ++ [UInt8.ofNat k.length] ++ r) := by
    intro r
    have := putAt_append pre (0 :: r) [UInt8.ofNat k.length] (by simp)
    unfold setByte
    simpa using this
  simp only [List.length_cons, z, List.cons_append, s, Go.bind_ok]
  have := Go.foldList_write (f := fun (s : Bytes × Nat) (v : WPolyQP × WPolyQP) => do
    let (data, pt) ← v.1.writeIn s.1 s.2
    v.2.writeIn data pt) (bytes := pairBytes) (l := k) (fun v hv pre rest => by
      have w1 := (h.val v hv).1.writeIn pre (zeros v.2.bytes.length ++ rest)
      have w2 := (h.val v hv).2.writeIn (pre ++ v.1.bytes) rest
      simp only [List.append_assoc, List.length_append] at w1 w2
      simp only [pairBytes, List.length_append, zeros_add, List.append_assoc, w1, Go.bind_ok, w2, Nat.add_assoc])
    (pre ++ [UInt8.ofNat k.length]) rest
  rw [List.length_append, show [UInt8.ofNat k.length].length = 1 from rfl] at this
  rw [this]
  simp only [List.append_assoc, List.cons_append, List.nil_append]
  congr 2
  omega

theorem decode (rest : Bytes) : WSwk.decode (WSwk.bytes k ++ rest) = .ok (k.map WSwk.fillNil, (WSwk.bytes k).length) := by
  have hn : (UInt8.ofNat k.length).toNat = k.length := by
    have := h.len
    rw [UInt8.toNat_ofNat']; omega
  unfold WSwk.decode
  have b0 : byteAt (WSwk.bytes k ++ rest) 0 = .ok (UInt8.ofNat k.length) := rfl
  rw [b0, Go.bind_ok, hn, Go.foldList_read (bytes := pairBytes) (g := WSwk.fillNil) 1]
  · congr 2
    unfold WSwk.bytes
    rw [List.length_cons, Nat.add_comm]
  · intro i hi acc
    have hv := h.val k[i] (List.getElem_mem hi)
    have hsplit : WSwk.bytes k ++ rest = (UInt8.ofNat k.length :: (k.take i).flatMap pairBytes) ++ (k[i].1.bytes ++ (k[i].2.bytes
        ++ ((k.drop (i + 1)).flatMap pairBytes ++ rest))) := by
      unfold WSwk.bytes
      rw [flatMap_split _ hi]
      simp only [List.append_assoc, List.cons_append, pairBytes]
    have hl : 1 + ((k.take i).flatMap pairBytes).length = (UInt8.ofNat k.length :: (k.take i).flatMap pairBytes).length := by
      rw [List.length_cons, Nat.add_comm]
    have w1 := hv.1.decodeAt ⟨some .fresh, none⟩ (UInt8.ofNat k.length :: (k.take i).flatMap pairBytes) (k[i].2.bytes
        ++ ((k.drop (i + 1)).flatMap pairBytes ++ rest))
    have w2 := hv.2.decodeAt ⟨none, some .fresh⟩ ((UInt8.ofNat k.length :: (k.take i).flatMap pairBytes) ++ k[i].1.bytes)
        ((k.drop (i + 1)).flatMap pairBytes ++ rest)
    rw [List.append_assoc, List.length_append] at w2
    rw [← hsplit, ← hl] at w1 w2
    simp only [w1, w2, Go.bind_ok, Go.pure_eq, Option.or_none, WSwk.fillNil]
    rw [Nat.add_assoc _ k[i].1.bytes.length, ← List.length_append]
    rfl

theorem decodeAt (pre rest : Bytes) : WSwk.decodeAt (pre ++ (WSwk.bytes k ++ rest)) pre.length
    = .ok (k.map WSwk.fillNil, pre.length + (WSwk.bytes k).length) := by
  unfold WSwk.decodeAt
  rw [if_neg (by rw [List.length_append]; omega), List.drop_left, h.decode]
  rfl

end WSwk.OK

end FastKsw
