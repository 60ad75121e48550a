import Verif.Lemmas.SerializeKeys

/-!
# C39: serialization of ciphertexts and keys
-/

namespace FastKsw.Props

open FastKsw

theorem zeros_def (n : ℕ) : zeros n = List.replicate n 0 := rfl

/-- **C39 (`rlwe.Ciphertext`).** One to 255 components that can be encoded. -/
theorem C39_ciphertext {value : List WPoly} (h0 : 0 < value.length) (h255 : value.length ≤ 255) (h : ∀ p ∈ value, p.OK) :
    ∃ data, ctMarshalBinary value = .ok data ∧ ctDataLen value = .ok data.length ∧ ctUnmarshalBinary data = .ok value := by
  have hlen : ctDataLen value = .ok (1 + (value.flatMap WPoly.bytes).length) :=
    Go.foldList_len (fun p hp => (h p hp).dataLen) 1
  have hn : (UInt8.ofNat value.length).toNat = value.length := by rw [UInt8.toNat_ofNat']; omega
  have hlong : 12 ≤ (value.flatMap WPoly.bytes).length := by
    obtain ⟨a, l, rfl⟩ := List.exists_cons_of_length_pos h0
    rw [List.flatMap_cons, List.length_append]
    have := (h a (by simp)).length_ge
    omega
  refine ⟨UInt8.ofNat value.length :: value.flatMap WPoly.bytes, ?_, ?_, ?_⟩
  · unfold ctMarshalBinary
    rw [hlen, Go.bind_ok, ← zeros_def, zeros_add]
    have s : setByte (zeros 1 ++ zeros (value.flatMap WPoly.bytes).length) 0 (UInt8.ofNat value.length)
        = .ok ([UInt8.ofNat value.length] ++ (zeros (value.flatMap WPoly.bytes).length ++ [])) := by
      have := putAt_append [] (zeros 1 ++ zeros (value.flatMap WPoly.bytes).length) [UInt8.ofNat value.length] (by simp)
      simpa [setByte] using this
    rw [s, Go.bind_ok]
    have := Go.foldList_write (f := fun (s : Bytes × Nat) (el : WPoly) => el.writeAt s.1 s.2) (fun p hp pre rest =>
      (h p hp).writeAt pre rest) [UInt8.ofNat value.length] []
    rw [show [UInt8.ofNat value.length].length = 1 from rfl] at this
    rw [this]
    simp
  · rw [hlen, List.length_cons, Nat.add_comm]
  · unfold ctUnmarshalBinary
    rw [if_neg (by rw [List.length_cons]; omega)]
    have b0 : byteAt (UInt8.ofNat value.length :: value.flatMap WPoly.bytes) 0 = .ok (UInt8.ofNat value.length) := rfl
    rw [b0, Go.bind_ok, hn, Go.foldList_read (bytes := WPoly.bytes) (g := id) (l := value) 1]
    · simp only [Go.bind_ok, List.length_cons]
      rw [if_neg (by omega), List.map_id]
      rfl
    · intro i hi acc
      have hsplit : UInt8.ofNat value.length :: value.flatMap WPoly.bytes = (UInt8.ofNat value.length ::
          (value.take i).flatMap WPoly.bytes) ++ (value[i].bytes ++ (value.drop (i + 1)).flatMap WPoly.bytes) := by
        rw [flatMap_split _ hi]; rfl
      have hl : 1 + ((value.take i).flatMap WPoly.bytes).length
          = (UInt8.ofNat value.length :: (value.take i).flatMap WPoly.bytes).length := by
        rw [List.length_cons, Nat.add_comm]
      have w := (h value[i] (List.getElem_mem hi)).decodeAt (UInt8.ofNat value.length :: (value.take i).flatMap WPoly.bytes)
        ((value.drop (i + 1)).flatMap WPoly.bytes)
      rw [← hsplit, ← hl] at w
      simp only [w, Go.bind_ok, Go.pure_eq, id]

/-- **C39 (`ckks.Ciphertext`).** The scale keeps its bit pattern. -/
theorem C39_ckks {ct : WCt} (h0 : 0 < ct.value.length) (h255 : ct.value.length ≤ 255) (h : ∀ p ∈ ct.value, p.OK) :
    ct.marshalBinary.bind WCt.unmarshalBinary = .ok ct := by
  obtain ⟨data, e1, -, e3⟩ := C39_ciphertext h0 h255 h
  have hlen : 10 ≤ data.length := by
    by_contra hc
    unfold ctUnmarshalBinary at e3
    rw [if_pos (by omega)] at e3
    cases e3
  unfold WCt.marshalBinary
  rw [e1, Go.bind_ok]
  show WCt.unmarshalBinary (le64 ct.scale ++ data) = _
  unfold WCt.unmarshalBinary
  rw [if_neg (by rw [List.length_append]; omega), List.take_left' (length_le64 _), List.drop_left' (length_le64 _), e3]
  have := rdLe64_le64 ct.scale []
  rw [List.append_nil] at this
  rw [this]
  rfl

/-- **C39 (secret key).** Decoding into a receiver without parts. -/
theorem C39_secretKey {sk : WPolyQP} (h : sk.OK) : ∃ data, skMarshalBinary sk = .ok data ∧ sk.dataLen = .ok data.length ∧
    skUnmarshalBinary ⟨none, none⟩ data = .ok sk := by
  have hw := h.writeTo []
  have hd := h.decode ⟨none, none⟩ []
  rw [List.append_nil] at hd
  rw [List.append_nil, List.append_nil] at hw
  refine ⟨sk.bytes, ?_, h.dataLen, ?_⟩
  · unfold skMarshalBinary
    rw [h.dataLen, Go.bind_ok, hw]
    rfl
  · unfold skUnmarshalBinary
    rw [hd]
    simp

/-- **C39 (secret key, used receiver).** Parts that the encoded key has replace those of the receiver, the others stay. -/
theorem C39_secretKey_into {sk : WPolyQP} (h : sk.OK) (rcv : WPolyQP) :
    (skMarshalBinary sk).bind (skUnmarshalBinary rcv) = .ok ⟨sk.Q.or rcv.Q, sk.P.or rcv.P⟩ := by
  have hw := h.writeTo []
  have hd := h.decode rcv []
  rw [List.append_nil] at hd
  rw [List.append_nil, List.append_nil] at hw
  unfold skMarshalBinary skUnmarshalBinary
  rw [h.dataLen, Go.bind_ok, hw]
  show ((Go.ok sk.bytes).bind fun data => rcv.decodePolyNew data >>= fun x => pure x.1) = _
  show (rcv.decodePolyNew sk.bytes >>= fun x => pure x.1) = _
  rw [hd]
  rfl

/-- **C39 (public key).** -/
theorem C39_publicKey {pk : WPolyQP × WPolyQP} (h0 : pk.1.OK) (h1 : pk.2.OK) :
    (pkMarshalBinary pk).bind (pkUnmarshalBinary (⟨none, none⟩, ⟨none, none⟩)) = .ok pk := by
  have w0 := h0.writeAt [] (zeros pk.2.bytes.length)
  have w1 := h1.writeAt pk.1.bytes []
  have d0 := h0.decodeAt ⟨none, none⟩ [] pk.2.bytes
  have d1 := h1.decodeAt ⟨none, none⟩ pk.1.bytes []
  simp only [List.nil_append, List.append_nil, List.length_nil, Nat.zero_add] at w0 w1 d0 d1
  unfold pkMarshalBinary
  rw [h0.dataLen, Go.bind_ok, h1.dataLen, Go.bind_ok, ← zeros_def, zeros_add, w0, Go.bind_ok]
  dsimp only
  rw [w1, Go.bind_ok]
  show pkUnmarshalBinary _ (pk.1.bytes ++ pk.2.bytes) = _
  unfold pkUnmarshalBinary
  rw [d0, Go.bind_ok]
  dsimp only
  rw [d1]
  simp

/-- every digit has the parts that `decode` allocates -/
def NoNil (k : WSwk) : Prop := ∀ v ∈ k, v.1.Q.isSome ∧ v.2.P.isSome

theorem fillNil_id {k : WSwk} (h : NoNil k) : k.map WSwk.fillNil = k := by
  conv_rhs => rw [← List.map_id k]
  refine List.map_congr_left fun v hv => ?_
  obtain ⟨h1, h2⟩ := h v hv
  obtain ⟨⟨Q, P⟩, ⟨Q', P'⟩⟩ := v
  obtain ⟨x, rfl⟩ := Option.isSome_iff_exists.1 h1
  obtain ⟨y, rfl⟩ := Option.isSome_iff_exists.1 h2
  rfl

theorem swk_marshal {k : WSwk} (h : k.OK) : WSwk.marshalBinary k = .ok (WSwk.bytes k) := by
  have w := h.encode [] []
  simp only [List.nil_append, List.append_nil, List.length_nil] at w
  unfold WSwk.marshalBinary
  rw [h.dataLen, Go.bind_ok, w]
  rfl

/-- **C39 (switching key, any shape).** A missing `Q` of component 0, or `P` of component 1, comes back as an empty
polynomial. -/
theorem C39_switchingKey_any {k : WSwk} (h : k.OK) : ∃ data, WSwk.marshalBinary k = .ok data ∧
    WSwk.dataLen k = .ok data.length ∧ WSwk.unmarshalBinary data = .ok (k.map WSwk.fillNil) := by
  refine ⟨_, swk_marshal h, h.dataLen, ?_⟩
  have d := h.decode []
  rw [List.append_nil] at d
  unfold WSwk.unmarshalBinary
  rw [d]
  rfl

/-- **C39 (partial, switching key: all parts present).** -/
theorem C39_switchingKey_partial {k : WSwk} (h : k.OK) (hn : NoNil k) :
    (WSwk.marshalBinary k).bind WSwk.unmarshalBinary = .ok k := by
  obtain ⟨data, e1, -, e3⟩ := C39_switchingKey_any h
  rw [e1]
  show WSwk.unmarshalBinary data = _
  rw [e3, fillNil_id hn]

/-- **C39 (partial, relinearization key: all parts present).** -/
theorem C39_relinKey_partial {keys : List WSwk} (h255 : keys.length ≤ 255) (h : ∀ k ∈ keys, k.OK) (hn : ∀ k ∈ keys, NoNil k) :
    (rlkMarshalBinary keys).bind rlkUnmarshalBinary = .ok keys := by
  have hlen : Go.foldList (fun len (k : WSwk) => do
      let l ← WSwk.dataLen k
      return len + l) 1 keys = .ok (1 + (keys.flatMap WSwk.bytes).length) :=
    Go.foldList_len (fun k hk => (h k hk).dataLen) 1
  have hnn : (UInt8.ofNat keys.length).toNat = keys.length := by rw [UInt8.toNat_ofNat']; omega
  have e : rlkMarshalBinary keys = .ok (UInt8.ofNat keys.length :: keys.flatMap WSwk.bytes) := by
    unfold rlkMarshalBinary
    rw [hlen, Go.bind_ok, ← zeros_def, zeros_add]
    have s : setByte (zeros 1 ++ zeros (keys.flatMap WSwk.bytes).length) 0 (UInt8.ofNat keys.length)
        = .ok ([UInt8.ofNat keys.length] ++ (zeros (keys.flatMap WSwk.bytes).length ++ [])) := by
      have := putAt_append [] (zeros 1 ++ zeros (keys.flatMap WSwk.bytes).length) [UInt8.ofNat keys.length] (by simp)
      simpa [setByte] using this
    rw [s, Go.bind_ok]
    have := Go.foldList_write (f := fun (s : Bytes × Nat) (k : WSwk) => k.encode s.2 s.1) (fun k hk pre rest =>
      (h k hk).encode pre rest) [UInt8.ofNat keys.length] []
    rw [show [UInt8.ofNat keys.length].length = 1 from rfl] at this
    rw [this]
    simp
  rw [e]
  show rlkUnmarshalBinary _ = _
  unfold rlkUnmarshalBinary
  have b0 : byteAt (UInt8.ofNat keys.length :: keys.flatMap WSwk.bytes) 0 = .ok (UInt8.ofNat keys.length) := rfl
  rw [b0, Go.bind_ok, hnn, Go.foldList_read (bytes := WSwk.bytes) (g := fun k => k.map WSwk.fillNil) (l := keys) 1]
  · simp only [Go.bind_ok, Go.pure_eq]
    congr 1
    conv_rhs => rw [← List.map_id keys]
    exact List.map_congr_left fun k hk => fillNil_id (hn k hk)
  · intro i hi acc
    have hsplit : UInt8.ofNat keys.length :: keys.flatMap WSwk.bytes = (UInt8.ofNat keys.length ::
        (keys.take i).flatMap WSwk.bytes) ++ (WSwk.bytes keys[i] ++ (keys.drop (i + 1)).flatMap WSwk.bytes) := by
      rw [flatMap_split _ hi]; rfl
    have hl : 1 + ((keys.take i).flatMap WSwk.bytes).length
        = (UInt8.ofNat keys.length :: (keys.take i).flatMap WSwk.bytes).length := by
      rw [List.length_cons, Nat.add_comm]
    have w := (h keys[i] (List.getElem_mem hi)).decodeAt (UInt8.ofNat keys.length :: (keys.take i).flatMap WSwk.bytes)
      ((keys.drop (i + 1)).flatMap WSwk.bytes)
    rw [← hsplit, ← hl] at w
    simp only [w, Go.bind_ok, Go.pure_eq]

/-- the encoding of an entry of a rotation key set -/
def rtkBytes (k : UInt64 × WSwk) : Bytes := be32 k.1 ++ WSwk.bytes k.2

theorem rtkLoop_eq {keys : List (UInt64 × WSwk)} (h : ∀ k ∈ keys, k.2.OK) (hn : ∀ k ∈ keys, NoNil k.2)
    (h32 : ∀ k ∈ keys, k.1.toNat < 2 ^ 32) {fuel : ℕ} (hf : keys.length ≤ fuel) (m : UInt64 → Option WSwk) :
    rtkLoop fuel m (keys.flatMap rtkBytes)
      = .ok (keys.foldl (fun m k g => if g = k.1 then some k.2 else m g) m) := by
  induction keys generalizing fuel m with
  | nil => cases fuel <;> rfl
  | cons k l ih =>
    cases fuel with
    | zero => simp at hf
    | succ fuel =>
      have hk := h k (by simp)
      have e : (k :: l).flatMap rtkBytes = be32 k.1 ++ (WSwk.bytes k.2 ++ l.flatMap rtkBytes) := by
        rw [List.flatMap_cons]; unfold rtkBytes; rw [List.append_assoc]
      rw [e]
      unfold rtkLoop
      rw [if_neg (by rw [List.length_append, length_be32]; omega), rd32_be32, Nat.mod_eq_of_lt (h32 k (by simp)), UInt64.ofNat_toNat]
      simp only [Go.ofOption, Go.bind_ok]
      rw [List.drop_left' (length_be32 _), hk.decode, Go.bind_ok]
      dsimp only
      rw [List.drop_left, fillNil_id (hn k (by simp)), ih (fun k hk => h k (by simp [hk])) (fun k hk => hn k (by simp [hk]))
        (fun k hk => h32 k (by simp [hk])) (by simp at hf; exact hf)]
      rfl

/-- **C39 (partial, rotation key set: all parts present, Galois elements below `2^32`).** In whatever order the map is iterated,
decoding returns a map with exactly its entries. -/
theorem C39_rotationKeys_partial {keys : List (UInt64 × WSwk)} (hnd : (keys.map Prod.fst).Nodup) (h : ∀ k ∈ keys, k.2.OK)
    (hn : ∀ k ∈ keys, NoNil k.2) (h32 : ∀ k ∈ keys, k.1.toNat < 2 ^ 32) :
    ∃ m, (rtkMarshalBinary keys).bind rtkUnmarshalBinary = .ok m ∧ ∀ g v, m g = some v ↔ (g, v) ∈ keys := by
  have hlen : Go.foldList (fun len (k : UInt64 × WSwk) => do
      let l ← WSwk.dataLen k.2
      return len + 4 + l) 0 keys = .ok (keys.flatMap rtkBytes).length := by
    have := Go.foldList_len (dl := fun k : UInt64 × WSwk => (do
      let l ← WSwk.dataLen k.2
      return 4 + l : Go ℕ)) (bytes := rtkBytes) (l := keys) (fun k hk => by
        rw [(h k hk).dataLen, Go.bind_ok]
        unfold rtkBytes
        rw [List.length_append, length_be32]
        rfl) 0
    rw [Nat.zero_add] at this
    rw [← this]
    congr 1
    funext len k
    rcases WSwk.dataLen k.2 with a | _ | _
    · simp only [Go.bind_ok, Go.pure_eq, Nat.add_assoc]
    · rfl
    · rfl
  have e : rtkMarshalBinary keys = .ok (keys.flatMap rtkBytes) := by
    unfold rtkMarshalBinary
    rw [hlen, Go.bind_ok]
    have := Go.foldList_write (f := fun (s : Bytes × Nat) (k : UInt64 × WSwk) => (do
      let data ← putAt s.1 s.2 (be32 k.1)
      WSwk.encode k.2 (s.2 + 4) data : Go (Bytes × ℕ))) (bytes := rtkBytes) (l := keys) (fun k hk pre rest => by
        dsimp only
        have w := (h k hk).encode (pre ++ be32 k.1) rest
        have p := putAt_append pre (zeros 4 ++ (zeros (WSwk.bytes k.2).length ++ rest)) (be32 k.1) (by simp)
        have hz : (zeros 4).length = 4 := by simp
        rw [length_be32, List.drop_left' hz] at p
        unfold rtkBytes
        rw [List.length_append, length_be32, zeros_add, List.append_assoc, p, Go.bind_ok]
        rw [List.length_append, length_be32] at w
        rw [w]
        simp only [List.append_assoc, Nat.add_assoc]) [] []
    simp only [List.nil_append, List.append_nil, List.length_nil, Nat.zero_add] at this
    rw [this]
    rfl
  rw [e]
  have hle : keys.length ≤ (keys.flatMap rtkBytes).length := by
    clear e hlen hnd h hn h32
    induction keys with
    | nil => simp
    | cons k l ih =>
      rw [List.flatMap_cons, List.length_append, List.length_cons]
      have : 4 ≤ (rtkBytes k).length := by unfold rtkBytes; rw [List.length_append, length_be32]; omega
      omega
  refine ⟨_, rtkLoop_eq h hn h32 hle _, ?_⟩
  have key : ∀ (l : List (UInt64 × WSwk)) (m : UInt64 → Option WSwk), (l.map Prod.fst).Nodup → ∀ g v,
      l.foldl (fun m k g => if g = k.1 then some k.2 else m g) m g = some v ↔ (g, v) ∈ l ∨ (g ∉ l.map Prod.fst ∧ m g = some v) := by
    intro l
    induction l with
    | nil => simp
    | cons k l ih =>
      intro m hnd g v
      rw [List.map_cons, List.nodup_cons] at hnd
      rw [List.foldl_cons, ih _ hnd.2]
      obtain ⟨a, b⟩ := k
      by_cases hg : g = a
      · subst hg
        simp only [if_true, List.mem_cons, List.map_cons, Prod.mk.injEq, Option.some.injEq, true_and, not_or]
        constructor
        · rintro (hm | ⟨-, rfl⟩)
          · exact Or.inl (Or.inr hm)
          · exact Or.inl (Or.inl rfl)
        · rintro ((rfl | hm) | ⟨⟨hc, -⟩, -⟩)
          · exact Or.inr ⟨hnd.1, rfl⟩
          · exact Or.inl hm
          · exact absurd trivial hc
      · simp only [List.mem_cons, if_false, List.map_cons, Prod.mk.injEq, hg, false_and, false_or]
  intro g v
  rw [key keys _ hnd]
  simp

/-! ## A concrete key and the violation -/

/-- one row of degree 2 -/
def rowPoly (a b : UInt64) : WPoly := ⟨some [[a, b]], true, true⟩

theorem rowPoly_ok (a b : UInt64) : (rowPoly a b).OK := ⟨1, [[a, b]], rfl, by simp, by simp, by simp, by simp⟩

def sampleSwk : WSwk := [(⟨some (rowPoly 1 2), some (rowPoly 3 4)⟩, ⟨some (rowPoly 5 6), some (rowPoly 7 8)⟩)]

example : ∃ m, (rtkMarshalBinary [(5, sampleSwk), (25, sampleSwk)]).bind rtkUnmarshalBinary = .ok m ∧
    ∀ g v, m g = some v ↔ (g, v) ∈ [((5 : UInt64), sampleSwk), (25, sampleSwk)] := by
  have ok : sampleSwk.OK := ⟨by decide, fun v hv => by
    obtain rfl := List.mem_singleton.1 hv
    exact ⟨⟨fun x hx => by cases hx; exact rowPoly_ok _ _, fun x hx => by cases hx; exact rowPoly_ok _ _⟩,
      ⟨fun x hx => by cases hx; exact rowPoly_ok _ _, fun x hx => by cases hx; exact rowPoly_ok _ _⟩⟩⟩
  have nn : NoNil sampleSwk := fun v hv => by obtain rfl := List.mem_singleton.1 hv; exact ⟨rfl, rfl⟩
  refine C39_rotationKeys_partial (by decide) (fun k hk => ?_) (fun k hk => ?_) (by decide)
  · rcases List.mem_cons.1 hk with rfl | hk
    · exact ok
    · rw [List.mem_singleton.1 hk]; exact ok
  · rcases List.mem_cons.1 hk with rfl | hk
    · exact nn
    · rw [List.mem_singleton.1 hk]; exact nn

/-- **C39 (violated, witnesses).** A switching key without the part modulo `P` comes back with a non-nil empty polynomial, whose
`Degree` panics; marshalling the result panics.  A public key decoded into a used receiver keeps the receiver's part modulo `P`. -/
theorem C39_violated :
    (WSwk.marshalBinary [(⟨some (rowPoly 1 2), none⟩, ⟨some (rowPoly 5 6), none⟩)]).bind WSwk.unmarshalBinary
      = .ok [(⟨some (rowPoly 1 2), none⟩, ⟨some (rowPoly 5 6), some .fresh⟩)] ∧
    WSwk.marshalBinary [(⟨some (rowPoly 1 2), none⟩, ⟨some (rowPoly 5 6), some .fresh⟩)] = .panic ∧
    (pkMarshalBinary (⟨some (rowPoly 1 2), none⟩, ⟨some (rowPoly 5 6), none⟩)).bind (pkUnmarshalBinary
      (⟨none, some (rowPoly 3 4)⟩, ⟨none, none⟩))
      = .ok (⟨some (rowPoly 1 2), some (rowPoly 3 4)⟩, ⟨some (rowPoly 5 6), none⟩) := by
  decide +kernel

end FastKsw.Props
