import Verif.Lemmas.Serialize
import Mathlib.Data.Int.NatAbs

/-!
# C38: serialization of polynomials
-/

namespace FastKsw.Props

open FastKsw

section
variable {p : WPoly} {k : ℕ} {rows : List Row} (h : p.WF k rows)
include h

theorem shl1_log : shl1 (UInt8.ofNat k) = ((2 ^ k : ℕ) : ℤ) := by
  have hlog := h.log
  unfold shl1
  have : (UInt8.ofNat k).toNat = k := by rw [UInt8.toNat_ofNat']; omega
  rw [this, if_pos (by omega)]
  push_cast
  rfl

theorem header_mul : (shl1 (UInt8.ofNat k) * ((UInt8.ofNat rows.length).toNat : ℤ)).bmod (2 ^ 64)
    = ((rows.length * 2 ^ k : ℕ) : ℤ) := by
  have hle := h.le
  have hlog := h.log
  have h2 : 2 ^ k ≤ 2 ^ 45 := Nat.pow_le_pow_right (by omega) hlog
  have hb : rows.length * 2 ^ k ≤ 255 * 2 ^ 45 := Nat.mul_le_mul hle h2
  have hn : (UInt8.ofNat rows.length).toNat = rows.length := by rw [UInt8.toNat_ofNat']; omega
  rw [shl1_log h, hn, ← Nat.cast_mul, mul_comm]
  generalize rows.length * 2 ^ k = m at *
  rw [Int.bmod_eq_of_le] <;> omega

/-- **C38 (encoding).** The encoding of a polynomial has `GetDataLen(true)` bytes. -/
theorem C38_marshal : ∃ data, p.marshalBinary = .ok data ∧ p.dataLen 8 true = .ok data.length ∧
    data.length = 4 + 8 * rows.length * 2 ^ k := by
  refine ⟨p.bytesW be64 k rows, ?_, h.dataLen length_be64, by rw [h.length_bytesW length_be64]; ring⟩
  unfold WPoly.marshalBinary
  have := h.writeToW_zero length_be64 []
  rw [List.append_nil, List.append_nil] at this
  rw [h.dataLen length_be64]
  simp only [Go.bind_ok]
  rw [show p.writeTo = p.writeToW 8 be64 from rfl, this]
  rfl

theorem marshal_eq : p.marshalBinary = .ok (p.bytesW be64 k rows) := by
  unfold WPoly.marshalBinary
  have := h.writeToW_zero length_be64 []
  rw [List.append_nil, List.append_nil] at this
  rw [h.dataLen length_be64]
  simp only [Go.bind_ok]
  rw [show p.writeTo = p.writeToW 8 be64 from rfl, this]
  rfl

/-- **C38 (decoding into any receiver).** Decoding the encoding into a receiver without coefficients, or with at least as many
rows: the rows beyond those decoded stay, and a flag set in the receiver stays set. -/
theorem C38_unmarshal_into {data : Bytes} (hd : p.marshalBinary = .ok data) (rcv : WPoly)
    (hrcv : ∀ c, rcv.coeffs = some c → rows.length ≤ c.length) :
    rcv.unmarshalBinary data = .ok ⟨some (rows ++ (rcv.coeffs.getD []).drop rows.length), rcv.isNTT || p.isNTT,
      rcv.isMForm || p.isMForm⟩ := by
  obtain rfl : p.bytesW be64 k rows = data := by rw [marshal_eq h] at hd; cases hd; rfl
  unfold WPoly.unmarshalBinary
  have b0 : byteAt (p.bytesW be64 k rows) 0 = .ok (UInt8.ofNat k) := rfl
  have b1 : byteAt (p.bytesW be64 k rows) 1 = .ok (UInt8.ofNat rows.length) := rfl
  have b2 : byteAt (p.bytesW be64 k rows) 2 = .ok (flagByte p.isNTT) := rfl
  have b3 : byteAt (p.bytesW be64 k rows) 3 = .ok (flagByte p.isMForm) := rfl
  rw [b0, Go.bind_ok, b1, Go.bind_ok, b2, Go.bind_ok, b3, Go.bind_ok, header_mul h, h.length_bytesW length_be64, flagByte_eq_one,
    flagByte_eq_one]
  rw [if_neg (by
    have : (4 + rows.length * (2 ^ k * 8) - 4) / 8 = rows.length * 2 ^ k := by
      rw [Nat.add_sub_cancel_left, ← mul_assoc, Nat.mul_div_cancel _ (by norm_num)]
    rw [this]; simp)]
  have := h.decodePolyNewW (dec := rd64) length_be64 (fun _ _ v _ rest => rd64_be64 v rest)
    ⟨rcv.coeffs, rcv.isNTT || p.isNTT, rcv.isMForm || p.isMForm⟩ hrcv []
  rw [List.append_nil] at this
  rw [show WPoly.decodePolyNew = WPoly.decodePolyNewW 8 rd64 from rfl, this]
  simp only [Go.bind_ok, Go.pure_eq, Bool.or_assoc, Bool.or_self]

/-- **C38 (partial: the receiver has no coefficients or as many rows, and no flag set that the polynomial has not).**
Decoding the encoding returns the polynomial.  Missing: receivers with a stale flag, more rows or fewer rows
(`C38_violated`). -/
theorem C38_roundTrip_partial (rcv : WPoly) (hrcv : ∀ c, rcv.coeffs = some c → c.length = rows.length)
    (h1 : rcv.isNTT → p.isNTT) (h2 : rcv.isMForm → p.isMForm) :
    p.marshalBinary.bind rcv.unmarshalBinary = .ok p := by
  rw [marshal_eq h]
  show rcv.unmarshalBinary _ = _
  rw [C38_unmarshal_into h (marshal_eq h) rcv fun c hc => (hrcv c hc).ge]
  have e1 : (rcv.isNTT || p.isNTT) = p.isNTT := by
    cases hb : rcv.isNTT
    · rfl
    · rw [h1 hb]; rfl
  have e2 : (rcv.isMForm || p.isMForm) = p.isMForm := by
    cases hb : rcv.isMForm
    · rfl
    · rw [h2 hb]; rfl
  have e3 : (rcv.coeffs.getD []).drop rows.length = [] := by
    rcases hc : rcv.coeffs with _ | c
    · simp
    · exact List.drop_eq_nil_of_le (hrcv c hc).le
  rw [e1, e2, e3, List.append_nil, ← h.coeffs]

/-- **C38 (fresh receiver).** -/
theorem C38_fresh : p.marshalBinary.bind WPoly.fresh.unmarshalBinary = .ok p :=
  C38_roundTrip_partial h _ (fun c hc => by cases hc) (fun hc => by cases hc) (fun hc => by cases hc)

/-- **C38 (32-bit encoding).** `DecodePolyNew32` after `WriteTo32` into a zeroed buffer returns the polynomial if its words are
below `2^32`, and consumes exactly the bytes written. -/
theorem C38_roundTrip32 (h32 : ∀ r ∈ rows, ∀ v ∈ r, v.toNat < 2 ^ 32) (rest : Bytes) :
    ∃ len, p.dataLen 4 true = .ok len ∧ ∃ data, p.writeTo32 (List.replicate len 0 ++ rest) = .ok (data ++ rest, len) ∧
      WPoly.fresh.decodePolyNew32 (data ++ rest) = .ok (p, len) := by
  refine ⟨_, h.dataLen length_be32, _, h.writeToW_zero length_be32 rest, ?_⟩
  have := h.decodePolyNewW (dec := rd32) length_be32 (fun r hr v hv rest => by
    rw [rd32_be32, Nat.mod_eq_of_lt (h32 r hr v hv), UInt64.ofNat_toNat]) .fresh (fun c hc => by cases hc) rest
  rw [show WPoly.decodePolyNew32 = WPoly.decodePolyNewW 4 rd32 from rfl, this]
  simp [WPoly.fresh, ← h.coeffs]

/-- **C38 (truncation).** A proper prefix of an encoding with at least four bytes is reported as an error, whatever the
receiver; with fewer than four bytes `UnmarshalBinary` panics. -/
theorem C38_truncated {data : Bytes} (hd : p.marshalBinary = .ok data) (rcv : WPoly) {m : ℕ} (hm : m < data.length) :
    (4 ≤ m → rcv.unmarshalBinary (data.take m) = .err) ∧ (m < 4 → rcv.unmarshalBinary (data.take m) = .panic) := by
  obtain rfl : p.bytesW be64 k rows = data := by rw [marshal_eq h] at hd; cases hd; rfl
  have hl := h.length_bytesW length_be64
  rw [hl] at hm
  constructor
  · intro h4
    obtain ⟨m', rfl⟩ := Nat.exists_eq_add_of_le' h4
    have e : (p.bytesW be64 k rows).take (m' + 4) = UInt8.ofNat k :: UInt8.ofNat rows.length :: flagByte p.isNTT ::
        flagByte p.isMForm :: (encRows be64 rows).take m' := rfl
    have hlen : ((p.bytesW be64 k rows).take (m' + 4)).length = m' + 4 := by rw [List.length_take, hl]; omega
    unfold WPoly.unmarshalBinary
    have b0 : byteAt ((p.bytesW be64 k rows).take (m' + 4)) 0 = .ok (UInt8.ofNat k) := rfl
    have b1 : byteAt ((p.bytesW be64 k rows).take (m' + 4)) 1 = .ok (UInt8.ofNat rows.length) := rfl
    have b2 : byteAt ((p.bytesW be64 k rows).take (m' + 4)) 2 = .ok (flagByte p.isNTT) := rfl
    have b3 : byteAt ((p.bytesW be64 k rows).take (m' + 4)) 3 = .ok (flagByte p.isMForm) := rfl
    rw [b0, Go.bind_ok, b1, Go.bind_ok, b2, Go.bind_ok, b3, Go.bind_ok, header_mul h, hlen]
    rw [if_pos]
    rw [Nat.add_sub_cancel]
    have : m' / 8 < rows.length * 2 ^ k := by
      rw [Nat.div_lt_iff_lt_mul (by norm_num), mul_assoc]
      omega
    intro hc
    have : m' / 8 = rows.length * 2 ^ k := by exact_mod_cast hc
    omega
  · intro h4
    interval_cases m <;> rfl

end

/-- the length check of `UnmarshalBinary` -/
theorem unmarshal_header {data : Bytes} {b0 b1 b2 b3 : UInt8} {rest : Bytes} (hd : data = b0 :: b1 :: b2 :: b3 :: rest)
    (rcv : WPoly) : rcv.unmarshalBinary data = if ((rest.length / 8 : ℕ) : ℤ) ≠ (shl1 b0 * (b1.toNat : ℤ)).bmod (2 ^ 64) then .err
      else (⟨rcv.coeffs, rcv.isNTT || b2 == 1, rcv.isMForm || b3 == 1⟩ : WPoly).decodePolyNew data >>= fun x => .ok x.1 := by
  subst hd
  unfold WPoly.unmarshalBinary
  have e0 : byteAt (b0 :: b1 :: b2 :: b3 :: rest) 0 = .ok b0 := rfl
  have e1 : byteAt (b0 :: b1 :: b2 :: b3 :: rest) 1 = .ok b1 := rfl
  have e2 : byteAt (b0 :: b1 :: b2 :: b3 :: rest) 2 = .ok b2 := rfl
  have e3 : byteAt (b0 :: b1 :: b2 :: b3 :: rest) 3 = .ok b3 := rfl
  have el : (b0 :: b1 :: b2 :: b3 :: rest).length - 4 = rest.length := by simp
  rw [e0, Go.bind_ok, e1, Go.bind_ok, e2, Go.bind_ok, e3, Go.bind_ok, el]
  rfl

/-- reading `num` rows of `N` words that are present -/
theorem decodeCoeffsNew_ok {N num : ℕ} {coeffs : List Row} {data : Bytes} {pointer : ℕ} (h48 : 8 * N ≤ 2 ^ 48)
    (hc : num ≤ coeffs.length) (hlen : pointer + num * (N * 8) ≤ data.length) :
    ∃ x, decodeCoeffsNew 8 rd64 pointer (N : ℤ) num coeffs data = .ok x := by
  unfold decodeCoeffsNew
  have : ∀ n ≤ num, ∃ x : List Row × ℕ, Go.foldList (fun (s : List Row × Nat) i => do
    let n ← makeWords (N : ℤ)
    if i < s.1.length then do
      let row ← Go.mapList (fun j => Go.ofOption (rd64 (data.drop (s.2 + j * 8)))) (List.range n)
      return (s.1.set i row, s.2 + n * 8)
    else .panic) (coeffs, pointer) (List.range n) = .ok x ∧ x.1.length = coeffs.length ∧ x.2 = pointer + n * (N * 8) := by
    intro n
    induction n with
    | zero => exact fun _ => ⟨_, rfl, rfl, by simp⟩
    | succ n ih =>
      intro hn
      obtain ⟨⟨c, pt⟩, e1, e2, e3⟩ := ih (by omega)
      dsimp only at e2 e3
      subst e3
      have hle : (n + 1) * (N * 8) ≤ num * (N * 8) := Nat.mul_le_mul_right _ hn
      have hs : (n + 1) * (N * 8) = n * (N * 8) + N * 8 := by ring
      have hm : ∀ j ∈ List.range N, Go.ofOption (rd64 (data.drop (pointer + n * (N * 8) + j * 8)))
          = .ok ((rd64 (data.drop (pointer + n * (N * 8) + j * 8))).getD 0) := by
        intro j hj
        have hj : j < N := by simpa using hj
        obtain ⟨v, hv⟩ := Option.isSome_iff_exists.1 (rd64_isSome (v := data.drop (pointer + n * (N * 8) + j * 8)) (by
          rw [List.length_drop]; omega))
        rw [hv]
        rfl
      refine ⟨(c.set n ((List.range N).map fun j => (rd64 (data.drop (pointer + n * (N * 8) + j * 8))).getD 0),
        pointer + n * (N * 8) + N * 8), ?_, by rw [List.length_set, e2], by dsimp only; omega⟩
      rw [List.range_succ, Go.foldList_append, e1]
      simp only [Go.bind, Go.foldList, makeWords_ok h48, Go.bind_ok]
      rw [if_pos (by omega), Go.mapList_eq hm]
      rfl
  obtain ⟨x, hx, -⟩ := this num le_rfl
  exact ⟨x, hx⟩

/-- **C38 (no panic).** For a receiver without coefficients and at least four bytes, `UnmarshalBinary` returns a polynomial or
an error, unless the first byte is between 57 and 63. -/
theorem C38_noPanic {data : Bytes} {b0 : UInt8} (h4 : 4 ≤ data.length) (h48 : data.length ≤ 2 ^ 48) (hb : data.head? = some b0)
    (hb0 : b0.toNat < 57 ∨ 63 < b0.toNat) (rcv : WPoly) (hr : rcv.coeffs = none) : rcv.unmarshalBinary data ≠ .panic := by
  match data, h4, h48, hb with
  | a0 :: b1 :: b2 :: b3 :: rest, _, h48, hb =>
    obtain rfl : a0 = b0 := by simpa using hb
    rw [unmarshal_header rfl]
    split
    · exact fun hc => by cases hc
    · rename_i hlen
      simp only [ne_eq, Decidable.not_not] at hlen
      have hrest : rest.length ≤ 2 ^ 48 := by simp only [List.length_cons] at h48; omega
      have h255 : b1.toNat < 256 := b1.toNat_lt
      -- the number of words and rows announced by the header
      obtain ⟨N, hN, hfit⟩ : ∃ N : ℕ, shl1 a0 = (N : ℤ) ∧ (b1.toNat = 0 ∨ (8 * N ≤ 2 ^ 48 ∧ b1.toNat * N = rest.length / 8)) := by
        unfold shl1 at hlen ⊢
        rcases hb0 with hb0 | hb0
        · rw [if_pos (by omega)] at hlen ⊢
          refine ⟨2 ^ a0.toNat, by push_cast; rfl, ?_⟩
          by_cases hz : b1.toNat = 0
          · exact Or.inl hz
          right
          have hp := Nat.two_pow_pos a0.toNat
          by_cases hs : a0.toNat ≤ 54
          · have h2 : 2 ^ a0.toNat ≤ 2 ^ 54 := Nat.pow_le_pow_right (by omega) hs
            have hm : 2 ^ a0.toNat * b1.toNat ≤ 2 ^ 54 * 255 := Nat.mul_le_mul h2 (by omega)
            have hge : 2 ^ a0.toNat * 1 ≤ 2 ^ a0.toNat * b1.toNat := Nat.mul_le_mul_left _ (by omega)
            have hcast : (2 : ℤ) ^ a0.toNat * (b1.toNat : ℤ) = ((2 ^ a0.toNat * b1.toNat : ℕ) : ℤ) := by push_cast; ring
            rw [hcast, Int.bmod_eq_of_le (by omega) (by omega)] at hlen
            have hlen : rest.length / 8 = 2 ^ a0.toNat * b1.toNat := by exact_mod_cast hlen
            have hcomm : b1.toNat * 2 ^ a0.toNat = 2 ^ a0.toNat * b1.toNat := mul_comm _ _
            constructor <;> omega
          · exfalso
            have : a0.toNat = 55 ∨ a0.toNat = 56 := by omega
            rcases this with e | e
            · rw [e] at hlen
              norm_num [Int.bmod] at hlen
              split at hlen <;> omega
            · rw [e] at hlen
              norm_num [Int.bmod] at hlen
              split at hlen <;> omega
        · rw [if_neg (by omega), if_neg (by omega)] at hlen ⊢
          refine ⟨0, rfl, Or.inr ⟨by norm_num, ?_⟩⟩
          have : ((rest.length / 8 : ℕ) : ℤ) = 0 := by simpa using hlen
          have : rest.length / 8 = 0 := by exact_mod_cast this
          omega
      have hdec : ∃ x, decodeCoeffsNew 8 rd64 4 (shl1 a0) b1.toNat (List.replicate b1.toNat []) (a0 :: b1 :: b2 :: b3 :: rest)
          = .ok x := by
        rcases hfit with hz | ⟨h8, hm⟩
        · rw [hz]; exact ⟨_, rfl⟩
        · rw [hN]
          refine decodeCoeffsNew_ok h8 (by simp) ?_
          have : b1.toNat * (N * 8) = b1.toNat * N * 8 := by ring
          simp only [List.length_cons]
          omega
      obtain ⟨x, hx⟩ := hdec
      have e0 : byteAt (a0 :: b1 :: b2 :: b3 :: rest) 0 = .ok a0 := rfl
      have e1 : byteAt (a0 :: b1 :: b2 :: b3 :: rest) 1 = .ok b1 := rfl
      have e2 : byteAt (a0 :: b1 :: b2 :: b3 :: rest) 2 = .ok b2 := rfl
      have e3 : byteAt (a0 :: b1 :: b2 :: b3 :: rest) 3 = .ok b3 := rfl
      unfold WPoly.decodePolyNew WPoly.decodePolyNewW
      simp only [e0, e1, e2, e3, Go.bind_ok, hr, Option.getD_none, hx, Go.pure_eq]
      exact fun hc => by cases hc

/-- two rows of degree 2 in NTT form -/
def samplePoly : WPoly := ⟨some [[1, 0x1122334455667788], [0, 0xffffffffffffffff]], true, false⟩

theorem samplePoly_wf : samplePoly.WF 1 [[1, 0x1122334455667788], [0, 0xffffffffffffffff]] :=
  ⟨rfl, by decide, by decide, by decide, by decide⟩

example : samplePoly.marshalBinary.bind WPoly.fresh.unmarshalBinary = .ok samplePoly := C38_fresh samplePoly_wf

/-- **C38 (violated, witnesses).** Decoding the encoding of `samplePoly`, without its flag, into a used receiver: a receiver in
NTT form stays in NTT form; a third row stays; a receiver with one row panics.  `UnmarshalBinary` panics on three bytes and on
headers announcing `2^63 · 2`, `2^62 · 4` or `2^57 · 128` words, whose product wraps to 0.  `WriteTo` into a used buffer
writes a stale flag. -/
theorem C38_violated :
    (({ samplePoly with isNTT := false } : WPoly).marshalBinary.bind (samplePoly.unmarshalBinary) = .ok samplePoly) ∧
    (samplePoly.marshalBinary.bind (⟨some [[5, 6], [7, 8], [9, 10]], false, false⟩ : WPoly).unmarshalBinary
      = .ok ⟨some [[1, 0x1122334455667788], [0, 0xffffffffffffffff], [9, 10]], true, false⟩) ∧
    (samplePoly.marshalBinary.bind (⟨some [[5, 6]], false, false⟩ : WPoly).unmarshalBinary = .panic) ∧
    (WPoly.fresh.unmarshalBinary [1, 2, 1] = .panic) ∧ (WPoly.fresh.unmarshalBinary [63, 2, 0, 0] = .panic) ∧
    (WPoly.fresh.unmarshalBinary [62, 4, 0, 0] = .panic) ∧ (WPoly.fresh.unmarshalBinary [57, 128, 0, 0] = .panic) ∧
    ((({ samplePoly with isNTT := false } : WPoly).writeTo (List.replicate 36 1)).bind
      (fun x => WPoly.fresh.unmarshalBinary x.1) = .ok { samplePoly with isMForm := true }) := by
  decide +kernel

end FastKsw.Props
