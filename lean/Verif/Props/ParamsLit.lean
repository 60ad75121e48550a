import Verif.Model.ParamsLit
import Verif.Lemmas.Bytes
import Verif.Props.Bytes
import Verif.Lemmas.NewRing
import Verif.Lemmas.NTT

/-!
# C40, C41: serialization and equality of parameters
-/

namespace FastKsw.Props

open FastKsw

/-! ## C41 -/

theorem equalSliceLoop_false (a b : List UInt64) (l : List ℕ) : equalSliceLoop a b false l = .ok false := by
  induction l with
  | nil => rfl
  | cons i l ih => rw [equalSliceLoop, if_neg (by simp), ih]

/-- what the loop computes: agreement on a prefix, or a panic at the end of `b` -/
def slicePrefix : List UInt64 → List UInt64 → Go Bool
  | [], _ => .ok true
  | _ :: _, [] => .panic
  | x :: a, y :: b => if x = y then slicePrefix a b else .ok false

theorem equalSliceLoop_eq (a b : List UInt64) (k n : ℕ) (hn : k + n = a.length) :
    equalSliceLoop a b true (List.range' k n) = slicePrefix (a.drop k) (b.drop k) := by
  induction n generalizing k with
  | zero =>
    rw [List.drop_eq_nil_of_le (by omega)]
    rfl
  | succ n ih =>
    have hk : k < a.length := by omega
    rw [List.range'_succ, equalSliceLoop, if_pos rfl, List.drop_eq_getElem_cons hk, List.getElem?_eq_getElem hk]
    by_cases hb : k < b.length
    · rw [List.drop_eq_getElem_cons hb, List.getElem?_eq_getElem hb]
      simp only [Go.ofOption, Go.bind_ok, slicePrefix]
      by_cases he : a[k] = b[k]
      · rw [if_pos he, beq_iff_eq.2 he, ih (k + 1) (by omega)]
      · rw [if_neg he, beq_eq_false_iff_ne.2 he, equalSliceLoop_false]
    · rw [List.drop_eq_nil_of_le (as := b) (by omega), List.getElem?_eq_none (l := b) (by omega)]
      rfl

theorem equalSlice_eq (a b : List UInt64) : equalSliceUint64 a b = slicePrefix a b := by
  unfold equalSliceUint64
  rw [List.range_eq_range', equalSliceLoop_eq _ _ _ _ (by omega)]
  rfl

theorem slicePrefix_true {a b : List UInt64} : slicePrefix a b = .ok true ↔ a <+: b := by
  induction a generalizing b with
  | nil => simp [slicePrefix]
  | cons x a ih =>
    cases b with
    | nil => simp [slicePrefix]
    | cons y b =>
      rw [slicePrefix, List.cons_prefix_cons]
      split
      · rename_i h; rw [ih]; simp [h]
      · rename_i h; simp [h]

theorem slicePrefix_panic {a b : List UInt64} : slicePrefix a b = .panic ↔ b <+: a ∧ b.length < a.length := by
  induction a generalizing b with
  | nil => simp [slicePrefix]
  | cons x a ih =>
    cases b with
    | nil => simp [slicePrefix]
    | cons y b =>
      rw [slicePrefix, List.cons_prefix_cons]
      split
      · rename_i h; rw [ih]; simp [h]
      · rename_i h; simp [Ne.symm h]

theorem slicePrefix_err {a b : List UInt64} : slicePrefix a b ≠ .err := by
  induction a generalizing b with
  | nil => simp [slicePrefix]
  | cons x a ih =>
    cases b with
    | nil => simp [slicePrefix]
    | cons y b =>
      rw [slicePrefix]
      split
      · exact ih
      · simp

/-- **C41 (what `Equals` decides).** It compares the moduli of the receiver with a prefix of those of the argument. -/
theorem C41_equals (a b : RParams) : a.equals b = .ok true ↔ a.logN = b.logN ∧ a.qi <+: b.qi ∧ a.pi <+: b.pi ∧ a.h = b.h ∧
    floatEq a.sigma b.sigma = true ∧ a.ringType = b.ringType := by
  unfold RParams.equals
  rw [equalSlice_eq, equalSlice_eq]
  by_cases h1 : a.logN = b.logN
  · have e1 : (a.logN == b.logN) = true := by simpa using h1
    rw [e1]
    have f1 := @slicePrefix_true a.qi b.qi
    have f2 := @slicePrefix_true a.pi b.pi
    rcases h2 : slicePrefix a.qi b.qi with x | _ | _
    · rw [h2] at f1
      cases x
      · simp [Go.and] at f1 ⊢; tauto
      · rcases h3 : slicePrefix a.pi b.pi with y | _ | _
        · rw [h3] at f2
          cases y
          · simp [Go.and] at f1 f2 ⊢; tauto
          · simp [Go.and] at f1 f2 ⊢; tauto
        · exact absurd h3 slicePrefix_err
        · rw [h3] at f2
          simp [Go.and] at f1 f2 ⊢; tauto
    · exact absurd h2 slicePrefix_err
    · rw [h2] at f1
      simp [Go.and] at f1 ⊢; tauto
  · have e1 : (a.logN == b.logN) = false := by simpa using h1
    rw [e1]
    simp [Go.and, h1]

/-- **C41 (when `Equals` panics).** -/
theorem C41_panics (a b : RParams) : a.equals b = .panic ↔ a.logN = b.logN ∧ ((b.qi <+: a.qi ∧ b.qi.length < a.qi.length) ∨
    (a.qi <+: b.qi ∧ b.pi <+: a.pi ∧ b.pi.length < a.pi.length)) := by
  unfold RParams.equals
  rw [equalSlice_eq, equalSlice_eq]
  by_cases h1 : a.logN = b.logN
  · have e1 : (a.logN == b.logN) = true := by simpa using h1
    rw [e1]
    have f1 := @slicePrefix_true a.qi b.qi
    have f2 := @slicePrefix_panic a.pi b.pi
    have f3 := @slicePrefix_panic a.qi b.qi
    rcases h2 : slicePrefix a.qi b.qi with x | _ | _
    · rw [h2] at f1 f3
      cases x
      · simp [Go.and] at f1 f3 ⊢; tauto
      · rcases h3 : slicePrefix a.pi b.pi with y | _ | _
        · rw [h3] at f2
          cases y
          · simp [Go.and] at f1 f2 f3 ⊢; tauto
          · simp [Go.and] at f1 f2 f3 ⊢; tauto
        · exact absurd h3 slicePrefix_err
        · rw [h3] at f2
          simp [Go.and] at f1 f2 f3 ⊢; tauto
    · exact absurd h2 slicePrefix_err
    · rw [h2] at f1 f3
      simp [Go.and] at f1 f3 ⊢; tauto
  · have e1 : (a.logN == b.logN) = false := by simpa using h1
    rw [e1]
    simp [Go.and, h1]

theorem equals_ne_err (a : Bool) (x y : Go Bool) (f : Bool → Bool) (hx : x ≠ .err) (hy : y ≠ .err) :
    (Go.and a x >>= fun r => Go.and r y >>= fun r => pure (f r)) ≠ (Go.err : Go Bool) := by
  cases a
  · simp [Go.and]
  · rcases x with x | _ | _
    · cases x
      · simp [Go.and]
      · rcases y with y | _ | _
        · simp [Go.and]
        · exact absurd rfl hy
        · simp [Go.and]
    · exact absurd rfl hx
    · simp [Go.and]

/-- **C41 (partial: chains of the same lengths).** `Equals` returns, and decides the equality of all components.  Missing:
chains of different lengths (`C41_violated`). -/
theorem C41_partial (a b : RParams) (hq : a.qi.length = b.qi.length) (hp : a.pi.length = b.pi.length) :
    (a.equals b = .ok true ∨ a.equals b = .ok false) ∧ (a.equals b = .ok true ↔ a.logN = b.logN ∧ a.qi = b.qi ∧ a.pi = b.pi ∧
      a.h = b.h ∧ floatEq a.sigma b.sigma = true ∧ a.ringType = b.ringType) := by
  have e := C41_equals a b
  have p := C41_panics a b
  have hqe : a.qi <+: b.qi ↔ a.qi = b.qi := ⟨fun h => h.eq_of_length hq, fun h => h ▸ List.prefix_refl _⟩
  have hpe : a.pi <+: b.pi ↔ a.pi = b.pi := ⟨fun h => h.eq_of_length hp, fun h => h ▸ List.prefix_refl _⟩
  refine ⟨?_, by rw [e, hqe, hpe]⟩
  rcases h : a.equals b with x | _ | _
  · cases x <;> simp
  · exfalso
    unfold RParams.equals at h
    rw [equalSlice_eq, equalSlice_eq] at h
    exact equals_ne_err _ _ _ (fun r => r && a.h == b.h && floatEq a.sigma b.sigma && a.ringType == b.ringType) slicePrefix_err slicePrefix_err h
  · exact absurd (p.1 h).2 (by omega)

/-- **C41 (partial, symmetry: chains of the same lengths, no NaN).** -/
theorem C41_symm_partial (a b : RParams) (hq : a.qi.length = b.qi.length) (hp : a.pi.length = b.pi.length) :
    a.equals b = b.equals a := by
  obtain ⟨o1, i1⟩ := C41_partial a b hq hp
  obtain ⟨o2, i2⟩ := C41_partial b a hq.symm hp.symm
  have hs : floatEq a.sigma b.sigma = floatEq b.sigma a.sigma := by
    unfold floatEq
    rw [Bool.and_comm (!floatNaN a.sigma)]
    congr 1
    rw [Bool.and_comm (a.sigma.toNat % 2 ^ 63 == 0), BEq.comm]
  have : a.equals b = .ok true ↔ b.equals a = .ok true := by
    rw [i1, i2, hs]
    constructor <;> rintro ⟨h1, h2, h3, h4, h5, h6⟩ <;> exact ⟨h1.symm, h2.symm, h3.symm, h4.symm, h5, h6.symm⟩
  rcases o1 with h | h <;> rcases o2 with h' | h'
  · rw [h, h']
  · rw [this.1 h] at h'; cases h'
  · rw [this.2 h'] at h; cases h
  · rw [h, h']

/-- the `sigma` of a parameter set never influences its creation -/
theorem newParameters_fields {fuel logN : ℕ} {q p : List UInt64} {h : ℕ} {sigma : UInt64} {ty : RingType} {P : RParams}
    (hP : newParameters fuel logN q p h sigma ty = .ok P) : P.logN = logN ∧ P.qi = q ∧ P.pi = p ∧ P.h = h ∧ P.sigma = sigma ∧
      P.ringType = ty ∧ 4 ≤ logN ∧ logN ≤ 17 ∧ q.length ≤ 100 ∧ p.length ≤ 100 := by
  unfold newParameters at hP
  split at hP
  · cases hP
  rename_i hs
  have hb : 4 ≤ logN ∧ logN ≤ 17 ∧ q.length ≤ 100 ∧ p.length ≤ 100 := by
    unfold checkSizeParams maxLogN minLogN maxModuliCount at hs
    split at hs
    · cases hs
    split at hs
    · cases hs
    split at hs
    · cases hs
    split at hs
    · cases hs
    omega
  split at hP
  · cases hP
  split at hP
  · cases hP
  split at hP
  · split at hP
    · cases hP
    · cases hP; exact ⟨rfl, rfl, rfl, rfl, rfl, rfl, hb⟩
  · cases hP; exact ⟨rfl, rfl, rfl, rfl, rfl, rfl, hb⟩

theorem newParameters_of_isOk {fuel logN : ℕ} {q p : List UInt64} {h : ℕ} {sigma : UInt64} {ty : RingType}
    (hP : (newParameters fuel logN q p h sigma ty).isOk = true) : ∃ P, newParameters fuel logN q p h sigma ty = .ok P := by
  cases e : newParameters fuel logN q p h sigma ty with
  | ok P => exact ⟨P, rfl⟩
  | error _ => rw [e] at hP; cases hP

set_option maxRecDepth 1000000 in
theorem short_isOk : (newParameters 100 4 [97] [257] 8 defaultSigma .standard).isOk = true := by decide +kernel

set_option maxRecDepth 1000000 in
theorem long_isOk : (newParameters 100 4 [97, 193] [257] 8 defaultSigma .standard).isOk = true := by decide +kernel

set_option maxRecDepth 1000000 in
theorem nan_isOk : (newParameters 100 4 [97] [257] 8 0x7ff8000000000001 .standard).isOk = true := by decide +kernel

/-- **C41 (violated, witness).** A valid parameter set with modulus 97 equals one with moduli 97 and 193; the opposite comparison
panics.  A parameter set with a NaN standard deviation, which `NewParameters` accepts, does not equal itself. -/
theorem C41_violated : ∃ a b c : RParams, newParameters 100 4 [97] [257] 8 defaultSigma .standard = .ok a ∧
    newParameters 100 4 [97, 193] [257] 8 defaultSigma .standard = .ok b ∧
    newParameters 100 4 [97] [257] 8 0x7ff8000000000001 .standard = .ok c ∧
    a.equals b = .ok true ∧ b.equals a = .panic ∧ c.equals c = .ok false := by
  obtain ⟨a, ha⟩ := newParameters_of_isOk short_isOk
  obtain ⟨b, hb⟩ := newParameters_of_isOk long_isOk
  obtain ⟨c, hc⟩ := newParameters_of_isOk nan_isOk
  obtain ⟨a1, a2, a3, a4, a5, a6, -⟩ := newParameters_fields ha
  obtain ⟨b1, b2, b3, b4, b5, b6, -⟩ := newParameters_fields hb
  obtain ⟨c1, c2, c3, c4, c5, c6, -⟩ := newParameters_fields hc
  refine ⟨a, b, c, ha, hb, hc, (C41_equals a b).2 ?_, (C41_panics b a).2 ?_, ?_⟩
  · rw [a1, a2, a3, a4, a5, a6, b1, b2, b3, b4, b5, b6]
    exact ⟨rfl, by decide, List.prefix_refl _, rfl, by decide, rfl⟩
  · rw [a1, a2, b1, b2]
    exact ⟨rfl, Or.inl ⟨by decide, by decide⟩⟩
  · refine (C41_partial c c rfl rfl).1.resolve_left fun h => ?_
    have := ((C41_equals c c).1 h).2.2.2.2.1
    rw [c5] at this
    revert this
    decide

/-! ## C40: binary -/

theorem toNat_ofNat8 {n : ℕ} (h : n ≤ 255) : (UInt8.ofNat n).toNat = n := by rw [UInt8.toNat_ofNat']; omega

/-- the bytes of a parameter set -/
theorem rparams_bytes {P : RParams} (h : P.logN ≠ 0) : P.marshalBinary = UInt8.ofNat P.logN :: UInt8.ofNat P.qi.length ::
    UInt8.ofNat P.pi.length :: (be64 (UInt64.ofNat P.h) ++ (be64 P.sigma ++ (P.ringType.toByte :: (P.qi.flatMap be64 ++
      P.pi.flatMap be64)))) := by
  unfold RParams.marshalBinary
  rw [if_neg h]
  simp only [Buffer.writeUint8, Buffer.writeUint64, writeUint64Slice_buf, List.append_assoc, List.nil_append, List.cons_append]

/-- decoding succeeds with any trailing bytes -/
theorem rparams_decode {fuel logN : ℕ} {q p : List UInt64} {h : ℕ} {sigma : UInt64} {ty : RingType} {P : RParams}
    (hP : newParameters fuel logN q p h sigma ty = .ok P) (hh : h < 2 ^ 64) (rest : Bytes) :
    RParams.unmarshalBinary fuel (P.marshalBinary ++ rest) = .ok P := by
  obtain ⟨a1, a2, a3, a4, a5, a6, l1, l2, l3, l4⟩ := newParameters_fields hP
  rw [rparams_bytes (by omega), a1, a2, a3, a4, a5, a6]
  unfold RParams.unmarshalBinary
  have hs : checkSizeParams logN q.length p.length = .ok () := by
    unfold checkSizeParams maxLogN minLogN maxModuliCount
    rw [if_neg (by omega), if_neg (by omega), if_neg (by omega), if_neg (by omega)]
  have hty : RingType.ofByte ty.toByte = some ty := by cases ty <;> rfl
  have hlen : ¬ (UInt8.ofNat logN :: UInt8.ofNat q.length :: UInt8.ofNat p.length :: (be64 (UInt64.ofNat h) ++ (be64 sigma ++
      (ty.toByte :: (q.flatMap be64 ++ p.flatMap be64)))) ++ rest).length < 11 := by
    simp only [List.length_append, List.length_cons, length_be64]
    omega
  rw [if_neg hlen]
  simp only [Buffer.readUint8, List.cons_append, List.append_assoc, Go.bind_ok, readUint64_append,
    toNat_ofNat8 (show logN ≤ 255 by omega), toNat_ofNat8 (show q.length ≤ 255 by omega),
    toNat_ofNat8 (show p.length ≤ 255 by omega), hs, Go.ofExcept, readUint64Slice_append, hty]
  rw [UInt64.toNat_ofNat', Nat.mod_eq_of_lt hh, hP]

/-- **C40 (partial, binary).** Every parameter set returned by `NewParameters` is restored exactly, and the announced size is
the size of the encoding.  Missing: short inputs (`C40_panics`). -/
theorem C40_binary_partial {fuel logN : ℕ} {q p : List UInt64} {h : ℕ} {sigma : UInt64} {ty : RingType} {P : RParams}
    (hP : newParameters fuel logN q p h sigma ty = .ok P) (hh : h < 2 ^ 64) :
    RParams.unmarshalBinary fuel P.marshalBinary = .ok P ∧ P.marshalBinary.length = P.marshalBinarySize := by
  have := rparams_decode hP hh []
  rw [List.append_nil] at this
  refine ⟨this, ?_⟩
  obtain ⟨a1, -, -, -, -, -, l1, -⟩ := newParameters_fields hP
  have hl : ∀ l : List UInt64, (l.flatMap be64).length = 8 * l.length := by
    intro l
    induction l with
    | nil => rfl
    | cons x l ih => rw [List.flatMap_cons, List.length_append, ih, length_be64, List.length_cons]; ring
  rw [rparams_bytes (by omega)]
  unfold RParams.marshalBinarySize
  simp only [List.length_append, List.length_cons, length_be64, hl]
  ring

theorem readUint64Slice_panic {n : ℕ} {b : Buffer} (h : b.buf.length < 8 * n) : b.readUint64Slice n = .panic := by
  induction n generalizing b with
  | zero => omega
  | succ n ih =>
    rw [Buffer.readUint64Slice, Buffer.readUint64]
    by_cases h8 : b.buf.length < 8
    · rw [rd64_none h8]
      rfl
    · obtain ⟨v, hv⟩ := Option.isSome_iff_exists.1 (rd64_isSome (v := b.buf) (by omega))
      rw [hv]
      simp only [Go.bind_ok]
      rw [ih]
      · rfl
      · simp only [List.length_drop]
        omega

theorem readUint64Slice_ok {n : ℕ} {b : Buffer} (h : 8 * n ≤ b.buf.length) :
    ∃ l b', b.readUint64Slice n = .ok (l, b') ∧ b'.buf.length = b.buf.length - 8 * n := by
  induction n generalizing b with
  | zero => exact ⟨[], b, rfl, by omega⟩
  | succ n ih =>
    obtain ⟨v, hv⟩ := Option.isSome_iff_exists.1 (rd64_isSome (v := b.buf) (by omega))
    obtain ⟨l, b', h1, h2⟩ := ih (b := ⟨b.buf.drop 8⟩) (by simp only [List.length_drop]; omega)
    refine ⟨v :: l, b', ?_, by rw [h2]; simp only [List.length_drop]; omega⟩
    rw [Buffer.readUint64Slice, Buffer.readUint64, hv]
    simp only [Go.bind_ok, h1, Go.pure_eq]

/-- **C40 (when decoding panics).** Exactly on inputs of 11 to 19 bytes, and on longer inputs with a plausible header that are
shorter than the announced chains; all other inputs give parameters or an error. -/
theorem C40_panics (fuel : ℕ) (data : Bytes) : RParams.unmarshalBinary fuel data = .panic ↔ 11 ≤ data.length ∧
    (data.length < 20 ∨ ∃ logN lenQ lenP rest, data = logN :: lenQ :: lenP :: rest ∧
      checkSizeParams logN.toNat lenQ.toNat lenP.toNat = .ok () ∧ data.length < 20 + 8 * (lenQ.toNat + lenP.toNat)) := by
  unfold RParams.unmarshalBinary
  by_cases h11 : data.length < 11
  · rw [if_pos h11]
    exact ⟨fun h => (by cases h), fun h => absurd h.1 (by omega)⟩
  rw [if_neg h11]
  obtain ⟨logN, lenQ, lenP, rest, rfl⟩ : ∃ a b c r, data = a :: b :: c :: r := by
    match data, h11 with
    | a :: b :: c :: r, _ => exact ⟨a, b, c, r, rfl⟩
    | [], h => simp at h
    | [_], h => simp at h
    | [_, _], h => simp at h
  simp only [List.length_cons] at h11 ⊢
  simp only [Buffer.readUint8, Go.bind_ok, Buffer.readUint64]
  obtain ⟨h, hh⟩ := Option.isSome_iff_exists.1 (rd64_isSome (v := rest) (by omega))
  rw [hh]
  simp only [Go.bind_ok]
  by_cases h19 : rest.length < 16
  · rw [rd64_none (v := rest.drop 8) (by rw [List.length_drop]; omega)]
    simp only [Go.bind_panic, true_iff]
    omega
  obtain ⟨s, hs⟩ := Option.isSome_iff_exists.1 (rd64_isSome (v := rest.drop 8) (by rw [List.length_drop]; omega))
  rw [hs]
  simp only [Go.bind_ok]
  rw [List.drop_drop]
  rcases hr : rest.drop (8 + 8) with _ | ⟨ty, r⟩
  · have := congrArg List.length hr
    rw [List.length_drop] at this
    simp only [Go.bind_panic, true_iff, List.length_nil] at this ⊢
    omega
  have hrl := congrArg List.length hr
  rw [List.length_drop, List.length_cons] at hrl
  simp only [Go.bind_ok]
  rcases hc : checkSizeParams logN.toNat lenQ.toNat lenP.toNat with e | u
  · simp only [Go.ofExcept, Go.bind_err]
    constructor
    · intro h; cases h
    · rintro ⟨-, h | ⟨a, b, c, d, he, hcc, -⟩⟩
      · omega
      · simp only [List.cons.injEq] at he
        obtain ⟨rfl, rfl, rfl, rfl⟩ := he
        rw [hc] at hcc; cases hcc
  simp only [Go.ofExcept, Go.bind_ok]
  have key : ∀ X : Prop, (X ↔ r.length < 8 * (lenQ.toNat + lenP.toNat)) → (X ↔ 11 ≤ rest.length + 1 + 1 + 1 ∧
      (rest.length + 1 + 1 + 1 < 20 ∨ ∃ logN' lenQ' lenP' rest', logN :: lenQ :: lenP :: rest = logN' :: lenQ' :: lenP' :: rest' ∧
      checkSizeParams logN'.toNat lenQ'.toNat lenP'.toNat = .ok () ∧
      rest.length + 1 + 1 + 1 < 20 + 8 * (lenQ'.toNat + lenP'.toNat))) := by
    intro X hX
    rw [hX]
    constructor
    · intro hl
      exact ⟨by omega, Or.inr ⟨_, _, _, _, rfl, hc, by omega⟩⟩
    · rintro ⟨-, h | ⟨a, b, c, d, he, -, hl⟩⟩
      · omega
      · simp only [List.cons.injEq] at he
        obtain ⟨rfl, rfl, rfl, rfl⟩ := he
        omega
  apply key
  by_cases hq : r.length < 8 * lenQ.toNat
  · rw [readUint64Slice_panic hq]
    simp only [Go.bind_panic, true_iff]
    omega
  obtain ⟨l, b', e1, e2⟩ := readUint64Slice_ok (b := ⟨r⟩) (n := lenQ.toNat) (by simpa using hq)
  rw [e1]
  simp only [Go.bind_ok]
  dsimp only at e2
  by_cases hp : b'.buf.length < 8 * lenP.toNat
  · rw [readUint64Slice_panic hp]
    simp only [Go.bind_panic, true_iff]
    omega
  obtain ⟨l', b'', e3, -⟩ := readUint64Slice_ok (b := b') (n := lenP.toNat) (by omega)
  rw [e3]
  simp only [Go.bind_ok]
  constructor
  · intro h
    exfalso
    split at h
    · split at h <;> cases h
    · cases h
  · intro h; omega

/-- **C40 (violated, witness).** Eleven bytes panic instead of returning an error; so does the encoding of a valid parameter set
without its last byte. -/
theorem C40_violated : (∀ fuel, RParams.unmarshalBinary fuel (List.replicate 11 0) = .panic) ∧
    ∀ {fuel logN : ℕ} {q p : List UInt64} {h : ℕ} {sigma : UInt64} {ty : RingType} {P : RParams},
      newParameters fuel logN q p h sigma ty = .ok P → h < 2 ^ 64 →
      RParams.unmarshalBinary fuel P.marshalBinary.dropLast = .panic := by
  refine ⟨fun fuel => (C40_panics _ _).2 ⟨by simp, Or.inl (by simp)⟩, ?_⟩
  intro fuel logN q p h sigma ty P hP hh
  obtain ⟨-, e2⟩ := C40_binary_partial hP hh
  obtain ⟨a1, a2, a3, -, -, -, l1, l2, l3, l4⟩ := newParameters_fields hP
  have hs : checkSizeParams logN q.length p.length = .ok () := by
    unfold checkSizeParams maxLogN minLogN maxModuliCount
    rw [if_neg (by omega), if_neg (by omega), if_neg (by omega), if_neg (by omega)]
  rw [C40_panics, List.length_dropLast, e2]
  unfold RParams.marshalBinarySize
  rw [a2, a3]
  refine ⟨by omega, Or.inr ⟨UInt8.ofNat logN, UInt8.ofNat q.length, UInt8.ofNat p.length, (be64 (UInt64.ofNat P.h) ++
    (be64 P.sigma ++ (P.ringType.toByte :: (P.qi.flatMap be64 ++ P.pi.flatMap be64)))).dropLast, ?_, ?_, ?_⟩⟩
  · rw [rparams_bytes (by omega), a1, a2, a3]
    rw [List.dropLast_cons_of_ne_nil (by simp), List.dropLast_cons_of_ne_nil (by simp),
      List.dropLast_cons_of_ne_nil (by simp)]
  · rw [toNat_ofNat8 (show logN ≤ 255 by omega), toNat_ofNat8 (show q.length ≤ 255 by omega),
      toNat_ofNat8 (show p.length ≤ 255 by omega), hs]
  · rw [toNat_ofNat8 (show q.length ≤ 255 by omega), toNat_ofNat8 (show p.length ≤ 255 by omega)]
    omega

/-! ## C40: the ckks parameters -/

theorem newParameters_nthRoot {fuel logN : ℕ} {q p : List UInt64} {h : ℕ} {sigma : UInt64} {ty : RingType} {P : RParams}
    (hP : newParameters fuel logN q p h sigma ty = .ok P) : P.ringQ.nthRoot = 2 ^ (logN + 1) ∨ P.ringQ.nthRoot = 2 ^ (logN + 2) := by
  unfold newParameters at hP
  split at hP
  · cases hP
  split at hP
  · cases hP
  split at hP
  · cases hP
  rename_i rQ hQ
  have hr : rQ.nthRoot = 2 ^ (logN + 1) ∨ rQ.nthRoot = 2 ^ (logN + 2) := by
    cases ty
    · exact Or.inl ((newRingCustom_ok hQ).2.2.2.2.2.2.1.trans (by ring))
    · exact Or.inr ((newRingCustom_ok hQ).2.2.2.2.2.2.1.trans (by ring))
  split at hP
  · split at hP
    · cases hP
    · cases hP; exact hr
  · cases hP; exact hr

/-- **C40 (partial, ckks binary).** Every parameter set returned by `ckks.NewParameters` is restored exactly. -/
theorem C40_ckks_partial {fuel logN : ℕ} {q p : List UInt64} {h : ℕ} {sigma : UInt64} {ty : RingType} {P : RParams}
    (hP : newParameters fuel logN q p h sigma ty = .ok P) (hh : h < 2 ^ 64) {logSlots : ℤ} {scale : UInt64} {C : CParams}
    (hC : ckksNewParameters P logSlots scale = .ok C) :
    CParams.unmarshalBinary fuel C.marshalBinary = .ok C ∧ C.marshalBinary.length = C.marshalBinarySize := by
  obtain ⟨a1, -, -, -, -, -, l1, l2, -⟩ := newParameters_fields hP
  have hC' := hC
  unfold ckksNewParameters at hC'
  have hz : P.equals .zero = .ok false := by
    unfold RParams.equals
    have : (P.logN == RParams.zero.logN) = false := by
      rw [beq_eq_false_iff_ne, a1]; show logN ≠ 0; omega
    rw [this]
    rfl
  rw [hz, Go.bind_ok, if_neg (by simp)] at hC'
  split at hC'
  · cases hC'
  rename_i hb
  push Not at hb
  obtain ⟨hb1, hb2⟩ := hb
  cases hC'
  unfold minLogSlots at hb2
  have hl : (len64 P.ringQ.nthRoot : ℤ) ≤ 20 := by
    rcases newParameters_nthRoot hP with hr | hr <;> rw [hr, len64_two_pow] <;> push_cast <;> omega
  obtain ⟨s, rfl⟩ : ∃ s : ℕ, logSlots = s := ⟨logSlots.toNat, by omega⟩
  have h8 : UInt8.ofInt (s : ℤ) = UInt8.ofNat s := by
    have : ((s : ℤ) % 2 ^ 8).toNat = s := by omega
    unfold UInt8.ofInt
    rw [this]
  have hbytes : (CParams.mk P s scale).marshalBinary = P.marshalBinary ++ (UInt8.ofNat s :: be64 scale) := by
    unfold CParams.marshalBinary
    rw [if_neg (by show P.logN ≠ 0; omega)]
    simp only [writeUint8Slice_buf, Buffer.writeUint8, Buffer.writeUint64, h8, List.nil_append, List.append_assoc, List.cons_append]
  have hbl : (UInt8.ofNat s :: be64 scale).length = 9 := by rw [List.length_cons, length_be64]
  constructor
  · rw [hbytes]
    unfold CParams.unmarshalBinary
    rw [rparams_decode hP hh]
    have e1 : byteAt (P.marshalBinary ++ (UInt8.ofNat s :: be64 scale)) ((P.marshalBinary ++ (UInt8.ofNat s :: be64 scale)).length - 9)
        = .ok (UInt8.ofNat s) := by
      unfold byteAt
      rw [List.length_append, hbl, Nat.add_sub_cancel, List.getElem?_append_right le_rfl, Nat.sub_self]
      rfl
    have e2 : rd64 ((P.marshalBinary ++ (UInt8.ofNat s :: be64 scale)).drop ((P.marshalBinary ++ (UInt8.ofNat s :: be64 scale)).length - 8))
        = some scale := by
      have : P.marshalBinary ++ (UInt8.ofNat s :: be64 scale) = (P.marshalBinary ++ [UInt8.ofNat s]) ++ be64 scale := by simp
      rw [this, List.length_append, length_be64, Nat.add_sub_cancel, List.drop_left]
      have := rd64_be64 scale []
      rwa [List.append_nil] at this
    rw [Go.bind_ok, e1, Go.bind_ok, e2]
    simp only [Go.ofOption, Go.bind_ok]
    rw [toNat_ofNat8 (by omega)]
    exact hC
  · rw [hbytes, List.length_append, hbl, (C40_binary_partial hP hh).2]
    rfl

/-! ## C40: JSON -/

/-- **C40 (partial, JSON of the generic parameters).** A standard parameter set with non-zero `H` and `Sigma` is restored.
Missing: the conjugate-invariant ring, `H = 0` and `Sigma = 0` (`C40_json_violated`). -/
theorem C40_json_partial {fuel logN : ℕ} {q p : List UInt64} {h : ℕ} {sigma : UInt64} {P : RParams}
    (hP : newParameters fuel logN q p h sigma .standard = .ok P) (hh : h ≠ 0) (hs : floatFinite sigma = true)
    (hs0 : floatEq sigma 0 = false) : ∃ l, P.marshalJSON = .ok l ∧ RParams.unmarshalJSON fuel (some l) = some (.ok P) := by
  obtain ⟨a1, a2, a3, a4, a5, a6, -⟩ := newParameters_fields hP
  unfold RParams.marshalJSON
  rw [a5, if_pos hs, a1, a2, a3, a4]
  refine ⟨_, rfl, ?_⟩
  show newParametersFromLiteral _ _ = _
  unfold newParametersFromLiteral ParamLit.fillH
  dsimp only
  rw [if_neg hh]
  dsimp only
  rw [hs0, if_neg (by simp)]
  unfold newParametersInt
  rw [if_neg (by omega), Int.toNat_natCast, hP]
  rfl

/-- **C40 (violated: JSON of the generic parameters).** The ring type is lost: a conjugate-invariant parameter set never comes
back. `H = 0` never comes back as zero, and a vanishing `Sigma` is replaced. -/
theorem C40_json_violated {fuel fuel' logN : ℕ} {q p : List UInt64} {h : ℕ} {sigma : UInt64} {ty : RingType} {P P' : RParams} {l : ParamLit}
    (hP : newParameters fuel logN q p h sigma ty = .ok P) (hl : P.marshalJSON = .ok l)
    (hP' : RParams.unmarshalJSON fuel' (some l) = some (.ok P')) :
    P'.ringType = .standard ∧ (ty = .conjugateInvariant → P' ≠ P) ∧ (h = 0 → P' ≠ P ∧ P'.h = 2 ^ (logN - 1)) ∧
      (sigma = 0 → P' ≠ P ∧ P'.sigma = defaultSigma) := by
  obtain ⟨a1, a2, a3, a4, a5, a6, l1, l2, -⟩ := newParameters_fields hP
  unfold RParams.marshalJSON at hl
  split at hl
  swap
  · cases hl
  cases hl
  change newParametersFromLiteral _ _ = _ at hP'
  unfold newParametersFromLiteral at hP'
  have hf : ParamLit.fillH (⟨(P.logN : ℤ), some P.qi, some P.pi, none, none, P.sigma, P.h, .standard⟩ : ParamLit) = .ok (if h = 0 then 2 ^ (logN - 1) else h) := by
    unfold ParamLit.fillH
    dsimp only
    rw [a4, a1]
    split
    · rw [if_neg (by omega)]
      have : ((logN : ℤ) - 1).toNat = logN - 1 := by omega
      rw [this, Nat.mod_eq_of_lt]
      exact Nat.pow_lt_pow_right (by omega) (by omega)
    · rfl
  rw [hf] at hP'
  dsimp only at hP'
  unfold newParametersInt at hP'
  rw [a1, if_neg (by omega), Int.toNat_natCast] at hP'
  cases hn : newParameters fuel' logN P.qi P.pi (if h = 0 then 2 ^ (logN - 1) else h)
    (if floatEq P.sigma 0 = true then defaultSigma else P.sigma) .standard with
  | error e => rw [hn] at hP'; simp [Go.ofExcept] at hP'
  | ok Q =>
    rw [hn] at hP'
    simp only [Go.ofExcept, Option.some.injEq, Go.ok.injEq] at hP'
    subst hP'
    obtain ⟨b1, b2, b3, b4, b5, b6, -⟩ := newParameters_fields hn
    refine ⟨b6, ?_, ?_, ?_⟩
    · rintro rfl rfl
      rw [b6] at a6
      cases a6
    · rintro rfl
      rw [if_pos rfl] at b4
      refine ⟨?_, b4⟩
      rintro rfl
      rw [b4] at a4
      have := Nat.two_pow_pos (logN - 1)
      omega
    · rintro rfl
      rw [a5, show floatEq 0 0 = true by decide, if_pos rfl] at b5
      refine ⟨?_, b5⟩
      rintro rfl
      rw [b5] at a5
      revert a5
      decide

set_option maxRecDepth 1000000 in
theorem ci_isOk : (newParameters 100 4 [193] [257] 8 defaultSigma .conjugateInvariant).isOk = true := by decide +kernel

set_option maxRecDepth 1000000 in
theorem ciStd_isOk : (newParameters 100 4 [193] [257] 8 defaultSigma .standard).isOk = true := by decide +kernel

/-- **C40 (violated: JSON, witness).** The conjugate-invariant parameter set with moduli 193, 257 comes back, without an error, as
the standard one. -/
theorem C40_json_witness : ∃ P P' l, newParameters 100 4 [193] [257] 8 defaultSigma .conjugateInvariant = .ok P ∧
    P.marshalJSON = .ok l ∧ RParams.unmarshalJSON 100 (some l) = some (.ok P') ∧ P'.ringType ≠ P.ringType := by
  obtain ⟨P, hP⟩ := newParameters_of_isOk ci_isOk
  obtain ⟨S, hS⟩ := newParameters_of_isOk ciStd_isOk
  obtain ⟨l, hl, hu⟩ := C40_json_partial hS (by decide) (by decide) (by decide)
  obtain ⟨a1, a2, a3, a4, a5, a6, -⟩ := newParameters_fields hP
  obtain ⟨b1, b2, b3, b4, b5, b6, -⟩ := newParameters_fields hS
  refine ⟨P, S, l, hP, ?_, hu, by rw [a6, b6]; decide⟩
  rw [← hl]
  unfold RParams.marshalJSON
  rw [a1, a2, a3, a4, a5, b1, b2, b3, b4, b5]

/-- **C40 (partial, JSON of the ckks parameters).** The ring type is kept.  Missing: `H = 0`, `Sigma = 0` and `LogSlots = 0`, which
are replaced by defaults. -/
theorem C40_ckks_json_partial {fuel logN : ℕ} {q p : List UInt64} {h : ℕ} {sigma : UInt64} {ty : RingType} {P : RParams}
    (hP : newParameters fuel logN q p h sigma ty = .ok P) (hh : h ≠ 0) (hs : floatFinite sigma = true)
    (hs0 : floatEq sigma 0 = false) {logSlots : ℤ} (hls : logSlots ≠ 0) {scale : UInt64} (hsc : floatFinite scale = true) {C : CParams}
    (hC : ckksNewParameters P logSlots scale = .ok C) :
    ∃ l, C.marshalJSON = .ok l ∧ CParams.unmarshalJSON fuel (some l) = some (.ok C) := by
  obtain ⟨a1, a2, a3, a4, a5, a6, -⟩ := newParameters_fields hP
  have hCe : C = ⟨P, logSlots, scale⟩ := by
    unfold ckksNewParameters at hC
    rcases hz : P.equals .zero with x | _ | _
    · rw [hz, Go.bind_ok] at hC
      split at hC
      · cases hC
      split at hC
      · cases hC
      · cases hC; rfl
    · rw [hz] at hC; cases hC
    · rw [hz] at hC; cases hC
  subst hCe
  unfold CParams.marshalJSON
  dsimp only
  rw [a5, if_pos ⟨hs, hsc⟩, a1, a2, a3, a4, a6]
  refine ⟨_, rfl, ?_⟩
  show ckksNewParametersFromLiteral _ _ = _
  have hn : newParametersFromLiteral fuel (⟨(logN : ℤ), some q, some p, none, none, sigma, h, ty⟩ : ParamLit) = some (.ok P) := by
    unfold newParametersFromLiteral ParamLit.fillH
    dsimp only
    rw [if_neg hh]
    dsimp only
    rw [hs0, if_neg (by simp)]
    unfold newParametersInt
    rw [if_neg (by omega), Int.toNat_natCast, hP]
    rfl
  unfold ckksNewParametersFromLiteral
  dsimp only
  rw [hn]
  dsimp only
  rw [Go.bind_ok, if_neg hls, hC]

/-- **C40 (violated: JSON of the ckks parameters).** A text that is not JSON panics: the error is ignored and the zero literal
shifts by `-1`.  The same happens for the generic parameters on the empty object.  A parameter set with a single slot comes back
with the maximal number of slots. -/
theorem C40_ckks_json_violated : (∀ fuel, CParams.unmarshalJSON fuel none = some .panic) ∧
    (∀ fuel, RParams.unmarshalJSON fuel (some CParamLit.zero.rl) = some .panic) ∧
    (∃ P C C' l, newParameters 100 4 [97] [257] 8 defaultSigma .standard = .ok P ∧ ckksNewParameters P 0 0x4170000000000000 = .ok C ∧
      C.marshalJSON = .ok l ∧ CParams.unmarshalJSON 100 (some l) = some (.ok C') ∧ C.logSlots = 0 ∧ C'.logSlots = 3) := by
  refine ⟨fun _ => rfl, fun _ => rfl, ?_⟩
  obtain ⟨P, hP⟩ := newParameters_of_isOk short_isOk
  obtain ⟨a1, a2, a3, a4, a5, a6, -⟩ := newParameters_fields hP
  have hz : P.equals .zero = .ok false := by
    unfold RParams.equals
    have : (P.logN == RParams.zero.logN) = false := by
      rw [a1]; rfl
    rw [this]
    rfl
  have hroot : (len64 P.ringQ.nthRoot : ℤ) ≥ 6 := by
    rcases newParameters_nthRoot hP with hr | hr <;> rw [hr, len64_two_pow] <;> push_cast <;> omega
  have hc : ∀ s : ℤ, 0 ≤ s → s ≤ 3 → ckksNewParameters P s 0x4170000000000000 = .ok ⟨P, s, 0x4170000000000000⟩ := by
    intro s h0 h3
    unfold ckksNewParameters minLogSlots
    rw [hz, Go.bind_ok, if_neg (by simp), if_neg (by omega)]
    rfl
  refine ⟨P, ⟨P, 0, 0x4170000000000000⟩, ⟨P, 3, 0x4170000000000000⟩,
    ⟨⟨4, some [97], some [257], none, none, defaultSigma, 8, .standard⟩, 0, 0x4170000000000000⟩, hP, hc 0 (by omega) (by omega), ?_, ?_,
    rfl, rfl⟩
  · unfold CParams.marshalJSON
    dsimp only
    rw [a1, a2, a3, a4, a5, a6, if_pos (by decide)]
    rfl
  · unfold CParams.unmarshalJSON
    have hn : newParametersFromLiteral 100 (⟨4, some [97], some [257], none, none, defaultSigma, 8, .standard⟩ : ParamLit) = some (.ok P) := by
      unfold newParametersFromLiteral ParamLit.fillH
      dsimp only
      rw [if_neg (by decide)]
      dsimp only
      rw [if_neg (by decide)]
      unfold newParametersInt
      rw [if_neg (by decide)]
      show some (Go.ofExcept (newParameters 100 4 _ _ _ _ _)) = _
      rw [hP]
      rfl
    unfold ckksNewParametersFromLiteral
    dsimp only
    rw [hn]
    dsimp only
    rw [Go.bind_ok, if_pos rfl]
    exact congrArg some (hc 3 (by omega) (by omega))

end FastKsw.Props
