import Verif.Model.Bytes
import Mathlib.Tactic.Ring
import Mathlib.Tactic.NormNum
import Mathlib.Tactic.IntervalCases

/-!
# Lemmas on byte encodings
-/

namespace FastKsw

/-- or of a small number with a multiple is a sum -/
theorem or_shift {x y k : ℕ} (hx : x < 2 ^ k) : x ||| y * 2 ^ k = x + y * 2 ^ k := by
  rw [Nat.or_comm, mul_comm, ← Nat.two_pow_add_eq_or_of_lt hx, Nat.add_comm]

theorem toNat_or_shift {x y : UInt64} {k : ℕ} {s : UInt64} (hs : s.toNat = k) (hk : k + 8 ≤ 64) (hx : x.toNat < 2 ^ k)
    (hy : y.toNat < 256) : (x ||| y <<< s).toNat = x.toNat + y.toNat * 2 ^ k := by
  have h1 : y.toNat * 2 ^ k < 2 ^ 64 := by
    calc y.toNat * 2 ^ k < 2 ^ 8 * 2 ^ k := by
          have := Nat.two_pow_pos k
          exact Nat.mul_lt_mul_of_pos_right (by omega) this
      _ = 2 ^ (8 + k) := by rw [← pow_add]
      _ ≤ 2 ^ 64 := Nat.pow_le_pow_right (by omega) (by omega)
  rw [UInt64.toNat_or, UInt64.toNat_shiftLeft, hs, Nat.mod_eq_of_lt (show k < 64 by omega), Nat.shiftLeft_eq, Nat.mod_eq_of_lt h1,
    or_shift hx]

theorem byte_toNat (v : UInt64) (s : UInt64) (hs : s.toNat < 64) :
    ((v >>> s).toUInt8.toUInt64).toNat = v.toNat / 2 ^ s.toNat % 256 := by
  simp [UInt64.toNat_shiftRight, Nat.shiftRight_eq_div_pow, Nat.mod_eq_of_lt hs]

theorem byte0_toNat (v : UInt64) : (v.toUInt8.toUInt64).toNat = v.toNat % 256 := by simp

theorem u8_lt (b : UInt8) : b.toUInt64.toNat < 256 := by
  have := b.toNat_lt
  simpa using this

/-- the eight bytes of a word -/
theorem or8_toNat (b0 b1 b2 b3 b4 b5 b6 b7 : UInt8) :
    (b0.toUInt64 ||| b1.toUInt64 <<< 8 ||| b2.toUInt64 <<< 16 ||| b3.toUInt64 <<< 24 ||| b4.toUInt64 <<< 32 |||
      b5.toUInt64 <<< 40 ||| b6.toUInt64 <<< 48 ||| b7.toUInt64 <<< 56).toNat
    = b0.toUInt64.toNat + b1.toUInt64.toNat * 2 ^ 8 + b2.toUInt64.toNat * 2 ^ 16 + b3.toUInt64.toNat * 2 ^ 24
      + b4.toUInt64.toNat * 2 ^ 32 + b5.toUInt64.toNat * 2 ^ 40 + b6.toUInt64.toNat * 2 ^ 48 + b7.toUInt64.toNat * 2 ^ 56 := by
  have h0 := u8_lt b0
  have h1 := u8_lt b1
  have h2 := u8_lt b2
  have h3 := u8_lt b3
  have h4 := u8_lt b4
  have h5 := u8_lt b5
  have h6 := u8_lt b6
  have h7 := u8_lt b7
  have e1 := toNat_or_shift (x := b0.toUInt64) (s := 8) (k := 8) rfl (by omega) (by omega) h1
  have e2 := toNat_or_shift (s := 16) (k := 16) rfl (by omega) (by omega : (b0.toUInt64 ||| b1.toUInt64 <<< 8).toNat < 2 ^ 16) h2
  have e3 := toNat_or_shift (s := 24) (k := 24) rfl (by omega)
    (by omega : (b0.toUInt64 ||| b1.toUInt64 <<< 8 ||| b2.toUInt64 <<< 16).toNat < 2 ^ 24) h3
  have e4 := toNat_or_shift (s := 32) (k := 32) rfl (by omega)
    (by omega : (b0.toUInt64 ||| b1.toUInt64 <<< 8 ||| b2.toUInt64 <<< 16 ||| b3.toUInt64 <<< 24).toNat < 2 ^ 32) h4
  have e5 := toNat_or_shift (s := 40) (k := 40) rfl (by omega)
    (by omega : (b0.toUInt64 ||| b1.toUInt64 <<< 8 ||| b2.toUInt64 <<< 16 ||| b3.toUInt64 <<< 24
      ||| b4.toUInt64 <<< 32).toNat < 2 ^ 40) h5
  have e6 := toNat_or_shift (s := 48) (k := 48) rfl (by omega)
    (by omega : (b0.toUInt64 ||| b1.toUInt64 <<< 8 ||| b2.toUInt64 <<< 16 ||| b3.toUInt64 <<< 24
      ||| b4.toUInt64 <<< 32 ||| b5.toUInt64 <<< 40).toNat < 2 ^ 48) h6
  have e7 := toNat_or_shift (s := 56) (k := 56) rfl (by omega)
    (by omega : (b0.toUInt64 ||| b1.toUInt64 <<< 8 ||| b2.toUInt64 <<< 16 ||| b3.toUInt64 <<< 24
      ||| b4.toUInt64 <<< 32 ||| b5.toUInt64 <<< 40 ||| b6.toUInt64 <<< 48).toNat < 2 ^ 56) h7
  omega

theorem bytes_sum {v : ℕ} (hv : v < 2 ^ 64) :
    v % 256 + v / 2 ^ 8 % 256 * 2 ^ 8 + v / 2 ^ 16 % 256 * 2 ^ 16 + v / 2 ^ 24 % 256 * 2 ^ 24 + v / 2 ^ 32 % 256 * 2 ^ 32
      + v / 2 ^ 40 % 256 * 2 ^ 40 + v / 2 ^ 48 % 256 * 2 ^ 48 + v / 2 ^ 56 % 256 * 2 ^ 56 = v := by omega

theorem rd64_be64 (v : UInt64) (rest : Bytes) : rd64 (be64 v ++ rest) = some v := by
  show some _ = some v
  congr 1
  apply UInt64.toNat_inj.1
  rw [or8_toNat, byte0_toNat, byte_toNat v 8 (by decide), byte_toNat v 16 (by decide), byte_toNat v 24 (by decide),
    byte_toNat v 32 (by decide), byte_toNat v 40 (by decide), byte_toNat v 48 (by decide), byte_toNat v 56 (by decide)]
  exact bytes_sum v.toNat_lt

theorem rdLe64_le64 (v : UInt64) (rest : Bytes) : rdLe64 (le64 v ++ rest) = some v := by
  show some _ = some v
  congr 1
  apply UInt64.toNat_inj.1
  rw [or8_toNat, byte0_toNat, byte_toNat v 8 (by decide), byte_toNat v 16 (by decide), byte_toNat v 24 (by decide),
    byte_toNat v 32 (by decide), byte_toNat v 40 (by decide), byte_toNat v 48 (by decide), byte_toNat v 56 (by decide)]
  exact bytes_sum v.toNat_lt

/-- the low half of a word survives the 32-bit encoding -/
theorem rd32_be32 (v : UInt64) (rest : Bytes) : rd32 (be32 v ++ rest) = some (UInt64.ofNat (v.toNat % 2 ^ 32)) := by
  show some _ = some _
  congr 1
  apply UInt64.toNat_inj.1
  have h0 := byte0_toNat v
  have h1 := byte_toNat v 8 (by decide)
  have h2 := byte_toNat v 16 (by decide)
  have h3 := byte_toNat v 24 (by decide)
  have e1 := toNat_or_shift (x := v.toUInt8.toUInt64) (y := (v >>> 8).toUInt8.toUInt64) (s := 8) (k := 8) rfl (by omega)
    (by have := u8_lt v.toUInt8; omega) (u8_lt _)
  have l1 := u8_lt v.toUInt8
  have l2 := u8_lt (v >>> 8).toUInt8
  have l3 := u8_lt (v >>> 16).toUInt8
  have e2 := toNat_or_shift (y := (v >>> 16).toUInt8.toUInt64) (s := 16) (k := 16) rfl (by omega)
    (by omega : (v.toUInt8.toUInt64 ||| (v >>> 8).toUInt8.toUInt64 <<< 8).toNat < 2 ^ 16) (u8_lt _)
  have e3 := toNat_or_shift (y := (v >>> 24).toUInt8.toUInt64) (s := 24) (k := 24) rfl (by omega)
    (by omega : (v.toUInt8.toUInt64 ||| (v >>> 8).toUInt8.toUInt64 <<< 8
      ||| (v >>> 16).toUInt8.toUInt64 <<< 16).toNat < 2 ^ 24) (u8_lt _)
  have s1 : (8 : UInt64).toNat = 8 := rfl
  have s2 : (16 : UInt64).toNat = 16 := rfl
  have s3 : (24 : UInt64).toNat = 24 := rfl
  rw [s1] at h1
  rw [s2] at h2
  rw [s3] at h3
  rw [e3, e2, e1, h0, h1, h2, h3, UInt64.toNat_ofNat_of_lt' (show v.toNat % 2 ^ 32 < 2 ^ 64 by omega)]
  omega

@[simp] theorem length_be64 (v : UInt64) : (be64 v).length = 8 := rfl
@[simp] theorem length_be32 (v : UInt64) : (be32 v).length = 4 := rfl
@[simp] theorem length_le64 (v : UInt64) : (le64 v).length = 8 := rfl

theorem rd64_isSome {v : Bytes} (h : 8 ≤ v.length) : (rd64 v).isSome := by
  match v, h with
  | _ :: _ :: _ :: _ :: _ :: _ :: _ :: _ :: _, _ => rfl

theorem rd64_none {v : Bytes} (h : v.length < 8) : rd64 v = none := by
  rcases hv : rd64 v with _ | w
  · rfl
  · unfold rd64 at hv
    split at hv
    · simp at h
      omega
    · cases hv

end FastKsw
