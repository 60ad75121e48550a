import Mathlib.Algebra.BigOperators.Group.Finset.Basic
import Mathlib.Tactic.Ring
import Verif.Model.Utils
import Verif.Lemmas.ModRed
import Verif.Lemmas.Bits

namespace FastKsw

/-! ## HammingWeight64 -/

theorem and_split (a b c d : ℕ) (hb : b < 256) (hd : d < 256) :
    (b + 256 * a) &&& (d + 256 * c) = (b &&& d) + 256 * (a &&& c) := by
  have h : ∀ u v : ℕ, u < 256 → u + 256 * v = (2 ^ 8 * v + u) := by intros; omega
  rw [h b a hb, h d c hd]
  have hlt : b &&& d < 2 ^ 8 := Nat.and_lt_two_pow _ (by omega)
  rw [h (b &&& d) _ hlt]
  apply Nat.eq_of_testBit_eq
  intro k
  rw [Nat.testBit_and, Nat.testBit_two_pow_mul_add _ (by omega), Nat.testBit_two_pow_mul_add _ (by omega),
    Nat.testBit_two_pow_mul_add _ hlt]
  by_cases hk : k < 8
  · simp [hk]
  · simp [hk]

/-- eight bytes, low first -/
def bytes8 (b : ℕ → ℕ) : ℕ :=
  b 0 + 256 * (b 1 + 256 * (b 2 + 256 * (b 3 + 256 * (b 4 + 256 * (b 5 + 256 * (b 6 + 256 * b 7))))))

theorem bytes8_and (b : ℕ → ℕ) (hb : ∀ i, b i < 256) (m : ℕ) (hm : m < 256) :
    bytes8 b &&& bytes8 (fun _ => m) = bytes8 (fun i => b i &&& m) := by
  unfold bytes8
  simp only [and_split _ _ _ _ (hb _) hm]

theorem bytes8_lt (b : ℕ → ℕ) (hb : ∀ i, b i < 256) : bytes8 b < 2 ^ 64 := by
  have := hb 0; have := hb 1; have := hb 2; have := hb 3
  have := hb 4; have := hb 5; have := hb 6; have := hb 7
  unfold bytes8; omega

/-- number of ones of a byte -/
def pc8 (b : ℕ) : ℕ := b % 2 + b / 2 % 2 + b / 4 % 2 + b / 8 % 2 + b / 16 % 2 + b / 32 % 2 + b / 64 % 2 + b / 128 % 2

theorem byte_and_lt (b m : ℕ) (hm : m < 256) : b &&& m < 256 :=
  lt_of_le_of_lt Nat.and_le_right hm

set_option maxRecDepth 100000 in
theorem step1_byte : ∀ b < 256, ∀ c < 2, ((b / 2 + 128 * c) &&& 0x55) = ((b / 2) &&& 0x55) ∧
    ((b / 2) &&& 0x55) ≤ b := by decide +kernel

set_option maxRecDepth 100000 in
theorem step2_byte : ∀ b < 256, ∀ c < 4, ((b / 4 + 64 * c) &&& 0x33) = ((b / 4) &&& 0x33) ∧
    (b &&& 0x33) ≤ 0x33 ∧ ((b / 4) &&& 0x33) ≤ 0x33 := by decide +kernel

set_option maxRecDepth 100000 in
theorem step3_byte : ∀ b < 256, ∀ c < 16,
    let b1 := b - ((b / 2) &&& 0x55)
    let b2 := (b1 &&& 0x33) + ((b1 / 4) &&& 0x33)
    b2 ≤ 0x44 ∧ ((b2 + b2 / 16 + 16 * c) &&& 0x0f) = pc8 b := by decide +kernel

theorem pc8_le (b : ℕ) : pc8 b ≤ 8 := by unfold pc8; omega

theorem bytes8_add (a b : ℕ → ℕ) : bytes8 a + bytes8 b = bytes8 (fun i => a i + b i) := by
  simp only [bytes8]; ring

theorem bytes8_congr {a b : ℕ → ℕ} (h : ∀ i, a i = b i) : bytes8 a = bytes8 b := by
  rw [funext h]

theorem bytes8_div2 (b : ℕ → ℕ) (h8 : b 8 = 0) :
    bytes8 b / 2 = bytes8 (fun i => b i / 2 + 128 * (b (i + 1) % 2)) := by
  simp only [bytes8, Nat.reduceAdd, h8]; omega

theorem bytes8_div4 (b : ℕ → ℕ) (h8 : b 8 = 0) :
    bytes8 b / 4 = bytes8 (fun i => b i / 4 + 64 * (b (i + 1) % 4)) := by
  simp only [bytes8, Nat.reduceAdd, h8]; omega

theorem bytes8_div16 (b : ℕ → ℕ) (h8 : b 8 = 0) :
    bytes8 b / 16 = bytes8 (fun i => b i / 16 + 16 * (b (i + 1) % 16)) := by
  simp only [bytes8, Nat.reduceAdd, h8]; omega

theorem bytes8_top (c : ℕ → ℕ) (h : ∀ i, c i ≤ 8) :
    bytes8 c * 0x0101010101010101 % 2 ^ 64 / 2 ^ 56
      = c 0 + c 1 + c 2 + c 3 + c 4 + c 5 + c 6 + c 7 := by
  have g0 := h 0; have g1 := h 1; have g2 := h 2; have g3 := h 3
  have g4 := h 4; have g5 := h 5; have g6 := h 6; have g7 := h 7
  have e : bytes8 c * 0x0101010101010101
      = (c 0 + 256 * (c 0 + c 1) + 256 ^ 2 * (c 0 + c 1 + c 2) + 256 ^ 3 * (c 0 + c 1 + c 2 + c 3)
          + 256 ^ 4 * (c 0 + c 1 + c 2 + c 3 + c 4) + 256 ^ 5 * (c 0 + c 1 + c 2 + c 3 + c 4 + c 5)
          + 256 ^ 6 * (c 0 + c 1 + c 2 + c 3 + c 4 + c 5 + c 6)
          + 2 ^ 56 * (c 0 + c 1 + c 2 + c 3 + c 4 + c 5 + c 6 + c 7))
        + 2 ^ 64 * ((c 1 + c 2 + c 3 + c 4 + c 5 + c 6 + c 7) + 256 * (c 2 + c 3 + c 4 + c 5 + c 6 + c 7)
          + 256 ^ 2 * (c 3 + c 4 + c 5 + c 6 + c 7) + 256 ^ 3 * (c 4 + c 5 + c 6 + c 7)
          + 256 ^ 4 * (c 5 + c 6 + c 7) + 256 ^ 5 * (c 6 + c 7) + 256 ^ 6 * c 7) := by
    simp only [bytes8]; ring
  rw [e, Nat.add_mul_mod_self_left, Nat.mod_eq_of_lt (by omega),
    Nat.add_mul_div_left _ _ (by norm_num), Nat.div_eq_of_lt (by omega), zero_add]

theorem toNat_and_mask (x m : UInt64) (b : ℕ → ℕ) (k : ℕ) (hb : ∀ i, b i < 256) (hk : k < 256)
    (hx : x.toNat = bytes8 b) (hm : m.toNat = bytes8 (fun _ => k)) :
    (x &&& m).toNat = bytes8 (fun i => b i &&& k) := by
  rw [UInt64.toNat_and, hx, hm, bytes8_and b hb k hk]

theorem hw_step1 (x : UInt64) (b : ℕ → ℕ) (hb : ∀ i, b i < 256) (hb8 : b 8 = 0)
    (hx : x.toNat = bytes8 b) :
    (x - ((x >>> 1) &&& (0x5555555555555555 : UInt64))).toNat
      = bytes8 (fun i => b i - ((b i / 2) &&& 0x55)) := by
  have e1 : (x >>> 1).toNat = bytes8 (fun i => b i / 2 + 128 * (b (i + 1) % 2)) := by
    rw [UInt64.toNat_shiftRight, show ((1 : UInt64).toNat % 64) = 1 by decide,
      Nat.shiftRight_eq_div_pow, hx, pow_one, bytes8_div2 b hb8]
  have e2 : ((x >>> 1) &&& (0x5555555555555555 : UInt64)).toNat = bytes8 (fun i => (b i / 2) &&& 0x55) := by
    rw [toNat_and_mask _ _ _ 0x55 (fun i => by have := hb i; omega) (by omega) e1 (by decide)]
    exact bytes8_congr fun i => (step1_byte (b i) (hb i) _ (Nat.mod_lt _ (by omega))).1
  have hkey : bytes8 (fun i => b i - ((b i / 2) &&& 0x55)) + bytes8 (fun i => (b i / 2) &&& 0x55) = bytes8 b := by
    rw [bytes8_add]
    exact bytes8_congr fun i => Nat.sub_add_cancel (step1_byte (b i) (hb i) 0 (by omega)).2
  rw [UInt64.toNat_sub_of_le, e2, hx]
  · omega
  · rw [UInt64.le_iff_toNat_le, e2, hx]; omega

theorem hw_step2 (x : UInt64) (b : ℕ → ℕ) (hb : ∀ i, b i < 256) (hb8 : b 8 = 0)
    (hx : x.toNat = bytes8 b) :
    ((x &&& (0x3333333333333333 : UInt64)) + ((x >>> 2) &&& (0x3333333333333333 : UInt64))).toNat
      = bytes8 (fun i => (b i &&& 0x33) + ((b i / 4) &&& 0x33)) := by
  have e1 : (x >>> 2).toNat = bytes8 (fun i => b i / 4 + 64 * (b (i + 1) % 4)) := by
    rw [UInt64.toNat_shiftRight, show ((2 : UInt64).toNat % 64) = 2 by decide,
      Nat.shiftRight_eq_div_pow, hx, show 2 ^ 2 = 4 by norm_num, bytes8_div4 b hb8]
  have e2 : ((x >>> 2) &&& (0x3333333333333333 : UInt64)).toNat = bytes8 (fun i => (b i / 4) &&& 0x33) := by
    rw [toNat_and_mask _ _ _ 0x33 (fun i => by have := hb i; omega) (by omega) e1 (by decide)]
    exact bytes8_congr fun i => (step2_byte (b i) (hb i) _ (Nat.mod_lt _ (by omega))).1
  rw [UInt64.toNat_add, toNat_and_mask _ _ _ 0x33 hb (by omega) hx (by decide), e2, bytes8_add]
  apply Nat.mod_eq_of_lt
  apply bytes8_lt
  intro i
  have := step2_byte (b i) (hb i) 0 (by omega)
  omega

theorem hw_step3 (x : UInt64) (b : ℕ → ℕ) (hb : ∀ i, b i ≤ 0x44) (hb' : ∀ i, b i % 16 ≤ 8)
    (hb8 : b 8 = 0) (hx : x.toNat = bytes8 b) :
    ((x + (x >>> 4)) &&& (0x0f0f0f0f0f0f0f0f : UInt64)).toNat
      = bytes8 (fun i => (b i + b i / 16 + 16 * (b (i + 1) % 16)) &&& 0x0f) := by
  have hlt : ∀ i, b i + b i / 16 + 16 * (b (i + 1) % 16) < 256 := by
    intro i; have := hb i; have := hb' (i + 1); omega
  have e1 : (x >>> 4).toNat = bytes8 (fun i => b i / 16 + 16 * (b (i + 1) % 16)) := by
    rw [UInt64.toNat_shiftRight, show ((4 : UInt64).toNat % 64) = 4 by decide,
      Nat.shiftRight_eq_div_pow, hx, show 2 ^ 4 = 16 by norm_num, bytes8_div16 b hb8]
  apply toNat_and_mask _ _ _ 0x0f hlt (by omega) _ (by decide)
  rw [UInt64.toNat_add, hx, e1, bytes8_add]
  rw [bytes8_congr (b := fun i => b i + b i / 16 + 16 * (b (i + 1) % 16)) (fun i => by omega)]
  exact Nat.mod_eq_of_lt (bytes8_lt _ hlt)

set_option maxRecDepth 100000 in
theorem low_nibble : ∀ y < 256, (((y &&& 0x33) + ((y / 4) &&& 0x33)) % 16) ≤ 8 := by decide +kernel

theorem hammingWeight64_bytes (x : UInt64) (b : ℕ → ℕ) (hb : ∀ i, b i < 256) (hb8 : b 8 = 0)
    (hx : x.toNat = bytes8 b) :
    (hammingWeight64 x).toNat = pc8 (b 0) + pc8 (b 1) + pc8 (b 2) + pc8 (b 3) + pc8 (b 4) + pc8 (b 5)
      + pc8 (b 6) + pc8 (b 7) := by
  have s1 := hw_step1 x b hb hb8 hx
  have h1 : ∀ i, b i - ((b i / 2) &&& 0x55) < 256 := fun i => lt_of_le_of_lt (Nat.sub_le _ _) (hb i)
  have s2 := hw_step2 _ (fun i => b i - ((b i / 2) &&& 0x55)) h1 (by simp [hb8]) s1
  have h3 : ∀ i, ∀ c < 16, _ := fun i => step3_byte (b i) (hb i)
  have s3 := hw_step3 _ (fun i => ((b i - ((b i / 2) &&& 0x55)) &&& 0x33)
    + (((b i - ((b i / 2) &&& 0x55)) / 4) &&& 0x33)) (fun i => (h3 i 0 (by omega)).1)
    (fun i => low_nibble _ (h1 i)) (by simp [hb8]) s2
  rw [bytes8_congr (b := fun i => pc8 (b i)) (fun i => (h3 i _ (Nat.mod_lt _ (by omega))).2)] at s3
  unfold hammingWeight64
  rw [UInt64.toNat_shiftRight, UInt64.toNat_and, UInt64.toNat_mul, s3]
  rw [show (0xffffffffffffffff : UInt64).toNat = 2 ^ 64 - 1 by decide, Nat.and_two_pow_sub_one_eq_mod,
    show (0x0101010101010101 : UInt64).toNat = 0x0101010101010101 by decide,
    show (56 : UInt64).toNat % 64 = 56 by decide, Nat.shiftRight_eq_div_pow, Nat.mod_mod]
  exact bytes8_top _ (fun i => pc8_le _)

theorem byte_bit (x i j : ℕ) (hi : i < 8) : x / 256 ^ j % 256 / 2 ^ i % 2 = x / 2 ^ (8 * j + i) % 2 := by
  have h1 : (256 : ℕ) = 2 ^ i * 2 ^ (8 - i) := by
    rw [← pow_add, show i + (8 - i) = 8 by omega]; norm_num
  have h2 : x / 256 ^ j % 256 / 2 ^ i = x / 256 ^ j / 2 ^ i % 2 ^ (8 - i) := by
    conv_lhs => rw [show x / 256 ^ j % 256 = x / 256 ^ j % (2 ^ i * 2 ^ (8 - i)) by rw [← h1]]
    rw [Nat.mod_mul_right_div_self]
  rw [h2, Nat.mod_mod_of_dvd _ (dvd_pow_self 2 (by omega)), Nat.div_div_eq_div_mul, pow_add, pow_mul]
  norm_num

theorem pc8_byte (x j : ℕ) : pc8 (x / 256 ^ j % 256) = ∑ i ∈ Finset.range 8, x / 2 ^ (8 * j + i) % 2 := by
  rw [Finset.sum_congr rfl (fun i hi => (byte_bit x i j (Finset.mem_range.1 hi)).symm)]
  simp only [Finset.sum_range_succ, Finset.sum_range_zero, pc8]
  norm_num

theorem hammingWeight64_eq (x : UInt64) :
    (hammingWeight64 x).toNat = ∑ i ∈ Finset.range 64, x.toNat / 2 ^ i % 2 := by
  have hx := x.toNat_lt
  rw [hammingWeight64_bytes x (fun i => x.toNat / 256 ^ i % 256) (fun i => Nat.mod_lt _ (by omega))]
  · simp only [pc8_byte]
    rw [show 64 = 8 + 8 + 8 + 8 + 8 + 8 + 8 + 8 by norm_num]
    simp only [Finset.sum_range_add]
    simp only [Nat.reduceAdd, Nat.reduceMul, zero_add]
  · omega
  · simp only [bytes8]; omega

end FastKsw
