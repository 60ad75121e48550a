import Verif.Lemmas.RandomBytes
import Verif.Lemmas.Samplers

/-!
# Bits of random bytes
-/

namespace FastKsw

open MeasureTheory Finset
open scoped ENNReal

theorem byteBit_eq (b : UInt8) {i : ℕ} (hi : i < 8) : byteBit b i = if b.toNat.testBit i then 1 else 0 := by
  rw [← UInt64.toNat_inj, byteBit, UInt64.toNat_and, UInt64.toNat_shiftRight, UInt8.toNat_toUInt64, UInt64.toNat_ofNat',
    Nat.mod_eq_of_lt (a := i) (by omega), Nat.mod_eq_of_lt (by omega)]
  have h : b.toNat >>> i &&& (1 : UInt64).toNat = (b.toNat.testBit i).toNat := by
    rw [show (1 : UInt64).toNat = 1 from rfl, Nat.and_one_is_mod, Nat.testBit_eq_decide_div_mod_eq, Nat.shiftRight_eq_div_pow]
    rcases Nat.mod_two_eq_zero_or_one (b.toNat / 2 ^ i) with h | h <;> simp [h]
  rw [h]
  cases b.toNat.testBit i <;> rfl

theorem byteBit_eq_zero (b : UInt8) {i : ℕ} (hi : i < 8) : byteBit b i = 0 ↔ b.toNat.testBit i = false := by
  rw [byteBit_eq b hi]
  cases b.toNat.testBit i <;> simp

/-- the bits of some bytes -/
def bitsOf (L : ℕ) (b : Fin L → UInt8) (i : Fin L) (t : Fin 8) : Bool := (b i).toNat.testBit t

theorem bitsOf_bijective (L : ℕ) : Function.Bijective (bitsOf L) := by
  rw [Fintype.bijective_iff_injective_and_card]
  constructor
  · intro b c h
    funext i
    refine UInt8.toNat_inj.1 (Nat.eq_of_testBit_eq fun t => ?_)
    rcases Nat.lt_or_ge t 8 with ht | ht
    · exact congrFun (congrFun h i) ⟨t, ht⟩
    · have h1 : ∀ x : UInt8, x.toNat.testBit t = false := fun x =>
        Nat.testBit_lt_two_pow (lt_of_lt_of_le x.toNat_lt (Nat.pow_le_pow_right (by omega) ht))
      rw [h1, h1]
  · rw [card_prefixes]
    simp [Fintype.card_pi, prod_const]

/-- the number of byte strings of which each bit is restricted to a set -/
theorem card_bits {L : ℕ} (S : Fin L → Fin 8 → Finset Bool) :
    (univ.filter fun b : Fin L → UInt8 => ∀ i t, bitsOf L b i t ∈ S i t).card = ∏ i, ∏ t, (S i t).card := by
  have h : ((univ.filter fun b : Fin L → UInt8 => ∀ i t, bitsOf L b i t ∈ S i t).image (bitsOf L))
      = Fintype.piFinset fun i => Fintype.piFinset fun t => S i t := by
    ext f
    simp only [mem_image, mem_filter, mem_univ, true_and, Fintype.mem_piFinset]
    constructor
    · rintro ⟨b, hb, rfl⟩
      exact hb
    · intro hf
      obtain ⟨b, rfl⟩ := (bitsOf_bijective L).2 f
      exact ⟨b, hf, rfl⟩
  rw [← card_image_of_injective _ (bitsOf_bijective L).1, h, Fintype.card_piFinset]
  exact prod_congr rfl fun i _ => Fintype.card_piFinset _

theorem prod_bytes {M : Type*} [CommMonoid M] (g : ℕ → M) (L : ℕ) :
    ∏ i : Fin L, ∏ t : Fin 8, g (8 * i + t) = ∏ k ∈ range (8 * L), g k := by
  rw [Fin.prod_univ_eq_prod_range (fun i => ∏ t : Fin 8, g (8 * i + t)) L]
  induction L with
  | zero => rfl
  | succ L ih =>
    rw [prod_range_succ, ih, show 8 * (L + 1) = 8 * L + 8 by ring, prod_range_add,
      Fin.prod_univ_eq_prod_range (fun t => g (8 * L + t)) 8]

/-- bit `k` of a byte string, least significant bits first within a byte -/
def bitAt (s : ℕ → UInt8) (k : ℕ) : Bool := (s (k / 8)).toNat.testBit (k % 8)

theorem bitAt_iff {L : ℕ} {s : ℕ → UInt8} (S : ℕ → Finset Bool) :
    (∀ k < 8 * L, bitAt s k ∈ S k) ↔ ∀ (i : Fin L) (t : Fin 8), bitsOf L (prefixOf L s) i t ∈ S (8 * i + t) := by
  constructor
  · intro h i t
    have := h (8 * i + t) (by omega)
    rw [bitAt, Nat.mul_add_div (by omega), Nat.mul_add_mod, Nat.div_eq_of_lt t.2, Nat.mod_eq_of_lt t.2, add_zero] at this
    exact this
  · intro h k hk
    have := h ⟨k / 8, by omega⟩ ⟨k % 8, by omega⟩
    simp only [bitsOf, prefixOf, Nat.div_add_mod] at this
    exact this

/-- the bits of a random stream are independent and uniform -/
theorem bits_apply (L : ℕ) (S : ℕ → Finset Bool) {E : Set (ℕ → UInt8)} (hE : MeasurableSet E) :
    MeasurableSet {s | (∀ k < 8 * L, bitAt s k ∈ S k) ∧ dropBytes L s ∈ E} ∧
    randomBytes {s | (∀ k < 8 * L, bitAt s k ∈ S k) ∧ dropBytes L s ∈ E}
      = (∏ k ∈ range (8 * L), ((S k).card : ℝ≥0∞) * 2⁻¹) * randomBytes E := by
  have h : {s | (∀ k < 8 * L, bitAt s k ∈ S k) ∧ dropBytes L s ∈ E}
      = {s | prefixOf L s ∈ univ.filter (fun b : Fin L → UInt8 => ∀ (i : Fin L) (t : Fin 8),
          bitsOf L b i t ∈ S (8 * i + t)) ∧ dropBytes L s ∈ E} := by
    ext s
    simp only [Set.mem_ofPred_eq, bitAt_iff, mem_filter, mem_univ, true_and]
  rw [h]
  refine ⟨measurable_prefix_mem (E := fun _ => E) fun _ _ => hE, ?_⟩
  rw [prefix_card _ hE, card_bits (fun i t => S (8 * i + t)), prod_bytes (fun k => (S k).card), prod_mul_distrib,
    prod_const, card_range, pow_mul, show (2⁻¹ : ℝ≥0∞) ^ 8 = 256⁻¹ by
      rw [← ENNReal.inv_pow]; norm_num, ENNReal.inv_pow]
  push_cast
  rfl

end FastKsw
