import Verif.Props.SlotEncoder
import Verif.Lemmas.KeyGen

/-!
# The slots of an integer polynomial

`slotVal logSlots d z j` is the value at `ζ^(5^j)`, `ζ = exp(2πi/2N)`, `N = 2^(logSlots + 1 + d)`, of the part of the integer
polynomial `z` whose exponents are multiples of `2^d`.  Up to the scale and rounding, this is what the decoder returns in
slot `j` when it is asked for `2^logSlots` slots.
-/

namespace FastKsw.Props

open FastKsw Finset

noncomputable def slotVal (logSlots d : ℕ) (z : ℕ → ℤ) (j : ℕ) : ℂ :=
  ∑ k ∈ range (2 ^ (logSlots + 1)), (z (k * 2 ^ d) : ℂ) * (encZeta (2 ^ (logSlots + 2 + d)) ^ 5 ^ j) ^ (k * 2 ^ d)

variable {logSlots d : ℕ}

theorem encZeta_table (logSlots d : ℕ) : RootTable (2 ^ (logSlots + 2 + d)) (encRoots (2 ^ (logSlots + 2 + d)))
    (encZeta (2 ^ (logSlots + 2 + d))) := encRoots_table (Nat.two_pow_pos _) (dvd_pow_self 2 (by omega))

theorem encZeta_I (logSlots d : ℕ) : encZeta (2 ^ (logSlots + 2 + d)) ^ 2 ^ (logSlots + d) = Complex.I := by
  rw [show logSlots + 2 + d = logSlots + d + 2 by omega]; exact encZeta_im

theorem encZeta_norm (logSlots d : ℕ) : ‖encZeta (2 ^ (logSlots + 2 + d))‖ = 1 := by
  have h4 : ‖encZeta (2 ^ (logSlots + 2 + d))‖ ^ (2 ^ (logSlots + d)) = 1 := by
    rw [← norm_pow, encZeta_I, Complex.norm_I]
  exact (pow_eq_one_iff_of_nonneg (norm_nonneg _) (Nat.two_pow_pos _).ne').1 h4

theorem encZeta_gap (logSlots d j : ℕ) :
    ((encZeta (2 ^ (logSlots + 2 + d)) ^ 5 ^ j) ^ 2 ^ d) ^ 2 ^ (logSlots + 1) = -1 := by
  have h5 : Odd (5 ^ j) := Odd.pow (by decide)
  have := (encZeta_table logSlots d).half
  rw [show 2 ^ (logSlots + 2 + d) / 2 = 2 ^ d * 2 ^ (logSlots + 1) by
    rw [show 2 ^ (logSlots + 2 + d) = 2 * (2 ^ d * 2 ^ (logSlots + 1)) by ring, Nat.mul_div_cancel_left _ (by norm_num)]] at this
  rw [← pow_mul, ← pow_mul, mul_comm (5 ^ j), pow_mul, this, h5.neg_one_pow]

theorem slotVal_eq (z : ℕ → ℤ) (j : ℕ) : slotVal logSlots d z j =
    ∑ k ∈ range (2 ^ (logSlots + 1)), (z (k * 2 ^ d) : ℂ) * ((encZeta (2 ^ (logSlots + 2 + d)) ^ 5 ^ j) ^ 2 ^ d) ^ k := by
  unfold slotVal
  exact Finset.sum_congr rfl fun k _ => by rw [← pow_mul (_ ^ 5 ^ j), mul_comm k]

theorem slotVal_add (a b : ℕ → ℤ) (j : ℕ) :
    slotVal logSlots d (fun k => a k + b k) j = slotVal logSlots d a j + slotVal logSlots d b j := by
  unfold slotVal
  rw [← Finset.sum_add_distrib]
  exact Finset.sum_congr rfl fun k _ => by push_cast; ring

theorem slotVal_sub (a b : ℕ → ℤ) (j : ℕ) :
    slotVal logSlots d (fun k => a k - b k) j = slotVal logSlots d a j - slotVal logSlots d b j := by
  unfold slotVal
  rw [← Finset.sum_sub_distrib]
  exact Finset.sum_congr rfl fun k _ => by push_cast; ring

/-- evaluation of complex coefficients at a root of unity -/
theorem norm_eval_le {m : ℕ} {f : ℕ → ℂ} {ε : ℝ} (h : ∀ k < m, ‖f k‖ ≤ ε) (logSlots d j : ℕ) (e : ℕ → ℕ) :
    ‖∑ k ∈ range m, f k * (encZeta (2 ^ (logSlots + 2 + d)) ^ 5 ^ j) ^ e k‖ ≤ m * ε := by
  refine le_trans (norm_sum_le_of_le (n := fun _ => ε) _ fun k hk => ?_) (by simp)
  rw [norm_mul, norm_pow, norm_pow, encZeta_norm, one_pow, one_pow, mul_one]
  exact h k (Finset.mem_range.1 hk)

/-- small coefficients give small slots -/
theorem norm_slotVal_le {z : ℕ → ℤ} {B : ℝ} (h : ∀ k < 2 ^ (logSlots + 1), |(z (k * 2 ^ d) : ℝ)| ≤ B) (j : ℕ) :
    ‖slotVal logSlots d z j‖ ≤ 2 ^ (logSlots + 1) * B := by
  have := norm_eval_le (m := 2 ^ (logSlots + 1)) (f := fun k => (z (k * 2 ^ d) : ℂ)) (ε := B) (fun k hk => by
    rw [Complex.norm_intCast]
    exact h k hk) logSlots d j (fun k => k * 2 ^ d)
  push_cast at this
  exact this

/-- the product of a polynomial in `X^(2^d)` and any polynomial, modulo `X^N + 1`, seen at the multiples of `2^d` -/
theorem negConv_gap {m : ℕ} {a b : ℕ → ℤ} (ha : ∀ k < 2 ^ (m + d), k % 2 ^ d ≠ 0 → a k = 0) {k : ℕ} (hk : k < 2 ^ m) :
    negConv (2 ^ (m + d)) a b (k * 2 ^ d) = negConv (2 ^ m) (fun i => a (i * 2 ^ d)) (fun i => b (i * 2 ^ d)) k := by
  have hd := Nat.two_pow_pos d
  unfold negConv
  have hsub : (range (2 ^ m)).image (· * 2 ^ d) ⊆ range (2 ^ (m + d)) := by
    intro i hi
    obtain ⟨x, hx, rfl⟩ := Finset.mem_image.1 hi
    rw [Finset.mem_range, pow_add]
    exact Nat.mul_lt_mul_of_pos_right (Finset.mem_range.1 hx) hd
  rw [← Finset.sum_subset hsub, Finset.sum_image (fun x _ y _ h => Nat.eq_of_mul_eq_mul_right hd h)]
  · refine Finset.sum_congr rfl fun i hi => ?_
    have hi := Finset.mem_range.1 hi
    by_cases h : i ≤ k
    · rw [if_pos h, if_pos (Nat.mul_le_mul_right _ h), ← Nat.sub_mul]
    · rw [if_neg h, if_neg (by rw [Nat.mul_le_mul_right_iff hd]; exact h), pow_add, ← Nat.add_mul, ← Nat.sub_mul]
  · intro i hi hni
    have hi := Finset.mem_range.1 hi
    have : a i = 0 := by
      refine ha i hi fun h => hni (Finset.mem_image.2 ⟨i / 2 ^ d, ?_, Nat.div_mul_cancel (Nat.dvd_of_mod_eq_zero h)⟩)
      rw [Finset.mem_range]
      exact Nat.div_lt_of_lt_mul (by rw [mul_comm, ← pow_add]; exact hi)
    rw [this]
    simp

/-- the slots of a product are the products of the slots, if one factor is a polynomial in `X^(2^d)` -/
theorem slotVal_mul {a b : ℕ → ℤ} (ha : ∀ k < 2 ^ (logSlots + 1 + d), k % 2 ^ d ≠ 0 → a k = 0) (j : ℕ) :
    slotVal logSlots d (negConv (2 ^ (logSlots + 1 + d)) a b) j = slotVal logSlots d a j * slotVal logSlots d b j := by
  rw [slotVal_eq, slotVal_eq, slotVal_eq]
  have := negConv_eval (Int.castRingHom ℂ) (2 ^ (logSlots + 1)) _ (encZeta_gap logSlots d j)
    (fun i => a (i * 2 ^ d)) (fun i => b (i * 2 ^ d))
  simp only [eq_intCast] at this
  rw [← this]
  exact Finset.sum_congr rfl fun k hk => by rw [negConv_gap ha (Finset.mem_range.1 hk)]

theorem isAut_autInt {m g : ℕ} (hg : g % 2 = 1) (z : ℕ → ℤ) : IsAut (2 ^ m) g z (autInt (2 ^ m) g z) := by
  intro i hi
  have hN := Nat.two_pow_pos m
  have key : ∀ j, g * j % (2 * 2 ^ m) = g * j % 2 ^ m + 2 ^ m * (g * j / 2 ^ m % 2) := fun j => by
    rw [mul_comm 2, Nat.mod_mul]
  have hlt : i * g % 2 ^ m < 2 ^ m := Nat.mod_lt _ hN
  unfold autInt
  rw [Finset.sum_eq_single i]
  · rw [key, mul_comm g]
    rcases Nat.mod_two_eq_zero_or_one (i * g / 2 ^ m) with h | h
    · rw [h, if_pos rfl, mul_zero, add_zero, if_pos rfl]
    · rw [h, mul_one, if_neg (by omega), if_pos rfl, if_neg (by omega)]
  · intro j hj hji
    have hj := Finset.mem_range.1 hj
    have hne : j * g % 2 ^ m ≠ i * g % 2 ^ m := fun h => hji (mul_odd_inj hg hj hi h)
    have hlt' : j * g % 2 ^ m < 2 ^ m := Nat.mod_lt _ hN
    rw [key, mul_comm g]
    rcases Nat.mod_two_eq_zero_or_one (j * g / 2 ^ m) with h | h <;> rw [h]
    · rw [if_neg (by omega), if_neg (by omega)]
    · rw [if_neg (by omega), if_neg (by omega)]
  · intro h; exact absurd (Finset.mem_range.2 hi) h

theorem slotVal_isAut {g : ℕ} (hg : g % 2 = 1) {z z' : ℕ → ℤ} (h : IsAut (2 ^ (logSlots + 1 + d)) g z z') (j : ℕ) :
    slotVal logSlots d z' j = ∑ k ∈ range (2 ^ (logSlots + 1)),
      (z (k * 2 ^ d) : ℂ) * (encZeta (2 ^ (logSlots + 2 + d)) ^ (5 ^ j * g)) ^ (k * 2 ^ d) := by
  rw [slotVal_eq]
  refine (aut_eval hg h.gap (fun a : ℤ => (a : ℂ)) (fun a => by push_cast; rfl) _ (encZeta_gap logSlots d j)).trans ?_
  exact Finset.sum_congr rfl fun k _ => by simp only [← pow_mul]; congr 2; ring

theorem encZeta_one (logSlots d : ℕ) : encZeta (2 ^ (logSlots + 2 + d)) ^ 2 ^ (logSlots + 2 + d) = 1 := by
  have := encZeta_I logSlots d
  have e : 2 ^ (logSlots + 2 + d) = 2 ^ (logSlots + d) * 4 := by ring
  calc _ = (encZeta (2 ^ (logSlots + 2 + d)) ^ 2 ^ (logSlots + d)) ^ 4 := by rw [← pow_mul, ← e]
    _ = 1 := by rw [this, Complex.I_pow_four]

/-- the roots of unity at two slot indices that agree modulo the number of slots -/
theorem encZeta_slot (logSlots d a : ℕ) : (encZeta (2 ^ (logSlots + 2 + d)) ^ 5 ^ a) ^ 2 ^ d =
    (encZeta (2 ^ (logSlots + 2 + d)) ^ 5 ^ (a % 2 ^ logSlots)) ^ 2 ^ d := by
  set ζ := encZeta (2 ^ (logSlots + 2 + d))
  have hz1 : ∀ a b, ((ζ ^ 5 ^ a) ^ (2 ^ d)) = ((ζ ^ 5 ^ (a + b * 2 ^ logSlots)) ^ (2 ^ d)) := by
    intro a b
    induction b with
    | zero => simp
    | succ b ih =>
      have hper := zRoot_period (encZeta_table logSlots d) (le_refl logSlots) (a + b * 2 ^ logSlots)
      unfold zRoot at hper
      rw [gap_eq le_rfl, Nat.sub_self, zero_add, ← pow_mul, ← pow_mul] at hper
      rw [ih, ← pow_mul, ← pow_mul, mul_comm _ (2 ^ d), mul_comm _ (2 ^ d), ← hper]
      congr 3
      ring
  rw [hz1 (a % 2 ^ logSlots) (a / 2 ^ logSlots), Nat.mod_add_div']

/-- the automorphism of a rotation by `k` moves the slots by `k` positions to the left -/
theorem slotVal_rotate {r : Ring} (hr : r.Valid (logSlots + 1 + d)) (k : ℤ) (z : ℕ → ℤ) (j : ℕ) :
    slotVal logSlots d (autInt (2 ^ (logSlots + 1 + d)) (r.galoisElementForColumnRotationBy k).toNat z) j =
      slotVal logSlots d z ((j + k) % 2 ^ logSlots).toNat := by
  have hg := (C25_rotation_odd hr k).1
  rw [slotVal_isAut hg (isAut_autInt hg z)]
  have hpos : (0 : ℤ) < 2 ^ logSlots := by positivity
  have hnn := Int.emod_nonneg (j + k) hpos.ne'
  have hone := encZeta_one logSlots d
  set e := (k % (2 ^ (logSlots + 1 + d + 1) : ℕ)).toNat with he
  have hM : 2 ^ (logSlots + 1 + d + 1) = 2 ^ (logSlots + 2 + d) := by congr 1; omega
  have g1 : encZeta (2 ^ (logSlots + 2 + d)) ^ (5 ^ j * (r.galoisElementForColumnRotationBy k).toNat) =
      encZeta (2 ^ (logSlots + 2 + d)) ^ 5 ^ (j + e) := by
    rw [galEl_eq hr, hM, ← pow_mod_of hone, Nat.mul_mod_mod, pow_mod_of hone, ← pow_add, ← hM]
  have hmod : (j + e) % 2 ^ logSlots = ((j + k) % 2 ^ logSlots).toNat := by
    have hM0 : (0 : ℤ) < ((2 ^ (logSlots + 1 + d + 1) : ℕ) : ℤ) := by positivity
    have hk0 := Int.emod_nonneg k hM0.ne'
    zify
    rw [Int.toNat_of_nonneg hnn, he, Int.toNat_of_nonneg hk0, Int.add_emod, Int.add_emod (j : ℤ) k]
    congr 2
    refine Int.emod_emod_of_dvd k ⟨2 ^ (d + 2), ?_⟩
    push_cast
    ring
  unfold slotVal
  refine Finset.sum_congr rfl fun i _ => ?_
  rw [g1, mul_comm i, pow_mul, pow_mul _ (2 ^ d) i, encZeta_slot logSlots d (j + e), hmod]

/-- the automorphism of the row rotation conjugates the slots -/
theorem slotVal_conj {r : Ring} (hr : r.Valid (logSlots + 1 + d)) (z : ℕ → ℤ) (j : ℕ) {g : UInt64}
    (h : r.galoisElementForRowRotation = some g) :
    slotVal logSlots d (autInt (2 ^ (logSlots + 1 + d)) g.toNat z) j = (starRingEnd ℂ) (slotVal logSlots d z j) := by
  obtain ⟨g', g1, -, g3, -⟩ := C25_row_rotation hr
  obtain rfl : g = g' := Option.some.inj (h.symm.trans g1)
  have hgn : g.toNat + 1 = 2 ^ (logSlots + 2 + d) := by
    rw [Ring.galoisElementForRowRotation, hr.type, if_neg (by decide)] at g1
    obtain rfl := Option.some.inj g1
    have e := nthRoot_toNat hr
    have h2 := two_le_pow (logSlots + 1 + d)
    rw [UInt64.toNat_sub_of_le _ _ (UInt64.le_iff_toNat_le.2 (by rw [e]; show 1 ≤ _; omega)), e]
    show 2 ^ (logSlots + 1 + d + 1) - 1 + 1 = _
    rw [Nat.sub_add_cancel (by omega)]
    congr 1; omega
  rw [slotVal_isAut g3 (isAut_autInt g3 z)]
  unfold slotVal
  rw [map_sum]
  refine Finset.sum_congr rfl fun k _ => ?_
  rw [map_mul, map_pow, map_pow, encZeta_conj, map_intCast]
  congr 2
  rw [inv_pow]
  refine eq_inv_of_mul_eq_one_left ?_
  rw [← pow_add, show 5 ^ j * g.toNat + 5 ^ j = (g.toNat + 1) * 5 ^ j by ring, hgn, pow_mul, encZeta_one, one_pow]

/-! ### The decoder -/

theorem f64Div_err (z : ℤ) {scale : ℚ} (hs : 0 < scale) : |f64Div (f64 z) scale - z / scale| ≤ |(z : ℚ)| / 2 ^ 51 / scale := by
  have e1 := f64_err (z : ℚ)
  have e2 := f64_err (f64 (z : ℚ) / scale)
  have hz := abs_nonneg (z : ℚ)
  have hm : |f64Div (f64 z) scale * scale - z| ≤ |(z : ℚ)| / 2 ^ 51 := by
    have hfy : |f64 (z : ℚ)| ≤ (1 + uro) * |(z : ℚ)| := by
      have := abs_add_le (f64 (z : ℚ) - z) z
      rw [sub_add_cancel] at this
      linarith
    have hfd : |f64Div (f64 z) scale * scale - f64 (z : ℚ)| ≤ uro * |f64 (z : ℚ)| := by
      have h := mul_le_mul_of_nonneg_right e2 hs.le
      rw [← abs_of_pos hs, ← abs_mul, mul_assoc, ← abs_mul, abs_of_pos hs, sub_mul, div_mul_cancel₀ _ hs.ne'] at h
      exact h
    have t1 := abs_add_le (f64Div (f64 z) scale * scale - f64 (z : ℚ)) (f64 (z : ℚ) - z)
    rw [sub_add_sub_cancel] at t1
    unfold uro at *
    linarith
  rw [le_div_iff₀ hs, ← abs_of_pos hs, ← abs_mul, abs_of_pos hs, sub_mul, div_mul_cancel₀ _ hs.ne']
  exact hm

/-- decoding gives the slots of the polynomial divided by the scale, up to the rounding to float64 -/
theorem decode_slotVal {r : Ring} {level : ℕ} (hr : r.Valid (logSlots + 1 + d)) (sr : r.Small) (hl : level < r.subs.length)
    (mem : List ℂ) (hmem : 2 ^ logSlots ≤ mem.length ∧ (3 ≤ logSlots → 16 ≤ mem.length))
    {scale : ℚ} (hs : 0 < scale) (z : ℕ → ℤ) (hz : InRange r level z) {B : ℚ}
    (hB : ∀ k < 2 ^ (logSlots + 1), |(z (k * 2 ^ d) : ℚ)| ≤ B) (pt pool : Rows) (hpool : pool.length = r.subs.length)
    (hp : Holds r (logSlots + 1 + d) level pt z) :
    ∃ s, r.decodeSlots (encRoots r.nthRoot) Complex.I mem true level scale logSlots pt pool = some s ∧
      s.length = 2 ^ logSlots ∧
      ∀ j < 2 ^ logSlots, ‖s.getD j 0 - slotVal logSlots d z j / ((scale : ℚ) : ℂ)‖ ≤ 2 ^ (logSlots + 1) * ((B / 2 ^ 51 / scale : ℚ) : ℝ) := by
  have hM : r.nthRoot = 2 ^ (logSlots + 2 + d) := by
    rw [hr.root]; congr 1; omega
  obtain ⟨s, h1, h2, h3⟩ := C74_decodeSlots_partial hr sr hl (encZeta_table logSlots d) mem hmem scale z hz pt pool hpool hp
  rw [encZeta_I, ← hM] at h1
  refine ⟨s, h1, h2, fun j hj => ?_⟩
  rw [h3 j hj, ← pow_succ']
  unfold slotVal
  rw [Finset.sum_div, ← Finset.sum_sub_distrib]
  have := norm_eval_le (m := 2 ^ (logSlots + 1))
    (f := fun k => ((f64Div (f64 (z (k * 2 ^ d))) scale - (z (k * 2 ^ d) : ℚ) / scale : ℚ) : ℂ))
    (ε := ((B / 2 ^ 51 / scale : ℚ) : ℝ)) (fun k hk => by
      rw [Complex.norm_ratCast]
      have := f64Div_err (z (k * 2 ^ d)) hs
      have h2 : |(z (k * 2 ^ d) : ℚ)| / 2 ^ 51 / scale ≤ B / 2 ^ 51 / scale := by
        apply div_le_div_of_nonneg_right _ hs.le
        apply div_le_div_of_nonneg_right (hB k hk)
        positivity
      exact_mod_cast this.trans h2) logSlots d j (fun k => k * 2 ^ d)
  push_cast at this ⊢
  refine le_trans (le_of_eq ?_) this
  congr 1
  refine Finset.sum_congr rfl fun k _ => ?_
  ring

/-! ### The encoder -/

/-- the upper half of the coefficients as imaginary parts -/
theorem slotVal_split (z : ℕ → ℤ) (j : ℕ) : slotVal logSlots d z j = ∑ k ∈ range (2 ^ logSlots),
    ((z (k * 2 ^ d) : ℂ) + (z ((2 ^ logSlots + k) * 2 ^ d) : ℂ) * Complex.I) *
      (encZeta (2 ^ (logSlots + 2 + d)) ^ 2 ^ d) ^ (5 ^ j * k) := by
  unfold slotVal
  set ζ := encZeta (2 ^ (logSlots + 2 + d))
  rw [pow_succ', two_mul, Finset.sum_range_add, ← Finset.sum_add_distrib]
  refine Finset.sum_congr rfl fun k hk => ?_
  have hI : (ζ ^ 5 ^ j) ^ (2 ^ logSlots * 2 ^ d) = Complex.I := by
    have h5 : 5 ^ j % 4 = 1 := by rw [Nat.pow_mod]; norm_num
    have h4 : ζ ^ (4 * 2 ^ (logSlots + d)) = 1 := by
      rw [mul_comm, pow_mul, encZeta_I, Complex.I_pow_four]
    rw [← pow_mul, ← pow_add, ← pow_mod_of h4 (5 ^ j * 2 ^ (logSlots + d)), Nat.mul_mod_mul_right, h5, one_mul, encZeta_I]
  have hE : (ζ ^ 2 ^ d) ^ (5 ^ j * k) = (ζ ^ 5 ^ j) ^ (k * 2 ^ d) := by
    rw [← pow_mul, ← pow_mul]; congr 1; ring
  rw [hE, add_mul (2 ^ logSlots) k, pow_add, hI]
  ring

/-- Encoding: the plaintext holds an integer polynomial in `X^(2^d)` whose slots are the scaled values, up to the errors of
the inverse transform in float64 (`δ`, as in C76) and of the rounding of the coefficients. -/
theorem encode_slotVal {r : Ring} {level : ℕ} (hr : r.Valid (logSlots + 1 + d)) (sr : r.Small) (hl : level < r.subs.length)
    (mem : List ℂ) (hmem : 2 ^ (logSlots + d) ≤ mem.length ∧ (3 ≤ logSlots → 16 ≤ mem.length))
    (values : List ℂ) (hv : values.length ≤ 2 ^ logSlots) {scale : ℚ} (hs : 0 < scale) :
    ∃ y, encodeFFT r.nthRoot (encRoots r.nthRoot) mem values logSlots = some y ∧ y.length = 2 ^ logSlots ∧
    ∀ (w : List (ℚ × ℚ)) (δ : ℝ) (B : ℚ), w.length = 2 ^ logSlots →
    (∀ k < 2 ^ logSlots, |((w.getD k 0).1 : ℝ) - (y.getD k 0).re| ≤ δ ∧ |((w.getD k 0).2 : ℝ) - (y.getD k 0).im| ≤ δ) →
    (∀ v ∈ w, f64 |v.1 * scale| ≠ 2 ^ 64 ∧ f64 |v.2 * scale| ≠ 2 ^ 64) →
    (∀ v ∈ w, |v.1 * scale| ≤ B ∧ |v.2 * scale| ≤ B) →
    ∀ p : Rows, level < p.length → (∀ i ≤ level, (p.row i).length = r.n) →
    (3 ≤ logSlots ∨ ∀ i ≤ level, ∀ k, 2 ^ (logSlots + 1) ≤ k → k < 16 → (p.row i).at k = 0) →
    ∃ z : ℕ → ℤ, (∀ k, k % 2 ^ d ≠ 0 → z k = 0) ∧ (∀ k < r.n, |(z k : ℚ)| ≤ B + (B + 1) / 2 ^ 51 + 1 / 2) ∧
      PolyWritten r level r.qs p (r.embedPoly level logSlots w scale false p)
        (fun i => evals (r.sub i).psi (logSlots + 1 + d) (fun k => ((z k : ℤ) : ZMod (r.sub i).q.toNat))) ∧
      ∀ j < 2 ^ logSlots, ‖slotVal logSlots d z j - ((scale : ℚ) : ℂ) * values.getD j 0‖ ≤
        2 ^ (logSlots + 1) * (δ * scale + ((1 / 2 + (B + 1) / 2 ^ 51 : ℚ) : ℝ)) := by
  have hM : r.nthRoot = 2 ^ (logSlots + 2 + d) := by
    rw [hr.root]; congr 1; omega
  have hMq : r.nthRoot / 4 = 2 ^ (logSlots + d) := by
    rw [hM, show 2 ^ (logSlots + 2 + d) = 4 * 2 ^ (logSlots + d) by ring, Nat.mul_div_cancel_left _ (by norm_num)]
  have hle : 2 ^ logSlots ≤ 2 ^ (logSlots + d) := Nat.pow_le_pow_right (by norm_num) (by omega)
  have T := encZeta_table logSlots d
  unfold encodeFFT
  dsimp only
  rw [hMq, if_neg (by omega)]
  refine ⟨_, rfl, ?_⟩
  set buf : List ℂ := values ++ List.replicate (2 ^ logSlots - values.length) 0 ++ mem.drop (2 ^ logSlots) with hbuf
  have hbl : buf.length = mem.length := by rw [hbuf]; simp; omega
  have hcap : ifftCap (decide (3 ≤ logSlots)) (2 ^ logSlots) (2 ^ (logSlots + d)) ≤ buf.length := by
    unfold ifftCap
    refine max_le (by rw [hbl]; exact fftCap_le (by omega) hmem.2) ?_
    split
    · rename_i h
      have h3 : 3 ≤ logSlots := by simpa using h
      have : 8 ∣ 2 ^ (logSlots + d) := pow_dvd_pow 2 (show 3 ≤ logSlots + d by omega)
      omega
    · omega
  rw [hM]
  set f : List ℂ := specialiFFT (decide (3 ≤ logSlots)) (2 ^ logSlots) (2 ^ (logSlots + 2 + d))
    (encRoots (2 ^ (logSlots + 2 + d))) (2 ^ (logSlots + d)) buf with hf
  have hfl : f.length = buf.length := (specialiFFT_at _ _ hle buf hcap).1
  refine ⟨by rw [List.length_take]; omega, fun w δ B hw hδ h64 hB p hp hrow hzero => ?_⟩
  have hft : ∀ k < 2 ^ logSlots, (f.take (2 ^ logSlots)).getD k 0 = f.getD k 0 := by
    intro k hk; simp [List.getD, List.getElem?_take, hk]
  have hval : ∀ j < 2 ^ logSlots, values.getD j 0 = ∑ k ∈ range (2 ^ logSlots), f.getD k 0 *
      (encZeta (2 ^ (logSlots + 2 + d)) ^ 2 ^ d) ^ (5 ^ j * k) := by
    intro j hj
    have h1 := (C72_inverse T two_ne_zero (decide (3 ≤ logSlots)) (decide (3 ≤ logSlots)) (2 ^ (logSlots + d)) hle buf
      (by omega) (fun h => by
        have h3 : 3 ≤ logSlots := by simpa using h
        have e1 := fftCap_le (logSlots := logSlots) (len := buf.length) (by omega) (by rw [hbl]; exact hmem.2)
        unfold fftCap at e1
        rw [if_pos (by simpa using h3)] at e1
        have : 8 ∣ 2 ^ (logSlots + d) := pow_dvd_pow 2 (show 3 ≤ logSlots + d by omega)
        exact ⟨e1, by omega⟩)).2 j hj
    rw [← hf, specialFFT_at T _ f (by rw [hfl, hbl]; exact fftCap_le (by omega) hmem.2) j hj] at h1
    rw [h1, hbuf]
    by_cases hjv : j < values.length
    · simp [List.getD, hjv, List.getElem?_append_left]
    · rw [List.append_assoc, List.getD_append_right _ _ _ _ (by omega), List.getD_append _ _ _ _ (by simp; omega),
        List.getD_eq_default _ _ (by omega)]
      simp [List.getD]
  obtain ⟨z0, hz0, hP⟩ := C73_embed_partial (level := level) hr sr hl w hw hs h64 false p hp hrow hzero
  set l : List ℚ := w.map Prod.fst ++ w.map Prod.snd with hl'
  have hd := Nat.two_pow_pos d
  have hN : r.n = 2 * 2 ^ logSlots * 2 ^ d := by rw [hr.deg]; ring
  have hll : l.length = 2 * 2 ^ logSlots := by rw [hl']; simp [hw]; ring
  have hl1 : ∀ k < 2 ^ logSlots, l.getD k 0 = (w.getD k 0).1 := by
    intro k hk
    rw [hl']
    simp [List.getD, hw, hk, List.getElem?_append_left]
  have hl2 : ∀ k < 2 ^ logSlots, l.getD (2 ^ logSlots + k) 0 = (w.getD k 0).2 := by
    intro k hk
    rw [hl', List.getD_append_right _ _ _ _ (by simp [hw]), List.length_map, hw, Nat.add_sub_cancel_left]
    simp [List.getD, hw, hk]
  have hmem : ∀ k < 2 ^ logSlots, w.getD k 0 ∈ w := by
    intro k hk; simp [List.getD, hw, hk]
  have hBl : ∀ k < 2 * 2 ^ logSlots, |l.getD k 0 * scale| ≤ B := by
    intro k hk
    rcases lt_or_ge k (2 ^ logSlots) with h | h
    · rw [hl1 k h]; exact (hB _ (hmem k h)).1
    · have := hl2 (k - 2 ^ logSlots) (by omega)
      rw [show 2 ^ logSlots + (k - 2 ^ logSlots) = k by omega] at this
      rw [this]; exact (hB _ (hmem _ (by omega))).2
  have hB0 : 0 ≤ B := le_trans (abs_nonneg _) (hBl 0 (by have := Nat.two_pow_pos logSlots; omega))
  have herr : ∀ k < 2 * 2 ^ logSlots, |(z0 k : ℚ) - l.getD k 0 * scale| ≤ 1 / 2 + (B + 1) / 2 ^ 51 := by
    intro k hk
    have e := hz0 k (by omega)
    have b := hBl k hk
    have a3 : |l.getD k 0 * scale| / 2 ^ 51 ≤ B / 2 ^ 51 := by
      apply div_le_div_of_nonneg_right b; positivity
    linarith
  set z : ℕ → ℤ := fun k => if k % 2 ^ d = 0 then z0 (k / 2 ^ d) else 0 with hz
  have hzk : ∀ k, z (k * 2 ^ d) = z0 k := by
    intro k
    simp only [hz, Nat.mul_mod_left, if_true, Nat.mul_div_cancel _ hd]
  refine ⟨z, fun k hk => if_neg hk, fun k hk => ?_, ?_, fun j hj => ?_⟩
  · simp only [hz]
    split
    · have hk2 : k / 2 ^ d < 2 * 2 ^ logSlots := Nat.div_lt_of_lt_mul (by rw [hN] at hk; rw [mul_comm]; exact hk)
      have t := abs_add_le ((z0 (k / 2 ^ d) : ℚ) - l.getD (k / 2 ^ d) 0 * scale) (l.getD (k / 2 ^ d) 0 * scale)
      rw [sub_add_cancel] at t
      linarith [herr _ hk2, hBl _ hk2]
    · simp only [Int.cast_zero, abs_zero]; positivity
  · convert hP using 2 with i
    rw [if_neg (by simp)]
    funext k
    rw [one_mul]
    congr 1
    funext k
    simp only [hz]
    split <;> simp
  · rw [slotVal_split, hval j hj, Finset.mul_sum, ← Finset.sum_sub_distrib]
    set ε : ℝ := δ * scale + ((1 / 2 + (B + 1) / 2 ^ 51 : ℚ) : ℝ) with hε
    refine le_trans (norm_sum_le_of_le (n := fun _ => 2 * ε) _ fun k hk => ?_) (by simp; ring_nf; rfl)
    have hk := Finset.mem_range.1 hk
    rw [← mul_assoc, ← sub_mul, norm_mul, norm_pow, norm_pow, encZeta_norm, one_pow, one_pow, mul_one, hzk, hzk]
    obtain ⟨d1, d2⟩ := hδ k hk
    rw [hft k hk] at d1 d2
    have r1 := herr k (by omega)
    have r2 := herr (2 ^ logSlots + k) (by omega)
    rw [hl1 k hk] at r1
    rw [hl2 k hk] at r2
    have hs' : (0 : ℝ) < scale := by exact_mod_cast hs
    have key : ∀ (a : ℤ) (x : ℚ) (y : ℝ), |(a : ℚ) - x * scale| ≤ 1 / 2 + (B + 1) / 2 ^ 51 → |(x : ℝ) - y| ≤ δ →
        |(a : ℝ) - scale * y| ≤ ε := by
      intro a x y h h'
      have h1 : |(a : ℝ) - x * scale| ≤ ((1 / 2 + (B + 1) / 2 ^ 51 : ℚ) : ℝ) := by exact_mod_cast h
      have t := abs_add_le ((a : ℝ) - x * scale) (x * scale - y * scale)
      rw [sub_add_sub_cancel, ← sub_mul, abs_mul, abs_of_pos hs'] at t
      have := mul_le_mul_of_nonneg_right h' hs'.le
      rw [mul_comm (scale : ℝ) y, hε]
      linarith
    have k1 := key _ _ _ r1 d1
    have k2 := key _ _ _ r2 d2
    refine le_trans (Complex.norm_le_abs_re_add_abs_im _) ?_
    have q1 : ((scale : ℚ) : ℂ).re = (scale : ℝ) := by simp
    have q2 : ((scale : ℚ) : ℂ).im = 0 := by simp
    simp only [Complex.sub_re, Complex.sub_im, Complex.add_re, Complex.add_im, Complex.mul_re, Complex.mul_im, Complex.I_re,
      Complex.I_im, q1, q2, Complex.intCast_re, Complex.intCast_im]
    simp only [mul_zero, mul_one, zero_mul, add_zero, zero_add, sub_zero, sub_self]
    linarith

end FastKsw.Props
