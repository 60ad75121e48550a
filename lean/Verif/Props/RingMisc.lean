import Verif.Lemmas.RingMisc
import Verif.Lemmas.Utils
import Verif.Lemmas.BigPrime
import Verif.Model.Params
import Verif.Props.RingOps

/-!
# C11, C12, C16, C45, C48, C49, C50
-/

namespace FastKsw.Props

open Finset (range card_filter sum_congr)

/-- a ring built by `NewRing` for examples and counterexamples -/
theorem exists_ring : ∃ r, newRing 100 16 [97, 193] = .ok r ∧ r.Valid 4 ∧ r.subs.length = 2 ∧
    r.n = 16 ∧ (r.sub 0).q = 97 ∧ (r.sub 1).q = 193 := by
  have h := newRing_example
  cases hr : newRing 100 16 [97, 193] with
  | error e => rw [hr] at h; cases h
  | ok r =>
    have hq : ∀ q ∈ ([97, 193] : List UInt64), q.toNat < 2 ^ 63 := by decide
    obtain ⟨n, h1, h2, h3, -⟩ := C17_newRing_valid 100 16 (by omega) [97, 193] hq r hr
    have h4 : n = 4 := Nat.pow_right_injective (le_refl 2) (by simpa using h1.symm)
    subst h4
    have hl : r.subs.length = 2 := by
      have := congrArg List.length h3
      simpa [Ring.moduli] using this
    refine ⟨r, rfl, h2, hl, by rw [h2.deg]; norm_num, ?_, ?_⟩
    · have := congrArg (fun l => l.getD 0 0) h3
      simpa [Ring.moduli, Ring.sub, List.getD, hl] using this
    · have := congrArg (fun l => l.getD 1 0) h3
      simpa [Ring.moduli, Ring.sub, List.getD, hl] using this

/-- constant polynomial with all coefficients `c` -/
def cpoly (c : UInt64) : Rows := List.replicate 2 (List.replicate 16 c)

theorem cpoly_row (c : UInt64) {i : ℕ} (hi : i ≤ 1) : (cpoly c).row i = List.replicate 16 c := by
  interval_cases i <;> rfl

theorem replicate_at (N : ℕ) (c : UInt64) {k : ℕ} (hk : k < N) : Row.at (List.replicate N c) k = c := by
  simp [Row.at, List.getD, hk]

theorem cpoly_is {r : Ring} (hn : r.n = 16) (A : ℕ → ℕ) (c : UInt64) (hc : ∀ i ≤ 1, c.toNat < A i) :
    PolyIs r 1 A (cpoly c) (fun _ _ => (c.toNat : ZMod _)) := by
  refine ⟨by simp [cpoly], fun i hi => ⟨?_, ?_, ?_⟩⟩
  · rw [cpoly_row c hi, hn, List.length_replicate]
  · intro k hk
    rw [cpoly_row c hi, replicate_at 16 c (by omega)]; exact hc i hi
  · intro k hk
    rw [cpoly_row c hi, zval, replicate_at 16 c (by omega)]

section C11
variable {r : Ring} {level : ℕ} {p1 p2 : Rows} {a : ∀ i, ℕ → ZMod (r.sub i).q.toNat}

/-- The full claim of C11 for a scalar operation `op` computing `F`. -/
def ScalarReceiver (op : Ring → ℕ → Rows → UInt64 → Rows → Rows × Rows)
    (F : ∀ q : ℕ, ZMod q → ZMod q → ZMod q) : Prop :=
  ∀ (n : ℕ) (r : Ring) (level : ℕ) (p1 p2 : Rows) (s : UInt64)
    (a b : ∀ i, ℕ → ZMod (r.sub i).q.toNat), r.Valid n → level < r.subs.length →
    PolyIs r level r.qs p1 a → PolyIs r level r.qs p2 b → (∀ i ≤ level, s.toNat < r.qs i) →
    (op r level p1 s p2).1 = p1 ∧
    PolyIs r level r.qs (op r level p1 s p2).2 (fun i k => F _ (a i k) (s.toNat : ZMod _))

theorem not_scalarReceiver (op : Ring → ℕ → Rows → UInt64 → Rows → Rows × Rows)
    (F : ∀ q : ℕ, ZMod q → ZMod q → ZMod q) (h2 : ∀ r l p1 s p2, (op r l p1 s p2).2 = p2)
    (hF : F 97 3 1 ≠ 5) : ¬ ScalarReceiver op F := by
  intro H
  obtain ⟨r, -, hv, hl, hn, h0, h1⟩ := exists_ring
  have hq : ∀ (c : UInt64), c.toNat < 97 → ∀ i ≤ 1, c.toNat < r.qs i := by
    intro c hc i hi
    interval_cases i
    · rw [Ring.qs, h0]; exact hc
    · rw [Ring.qs, h1]; exact lt_trans hc (by decide)
  have H1 := (H 4 r 1 (cpoly 3) (cpoly 5) 1 _ _ hv (by omega) (cpoly_is hn r.qs 3 (hq 3 (by decide)))
    (cpoly_is hn r.qs 5 (hq 5 (by decide))) (hq 1 (by decide))).2
  rw [h2] at H1
  have e := (H1.row 0 (by omega)).val 0 (by omega)
  rw [cpoly_row 5 (by omega), zval, replicate_at 16 5 (by omega)] at e
  have key : ∀ q : UInt64, q = 97 → ((5 : UInt64).toNat : ZMod q.toNat)
      = F _ ((3 : UInt64).toNat : ZMod q.toNat) ((1 : UInt64).toNat : ZMod q.toNat) → False := by
    intro q hq he
    subst hq
    apply hF
    have h97 : (97 : UInt64).toNat = 97 := by decide
    simpa using he.symm
  exact key _ h0 e

/-- **C11 fails**: `AddScalar(p1, s, p2)` does not put `p1 + s` in `p2`. -/
theorem C11_addScalar_violated : ¬ ScalarReceiver Ring.addScalarLvl (fun _ x y => x + y) :=
  not_scalarReceiver _ _ (fun _ _ _ _ _ => rfl) (by decide)

/-- **C11 fails**: `SubScalar(p1, s, p2)` does not put `p1 - s` in `p2`. -/
theorem C11_subScalar_violated : ¬ ScalarReceiver Ring.subScalarLvl (fun _ x y => x - y) :=
  not_scalarReceiver _ _ (fun _ _ _ _ _ => rfl) (by decide)

/-- **C11 fails** for the `Bigint` variants too. -/
theorem C11_scalarBigint_violated :
    ¬ ScalarReceiver (fun r l p1 s p2 => r.addScalarBigintLvl l p1 s.toNat p2) (fun _ x y => x + y) ∧
    ¬ ScalarReceiver (fun r l p1 s p2 => r.subScalarBigintLvl l p1 s.toNat p2) (fun _ x y => x - y) :=
  ⟨not_scalarReceiver _ _ (fun _ _ _ _ _ => rfl) (by decide),
    not_scalarReceiver _ _ (fun _ _ _ _ _ => rfl) (by decide)⟩

/-- **C11 (what holds).** Called in place (`p1 = p2`, the first component of the
model's result) the four operations add or subtract the scalar and keep reduced
residues, for scalars below every modulus (any integer for the `Bigint` variants).
Missing: the case `p1 ≠ p2`, which is false. -/
theorem C11_inPlace_partial (hr : r.ArithLvl level) (h1 : PolyIs r level r.qs p1 a) (s : UInt64)
    (hs : ∀ i ≤ level, s.toNat < r.qs i) (t : ℤ) :
    PolyWritten r level r.qs p1 (r.addScalarLvl level p1 s p1).1
      (fun i k => a i k + (s.toNat : ZMod (r.sub i).q.toNat)) ∧
    PolyWritten r level r.qs p1 (r.subScalarLvl level p1 s p1).1
      (fun i k => a i k - (s.toNat : ZMod (r.sub i).q.toNat)) ∧
    PolyWritten r level r.qs p1 (r.addScalarBigintLvl level p1 t p1).1
      (fun i k => a i k + (t : ZMod (r.sub i).q.toNat)) ∧
    PolyWritten r level r.qs p1 (r.subScalarBigintLvl level p1 t p1).1
      (fun i k => a i k - (t : ZMod (r.sub i).q.toNat)) := by
  have hb : ∀ i ≤ level, (UInt64.ofNat (t % ((r.sub i).q.toNat : ℤ)).toNat).toNat
      < (r.sub i).q.toNat := by
    intro i hi
    have h1 := (hr i hi).one_lt
    have h3 := Int.emod_nonneg t (b := ((r.sub i).q.toNat : ℤ)) (by omega)
    have h4 := Int.emod_lt_of_pos t (b := ((r.sub i).q.toNat : ℤ)) (by omega)
    have h5 := (hr i hi).lt
    rw [UInt64.toNat_ofNat', Nat.mod_eq_of_lt (by omega)]
    omega
  refine ⟨writeLvl_is h1.lvl fun i hi => addScalarVec_is (hr i hi) (h1.row i hi) s (hs i hi),
    writeLvl_is h1.lvl fun i hi => subScalarVec_is (hr i hi) (h1.row i hi) s (hs i hi),
    writeLvl_is h1.lvl fun i hi => ?_, writeLvl_is h1.lvl fun i hi => ?_⟩
  · refine (addScalarVec_is (hr i hi) (h1.row i hi) _ (hb i hi)).congr (fun k _ => ?_)
    rw [cast_intMod (hr i hi)]
  · refine (subScalarVec_is (hr i hi) (h1.row i hi) _ (hb i hi)).congr (fun k _ => ?_)
    rw [cast_intMod (hr i hi)]

end C11

section C12
variable {r : Ring} {level : ℕ} {p1 p2 : Rows} {a : ∀ i, ℕ → ZMod (r.sub i).q.toNat} {A : ℕ → ℕ}

/-- **C12 (in place).** `MulByPow2(p, k, p)` multiplies by `2^k`, for any input words. -/
theorem C12_mulByPow2_inPlace_partial (hr : r.ArithLvl level) (h1 : PolyIs r level A p1 a) (k : ℕ)
    (hk : k < 64) :
    PolyWritten r level r.qs p1 (r.mulByPow2LvlInPlace level k p1) (fun i j => a i j * 2 ^ k) := by
  have hm := C10_mform hr h1 h1.lvl
  have h2 : PolyWritten r level r.qs (r.mformLvl level p1 p1) (r.mulByPow2LvlInPlace level k p1)
      (fun i j => a i j * 2 ^ 64 * 2 ^ k * rinv _) :=
    writeLvl_is hm.is.lvl fun i hi => mulByPow2Vec_is (hr i hi) (hm.is.row i hi) k hk
  refine ⟨h2.is.congr fun i hi j _ => ?_, h2.len.trans hm.len, fun i hi =>
    (h2.above i hi).trans (hm.above i hi)⟩
  have : a i j * 2 ^ 64 * 2 ^ k * rinv _ = a i j * 2 ^ k * (2 ^ 64 * rinv _) := by ring
  rw [this, mul_rinv (hr i hi).odd, mul_one]

/-- What `MulByPow2(p1, k, p2)` does on different polynomials: an extra factor `2^-64`. -/
theorem C12_mulByPow2_distinct_value (hr : r.ArithLvl level) (h1 : PolyIs r level r.qs p1 a) (k : ℕ)
    (hk : k < 64) (h2 : level < p2.length) :
    PolyWritten r level r.qs p2 (r.mulByPow2LvlDistinct level k p1 p2)
      (fun i j => a i j * 2 ^ k * rinv _) := by
  have hm := C10_mform hr h1 h2
  have h3 : PolyWritten r level r.qs (r.mformLvl level p1 p2) (r.mulByPow2LvlDistinct level k p1 p2)
      (fun i j => a i j * 2 ^ k * rinv _) :=
    writeLvl_is hm.is.lvl fun i hi => mulByPow2Vec_is (hr i hi) (h1.row i hi) k hk
  exact ⟨h3.is, h3.len.trans hm.len, fun i hi => (h3.above i hi).trans (hm.above i hi)⟩

/-- **C12 fails** on different polynomials: with `r = NewRing(16, [97, 193])`,
`p1 = 1 + X + … + X^15`, the result of `MulByPow2(p1, 1, p2)` is not `2·p1`. -/
theorem C12_mulByPow2_distinct_violated : ∃ (r : Ring) (p1 p2 : Rows)
    (a : ∀ i, ℕ → ZMod (r.sub i).q.toNat), r.Valid 4 ∧ r.subs.length = 2 ∧
    PolyIs r 1 r.qs p1 a ∧ 1 < p2.length ∧
    ¬ PolyIs r 1 r.qs (r.mulByPow2LvlDistinct 1 1 p1 p2) (fun i j => a i j * 2 ^ 1) := by
  obtain ⟨r, -, hv, hl, hn, h0, h1⟩ := exists_ring
  have hq : ∀ i ≤ 1, (1 : UInt64).toNat < r.qs i := by
    intro i hi
    interval_cases i
    · rw [Ring.qs, h0]; decide
    · rw [Ring.qs, h1]; decide
  have hc := cpoly_is hn r.qs 1 hq
  refine ⟨r, cpoly 1, cpoly 0, _, hv, hl, hc, by simp [cpoly], fun H => ?_⟩
  have hd := (C12_mulByPow2_distinct_value (p2 := cpoly 0) (hv.arithLvl (by omega)) hc 1 (by omega)
    (by simp [cpoly])).is
  have e1 := (H.row 0 (by omega)).val 0 (by omega)
  have e2 := (hd.row 0 (by omega)).val 0 (by omega)
  have e := e1.symm.trans e2
  have hodd := (hv.subAt (i := 0) (by omega)).arith.odd
  have key : ∀ q : UInt64, q = 97 → q.toNat % 2 = 1 →
      ((1 : UInt64).toNat : ZMod q.toNat) * 2 ^ 1
        = ((1 : UInt64).toNat : ZMod q.toNat) * 2 ^ 1 * rinv q.toNat → False := by
    intro q hq hodd he
    have h3 := congrArg (fun z => z * (2 : ZMod q.toNat) ^ 64) he
    simp only [mul_assoc, rinv_mul hodd] at h3
    subst hq
    revert h3
    decide +kernel
  exact key _ h0 hodd e

end C12

/-! ## C16 -/

/-- What `CheckModuli` guarantees: `q < 2^62` and `p < 2^63`, primes. -/
theorem C16_checkModuli_bounds (q p : List UInt64) (h : checkModuli q p = .ok ()) :
    (∀ x ∈ q, x.toNat < 2 ^ 62 ∧ x.toNat.Prime) ∧ (∀ x ∈ p, x.toNat < 2 ^ 63 ∧ x.toNat.Prime) := by
  unfold checkModuli at h
  split at h; · cases h
  split at h; · cases h
  split at h; · cases h
  split at h; · cases h
  split at h; · cases h
  split at h; · cases h
  rename_i _ _ h1 h2 h3 h4
  rw [not_not] at h3 h4
  simp only [List.any_eq_true, not_exists, not_and, maxModuliSize] at h1 h2
  have h1 : ∀ x ∈ q, lenMinusOne x ≤ 61 := fun x hx => by
    have := h1 x hx; simpa using this
  have h2 : ∀ x ∈ p, lenMinusOne x ≤ 62 := fun x hx => by
    have := h2 x hx; simpa using this
  have key : ∀ (x : UInt64) (b : ℕ), b < 63 → lenMinusOne x ≤ b → x.toNat < 2 ^ (b + 1) := by
    intro x b hb hx
    unfold lenMinusOne at hx
    split at hx
    · rename_i h; subst h
      have : (2 ^ 64 - 1 : ℕ) ≤ 63 := by omega
      omega
    · rename_i h
      have hx0 : x.toNat ≠ 0 := fun h' => h (UInt64.toNat_inj.1 (by simpa using h'))
      rw [len64, if_neg hx0, Nat.add_sub_cancel] at hx
      exact (Nat.log2_lt hx0).1 (by omega)
  exact ⟨fun x hx => ⟨key x 61 (by omega) (h1 x hx), h3 x hx⟩,
    fun x hx => ⟨key x 62 (by omega) (h2 x hx), h4 x hx⟩⟩

theorem genSub_q {fuel m : ℕ} {q : UInt64} {s : SubRing} (h : genSub fuel m q = some s) :
    s.q = q := by
  unfold genSub at h
  cases hg : primitiveRoot fuel q with
  | none => rw [hg] at h; cases h
  | some g =>
    rw [hg] at h
    simp only [Option.bind_some, Option.some.injEq] at h
    rw [← h]

theorem newRing_of (fuel N : ℕ) (m : List UInt64) (l : List SubRing) (hm0 : m.length ≠ 0)
    (hp : ∀ q ∈ m, isPrime q) (hd : allDistinct m [] = true)
    (hN : ¬ (N < 16 ∨ (Nat.land N (N - 1) ≠ 0 ∧ N ≠ 0)))
    (hn : ∀ q ∈ m, (q &&& (UInt64.ofNat (2 * N) - 1)) = 1)
    (hs : m.mapM (genSub fuel (2 * N)) = some l) :
    ∃ r, newRing fuel N m = .ok r ∧ r.subs = l := by
  unfold newRing newRingCustom
  rw [if_neg hN, if_neg hm0, if_neg (not_not.2 hd)]
  generalize hf : List.find? _ _ = o
  cases o with
  | some x =>
    have h1 := List.find?_some hf
    have h2 := List.mem_of_find?_eq_some hf
    rcases Bool.or_eq_true_iff.1 h1 with h | h
    · exact absurd (hp x h2) (of_decide_eq_true h)
    · rw [hn x h2] at h; cases h
  | none =>
    simp only [hs]
    exact ⟨_, rfl, rfl⟩

theorem newRing_single (fuel N : ℕ) (q : UInt64) (s : SubRing) (hp : isPrime q)
    (hN : ¬ (N < 16 ∨ (Nat.land N (N - 1) ≠ 0 ∧ N ≠ 0)))
    (hn : (q &&& (UInt64.ofNat (2 * N) - 1)) = 1) (hs : genSub fuel (2 * N) q = some s) :
    ∃ r, newRing fuel N [q] = .ok r ∧ r.subs = [s] := by
  refine newRing_of fuel N [q] [s] (by simp) ?_ (by simp [allDistinct]) hN ?_ (by simp [hs])
  · intro x hx
    rw [List.mem_singleton.1 hx]
    exact hp
  · intro x hx
    rw [List.mem_singleton.1 hx]
    exact hn

set_option maxRecDepth 1000000 in
theorem gen62 : ((genSub 100 (2 * 16) 4479442115436288001).any fun s =>
    decide (s.invNtt 16 (s.ntt 16 (4479442115436288000 :: List.replicate 15 0))
      ≠ 4479442115436288000 :: List.replicate 15 0)) = true := by decide +kernel

/-- **C16 fails**: `CheckModuli` accepts the 62-bit prime `4479442115436288001`,
`NewRing(16, ·)` accepts it, and `InvNTT(NTT(x)) ≠ x` for the constant `x = q - 1`. -/
theorem C16_checkModuli_violated : ∃ q : UInt64, checkModuli [q] [] = .ok () ∧
    ∃ r s, newRing 100 16 [q] = .ok r ∧ r.subs = [s] ∧ s.q = q ∧
      s.invNtt 16 (s.ntt 16 ((q - 1) :: List.replicate 15 0)) ≠ (q - 1) :: List.replicate 15 0 := by
  have hp : isPrime 4479442115436288001 := prime62
  have hlen : ¬ (([4479442115436288001] : List UInt64).any
      (fun qi => decide (lenMinusOne qi > maxModuliSize + 1)) = true) := by decide +kernel
  have hand : ((4479442115436288001 : UInt64) &&& (UInt64.ofNat (2 * 16) - 1)) = 1 := by decide +kernel
  have hsub : (4479442115436288001 : UInt64) - 1 = 4479442115436288000 := by decide +kernel
  have h := gen62
  refine ⟨4479442115436288001, ?_, ?_⟩
  · generalize (4479442115436288001 : UInt64) = q at *
    unfold checkModuli
    rw [if_neg (by simp [maxModuliCount]), if_neg (by simp), if_neg hlen, if_neg (by simp),
      if_neg (by simpa using hp), if_neg (by simp)]
  · rw [hsub]
    generalize (4479442115436288001 : UInt64) = q at *
    cases hg : genSub 100 (2 * 16) q with
    | none => rw [hg] at h; cases h
    | some s =>
      rw [hg] at h
      obtain ⟨r, hr, hrs⟩ := newRing_single 100 16 q s hp (by decide) hand hg
      refine ⟨r, s, hr, hrs, genSub_q hg, ?_⟩
      simpa using h

/-- **C16 (what holds).** For accepted moduli of at most 61 bits, `NewRing`'s
transforms invert each other and evaluate the polynomial.  Missing: the 62-bit `Q`
and 62/63-bit `P` moduli that `CheckModuli` lets through. -/
theorem C16_small_partial (fuel N : ℕ) (hN : N < 2 ^ 62) (q p : List UInt64)
    (_hc : checkModuli q p = .ok ()) (r : Ring) (hr : newRing fuel N q = .ok r)
    (hsmall : ∀ x ∈ q, lenMinusOne x ≤ maxModuliSize) (s : SubRing) (hs : s ∈ r.subs) (x : Row)
    (hx : x.length = N) (hb : ∀ k < N, (x.at k).toNat < s.q.toNat) :
    s.invNtt N (s.ntt N x) = x ∧ s.ntt N (s.invNtt N x) = x := by
  have hlt : ∀ y ∈ q, y.toNat < 2 ^ 61 := by
    intro y hy
    have h := hsmall y hy
    unfold lenMinusOne maxModuliSize at h
    split at h
    · omega
    · rename_i h0
      have hy0 : y.toNat ≠ 0 := fun h' => h0 (UInt64.toNat_inj.1 (by simpa using h'))
      rw [len64, if_neg hy0, Nat.add_sub_cancel] at h
      exact (Nat.log2_lt hy0).1 (by omega)
  obtain ⟨n, h1, h2, h3, -⟩ := C17_newRing_valid fuel N hN q
    (fun y hy => lt_trans (hlt y hy) (by norm_num)) r hr
  have hV := h2.sub s hs
  have hq : s.q.toNat < 2 ^ 61 := by
    apply hlt
    rw [← h3]
    exact List.mem_map_of_mem hs
  subst h1
  exact ⟨C13_invNtt_ntt hV h2.four_le hq x hx hb, C13_ntt_invNtt hV h2.four_le hq x hx hb⟩

/-! ## C45 -/

/-- **C45 (slices).** The ring's `BitReverse` (to another polynomial or in place)
and the encoder's `SliceBitReverseInPlace*` move entry `bitrev(k)` to `k`. -/
theorem C45_slice_permutes (n : ℕ) (hn : n ≤ 63) (x y : Row) (hx : x.length = 2 ^ n)
    (hy : y.length = 2 ^ n) :
    (∀ k < 2 ^ n, (bitReverseRow (2 ^ n) x y).at k = x.at (bitReverse64 k n)) ∧
    (∀ k < 2 ^ n, (bitReverseRowInPlace (2 ^ n) x).at k = x.at (bitReverse64 k n)) ∧
    (∀ k < 2 ^ n, Row.at (sliceBitReverse x (2 ^ n)) k = x.at (bitReverse64 k n)) := by
  refine ⟨fun k hk => ?_, fun k hk => ?_, fun k hk => ?_⟩ <;> rw [bitReverse64_eq n k (by omega) hk]
  · exact (bitReverseRow_at n hn x y hy).2 k hk
  · exact (bitReverseRowInPlace_at n hn x hx).2 k hk
  · exact (sliceBitReverse_at n x (le_of_eq hx.symm)).2.1 k hk

/-- **C45 (involution).** The in-place bit reversals undo themselves, on slices of
any element type. -/
theorem C45_slice_involutive {α : Type*} [Inhabited α] (n : ℕ) (hn : n ≤ 63) (x : Row)
    (hx : x.length = 2 ^ n) (s : List α) (hs : 2 ^ n ≤ s.length) :
    bitReverseRowInPlace (2 ^ n) (bitReverseRowInPlace (2 ^ n) x) = x ∧
    sliceBitReverse (sliceBitReverse s (2 ^ n)) (2 ^ n) = s := by
  obtain ⟨h1, h2⟩ := bitReverseRowInPlace_at n hn x hx
  obtain ⟨h3, h4⟩ := bitReverseRowInPlace_at n hn _ h1
  obtain ⟨g1, g2, g2'⟩ := sliceBitReverse_at n s hs
  obtain ⟨g3, g4, g4'⟩ := sliceBitReverse_at n _ (g1 ▸ hs)
  constructor
  · apply list_ext_getD (h3.trans hx.symm)
    intro k hk
    have := (h4 k (by omega)).trans (h2 _ (revBits_lt n k))
    rwa [revBits_involutive n k (by omega)] at this
  · apply list_ext_getD (g3.trans g1)
    intro k hk
    by_cases hk2 : k < 2 ^ n
    · have := (g4 k hk2).trans (g2 _ (revBits_lt n k))
      rwa [revBits_involutive n k hk2] at this
    · exact (g4' k (by omega)).trans (g2' k (by omega))

example : bitReverseRowInPlace 8 [0, 1, 2, 3, 4, 5, 6, 7] = [0, 4, 2, 6, 1, 5, 3, 7] ∧
    sliceBitReverse [0, 1, 2, 3, 4, 5, 6, 7] 8 = [0, 4, 2, 6, 1, 5, 3, 7] := by decide +kernel

/-! ## C48, C49 -/

/-- **C48.** Entry `i` of `RotateXSlice(s, k)` is `s[(i+k) mod len]`; rotations
compose additively; the length is kept. -/
theorem C48_rotateSlice {α : Type*} (s : List α) (k l : ℤ) :
    (rotateSlice s k).length = s.length ∧
    (∀ i : ℕ, i < s.length →
      (rotateSlice s k)[i]? = s[((i + k) % s.length).toNat]?) ∧
    rotateSlice (rotateSlice s k) l = rotateSlice s (k + l) ∧
    rotateSlice s 0 = s ∧ rotateSlice s s.length = s := by
  refine ⟨rotateSlice_length s k, fun i hi => ?_, ?_, ?_, ?_⟩
  · rw [rotateSlice_eq, List.getElem?_rotate hi]
    congr 1
    have h5 := Int.emod_nonneg k (b := (s.length : ℤ)) (by omega)
    have h6 := Int.emod_nonneg ((i : ℤ) + k) (b := (s.length : ℤ)) (by omega)
    zify
    rw [Int.toNat_of_nonneg h5, Int.toNat_of_nonneg h6, Int.add_emod_emod]
  · rw [rotateSlice_eq s k, rotateSlice_eq, rotateSlice_eq s (k + l), List.rotate_rotate,
      List.length_rotate]
    rcases Nat.eq_zero_or_pos s.length with h0 | h0
    · rw [List.length_eq_zero_iff] at h0; subst h0; simp
    rw [← List.rotate_mod]
    congr 1
    have h5 := Int.emod_nonneg k (b := (s.length : ℤ)) (by omega)
    have h6 := Int.emod_nonneg (k + l) (b := (s.length : ℤ)) (by omega)
    have h7 := Int.emod_nonneg l (b := (s.length : ℤ)) (by omega)
    zify
    rw [Int.toNat_of_nonneg h5, Int.toNat_of_nonneg h6, Int.toNat_of_nonneg h7, ← Int.add_emod]
  · rw [rotateSlice_eq]; simp
  · rw [rotateSlice_eq]; simp

/-- **C48 (slots).** `RotateUint64Slots` rotates both halves of a slice of even length. -/
theorem C48_rotateSlots {α : Type*} (s t : List α) (h : s.length = t.length) (k : ℤ) :
    rotateSlots (s ++ t) k = rotateSlice s k ++ rotateSlice t k := by
  unfold rotateSlots
  have h2 : (s ++ t).length / 2 = s.length := by rw [List.length_append]; omega
  rw [h2]
  simp

example : rotateSlice [1, 2, 3, 4, 5] (-7) = [4, 5, 1, 2, 3] := by decide

/-- **C49.** `HammingWeight64(x)` is the number of set bits. -/
theorem C49_hammingWeight64 (x : UInt64) :
    (hammingWeight64 x).toNat = ((range 64).filter fun i => x.toNat.testBit i).card := by
  rw [hammingWeight64_eq, card_filter]
  apply sum_congr rfl
  intro i _
  rw [Nat.testBit_eq_decide_div_mod_eq]
  rcases Nat.mod_two_eq_zero_or_one (x.toNat / 2 ^ i) with h | h <;> simp [h]

example : hammingWeight64 0xff00ff01 = 17 := by decide

/-! ## C50 -/

section C50
variable {n : ℕ} {r : Ring}

/-- **C50 (non-negative exponents).** `MultByMonomial(p1, k, p2)` puts `X^k·p1`
modulo `X^N+1` in `p2` for every `k ≥ 0`; words are at most `q` (inputs may be too). -/
theorem C50_multByMonomial_partial (hv : r.Valid n) (k : ℕ) (p1 p2 : Rows)
    (a : ∀ i, ℕ → ZMod (r.sub i).q.toNat)
    (h1 : PolyIs r (r.subs.length - 1) (fun i => r.qs i + 1) p1 a) (h2 : r.subs.length ≤ p2.length) :
    ∃ out b, r.multByMonomial p1 k p2 = some out ∧
      PolyWritten r (r.subs.length - 1) (fun i => r.qs i + 1) p2 out b ∧
      ∀ i < r.subs.length,
        toR r.n (r.qs i) (b i) = AdjoinRoot.root _ ^ k * toR r.n (r.qs i) (a i) := by
  have hN : 0 < r.n := by rw [hv.deg]; positivity
  have hne : 0 < r.subs.length := List.length_pos_iff.2 hv.ne_nil
  have hmod : (k : ℤ).tmod ((2 * r.n : ℕ) : ℤ) = ((k % (2 * r.n) : ℕ) : ℤ) := by
    rw [Int.tmod_eq_emod_of_nonneg (by omega)]; push_cast; rfl
  have hlt : k % (2 * r.n) < 2 * r.n := Nat.mod_lt _ (by omega)
  refine ⟨writeLvl (r.subs.length - 1)
      (fun i => multByMonomialRow r.n (r.sub i).q (k % (2 * r.n)) (p1.row i)) p2,
    fun i => monoVal r.n (k % (2 * r.n)) (a i), ?_, ?_, ?_⟩
  · unfold Ring.multByMonomial
    simp only [hmod]
    rw [if_pos (by omega), Int.toNat_natCast]
  · exact writeLvl_is (by omega) fun i hi => multByMonomialRow_is (h1.row i hi) hN _ hlt
  · intro i _
    rw [root_pow_mod, root_pow_mul' _ hlt]

/-- **C50 fails** for negative exponents: `k = -1` is an index panic for every ring. -/
theorem C50_negative_panics (hv : r.Valid n) (p1 p2 : Rows) : r.multByMonomial p1 (-1) p2 = none := by
  have h16 : 16 ≤ r.n := by
    rw [hv.deg]
    calc 16 = 2 ^ 4 := by norm_num
      _ ≤ 2 ^ n := Nat.pow_le_pow_right (by omega) hv.four_le
  have h1 : (-1 : ℤ).tmod ((2 * r.n : ℕ) : ℤ) = -1 := by
    rw [Int.neg_tmod, Int.tmod_eq_of_lt (by omega) (by push_cast; omega)]
  have h2 : (-1 : ℤ).tmod (r.n : ℤ) = -1 := by
    rw [Int.neg_tmod, Int.tmod_eq_of_lt (by omega) (by omega)]
  unfold Ring.multByMonomial
  simp only [h1, h2]
  rfl

/-- **C50 fails** for `k = -N`: no panic, but the result is `p1` instead of
`X^-N·p1 = -p1` (so `X^N·result ≠ p1`). -/
theorem C50_negative_wrong : ∃ (r : Ring) (p1 p2 out : Rows), r.Valid 4 ∧ r.n = 16 ∧
    PolyIs r 1 r.qs p1 (fun _ _ => 1) ∧
    r.multByMonomial p1 (-16) p2 = some out ∧
    AdjoinRoot.root _ ^ 16 * rowR 16 97 (out.row 0) ≠ rowR 16 97 (p1.row 0) := by
  obtain ⟨r, -, hv, hl, hn, h0, h1⟩ := exists_ring
  have hq : ∀ i ≤ 1, (1 : UInt64).toNat < r.qs i := by
    intro i hi
    interval_cases i
    · rw [Ring.qs, h0]; decide
    · rw [Ring.qs, h1]; decide
  have hc := cpoly_is hn r.qs 1 hq
  refine ⟨r, cpoly 1, cpoly 0, cpoly 1, hv, hn, hc.congr (fun i _ k _ => by simp), ?_, ?_⟩
  · unfold Ring.multByMonomial
    rw [hn, hl]
    rw [if_neg (by decide), if_pos (by decide)]
    decide +kernel
  · have hrow : (cpoly 1).row 0 = List.replicate 16 1 := cpoly_row 1 (by omega)
    rw [hrow, root_pow, rowR, neg_one_mul, toR_neg]
    intro h
    have h2 := toR_inj (by omega) h 0 (by omega)
    rw [zval, replicate_at 16 1 (by omega)] at h2
    revert h2
    decide

end C50

end FastKsw.Props
