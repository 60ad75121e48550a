import Verif.Model.Shift
import Verif.Props.RingMisc
import Verif.Props.NTT
import Verif.Lemmas.Gauss
import Verif.Lemmas.PolyIs

/-!
# C87: the circular shift through the Galois automorphism
-/

namespace FastKsw.Props

open FastKsw Finset

section row
variable {n : ℕ} {s : SubRing} (V : s.Valid n)
include V

/-- The loop of one row of `Rotate`: entry `j` is multiplied by `psi^(2 m j)`. -/
theorem rotateRow_is (m : ℕ) (hm : m < 2 ^ 64) {x : Row} {v : ℕ → ZMod s.q.toNat} {z : ℤ} (hz : z.toNat = m)
    (hx : RowIs (2 ^ n) s.q.toNat s.q.toNat x v) :
    RowIs (2 ^ n) s.q.toNat s.q.toNat (rotateRow s (2 ^ n) z x) (fun j => v j * (s.psi ^ (2 * m)) ^ j) := by
  have := V.fact
  have hq1 := V.arith.one_lt
  have hq := V.lt
  have hr : (rinv s.q.toNat) * 2 ^ 64 = 1 := by
    unfold rinv
    exact inv_mul_cancel₀ (pow_ne_zero _ (two_ne_zero_of_odd V.odd))
  obtain ⟨p1, p2⟩ := V.psiMont
  obtain ⟨a1, a2⟩ := mred_any V.arith p1.le s.psiMont
  rw [p2] at a2
  have a2' : ((mred s.psiMont s.psiMont s.q s.mred).toNat : ZMod s.q.toNat) = s.psi ^ 2 * 2 ^ 64 := by
    rw [a2]
    calc _ = s.psi ^ 2 * 2 ^ 64 * (rinv s.q.toNat * 2 ^ 64) := by ring
      _ = _ := by rw [hr, mul_one]
  obtain ⟨b1, b2⟩ := modexpMontgomery_spec V.mred hq1 hq.le m hm _ _ a1 a2'
  obtain ⟨g1, g2⟩ := mform_zmod hq1 hq.le 1
  unfold rotateRow
  rw [V.bred, hz]
  dsimp only
  generalize modexpMontgomery (mred s.psiMont s.psiMont s.q s.mred) m s.q s.mred (bredParams s.q) = root at b1 b2 ⊢
  rw [← pow_mul] at b2
  have key : ∀ k, k ≤ 2 ^ n - 1 →
      let st := (List.range k).foldl (fun (st : UInt64 × Row) j =>
        (mred st.1 root s.q s.mred, st.2.set (j + 1) (mred (st.2.at (j + 1)) (mred st.1 root s.q s.mred) s.q s.mred)))
        (mform 1 s.q (bredParams s.q), x)
      st.1.toNat < s.q.toNat ∧ (st.1.toNat : ZMod s.q.toNat) = (s.psi ^ (2 * m)) ^ k * 2 ^ 64 ∧ st.2.length = 2 ^ n ∧
      (∀ j, j ≤ k → j < 2 ^ n → (st.2.at j).toNat < s.q.toNat ∧ ((st.2.at j).toNat : ZMod s.q.toNat) = v j * (s.psi ^ (2 * m)) ^ j) ∧
      ∀ j, k < j → st.2.at j = x.at j := by
    intro k
    induction k with
    | zero =>
      intro _
      refine ⟨g1, by simpa using g2, hx.len, fun j hj hj' => ?_, fun j _ => rfl⟩
      obtain rfl : j = 0 := by omega
      exact ⟨hx.lt 0 hj', by simpa [zval] using hx.val 0 hj'⟩
    | succ k ih =>
      intro hk
      obtain ⟨c1, c2, c3, c4, c5⟩ := ih (by omega)
      rw [List.range_succ, List.foldl_append]
      generalize (List.range k).foldl _ _ = st at *
      obtain ⟨gal, y⟩ := st
      dsimp only [List.foldl_cons, List.foldl_nil] at *
      obtain ⟨d1, d2⟩ := mred_any V.arith b1.le gal
      rw [c2, b2] at d2
      have d3 : ((mred gal root s.q s.mred).toNat : ZMod s.q.toNat) = (s.psi ^ (2 * m)) ^ (k + 1) * 2 ^ 64 := by
        rw [d2]
        calc _ = (s.psi ^ (2 * m)) ^ (k + 1) * 2 ^ 64 * (rinv s.q.toNat * 2 ^ 64) := by ring
          _ = _ := by rw [hr, mul_one]
      generalize mred gal root s.q s.mred = gal' at d1 d3 ⊢
      obtain ⟨e1, e2⟩ := mred_any V.arith d1.le (y.at (k + 1))
      have e3 : ((mred (y.at (k + 1)) gal' s.q s.mred).toNat : ZMod s.q.toNat) = v (k + 1) * (s.psi ^ (2 * m)) ^ (k + 1) := by
        rw [e2, d3, c5 (k + 1) (by omega)]
        have := hx.val (k + 1) (by omega)
        unfold zval at this
        rw [this]
        calc _ = v (k + 1) * (s.psi ^ (2 * m)) ^ (k + 1) * (rinv s.q.toNat * 2 ^ 64) := by ring
          _ = _ := by rw [hr, mul_one]
      refine ⟨d1, d3, by rw [List.length_set, c3], fun j hj hj' => ?_, fun j hj => ?_⟩
      · by_cases h : j = k + 1
        · subst h
          have : Row.at (y.set (k + 1) (mred (y.at (k + 1)) gal' s.q s.mred)) (k + 1) = mred (y.at (k + 1)) gal' s.q s.mred := by
            unfold Row.at
            simp [List.getD, c3, hj']
          rw [this]
          exact ⟨e1, e3⟩
        · have : Row.at (y.set (k + 1) (mred (y.at (k + 1)) gal' s.q s.mred)) j = y.at j := by
            unfold Row.at
            simp [List.getD, List.getElem?_set_ne (Ne.symm h)]
          rw [this]
          exact c4 j (by omega) hj'
      · have : Row.at (y.set (k + 1) (mred (y.at (k + 1)) gal' s.q s.mred)) j = y.at j := by
          unfold Row.at
          simp [List.getD, List.getElem?_set_ne (show k + 1 ≠ j by omega)]
        rw [this]
        exact c5 j (by omega)
  obtain ⟨-, -, l, h, -⟩ := key (2 ^ n - 1) le_rfl
  exact ⟨l, fun k hk => (h k (by omega) hk).1, fun k hk => (h k (by omega) hk).2⟩

/-- the values of the rotated polynomial are those of the polynomial at rotated points -/
theorem evals_rotate (m : ℕ) (v : ℕ → ZMod s.q.toNat) {i : ℕ} (hi : i < 2 ^ n) :
    evals s.psi n (fun j => v j * (s.psi ^ (2 * m)) ^ j) i =
      evals s.psi n v (revBits n ((revBits n i + m) % 2 ^ n)) := by
  have h2 : s.psi ^ 2 ^ (n + 1) = 1 := by rw [pow_succ, pow_mul, V.psi_pow]; ring
  unfold evals
  refine sum_congr rfl fun j _ => ?_
  rw [mul_assoc, ← mul_pow]
  congr 2
  unfold nttPoint
  rw [revBits_involutive _ _ (Nat.mod_lt _ (by positivity)), ← pow_add]
  have e : 2 * m + (2 * revBits n i + 1) = 2 ^ (n + 1) * ((revBits n i + m) / 2 ^ n) + (2 * ((revBits n i + m) % 2 ^ n) + 1) := by
    have := Nat.div_add_mod (revBits n i + m) (2 ^ n)
    rw [pow_succ]
    generalize 2 ^ n = N at *
    generalize (revBits n i + m) / N = d at *
    generalize (revBits n i + m) % N = t at *
    nlinarith
  rw [e, pow_add s.psi (2 ^ (n + 1) * _), pow_mul s.psi, h2, one_pow, one_mul]

/-- One row: bit reversal, inverse NTT, `Rotate`, NTT, bit reversal. -/
theorem galoisShift_row (hn : 4 ≤ n) (hn' : n ≤ 63) (hq : s.q.toNat < 2 ^ 61) (m : ℕ) (hm : m < 2 ^ 64) {z : ℤ} (hz : z.toNat = m)
    (x : Row) (hx : x.length = 2 ^ n) (hb : ∀ k < 2 ^ n, (x.at k).toNat < s.q.toNat) :
    let y := bitReverseRowInPlace (2 ^ n) (s.ntt (2 ^ n) (rotateRow s (2 ^ n) z (s.invNtt (2 ^ n) (bitReverseRowInPlace (2 ^ n) x))))
    y.length = 2 ^ n ∧ ∀ k < 2 ^ n, y.at k = x.at ((k + m) % 2 ^ n) := by
  intro y
  obtain ⟨r1, r2⟩ := bitReverseRowInPlace_at n hn' x hx
  have hxb : RowIs (2 ^ n) s.q.toNat s.q.toNat (bitReverseRowInPlace (2 ^ n) x) (zval s.q.toNat (bitReverseRowInPlace (2 ^ n) x)) :=
    RowIs.refl _ r1 fun k hk => by rw [r2 k hk]; exact hb _ (revBits_lt n k)
  have h1 := invNtt_is V (by omega) hq (hxb.mono (by omega))
  have h2 := rotateRow_is V m hm hz h1
  have h3 := ntt_is V (by omega) hq (by omega) h2
  obtain ⟨t1, t2⟩ := bitReverseRowInPlace_at n hn' _ h3.len
  refine ⟨t1, fun k hk => ?_⟩
  have hmod : (k + m) % 2 ^ n < 2 ^ n := Nat.mod_lt _ (by positivity)
  have hrk := revBits_lt n k
  rw [show y.at k = _ from t2 k hk]
  apply UInt64.toNat_inj.1
  have l1 := h3.lt _ hrk
  have l2 := hb _ hmod
  have e := h3.val _ hrk
  rw [evals_rotate V m _ hrk, revBits_involutive n k hk, evals_coeffsOf V (by omega) _ _ (revBits_lt n _)] at e
  unfold zval at e
  rw [r2 _ (revBits_lt n _), revBits_involutive n _ hmod] at e
  have := (ZMod.natCast_eq_natCast_iff' _ _ _).1 e
  rwa [Nat.mod_eq_of_lt l1, Nat.mod_eq_of_lt l2] at this

end row

/-! ### Polynomials -/

/-- a polynomial with a row of `N` reduced words for every modulus -/
structure FullPoly (r : Ring) (p : Rows) : Prop where
  lvl : r.subs.length ≤ p.length
  len : ∀ i < r.subs.length, (p.row i).length = r.n
  lt : ∀ i < r.subs.length, ∀ k < r.n, ((p.row i).at k).toNat < (r.sub i).q.toNat

/-- entry `k` of every row of `q` is entry `k + m mod N` of that row of `p` -/
def ShiftedBy (r : Ring) (m : ℤ) (p q : Rows) : Prop :=
  ∀ i < r.subs.length, (q.row i).length = r.n ∧ ∀ k < r.n, (q.row i).at k = (p.row i).at (((k + m) % r.n).toNat)

theorem two_pow_dvd (n : ℕ) : ((2 ^ n : ℕ) : ℤ) ∣ 2 ^ 2 ^ n := by
  have : (2 : ℤ) ^ 2 ^ n = ((2 ^ 2 ^ n : ℕ) : ℤ) := by push_cast; rfl
  rw [this]
  exact_mod_cast pow_dvd_pow 2 (Nat.lt_two_pow_self).le

section
variable {n : ℕ} {r : Ring} (hr : r.Valid n)
include hr

theorem degree_le : n ≤ 61 := by
  have h0 := List.length_pos_of_ne_nil hr.ne_nil
  have V := hr.subAt h0
  have h1 := V.one_mod
  have h2 := V.lt
  have h3 := V.prime.one_lt
  by_contra h
  have : 2 ^ 63 ≤ 2 ^ (n + 1) := Nat.pow_le_pow_right (by norm_num) (by omega)
  rw [Nat.mod_eq_of_lt (by omega)] at h1
  omega

/-- the exponent of `Rotate` is congruent to `k` when the degree is below 64 or `k` is not negative -/
theorem maskShift_mod {k : ℤ} (h : r.n < 64 ∨ 0 ≤ k) : 0 ≤ maskShift r.n k ∧ maskShift r.n k % r.n = k % r.n := by
  unfold maskShift
  by_cases h64 : r.n < 64
  · rw [if_pos h64, hr.deg]
    exact ⟨Int.emod_nonneg _ (by positivity), Int.emod_emod_of_dvd _ (two_pow_dvd n)⟩
  · rw [if_neg h64]
    exact ⟨by omega, rfl⟩

/-- **C87 (Galois shift).** Bit reversal, inverse NTT, `Rotate` by `k`, NTT and bit reversal, all in place: the words of every row move
`k` places to the left, circularly.  `k` is any 64-bit integer, not negative if the degree is 64 or more. -/
theorem C87_galoisShift_partial (sr : r.Small) {p : Rows} (hp : FullPoly r p) {k : ℤ} (hk : k < 2 ^ 63) (hk' : r.n < 64 ∨ 0 ≤ k)
    (a : ℕ) (h : ℕ → Rows) (ha : h a = r.invNttLvl (r.subs.length - 1) (r.bitReverseInPlace p) (r.bitReverseInPlace p)) :
    let q := r.rotate h a k a a
    ShiftedBy r k p (r.bitReverseInPlace (r.nttLvl (r.subs.length - 1) q q)) := by
  intro q i hi
  have h0 := List.length_pos_of_ne_nil hr.ne_nil
  have hlp := hp.lvl
  have V := hr.subAt hi
  have hn := hr.four_le
  have hq := sr (r.sub i) (Ring.sub_mem hi)
  have hn' := degree_le hr
  obtain ⟨m0, m1⟩ := maskShift_mod hr hk'
  have hm : maskShift r.n k < 2 ^ 64 := by
    unfold maskShift
    split
    · rename_i h64
      refine (Int.emod_lt_of_pos _ (by positivity)).trans_le ?_
      exact_mod_cast Nat.pow_le_pow_right (by norm_num : 2 > 0) h64.le
    · omega
  obtain ⟨b1, b2⟩ := galoisShift_row V hn (by omega) hq (maskShift r.n k).toNat (by omega) rfl (p.row i)
    (by rw [hp.len i hi, hr.deg]) (by rw [← hr.deg]; exact hp.lt i hi)
  have e0 : (r.bitReverseInPlace p).row i = bitReverseRowInPlace r.n (p.row i) := row_writeLvl (by omega) (by omega)
  have l0 : (r.bitReverseInPlace p).length = p.length := length_writeLvl _ _ _
  have e1 : (h a).row i = (r.sub i).invNtt r.n (bitReverseRowInPlace r.n (p.row i)) := by
    rw [ha, ← e0]; exact row_writeLvl (by omega) (by omega)
  have l1 : (h a).length = p.length := by rw [ha, ← l0]; exact length_writeLvl _ _ _
  have hqa : q = writeLvl (r.subs.length - 1) (fun i => rotateRow (r.sub i) r.n (maskShift r.n k) ((h a).row i)) (h a) := by
    show (if a = a then _ else _) = _
    rw [if_pos rfl]
  have e2 : q.row i = rotateRow (r.sub i) r.n (maskShift r.n k) ((h a).row i) := by
    rw [hqa]; exact row_writeLvl (by omega) (by omega)
  have l2 : q.length = p.length := by rw [hqa, length_writeLvl, l1]
  have e3 : (r.nttLvl (r.subs.length - 1) q q).row i = (r.sub i).ntt r.n (q.row i) := row_writeLvl (by omega) (by omega)
  have l3 : (r.nttLvl (r.subs.length - 1) q q).length = p.length := by rw [← l2]; exact length_writeLvl _ _ _
  have e4 : (r.bitReverseInPlace (r.nttLvl (r.subs.length - 1) q q)).row i =
      bitReverseRowInPlace r.n ((r.nttLvl (r.subs.length - 1) q q).row i) := row_writeLvl (by omega) (by omega)
  rw [e4, e3, e2, e1, hr.deg]
  rw [hr.deg] at b1 b2 m0 m1
  refine ⟨b1, fun j hj => (b2 j hj).trans ?_⟩
  congr 1
  have : (((j + (maskShift (2 ^ n) k).toNat) % 2 ^ n : ℕ) : ℤ) = (j + k) % ((2 ^ n : ℕ) : ℤ) := by
    push_cast
    rw [Int.toNat_of_nonneg m0, Int.add_emod, Int.add_emod (j : ℤ) k]
    push_cast at m1
    rw [m1]
  rw [← this, Int.toNat_natCast]

theorem shiftRows_ok {p1 : Rows} {m : ℕ} (hm : ∀ i < r.subs.length, m ≤ (p1.row i).length) (fuel i : ℕ) (p2 : Rows)
    (h1 : i + fuel ≤ p1.length) (h2 : i + fuel ≤ p2.length) (hf : i + fuel ≤ r.subs.length) :
    ∃ q, shiftRows p1 m fuel i p2 = .ok q ∧ q.length = p2.length ∧
      ∀ j, q.row j = if i ≤ j ∧ j < i + fuel then (p1.row j).drop m ++ (p1.row j).take m else p2.row j := by
  induction fuel generalizing i p2 with
  | zero => exact ⟨p2, rfl, rfl, fun j => by rw [if_neg (by omega)]⟩
  | succ fuel ih =>
    obtain ⟨q, a1, a2, a3⟩ := ih (i + 1) (p2.set i ((p1.row i).drop m ++ (p1.row i).take m)) (by omega)
      (by rw [List.length_set]; omega) (by omega)
    refine ⟨q, ?_, by rw [a2, List.length_set], fun j => ?_⟩
    · unfold shiftRows
      have := hm i (by omega)
      rw [if_neg (by omega), shiftRow, if_neg (by omega)]
      exact a1
    · rw [a3]
      by_cases h : j = i
      · subst h
        rw [if_neg (by omega), if_pos (by omega)]
        simp [Rows.row, List.getD, show j < p2.length by omega]
      · have e : Rows.row (p2.set i ((p1.row i).drop m ++ (p1.row i).take m)) j = p2.row j := by
          simp [Rows.row, List.getD, List.getElem?_set_ne (Ne.symm h)]
        rw [e]
        by_cases h' : i + 1 ≤ j ∧ j < i + 1 + fuel
        · rw [if_pos h', if_pos (by omega)]
        · rw [if_neg h', if_neg (by omega)]

/-- **C87 (`Shift`).** For `0 ≤ k ≤ N` `Shift` moves the words of every row `k` places to the left, circularly, and leaves the rows
above the moduli.  Missing: other `k` (`C87_shift_panics`). -/
theorem C87_shift_partial {p1 p2 : Rows} (hp : FullPoly r p1) (h2 : r.subs.length ≤ p2.length) {k : ℕ} (hk : k ≤ r.n) :
    ∃ q, r.shift p1 k p2 = .ok q ∧ q.length = p2.length ∧ ShiftedBy r k p1 q ∧ ∀ i, r.subs.length ≤ i → q.row i = p2.row i := by
  have hmk : maskShift r.n k = k := by
    unfold maskShift
    split
    · refine Int.emod_eq_of_lt (by omega) ?_
      have : k < 2 ^ r.n := lt_of_le_of_lt hk Nat.lt_two_pow_self
      exact_mod_cast this
    · rfl
  obtain ⟨q, a1, a2, a3⟩ := shiftRows_ok hr (p1 := p1) (m := k) (fun i hi => by rw [hp.len i hi]; exact hk) r.subs.length 0 p2
    (by have := hp.lvl; omega) (by omega) (by omega)
  refine ⟨q, by unfold Ring.shift; rw [hmk]; exact a1, a2, fun i hi => ?_, fun i hi => by rw [a3, if_neg (by omega)]⟩
  have hN : 0 < r.n := by rw [hr.deg]; positivity
  rw [a3, if_pos (by omega)]
  have hl := hp.len i hi
  refine ⟨by simp [hl]; omega, fun j hj => ?_⟩
  have : ((j + k : ℤ) % r.n).toNat = (j + k) % r.n := by
    rw [show ((j : ℤ) + k) % r.n = (((j + k) % r.n : ℕ) : ℤ) by push_cast; rfl, Int.toNat_natCast]
  rw [this]
  unfold Row.at
  rw [List.getD_eq_getElem?_getD, List.getD_eq_getElem?_getD, List.getElem?_append, List.length_drop, hl]
  by_cases h : j < r.n - k
  · rw [if_pos h, List.getElem?_drop, Nat.mod_eq_of_lt (by omega), Nat.add_comm]
  · rw [if_neg h, List.getElem?_take, if_pos (by omega)]
    congr 2
    rw [Nat.mod_eq_sub_mod (by omega), Nat.mod_eq_of_lt (by omega)]
    omega

/-- **C87 (the two shifts agree).** The test of the repository for all polynomials and all shifts from 0 to `N`. -/
theorem C87_shifts_agree (sr : r.Small) {p : Rows} (hp : FullPoly r p) {k : ℕ} (hk : k ≤ r.n)
    (a : ℕ) (h : ℕ → Rows) (ha : h a = r.invNttLvl (r.subs.length - 1) (r.bitReverseInPlace p) (r.bitReverseInPlace p))
    {p2 : Rows} (h2 : r.subs.length ≤ p2.length) :
    let q := r.rotate h a k a a
    ∃ q', r.shift p k p2 = .ok q' ∧
      ∀ i < r.subs.length, (r.bitReverseInPlace (r.nttLvl (r.subs.length - 1) q q)).row i = q'.row i := by
  intro q
  have hN : r.n < 2 ^ 63 := by
    rw [hr.deg]; exact Nat.pow_lt_pow_right (by norm_num) (by have := degree_le hr; omega)
  have e1 := C87_galoisShift_partial hr sr hp (k := (k : ℤ)) (by omega) (Or.inr (by omega)) a h ha
  obtain ⟨q', a1, -, a3, -⟩ := C87_shift_partial hr hp h2 hk
  refine ⟨q', a1, fun i hi => ?_⟩
  obtain ⟨l1, v1⟩ := e1 i hi
  obtain ⟨l2, v2⟩ := a3 i hi
  refine list_ext_getD (l1.trans l2.symm) fun j hj => ?_
  have hj' : j < r.n := lt_of_lt_of_eq hj l1
  exact (v1 j hj').trans (v2 j hj').symm

/-- **C87 fails** for `Rotate` into another polynomial: it overwrites `p1` and never writes `p2`. -/
theorem C87_rotate_receiver_violated (h : ℕ → Rows) (a b : ℕ) (hab : a ≠ b) (k : ℤ) (hp : FullPoly r (h a)) (hk : maskShift r.n k = 1)
    (h1 : ((h a).row 0).at 1 = 1) :
    (r.rotate h a k b) b = h b ∧ (r.rotate h a k b) a ≠ h a := by
  have h0 := List.length_pos_of_ne_nil hr.ne_nil
  have V := hr.subAt h0
  have hlp := hp.lvl
  constructor
  · show (if b = a then _ else _) = _
    rw [if_neg (Ne.symm hab)]
  · intro e
    have e' : writeLvl (r.subs.length - 1) (fun i => rotateRow (r.sub i) r.n (maskShift r.n k) ((h a).row i)) (h a) = h a := by
      have : r.rotate h a k b a = writeLvl (r.subs.length - 1) (fun i => rotateRow (r.sub i) r.n (maskShift r.n k) ((h a).row i)) (h a) := by
        show (if a = a then _ else _) = _
        rw [if_pos rfl]
      rw [← this, e]
    have e2 := congrArg (fun p => Row.at (Rows.row p 0) 1) e'
    rw [row_writeLvl (by omega) (by omega), hk, hr.deg] at e2
    have hN : 1 < 2 ^ n := Nat.one_lt_two_pow (by have := hr.four_le; omega)
    have := (rotateRow_is V 1 (by norm_num) (z := 1) rfl
      (RowIs.refl (q := (r.sub 0).q.toNat) _ (by rw [hp.len 0 h0, hr.deg]) (by rw [← hr.deg]; exact hp.lt 0 h0))).val 1 hN
    unfold zval at this
    rw [e2, h1] at this
    have hf := V.fact
    have hpsi : (r.sub 0).psi ^ 2 = 1 := by simpa using this.symm
    have h3 := V.psi_pow
    have h4 : (2 : ℕ) ^ n = 2 * 2 ^ (n - 1) := by
      have := hr.four_le
      rw [← pow_succ', show n - 1 + 1 = n by omega]
    rw [h4, pow_mul, hpsi, one_pow] at h3
    have h5 : (2 : ZMod (r.sub 0).q.toNat) = 0 := by
      calc (2 : ZMod (r.sub 0).q.toNat) = 1 + 1 := by ring
        _ = 1 + (-1) := by rw [← h3]
        _ = 0 := by ring
    exact two_ne_zero_of_odd V.odd h5

/-- **C87 fails** for `Shift` by more than `N` places and by `-1`: it panics although the shift is circular. -/
theorem C87_shift_panics (p1 p2 : Rows) (hp : FullPoly r p1) (k : ℤ) 
    (hk : (r.n : ℤ) < k ∧ (r.n < 64 → k < 2 ^ r.n) ∨ k = -1) :
    r.shift p1 k p2 = .panic := by
  have h0 := List.length_pos_of_ne_nil hr.ne_nil
  have hn : 16 ≤ r.n := by
    rw [hr.deg]
    exact Nat.pow_le_pow_right (by norm_num : 2 > 0) hr.four_le
  have hpow : ((r.n : ℕ) : ℤ) + 1 < 2 ^ r.n := by
    have : r.n + 1 < 2 ^ r.n := by
      clear h0 hk hp
      generalize r.n = N at hn ⊢
      induction N, hn using Nat.le_induction with
      | base => norm_num
      | succ N _ ih => rw [pow_succ]; omega
    exact_mod_cast this
  have hm : maskShift r.n k < 0 ∨ (r.n : ℤ) < maskShift r.n k := by
    unfold maskShift
    rcases hk with ⟨h1, h2⟩ | rfl
    · right
      split
      · rename_i h64
        rw [Int.emod_eq_of_lt (by omega) (h2 h64)]
        exact h1
      · exact h1
    · split
      · right
        have : (-1 : ℤ) % 2 ^ r.n = 2 ^ r.n - 1 := by
          rw [show (-1 : ℤ) = (2 ^ r.n - 1) + 2 ^ r.n * (-1) by ring, Int.add_mul_emod_self_left]
          exact Int.emod_eq_of_lt (by omega) (by omega)
        rw [this]
        omega
      · left; omega
  unfold Ring.shift
  obtain ⟨f, hf⟩ : ∃ f, r.subs.length = f + 1 := ⟨r.subs.length - 1, by omega⟩
  rw [hf]
  unfold shiftRows
  split
  · rfl
  · unfold shiftRow
    rw [hp.len 0 h0, if_pos (by omega)]

/-- **C87 fails** for `Rotate` by a negative number in degree 64 or more: nothing is rotated. -/
theorem C87_rotate_negative_violated (h : ℕ → Rows) (a : ℕ) (hp : FullPoly r (h a)) (h64 : 64 ≤ r.n) {k : ℤ} (hk : k < 0) :
    ∀ i < r.subs.length, (r.rotate h a k a a).row i = (h a).row i := by
  intro i hi
  have hlp := hp.lvl
  have V := hr.subAt hi
  have hf := V.fact
  have e : r.rotate h a k a a = writeLvl (r.subs.length - 1) (fun i => rotateRow (r.sub i) r.n (maskShift r.n k) ((h a).row i)) (h a) := by
    show (if a = a then _ else _) = _
    rw [if_pos rfl]
  rw [e, row_writeLvl (by omega) (by omega), hr.deg]
  have hz : (maskShift (2 ^ n) k).toNat = 0 := by
    unfold maskShift
    rw [if_neg (by rw [← hr.deg]; omega)]
    omega
  have l := hp.len i hi
  have b := hp.lt i hi
  rw [hr.deg] at l b
  have R := rotateRow_is V 0 (by norm_num) hz (RowIs.refl (q := (r.sub i).q.toNat) _ l b)
  refine list_ext_getD (R.len.trans l.symm) fun j hj => ?_
  have hj : j < 2 ^ n := by have := R.len; omega
  apply UInt64.toNat_inj.1
  have := R.val j hj
  simp only [Nat.mul_zero, pow_zero, one_pow, mul_one] at this
  unfold zval at this
  have := (ZMod.natCast_eq_natCast_iff' _ _ _).1 this
  rwa [Nat.mod_eq_of_lt (R.lt j hj), Nat.mod_eq_of_lt (b j hj)] at this

end

/-- The hypotheses are met in degree 16 with the moduli 97 and 193, and the rows really move: a shift by 3 places, a rotation by `-1`,
which `Shift` refuses. -/
example : ∃ (r : Ring) (p q : Rows), r.Valid 4 ∧ r.Small ∧ r.subs.length = 2 ∧ FullPoly r p ∧
    p = List.replicate 2 ((List.range 16).map UInt64.ofNat) ∧ r.shift p 3 p = .ok q ∧ (q.row 1).at 0 = 3 ∧ (q.row 1).at 15 = 2 ∧
    r.shift p (-1) p = .panic ∧ maskShift r.n (-1) = 65535 ∧ maskShift r.n 1 = 1 := by
  obtain ⟨r, -, hv, hl, hn, h0, h1⟩ := exists_ring
  have small : r.Small := by
    intro s hs
    obtain ⟨i, hi, rfl⟩ := List.getElem_of_mem hs
    rcases (by omega : i = 0 ∨ i = 1) with rfl | rfl
    · have e : r.sub 0 = r.subs[0] := by simp [Ring.sub, hi]
      rw [← e, h0]; decide
    · have e : r.sub 1 = r.subs[1] := by simp [Ring.sub, hi]
      rw [← e, h1]; decide
  have hp : FullPoly r (List.replicate 2 ((List.range 16).map UInt64.ofNat)) := by
    refine ⟨by simp [hl], fun i hi => ?_, fun i hi k hk => ?_⟩
    · rw [hn]
      rcases (by omega : i = 0 ∨ i = 1) with rfl | rfl <;> rfl
    · rw [hn] at hk
      rcases (by omega : i = 0 ∨ i = 1) with rfl | rfl
      · rw [h0]; revert k; decide
      · rw [h1]; revert k; decide
  obtain ⟨q, a1, -, a3, -⟩ := C87_shift_partial hv hp (p2 := List.replicate 2 ((List.range 16).map UInt64.ofNat)) (by simp [hl])
    (k := 3) (by omega)
  obtain ⟨-, a4⟩ := a3 1 (by omega)
  refine ⟨r, _, q, hv, small, hl, hp, rfl, a1, ?_, ?_, C87_shift_panics hv _ _ hp _ (Or.inr rfl), by rw [hn]; rfl, by rw [hn]; rfl⟩
  · rw [a4 0 (by omega), hn]; rfl
  · rw [a4 15 (by omega), hn]; rfl

end FastKsw.Props
