import Verif.Lemmas.PolyIs
import Verif.Lemmas.Permute
import Verif.Lemmas.NegaRing

namespace FastKsw

open Finset

/-! ## PowerOf2 -/

theorem powerOf2_eq_mred (x : UInt64) (n : ℕ) (hn : n < 64) (q u : UInt64) :
    powerOf2 x n q u = mred x (UInt64.ofNat (2 ^ n)) q u := by
  have h1 : (UInt64.ofNat (2 ^ n)).toNat = 2 ^ n := by
    rw [UInt64.toNat_ofNat', Nat.mod_eq_of_lt (Nat.pow_lt_pow_right (by omega) hn)]
  have h2 : x.toNat * 2 ^ n / 2 ^ 64 = x.toNat / 2 ^ (64 - n) := by
    rw [show (2 : ℕ) ^ 64 = 2 ^ (64 - n) * 2 ^ n by rw [← pow_add]; congr 1; omega]
    exact Nat.mul_div_mul_right _ _ (by positivity)
  have h3 : UInt64.ofNat (x.toNat * 2 ^ n) = x * UInt64.ofNat (2 ^ n) := by
    rw [UInt64.ofNat_mul, UInt64.ofNat_toNat]
  simp only [powerOf2, mred, mulHi, mulLo, h1, h2, h3]

theorem mulByPow2Vec_is {s : SubRing} (hs : s.Arith) {N : ℕ} {x : Row} {v : ℕ → ZMod s.q.toNat}
    (hx : RowIs N s.q.toNat s.q.toNat x v) (k : ℕ) (hk : k < 64) :
    RowIs N s.q.toNat s.q.toNat (mulByPow2Vec x k s.q s.mred)
      (fun j => v j * 2 ^ k * rinv s.q.toNat) := by
  have h1 : (UInt64.ofNat (2 ^ k)).toNat = 2 ^ k := by
    rw [UInt64.toNat_ofNat', Nat.mod_eq_of_lt (Nat.pow_lt_pow_right (by omega) hk)]
  refine RowIs.map (F := fun a => a * 2 ^ k * rinv s.q.toNat) hx (fun u hu => ?_)
  rw [powerOf2_eq_mred u k hk]
  have := word_mred hs u (UInt64.ofNat (2 ^ k)) (by
    rw [h1]
    calc u.toNat * 2 ^ k < s.q.toNat * 2 ^ k := Nat.mul_lt_mul_of_pos_right hu (by positivity)
      _ ≤ s.q.toNat * 2 ^ 64 := Nat.mul_le_mul_left _ (Nat.pow_le_pow_right (by omega) (by omega)))
  rw [h1] at this
  simpa only [Nat.cast_pow, Nat.cast_ofNat] using this

/-! ## Monomials -/

section mono
variable {N q : ℕ}

/-- values of `X^s · v` for `s < 2N` -/
def monoVal (N s : ℕ) (v : ℕ → ZMod q) (k : ℕ) : ZMod q :=
  if s < N then (if k < s then -v (N - s + k) else v (k - s))
  else (if k < s - N then v (N - (s - N) + k) else -v (k - (s - N)))

/-- the coefficients of a ring element below degree `N` are unique, for every modulus -/
theorem toR_inj (hN : 0 < N) {c d : ℕ → ZMod q} (h : toR N q c = toR N q d) : ∀ j < N, c j = d j := by
  rcases subsingleton_or_nontrivial (ZMod q) with hs | hs
  · intro j _; exact Subsingleton.elim _ _
  have hmk : ∀ e : ℕ → ZMod q, toR N q e = AdjoinRoot.mk _
      (∑ j ∈ range N, Polynomial.C (e j) * Polynomial.X ^ j) := by
    intro e
    simp [toR, map_sum]
  have hco : ∀ (e : ℕ → ZMod q) j, j < N →
      (∑ i ∈ range N, Polynomial.C (e i) * Polynomial.X ^ i).coeff j = e j := by
    intro e j hj
    simp only [Polynomial.finsetSum_coeff, Polynomial.coeff_C_mul_X_pow]
    rw [sum_eq_single j (fun b _ hb => if_neg (Ne.symm hb))
      (fun hn => absurd (mem_range.2 hj) hn), if_pos rfl]
  rw [hmk c, hmk d, AdjoinRoot.mk_eq_mk] at h
  have hmon : ((Polynomial.X : Polynomial (ZMod q)) ^ N + 1).Monic :=
    Polynomial.monic_X_pow_add_C (1 : ZMod q) (by omega)
  set P := ∑ j ∈ range N, Polynomial.C (c j) * (Polynomial.X : Polynomial (ZMod q)) ^ j with hP
  set Q := ∑ j ∈ range N, Polynomial.C (d j) * (Polynomial.X : Polynomial (ZMod q)) ^ j with hQ
  have hdeg : ∀ e : ℕ → ZMod q,
      (∑ i ∈ range N, Polynomial.C (e i) * (Polynomial.X : Polynomial (ZMod q)) ^ i).degree < N := by
    intro e
    apply lt_of_le_of_lt (Polynomial.degree_sum_le _ _)
    rw [Finset.sup_lt_iff (by exact WithBot.bot_lt_coe _)]
    intro i hi
    exact lt_of_le_of_lt (Polynomial.degree_C_mul_X_pow_le _ _) (by exact_mod_cast mem_range.1 hi)
  have hz : P - Q = 0 := by
    by_contra hne
    have hdX : ((Polynomial.X : Polynomial (ZMod q)) ^ N + 1).degree = N := by
      have := Polynomial.degree_X_pow_add_C (R := ZMod q) hN 1
      simpa using this
    refine hmon.not_dvd_of_degree_lt hne ?_ h
    rw [hdX]
    exact lt_of_le_of_lt (Polynomial.degree_sub_le _ _) (max_lt (hdeg c) (hdeg d))
  intro j hj
  rw [← hco c j hj, ← hco d j hj]
  rw [← hP, ← hQ, sub_eq_zero.1 hz]

theorem root_pow_eq (s : ℕ) (hs : s < N) :
    (AdjoinRoot.root ((Polynomial.X : Polynomial (ZMod q)) ^ N + 1)) ^ s
      = toR N q (fun j => if j = s then 1 else 0) := by
  unfold toR
  rw [sum_eq_single s]
  · simp
  · intro b _ hb; simp [hb]
  · intro h; exact absurd (mem_range.2 hs) h

theorem root_pow_mul (s : ℕ) (hs : s < N) (v : ℕ → ZMod q) :
    (AdjoinRoot.root ((Polynomial.X : Polynomial (ZMod q)) ^ N + 1)) ^ s * toR N q v
      = toR N q (monoVal N s v) := by
  rw [root_pow_eq s hs, toR_mul]
  apply toR_congr
  intro k hk
  unfold negConv monoVal
  rw [sum_eq_single s]
  · rw [if_pos hs]
    by_cases h : s ≤ k
    · rw [if_pos h, if_neg (by omega)]; simp
    · rw [if_neg h, if_pos (by omega), show N + k - s = N - s + k by omega]; simp
  · intro b _ hb; simp [hb]
  · intro h; exact absurd (mem_range.2 hs) h

theorem root_pow_mul' (s : ℕ) (hs : s < 2 * N) (v : ℕ → ZMod q) :
    (AdjoinRoot.root ((Polynomial.X : Polynomial (ZMod q)) ^ N + 1)) ^ s * toR N q v
      = toR N q (monoVal N s v) := by
  rcases Nat.lt_or_ge s N with h | h
  · exact root_pow_mul s h v
  · obtain ⟨t, rfl⟩ := Nat.exists_eq_add_of_le h
    rw [pow_add, root_pow, mul_assoc, root_pow_mul t (by omega), neg_one_mul, toR_neg]
    apply toR_congr
    intro k _
    unfold monoVal
    rw [if_pos (show t < N by omega), if_neg (show ¬ N + t < N by omega), Nat.add_sub_cancel_left]
    split <;> simp

theorem root_pow_mod (k : ℕ) :
    (AdjoinRoot.root ((Polynomial.X : Polynomial (ZMod q)) ^ N + 1)) ^ k
      = (AdjoinRoot.root ((Polynomial.X : Polynomial (ZMod q)) ^ N + 1)) ^ (k % (2 * N)) := by
  conv_lhs => rw [← Nat.mod_add_div k (2 * N)]
  rw [pow_add, pow_mul, mul_comm 2 N, pow_mul _ N 2, root_pow]
  simp

end mono

theorem at_map_range (N : ℕ) (f : ℕ → UInt64) {k : ℕ} (hk : k < N) :
    Row.at ((List.range N).map f) k = f k := by
  simp [Row.at, List.getD, hk]

theorem multByMonomialRow_is {N : ℕ} {q : UInt64} {x : Row} {v : ℕ → ZMod q.toNat}
    (hx : RowIs N q.toNat (q.toNat + 1) x v) (hN : 0 < N) (s : ℕ) (hs : s < 2 * N) :
    RowIs N q.toNat (q.toNat + 1) (multByMonomialRow N q s x) (monoVal N s v) := by
  have hneg : ∀ u : UInt64, u.toNat < q.toNat + 1 → (q - u).toNat < q.toNat + 1 ∧
      ((q - u).toNat : ZMod q.toNat) = -((u.toNat : ℕ) : ZMod q.toNat) := by
    intro u hu
    have h : (q - u).toNat = q.toNat - u.toNat :=
      UInt64.toNat_sub_of_le _ _ (UInt64.le_iff_toNat_le.2 (by omega))
    rw [h]
    refine ⟨by omega, ?_⟩
    rw [Nat.cast_sub (by omega)]; simp
  unfold multByMonomialRow
  split
  · rename_i h0
    subst h0
    refine ⟨by simp, fun k hk => ?_, fun k hk => ?_⟩
    · rw [at_map_range _ _ hk]; exact hx.lt k hk
    · rw [zval, at_map_range _ _ hk]
      have := hx.val k hk
      rw [zval] at this
      rw [this]; simp [monoVal, hN]
  · rename_i h0
    set tmpx : Row := (List.range N).map fun j => if s < N then x.at j else q - x.at j with htmp
    have ht : ∀ k < N, (tmpx.at k).toNat < q.toNat + 1 ∧
        ((tmpx.at k).toNat : ZMod q.toNat) = if s < N then v k else -v k := by
      intro k hk
      rw [htmp, at_map_range _ _ hk]
      have h1 := hx.lt k hk
      have h2 := hx.val k hk
      rw [zval] at h2
      split
      · exact ⟨h1, h2⟩
      · rw [← h2]; exact hneg _ h1
    have hmod : s % N = if s < N then s else s - N := by
      split
      · exact Nat.mod_eq_of_lt ‹_›
      · rw [Nat.mod_eq_sub_mod (by omega), Nat.mod_eq_of_lt (by omega)]
    have key : ∀ k < N, (if k < s % N then q - tmpx.at (N - s % N + k) else tmpx.at (k - s % N)).toNat
        < q.toNat + 1 ∧ ((if k < s % N then q - tmpx.at (N - s % N + k) else tmpx.at (k - s % N)).toNat
          : ZMod q.toNat) = monoVal N s v k := by
      intro k hk
      have hsN : s % N < N := Nat.mod_lt _ hN
      unfold monoVal
      by_cases hk' : k < s % N
      · rw [if_pos hk']
        obtain ⟨h1, h2⟩ := ht (N - s % N + k) (by omega)
        obtain ⟨h3, h4⟩ := hneg _ h1
        refine ⟨h3, ?_⟩
        rw [h4, h2]
        by_cases c : s < N
        · rw [if_pos c] at hmod
          rw [if_pos c, if_pos c, hmod, if_pos (by omega)]
        · rw [if_neg c] at hmod
          rw [if_neg c, if_neg c, hmod, if_pos (by omega), neg_neg]
      · rw [if_neg hk']
        obtain ⟨h1, h2⟩ := ht (k - s % N) (by omega)
        refine ⟨h1, ?_⟩
        rw [h2]
        by_cases c : s < N
        · rw [if_pos c] at hmod
          rw [if_pos c, if_pos c, hmod, if_neg (by omega)]
        · rw [if_neg c] at hmod
          rw [if_neg c, if_neg c, hmod, if_neg (by omega)]
    refine ⟨by simp, fun k hk => ?_, fun k hk => ?_⟩
    · rw [at_map_range _ _ hk]; exact (key k hk).1
    · rw [zval, at_map_range _ _ hk]; exact (key k hk).2

/-! ## Bit reversal of rows -/

theorem bitReverseRow_at (n : ℕ) (hn : n ≤ 63) (x y : Row) (hy : y.length = 2 ^ n) :
    (bitReverseRow (2 ^ n) x y).length = 2 ^ n ∧
    ∀ k < 2 ^ n, (bitReverseRow (2 ^ n) x y).at k = x.at (revBits n k) := by
  unfold bitReverseRow
  rw [len64_two_pow, Nat.add_sub_cancel]
  rw [foldl_range_congr (g := fun y j => y.set (revBits n j) (x.at j)) _ _
    (fun b i hi => by rw [bitReverse64_eq n i (by omega) hi])]
  obtain ⟨h1, h2⟩ := set_fold x y (le_of_eq hy.symm) (revBits n) (fun i _ => revBits_lt n i)
    (fun i hi => revBits_involutive n i hi) (2 ^ n) le_rfl
  refine ⟨by rw [h1, hy], fun k hk => ?_⟩
  rw [h2 k hk, if_pos (revBits_lt n k)]

theorem bitReverseRowInPlace_at (n : ℕ) (hn : n ≤ 63) (x : Row) (hx : x.length = 2 ^ n) :
    (bitReverseRowInPlace (2 ^ n) x).length = 2 ^ n ∧
    ∀ k < 2 ^ n, (bitReverseRowInPlace (2 ^ n) x).at k = x.at (revBits n k) := by
  unfold bitReverseRowInPlace
  simp only [len64_two_pow, Nat.add_sub_cancel]
  rw [foldl_range_congr (g := fun s i => if i < revBits n i then swapAt s i (revBits n i) else s) _ _
    (fun b i hi => by rw [bitReverse64_eq n i (by omega) hi])]
  obtain ⟨h1, h2, -⟩ := swap_fold x (le_of_eq hx.symm) (revBits n) (fun i _ => revBits_lt n i)
    (fun i hi => revBits_involutive n i hi) (2 ^ n) le_rfl
  refine ⟨by rw [h1, hx], fun k hk => ?_⟩
  have := h2 k hk
  rw [if_pos (Or.inl hk)] at this
  exact this

theorem sliceBitReverse_at {α : Type*} [Inhabited α] (n : ℕ) (s : List α) (hs : 2 ^ n ≤ s.length) :
    (sliceBitReverse s (2 ^ n)).length = s.length ∧
    (∀ k < 2 ^ n, (sliceBitReverse s (2 ^ n)).getD k default = s.getD (revBits n k) default) ∧
    ∀ k, 2 ^ n ≤ k → (sliceBitReverse s (2 ^ n)).getD k default = s.getD k default := by
  rw [sliceBitReverse_eq]
  obtain ⟨h1, h2, h3⟩ := swap_fold s hs (revBits n) (fun i _ => revBits_lt n i)
    (fun i hi => revBits_involutive n i hi) (2 ^ n) le_rfl
  refine ⟨h1, fun k hk => ?_, h3⟩
  rw [h2 k hk, if_pos (Or.inl hk)]

theorem list_ext_getD {α : Type*} [Inhabited α] {a b : List α} (h : a.length = b.length)
    (h2 : ∀ k < a.length, a.getD k default = b.getD k default) : a = b := by
  apply List.ext_getElem h
  intro i h3 h4
  have := h2 i h3
  simpa [List.getD, h3, h4] using this

end FastKsw
