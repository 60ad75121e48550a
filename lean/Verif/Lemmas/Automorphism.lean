import Verif.Model.Automorphism
import Verif.Spec.Automorphism
import Verif.Lemmas.PolyIs
import Verif.Lemmas.RingMisc
import Verif.Lemmas.SubNTT

namespace FastKsw

open Finset

section aut
variable {N q g h : ℕ}

@[simp] theorem aut_of (hg : g % 2 = 1) (c : ZMod q) :
    aut N q hg (AdjoinRoot.of _ c) = AdjoinRoot.of _ c := by simp [aut]

@[simp] theorem aut_root (hg : g % 2 = 1) :
    aut N q hg (AdjoinRoot.root _) = AdjoinRoot.root _ ^ g := by simp [aut]

theorem aut_toR (hg : g % 2 = 1) (c : ℕ → ZMod q) :
    aut N q hg (toR N q c) = ∑ j ∈ range N, AdjoinRoot.of _ (c j) * AdjoinRoot.root _ ^ (g * j) := by
  simp [toR, map_sum, pow_mul]

theorem odd_mul (hg : g % 2 = 1) (hh : h % 2 = 1) : g * h % 2 = 1 := by
  rw [Nat.mul_mod, hg, hh]

theorem aut_aut (hN : 0 < N) (hg : g % 2 = 1) (hh : h % 2 = 1) (a : Rq N q) :
    aut N q hh (aut N q hg a) = aut N q (odd_mul hg hh) a := by
  obtain ⟨c, rfl⟩ := exists_toR hN a
  rw [aut_toR, aut_toR, map_sum]
  apply sum_congr rfl
  intro j _
  rw [map_mul, aut_of, map_pow, aut_root, ← pow_mul]
  congr 2
  ring

theorem aut_mod (hN : 0 < N) (hg : g % 2 = 1) (hh : h % 2 = 1) (e : g % (2 * N) = h % (2 * N))
    (a : Rq N q) : aut N q hg a = aut N q hh a := by
  obtain ⟨c, rfl⟩ := exists_toR hN a
  rw [aut_toR, aut_toR]
  apply sum_congr rfl
  intro j _
  rw [root_pow_mod (g * j), root_pow_mod (h * j), Nat.mul_mod g, e, ← Nat.mul_mod]

theorem aut_one (hN : 0 < N) (hg : g % 2 = 1) (e : g % (2 * N) = 1) (a : Rq N q) :
    aut N q hg a = a := by
  obtain ⟨c, rfl⟩ := exists_toR hN a
  rw [aut_toR, toR]
  apply sum_congr rfl
  intro j hj
  have h1 : 1 % (2 * N) = 1 := Nat.mod_eq_of_lt (by omega)
  rw [root_pow_mod (g * j), Nat.mul_mod, e, ← h1, ← Nat.mul_mod, one_mul, ← root_pow_mod]

end aut

/-- odd multiplication permutes `[0, 2^n)` -/
theorem mul_odd_inj {n g i j : ℕ} (hg : g % 2 = 1) (hi : i < 2 ^ n) (hj : j < 2 ^ n)
    (h : i * g % 2 ^ n = j * g % 2 ^ n) : i = j := by
  have hc : Nat.Coprime (2 ^ n) g := by
    apply Nat.Coprime.pow_left
    exact Nat.coprime_two_left.2 (Nat.odd_iff.2 hg)
  have h2 : i ≡ j [MOD 2 ^ n] := Nat.ModEq.cancel_right_of_coprime hc h
  have h3 : i % 2 ^ n = j % 2 ^ n := h2
  rwa [Nat.mod_eq_of_lt hi, Nat.mod_eq_of_lt hj] at h3

/-- writing `f i` at the distinct places `σ i` -/
theorem set_fold_inj {N : ℕ} (f : ℕ → UInt64) (y : Row) (σ : ℕ → ℕ) (hσ : ∀ i < N, σ i < y.length)
    (hinj : ∀ i < N, ∀ j < N, σ i = σ j → i = j) (m : ℕ) (hm : m ≤ N) :
    let t := (List.range m).foldl (fun y j => y.set (σ j) (f j)) y
    t.length = y.length ∧ ∀ k < m, Row.at t (σ k) = f k := by
  induction m with
  | zero => simp
  | succ m ih =>
    obtain ⟨h1, h2⟩ := ih (by omega)
    simp only [List.range_succ, List.foldl_append, List.foldl_cons, List.foldl_nil]
    set t := (List.range m).foldl (fun y j => y.set (σ j) (f j)) y with ht
    refine ⟨by simp [h1], fun k hk => ?_⟩
    have hs := hσ m (by omega)
    have e : ∀ k', Row.at (t.set (σ m) (f m)) k' = if σ m = k' then f m else Row.at t k' := by
      intro k'
      simp only [Row.at, List.getD, List.getElem?_set]
      split
      · rename_i h; subst h; simp [show σ m < t.length by omega]
      · rfl
    rw [e]
    by_cases c : k = m
    · subst c; rw [if_pos rfl]
    · rw [if_neg (fun h => c (hinj _ (by omega) _ (by omega) h.symm)), h2 k (by omega)]

/-- reindexing a sum over `[0, 2^n)` by multiplication with an odd number -/
theorem sum_mul_odd {M : Type*} [AddCommMonoid M] {n g : ℕ} (hg : g % 2 = 1) (f : ℕ → M) :
    ∑ k ∈ range (2 ^ n), f k = ∑ i ∈ range (2 ^ n), f (i * g % 2 ^ n) := by
  symm
  have hpos := Nat.two_pow_pos n
  have hmaps : Set.MapsTo (fun i => i * g % 2 ^ n) (range (2 ^ n) : Set ℕ) (range (2 ^ n) : Set ℕ) := by
    intro i _
    simpa using Nat.mod_lt _ hpos
  have hinj : Set.InjOn (fun i => i * g % 2 ^ n) (range (2 ^ n) : Set ℕ) := by
    intro i hi j hj h
    exact mul_odd_inj hg (by simpa using hi) (by simpa using hj) h
  exact sum_nbij (fun i => i * g % 2 ^ n) hmaps hinj
    (surjOn_of_injOn_of_card_le _ hmaps hinj le_rfl) (fun _ _ => rfl)

section rows
variable {n : ℕ}

theorem len64_two_pow_sub (hn : 1 ≤ n) : len64 (2 ^ n - 1) = n := by
  have h : 2 ^ n - 1 ≠ 0 := by
    have : 2 ^ 1 ≤ 2 ^ n := Nat.pow_le_pow_right (by omega) hn
    omega
  rw [len64, if_neg h]
  have h1 := Nat.log2_lt (n := 2 ^ n - 1) (k := n) h
  have h2 : 2 ^ (n - 1) ≤ 2 ^ n - 1 := by
    have : 2 ^ n = 2 * 2 ^ (n - 1) := by rw [← pow_succ']; congr 1; omega
    have := Nat.two_pow_pos (n - 1)
    omega
  have h3 := (Nat.le_log2 h).2 h2
  have h4 := h1.2 (by have := Nat.two_pow_pos n; omega)
  omega

/-- the place and the sign of coefficient `i` -/
theorem permute_index (hn : 1 ≤ n) (hn' : n < 63) (gen : UInt64) {i : ℕ} (hi : i < 2 ^ n) :
    ((UInt64.ofNat i * gen) &&& UInt64.ofNat (2 ^ n - 1)).toNat = i * gen.toNat % 2 ^ n ∧
    (((UInt64.ofNat i * gen) >>> UInt64.ofNat n) &&& 1).toNat = i * gen.toNat / 2 ^ n % 2 := by
  have hp : 2 ^ n < 2 ^ 64 := Nat.pow_lt_pow_right (by omega) (by omega)
  have h0 : (UInt64.ofNat i * gen).toNat = i * gen.toNat % 2 ^ 64 := by
    rw [UInt64.toNat_mul, UInt64.toNat_ofNat', Nat.mod_eq_of_lt (by omega : i < 2 ^ 64)]
  constructor
  · rw [UInt64.toNat_and, h0, UInt64.toNat_ofNat', Nat.mod_eq_of_lt (by omega : 2 ^ n - 1 < 2 ^ 64),
      Nat.and_two_pow_sub_one_eq_mod]
    exact Nat.mod_mod_of_dvd _ (pow_dvd_pow 2 (by omega))
  · have hn2 : (UInt64.ofNat n).toNat = n := by
      rw [UInt64.toNat_ofNat', Nat.mod_eq_of_lt]
      have : n < 2 ^ n := Nat.lt_two_pow_self
      omega
    rw [UInt64.toNat_and, UInt64.toNat_shiftRight, h0, hn2, Nat.mod_eq_of_lt (by omega : n < 64),
      Nat.shiftRight_eq_div_pow, show ((1 : UInt64).toNat) = 2 ^ 1 - 1 from rfl,
      Nat.and_two_pow_sub_one_eq_mod]
    have : (2 : ℕ) ^ 64 = 2 ^ n * 2 ^ (64 - n) := by rw [← pow_add]; congr 1; omega
    rw [this, Nat.mod_mul_right_div_self, pow_one]
    exact Nat.mod_mod_of_dvd _ (dvd_pow_self 2 (by omega))

/-- the value written: `x` or `q - x` -/
theorem permute_select (x q t : UInt64) (ht : t.toNat = 0 ∨ t.toNat = 1) :
    (x * (t ^^^ 1) ||| (q - x) * t) = if t.toNat = 0 then x else q - x := by
  rcases ht with h | h
  · have : t = 0 := UInt64.toNat_inj.1 h
    subst this
    simp
  · have : t = 1 := UInt64.toNat_inj.1 h
    subst this
    simp

theorem permuteRow_is (hn : 1 ≤ n) (hn' : n < 63) {q gen : UInt64} (hg : gen.toNat % 2 = 1) {x y : Row}
    {v : ℕ → ZMod q.toNat} (hx : RowIs (2 ^ n) q.toNat q.toNat x v) (hy : y.length = 2 ^ n) :
    ∃ w, RowIs (2 ^ n) q.toNat (q.toNat + 1) (permuteRow (2 ^ n) q gen x y) w ∧
      toR (2 ^ n) q.toNat w = aut (2 ^ n) q.toNat hg (toR (2 ^ n) q.toNat v) := by
  have hpos := Nat.two_pow_pos n
  set g := gen.toNat with hgdef
  have hfold := set_fold_inj (N := 2 ^ n)
    (fun i => if i * g / 2 ^ n % 2 = 0 then x.at i else q - x.at i) y (fun i => i * g % 2 ^ n)
    (fun i _ => by rw [hy]; exact Nat.mod_lt _ hpos)
    (fun i hi j hj h => mul_odd_inj hg hi hj h) (2 ^ n) le_rfl
  have hrow : permuteRow (2 ^ n) q gen x y = (List.range (2 ^ n)).foldl (fun y j =>
      y.set (j * g % 2 ^ n) (if j * g / 2 ^ n % 2 = 0 then x.at j else q - x.at j)) y := by
    unfold permuteRow
    apply foldl_range_congr
    intro b i hi
    obtain ⟨h1, h2⟩ := permute_index hn hn' gen hi
    simp only [len64_two_pow_sub hn]
    rw [permute_select _ _ _ (by rw [h2]; omega), h1, h2]
  simp only at hfold
  rw [← hrow] at hfold
  obtain ⟨hlen, hat⟩ := hfold
  have hsurj : ∀ k < 2 ^ n, ∃ i < 2 ^ n, i * g % 2 ^ n = k := by
    have hmaps : Set.MapsTo (fun i => i * g % 2 ^ n) (range (2 ^ n) : Set ℕ) (range (2 ^ n) : Set ℕ) := by
      intro i _
      simpa using Nat.mod_lt _ hpos
    have hinj : Set.InjOn (fun i => i * g % 2 ^ n) (range (2 ^ n) : Set ℕ) := by
      intro i hi j hj h
      exact mul_odd_inj hg (by simpa using hi) (by simpa using hj) h
    have := surjOn_of_injOn_of_card_le _ hmaps hinj le_rfl
    intro k hk
    obtain ⟨i, hi, h⟩ := this (by simpa using hk : k ∈ (range (2 ^ n) : Set ℕ))
    exact ⟨i, by simpa using hi, h⟩
  refine ⟨zval q.toNat (permuteRow (2 ^ n) q gen x y), ⟨by rw [hlen, hy], ?_, fun _ _ => rfl⟩, ?_⟩
  · intro k hk
    obtain ⟨i, hi, rfl⟩ := hsurj k hk
    rw [hat i hi]
    have := hx.lt i hi
    split
    · omega
    · rw [UInt64.toNat_sub_of_le _ _ (UInt64.le_iff_toNat_le.2 this.le)]
      omega
  · rw [aut_toR, toR, sum_mul_odd hg]
    apply sum_congr rfl
    intro i hi
    rw [mem_range] at hi
    rw [zval, hat i hi]
    have hlt := hx.lt i hi
    have hval := hx.val i hi
    have hroot : (AdjoinRoot.root ((Polynomial.X : Polynomial (ZMod q.toNat)) ^ 2 ^ n + 1)) ^ (g * i)
        = (-1) ^ (i * g / 2 ^ n) * AdjoinRoot.root _ ^ (i * g % 2 ^ n) := by
      conv_lhs => rw [mul_comm g i, ← Nat.div_add_mod (i * g) (2 ^ n), pow_add, pow_mul, root_pow]
    rw [hroot]
    split
    · rename_i h
      rw [(Nat.even_iff.2 h).neg_one_pow, one_mul, ← hval]
      rfl
    · rename_i h
      rw [(Nat.odd_iff.2 (by omega)).neg_one_pow, ← hval,
        UInt64.toNat_sub_of_le _ _ (UInt64.le_iff_toNat_le.2 hlt.le), Nat.cast_sub hlt.le,
        ZMod.natCast_self, zero_sub, map_neg]
      simp only [zval, neg_mul, one_mul, mul_neg]

/-- the index table maps evaluation points to their `g`-th powers -/
theorem permuteNTTIndex_at {r : Ring} (hn : 1 ≤ n) (hn' : n < 62) (hd : r.n = 2 ^ n)
    (hr : r.nthRoot = 2 ^ (n + 1)) (gen : UInt64) (hg : gen.toNat % 2 = 1) {i : ℕ} (hi : i < 2 ^ n) :
    ((r.permuteNTTIndex gen).at i).toNat < 2 ^ n ∧
    2 * revBits n ((r.permuteNTTIndex gen).at i).toNat + 1 =
      gen.toNat * (2 * revBits n i + 1) % 2 ^ (n + 1) := by
  have hp : 2 ^ n < 2 ^ 62 := Nat.pow_lt_pow_right (by omega) (by omega)
  have hlog : len64 (2 ^ (n + 1)) - 2 = n := by rw [len64_two_pow]; omega
  have hri := revBits_lt n i
  have e1 : (UInt64.ofNat (2 * revBits n i + 1)).toNat = 2 * revBits n i + 1 := by
    rw [UInt64.toNat_ofNat', Nat.mod_eq_of_lt (by omega)]
  have hpp : 2 ^ (n + 1) = 2 * 2 ^ n := by rw [pow_succ]; ring
  have e2 : (UInt64.ofNat (2 ^ (n + 1)) - 1).toNat = 2 ^ (n + 1) - 1 := by
    have : (UInt64.ofNat (2 ^ (n + 1))).toNat = 2 ^ (n + 1) := by
      rw [UInt64.toNat_ofNat', Nat.mod_eq_of_lt (by omega)]
    rw [UInt64.toNat_sub_of_le _ _ (UInt64.le_iff_toNat_le.2 ?_), this]
    · rfl
    · rw [this]; show 1 ≤ _; omega
  set M := gen.toNat * (2 * revBits n i + 1) % 2 ^ (n + 1) with hM
  have hMlt : M < 2 ^ (n + 1) := Nat.mod_lt _ (Nat.two_pow_pos _)
  have hModd : M % 2 = 1 := by
    rw [hM, Nat.mod_mod_of_dvd _ (dvd_pow_self 2 (by omega)), Nat.mul_mod, hg]
    omega
  have e3 : (gen * UInt64.ofNat (2 * revBits n i + 1) &&& (UInt64.ofNat (2 ^ (n + 1)) - 1)).toNat = M := by
    rw [UInt64.toNat_and, UInt64.toNat_mul, e1, e2, Nat.and_two_pow_sub_one_eq_mod, hM]
    exact Nat.mod_mod_of_dvd _ (pow_dvd_pow 2 (by omega))
  have e4 : (((gen * UInt64.ofNat (2 * revBits n i + 1) &&& (UInt64.ofNat (2 ^ (n + 1)) - 1)) - 1)
      >>> 1).toNat = (M - 1) / 2 := by
    rw [UInt64.toNat_shiftRight, UInt64.toNat_sub_of_le _ _ (UInt64.le_iff_toNat_le.2 ?_), e3]
    · show (M - 1) >>> 1 = _
      rw [Nat.shiftRight_eq_div_pow, pow_one]
    · rw [e3]; show 1 ≤ M; omega
  have e5 : (r.permuteNTTIndex gen).at i = UInt64.ofNat (revBits n ((M - 1) / 2)) := by
    unfold Ring.permuteNTTIndex
    rw [hd, at_map_range _ _ hi]
    simp only [hr, hlog]
    rw [bitReverse64_eq n i (by omega) hi, e4, bitReverse64_eq n _ (by omega) (by omega)]
  have hlt2 := revBits_lt n ((M - 1) / 2)
  have e6 : ((r.permuteNTTIndex gen).at i).toNat = revBits n ((M - 1) / 2) := by
    rw [e5, UInt64.toNat_ofNat', Nat.mod_eq_of_lt (by omega)]
  rw [e6]
  refine ⟨hlt2, ?_⟩
  rw [revBits_involutive n _ (by omega)]
  omega

theorem permuteNTTRow_is {q A : ℕ} {index x : Row} {v : ℕ → ZMod q} {N : ℕ}
    (hi : ∀ j < N, (index.at j).toNat < N) (hx : RowIs N q A x v) :
    RowIs N q A (permuteNTTRow N index x) (fun j => v (index.at j).toNat) := by
  refine ⟨by simp [permuteNTTRow], ?_, ?_⟩
  · intro k hk
    rw [permuteNTTRow, at_map_range _ _ hk]
    exact hx.lt _ (hi k hk)
  · intro k hk
    rw [zval, permuteNTTRow, at_map_range _ _ hk]
    exact hx.val _ (hi k hk)

/-- permuting NTT values by the index table applies the automorphism -/
theorem ofNtt_permute {q : ℕ} [Fact q.Prime] {psi : ZMod q} (hp : PsiOK psi n) {g : ℕ} (hg : g % 2 = 1)
    (σ : ℕ → ℕ) (hσ : ∀ i < 2 ^ n, σ i < 2 ^ n ∧
      2 * revBits n (σ i) + 1 = g * (2 * revBits n i + 1) % 2 ^ (n + 1)) (v : ℕ → ZMod q) :
    ofNtt psi n (fun i => v (σ i)) = aut (2 ^ n) q hg (ofNtt psi n v) := by
  symm
  apply ofNtt_unique hp
  intro i hi
  obtain ⟨h1, h2⟩ := hσ i hi
  rw [← evalAt_ofNtt hp v h1]
  have hpsi : psi ^ 2 ^ (n + 1) = 1 := by
    rw [pow_succ, pow_mul, hp.pow]; ring
  have hpt : nttPoint psi n (σ i) = nttPoint psi n i ^ g := by
    unfold nttPoint
    rw [h2, ← pow_mul, mul_comm (2 * revBits n i + 1)]
    conv_rhs => rw [← Nat.div_add_mod (g * (2 * revBits n i + 1)) (2 ^ (n + 1)), pow_add, pow_mul, hpsi,
      one_pow, one_mul]
  obtain ⟨c, hc⟩ := exists_toR (Nat.two_pow_pos n) (ofNtt psi n v)
  rw [hc, aut_toR, map_sum]
  unfold evalAt
  rw [evalHom_toR]
  apply sum_congr rfl
  intro j _
  rw [map_mul, map_pow]
  simp only [evalHom, AdjoinRoot.lift_of, AdjoinRoot.lift_root, RingHom.id_apply]
  rw [hpt, ← pow_mul]

end rows

end FastKsw
