import Mathlib.Data.List.Rotate
import Mathlib.Tactic.Ring
import Verif.Model.Utils
import Verif.Lemmas.Bits
import Verif.Lemmas.NTT

namespace FastKsw

/-! ## Slice rotation -/

theorem rotateSlice_eq {α : Type*} (s : List α) (k : ℤ) :
    rotateSlice s k = s.rotate (k % s.length).toNat := by
  unfold rotateSlice
  by_cases h : k = 0 ∨ s.length = 0
  · rw [if_pos h]
    rcases h with h | h
    · subst h; simp
    · rw [List.length_eq_zero_iff] at h; subst h; simp
  · rw [if_neg h]
    push Not at h
    have hl : 0 < s.length := by omega
    have e : (if k.tmod s.length < 0 then k.tmod s.length + s.length else k.tmod s.length)
        = k % s.length := by
      have h1 : (s.length : ℤ) ∣ k - k.tmod s.length := Int.dvd_self_sub_tmod
      have h2 : (k.tmod s.length) % s.length = k % s.length :=
        Int.ModEq.eq (Int.modEq_iff_dvd.2 h1)
      have h3 : k.tmod s.length < s.length := Int.tmod_lt_of_pos k (by omega)
      have h4 : -(s.length : ℤ) < k.tmod s.length := Int.lt_tmod_of_pos k (by omega)
      split
      · rw [← h2]
        rw [← Int.add_emod_right, Int.emod_eq_of_lt (by omega) (by omega)]
      · rw [← h2, Int.emod_eq_of_lt (by omega) (by omega)]
    simp only [e]
    have h5 := Int.emod_nonneg k (b := (s.length : ℤ)) (by omega)
    have h6 := Int.emod_lt_of_pos k (b := (s.length : ℤ)) (by omega)
    rw [List.rotate_eq_drop_append_take (by omega)]

theorem rotateSlice_length {α : Type*} (s : List α) (k : ℤ) :
    (rotateSlice s k).length = s.length := by
  rw [rotateSlice_eq, List.length_rotate]

/-! ## In-place permutation by an involution -/

theorem getD_swapAt {α : Type*} [Inhabited α] (s : List α) {i j : ℕ} (hi : i < s.length)
    (hj : j < s.length) (k : ℕ) : (swapAt s i j).getD k default
      = if k = j then s.getD i default else if k = i then s.getD j default else s.getD k default := by
  unfold swapAt
  simp only [List.getD, List.getElem?_set, List.length_set]
  by_cases h1 : k = j
  · subst h1; simp [hj]
  · by_cases h2 : k = i
    · subst h2; simp [Ne.symm h1, hi, h1]
    · simp [Ne.symm h1, Ne.symm h2, h1, h2]

theorem length_swapAt {α : Type*} [Inhabited α] (s : List α) (i j : ℕ) :
    (swapAt s i j).length = s.length := by simp [swapAt]

/-- one pass of `if i < σ i then swap s[i], s[σ i]` permutes by the involution `σ` -/
theorem swap_fold {α : Type*} [Inhabited α] {N : ℕ} (s : List α) (hN : N ≤ s.length) (σ : ℕ → ℕ)
    (hσ : ∀ i < N, σ i < N) (hinv : ∀ i < N, σ (σ i) = i) (m : ℕ) (hm : m ≤ N) :
    let t := (List.range m).foldl (fun s i => if i < σ i then swapAt s i (σ i) else s) s
    t.length = s.length ∧ (∀ k < N, t.getD k default
      = if k < m ∨ σ k < m then s.getD (σ k) default else s.getD k default) ∧
      ∀ k, N ≤ k → t.getD k default = s.getD k default := by
  induction m with
  | zero => simp
  | succ m ih =>
    obtain ⟨h1, h2, h3⟩ := ih (by omega)
    simp only [List.range_succ, List.foldl_append, List.foldl_cons, List.foldl_nil]
    set t := (List.range m).foldl (fun s i => if i < σ i then swapAt s i (σ i) else s) s with ht
    have hmN : m < N := by omega
    have hs := hσ m hmN
    by_cases hlt : m < σ m
    · rw [if_pos hlt]
      refine ⟨by rw [length_swapAt, h1], fun k hk => ?_, fun k hk => ?_⟩
      · rw [getD_swapAt t (by omega) (by omega)]
        by_cases c1 : k = σ m
        · subst c1
          rw [if_pos rfl, h2 m hmN, if_neg (by omega), if_pos (by rw [hinv m hmN]; omega), hinv m hmN]
        · rw [if_neg c1]
          by_cases c2 : k = m
          · subst c2
            rw [if_pos rfl, h2 _ hs, hinv k hmN, if_neg (by omega), if_pos (by omega)]
          · rw [if_neg c2, h2 k hk]
            have c3 : σ k ≠ m := by
              intro h
              apply c1
              rw [← h, hinv k hk]
            have : (k < m ∨ σ k < m) ↔ (k < m + 1 ∨ σ k < m + 1) := by omega
            simp only [this]
      · rw [getD_swapAt t (by omega) (by omega), if_neg (by omega), if_neg (by omega), h3 k hk]
    · rw [if_neg hlt]
      refine ⟨h1, fun k hk => ?_, h3⟩
      rw [h2 k hk]
      by_cases c1 : k = m
      · subst c1
        by_cases c2 : σ k = k
        · rw [c2]; simp
        · rw [if_pos (by omega), if_pos (by omega)]
      · by_cases c2 : σ k = m
        · have : σ m = k := by rw [← c2, hinv k hk]
          rw [if_pos (by omega), if_pos (by omega)]
        · have : (k < m ∨ σ k < m) ↔ (k < m + 1 ∨ σ k < m + 1) := by omega
          simp only [this]

/-- writing `x[i]` at `σ i` for all `i` permutes by the inverse -/
theorem set_fold {N : ℕ} (x y : Row) (hN : N ≤ y.length) (σ : ℕ → ℕ)
    (hσ : ∀ i < N, σ i < N) (hinv : ∀ i < N, σ (σ i) = i) (m : ℕ) (hm : m ≤ N) :
    let t := (List.range m).foldl (fun y j => y.set (σ j) (x.at j)) y
    t.length = y.length ∧ ∀ k < N, Row.at t k = if σ k < m then x.at (σ k) else y.at k := by
  induction m with
  | zero => simp
  | succ m ih =>
    obtain ⟨h1, h2⟩ := ih (by omega)
    simp only [List.range_succ, List.foldl_append, List.foldl_cons, List.foldl_nil]
    set t := (List.range m).foldl (fun y j => y.set (σ j) (x.at j)) y with ht
    refine ⟨by simp [h1], fun k hk => ?_⟩
    have hs := hσ m (by omega)
    have e : Row.at (t.set (σ m) (x.at m)) k = if σ m = k then x.at m else Row.at t k := by
      simp only [Row.at, List.getD, List.getElem?_set]
      split
      · rename_i h; subst h; simp [show σ m < t.length by omega]
      · rfl
    rw [e, h2 k hk]
    by_cases c : σ m = k
    · have : σ k = m := by rw [← c, hinv m (by omega)]
      rw [if_pos c, if_pos (by omega), this]
    · rw [if_neg c]
      have : σ k ≠ m := by
        intro h; apply c; rw [← h, hinv k hk]
      have : σ k < m ↔ σ k < m + 1 := by omega
      simp only [this]

theorem foldl_range_congr {β : Type*} {f g : β → ℕ → β} (N : ℕ) (b : β)
    (h : ∀ b i, i < N → f b i = g b i) : (List.range N).foldl f b = (List.range N).foldl g b := by
  apply List.foldl_ext
  intro a i hi
  exact h a i (List.mem_range.1 hi)

/-! ## Successive bit-reversed indices -/

theorem nextRev_eq (n x fuel : ℕ) (hx : x + 1 < 2 ^ n) (hf : n ≤ fuel) :
    nextRev fuel (revBits n x) (2 ^ n / 2) = revBits n (x + 1) := by
  induction n generalizing x fuel with
  | zero => simp at hx
  | succ n ih =>
    obtain ⟨fuel, rfl⟩ : ∃ f, fuel = f + 1 := ⟨fuel - 1, by omega⟩
    have hp : 2 ^ (n + 1) / 2 = 2 ^ n := by rw [pow_succ]; omega
    rw [hp, nextRev]
    have hlt := revBits_lt n (x / 2)
    rcases Nat.mod_two_eq_zero_or_one x with h | h
    · have e1 : revBits (n + 1) x = revBits n (x / 2) := by rw [revBits, h]; omega
      have e2 : revBits (n + 1) (x + 1) = 2 ^ n + revBits n (x / 2) := by
        rw [revBits, show (x + 1) % 2 = 1 by omega, show (x + 1) / 2 = x / 2 by omega, one_mul]
      rw [e1, e2, if_neg (by omega), add_comm]
    · have e1 : revBits (n + 1) x = 2 ^ n + revBits n (x / 2) := by rw [revBits, h, one_mul]
      have e2 : revBits (n + 1) (x + 1) = revBits n (x / 2 + 1) := by
        rw [revBits, show (x + 1) % 2 = 0 by omega, show (x + 1) / 2 = x / 2 + 1 by omega]; omega
      rw [e1, e2, if_pos (by omega), Nat.add_sub_cancel_left]
      apply ih
      · rw [pow_succ] at hx; omega
      · omega

theorem sliceBitReverse_eq {α : Type*} [Inhabited α] (s : List α) (n : ℕ) :
    sliceBitReverse s (2 ^ n) = (List.range (2 ^ n)).foldl
      (fun s i => if i < revBits n i then swapAt s i (revBits n i) else s) s := by
  have key : ∀ m, m ≤ 2 ^ n → ((List.range m).foldl (fun (st : List α × Nat) i =>
      if i = 0 then st
      else
        let j := nextRev (2 ^ n + 1) st.2 (2 ^ n / 2)
        (if i < j then swapAt st.1 i j else st.1, j)) (s, 0))
      = ((List.range m).foldl (fun s i => if i < revBits n i then swapAt s i (revBits n i) else s) s,
          revBits n (m - 1)) := by
    intro m hm
    induction m with
    | zero => simp [revBits_zero]
    | succ m ih =>
      rw [List.range_succ, List.foldl_append, List.foldl_append, ih (by omega)]
      simp only [List.foldl_cons, List.foldl_nil]
      rcases Nat.eq_zero_or_pos m with h | h
      · subst h; simp [revBits_zero]
      · rw [if_neg (by omega), nextRev_eq n (m - 1) _ (by omega)
          (le_trans (Nat.lt_two_pow_self.le) (by omega)), show m - 1 + 1 = m by omega]
        simp
  unfold sliceBitReverse
  rw [key _ le_rfl]

end FastKsw
