import Verif.Model.NTT
import Verif.Lemmas.ModExp

/-! Helper lemmas: closed form of an in-place butterfly layer. -/

namespace FastKsw

theorem Row.at_set (x : Row) (i k : ℕ) (v : UInt64) :
    Row.at (x.set i v) k = if k = i ∧ i < x.length then v else x.at k := by
  unfold Row.at
  simp only [List.getD_eq_getElem?_getD, List.getElem?_set]
  by_cases h : i = k
  · subst h
    by_cases h2 : i < x.length
    · simp [h2]
    · simp [h2]
  · have h' : k ≠ i := fun e => h e.symm
    simp [h, h']

theorem foldl_length {α : Type} (l : List α) (f : Row → α → Row)
    (h : ∀ x a, (f x a).length = x.length) (x : Row) : (l.foldl f x).length = x.length := by
  induction l generalizing x with
  | nil => rfl
  | cons a l ih => rw [List.foldl_cons, ih, h]

/-- inner loop of a layer, `n` iterations -/
def innerLoop (bf : UInt64 → UInt64 → UInt64 → UInt64 × UInt64) (w : UInt64) (b t n : ℕ)
    (x : Row) : Row :=
  (List.range n).foldl (fun x j =>
      let jx := b + j
      let r := bf (x.at jx) (x.at (jx + t)) w
      (x.set jx r.1).set (jx + t) r.2) x

theorem innerLoop_length (bf) (w : UInt64) (b t n : ℕ) (x : Row) :
    (innerLoop bf w b t n x).length = x.length := by
  unfold innerLoop
  exact foldl_length _ _ (fun x a => by simp) x

theorem innerLoop_at (bf : UInt64 → UInt64 → UInt64 → UInt64 × UInt64) (w : UInt64) (b t n : ℕ)
    (x : Row) (hn : n ≤ t) (hl : b + 2 * t ≤ x.length) (k : ℕ) :
    (innerLoop bf w b t n x).at k =
      if b ≤ k ∧ k < b + n then (bf (x.at k) (x.at (k + t)) w).1
      else if b + t ≤ k ∧ k < b + t + n then (bf (x.at (k - t)) (x.at k) w).2
      else x.at k := by
  induction n generalizing k with
  | zero =>
    rw [if_neg (by omega), if_neg (by omega)]; rfl
  | succ n ih =>
    have hstep : innerLoop bf w b t (n + 1) x =
        ((innerLoop bf w b t n x).set (b + n)
          (bf ((innerLoop bf w b t n x).at (b + n)) ((innerLoop bf w b t n x).at (b + n + t)) w).1).set
          (b + n + t)
          (bf ((innerLoop bf w b t n x).at (b + n)) ((innerLoop bf w b t n x).at (b + n + t)) w).2 := by
      unfold innerLoop
      rw [List.range_succ, List.foldl_append]
      rfl
    have h1 : (innerLoop bf w b t n x).at (b + n) = x.at (b + n) := by
      rw [ih (by omega)]
      rw [if_neg (by omega), if_neg (by omega)]
    have h2 : (innerLoop bf w b t n x).at (b + n + t) = x.at (b + n + t) := by
      rw [ih (by omega)]
      rw [if_neg (by omega), if_neg (by omega)]
    rw [hstep, h1, h2, Row.at_set, Row.at_set, List.length_set, innerLoop_length]
    by_cases c1 : k = b + n + t
    · rw [if_pos (by omega)]
      rw [if_neg (by omega), if_pos (by omega)]
      subst c1
      have : b + n + t - t = b + n := by omega
      rw [this]
    · rw [if_neg (by omega)]
      by_cases c2 : k = b + n
      · rw [if_pos (by omega), if_pos (by omega)]
        subst c2; rfl
      · rw [if_neg (by omega), ih (by omega)]
        have e1 : (b ≤ k ∧ k < b + (n + 1)) ↔ (b ≤ k ∧ k < b + n) := by omega
        have e2 : (b + t ≤ k ∧ k < b + t + (n + 1)) ↔ (b + t ≤ k ∧ k < b + t + n) := by omega
        simp only [e1, e2]

theorem nttLayer_eq (bf) (tab : Row) (m t : ℕ) (x : Row) :
    nttLayer bf tab m t x =
      (List.range m).foldl (fun x i => innerLoop bf (tab.at (m + i)) (2 * (i * t)) t t x) x := rfl

/-- `n` blocks of a layer -/
def outerLoop (bf : UInt64 → UInt64 → UInt64 → UInt64 × UInt64) (tab : Row) (m t n : ℕ)
    (x : Row) : Row :=
  (List.range n).foldl (fun x i => innerLoop bf (tab.at (m + i)) (2 * (i * t)) t t x) x

theorem outerLoop_length (bf) (tab : Row) (m t n : ℕ) (x : Row) :
    (outerLoop bf tab m t n x).length = x.length := by
  unfold outerLoop
  exact foldl_length _ _ (fun x a => innerLoop_length ..) x

theorem nttLayer_length (bf) (tab : Row) (m t : ℕ) (x : Row) :
    (nttLayer bf tab m t x).length = x.length := outerLoop_length bf tab m t m x

/-- The value written at position `k` by a layer of half-block size `t`. -/
def layerVal (bf : UInt64 → UInt64 → UInt64 → UInt64 × UInt64) (tab : Row) (m t : ℕ) (x : Row)
    (k : ℕ) : UInt64 :=
  if k % (2 * t) < t then (bf (x.at k) (x.at (k + t)) (tab.at (m + k / (2 * t)))).1
  else (bf (x.at (k - t)) (x.at k) (tab.at (m + k / (2 * t)))).2

theorem outerLoop_at (bf) (tab : Row) (m t n : ℕ) (x : Row) (ht : 0 < t)
    (hl : n * (2 * t) ≤ x.length) (k : ℕ) :
    (outerLoop bf tab m t n x).at k =
      if k < n * (2 * t) then layerVal bf tab m t x k else x.at k := by
  induction n generalizing k with
  | zero => simp [outerLoop]
  | succ n ih =>
    have hstep : outerLoop bf tab m t (n + 1) x =
        innerLoop bf (tab.at (m + n)) (2 * (n * t)) t t (outerLoop bf tab m t n x) := by
      unfold outerLoop
      rw [List.range_succ, List.foldl_append]; rfl
    have e : 2 * (n * t) = n * (2 * t) := by ring
    have e' : (n + 1) * (2 * t) = n * (2 * t) + 2 * t := by ring
    rw [hstep, innerLoop_at _ _ _ _ _ _ le_rfl (by rw [outerLoop_length]; omega), e]
    have ih' := ih (by omega)
    by_cases hlow : k < n * (2 * t)
    · rw [if_neg (by omega), if_neg (by omega), ih', if_pos hlow, if_pos (by omega)]
    · by_cases hhi : k < (n + 1) * (2 * t)
      · rw [if_pos hhi]
        have hdiv : k / (2 * t) = n := by
          apply Nat.div_eq_of_lt_le <;> omega
        have hmod : k % (2 * t) = k - n * (2 * t) := by
          have := Nat.div_add_mod k (2 * t)
          rw [hdiv] at this
          have e3 : 2 * t * n = n * (2 * t) := by ring
          omega
        unfold layerVal
        rw [hdiv, hmod]
        by_cases hc : k - n * (2 * t) < t
        · rw [if_pos (by omega), if_pos hc, ih', ih', if_neg hlow, if_neg (by omega)]
        · rw [if_neg (by omega), if_pos (by omega), if_neg hc, ih', ih', if_neg hlow,
            if_neg (by omega)]
      · rw [if_neg (by omega), if_neg (by omega), ih', if_neg hlow, if_neg hhi]

theorem nttLayer_at (bf) (tab : Row) (m t : ℕ) (x : Row) (ht : 0 < t)
    (hl : m * (2 * t) ≤ x.length) (k : ℕ) :
    (nttLayer bf tab m t x).at k =
      if k < m * (2 * t) then layerVal bf tab m t x k else x.at k :=
  outerLoop_at bf tab m t m x ht hl k

end FastKsw
