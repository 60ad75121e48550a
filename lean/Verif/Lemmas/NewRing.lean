import Verif.Lemmas.RingGen
import Mathlib.Data.List.Forall2

/-! Helper lemmas: what `NewRing` accepts. -/

namespace FastKsw

theorem mapM_forall2 {α β : Type} {f : α → Option β} {l : List α} {out : List β}
    (h : l.mapM f = some out) : List.Forall₂ (fun a b => f a = some b) l out := by
  induction l generalizing out with
  | nil =>
    simp at h
    subst h; exact .nil
  | cons a l ih =>
    simp only [List.mapM_cons, Option.bind_eq_bind, Option.bind_eq_some_iff, Option.pure_def,
      Option.some.injEq] at h
    obtain ⟨b, hb, out', hout, rfl⟩ := h
    exact .cons hb (ih hout)

theorem allDistinct_iff (l seen : List UInt64) :
    allDistinct l seen = true ↔ l.Nodup ∧ ∀ x ∈ l, x ∉ seen := by
  induction l generalizing seen with
  | nil => simp [allDistinct]
  | cons a l ih =>
    unfold allDistinct
    by_cases h : a ∈ seen
    · simp only [h, if_true, List.mem_cons, forall_eq_or_imp, not_true_eq_false, false_and,
        and_false]
      exact iff_of_false (by simp) (by simp)
    · simp only [h, if_false, ih, List.nodup_cons, List.mem_cons, not_or]
      constructor
      · rintro ⟨h1, h2⟩
        refine ⟨⟨fun hm => (h2 a hm).1 rfl, h1⟩, ?_⟩
        intro x hx
        rcases hx with rfl | hx
        · exact h
        · exact (h2 x hx).2
      · rintro ⟨⟨h1, h2⟩, h3⟩
        exact ⟨h2, fun x hx => ⟨fun e => h1 (e ▸ hx), h3 x (Or.inr hx)⟩⟩

theorem newRingCustom_ok {fuel N nthRoot : ℕ} {moduli : List UInt64} {ty : RingType} {r : Ring}
    (h : newRingCustom fuel N moduli ty nthRoot = .ok r) :
    16 ≤ N ∧ (∃ n, N = 2 ^ n) ∧ moduli ≠ [] ∧ moduli.Nodup ∧
    (∀ q ∈ moduli, q.toNat.Prime ∧ q &&& (UInt64.ofNat nthRoot - 1) = 1) ∧
    r.n = N ∧ r.nthRoot = nthRoot ∧ r.type = ty ∧
    r.rescaleParams = genRescaleParams moduli ∧
    List.Forall₂ (fun a b => genSub fuel nthRoot a = some b) moduli r.subs := by
  unfold newRingCustom at h
  split at h
  · cases h
  rename_i h1
  split at h
  · cases h
  rename_i h2
  split at h
  · cases h
  rename_i h3
  split at h
  · split at h <;> cases h
  rename_i h4
  split at h
  · cases h
  rename_i subs h5
  cases h
  push Not at h1
  have hN : N ≠ 0 := by omega
  have hpow : Nat.land N (N - 1) = 0 := by
    by_contra hc
    exact hN (h1.2 hc)
  obtain ⟨n, hn⟩ := (Nat.and_sub_one_eq_zero_iff_isPowerOfTwo hN).1 hpow
  refine ⟨h1.1, ⟨n, hn⟩, ?_, ?_, ?_, rfl, rfl, rfl, rfl, mapM_forall2 h5⟩
  · intro h; simp [h] at h2
  · simp only [Bool.not_eq_true, Bool.not_eq_false] at h3
    exact ((allDistinct_iff _ _).1 h3).1
  · rw [List.find?_eq_none] at h4
    intro q hq
    have := h4 q hq
    simp only [Bool.or_eq_true, decide_eq_true_eq, bne_iff_ne, ne_eq, not_or, not_not] at this
    exact this

theorem and_mask_eq_one {q : UInt64} {k : ℕ} (hk : k < 64)
    (h : q &&& (UInt64.ofNat (2 ^ k) - 1) = 1) : q.toNat % 2 ^ k = 1 := by
  have h64 : 2 ^ k < 2 ^ 64 := Nat.pow_lt_pow_right (by omega) hk
  have e : (UInt64.ofNat (2 ^ k)).toNat = 2 ^ k := by
    rw [UInt64.toNat_ofNat']
    exact Nat.mod_eq_of_lt h64
  have hp : 1 ≤ 2 ^ k := Nat.one_le_two_pow
  have e2 : (UInt64.ofNat (2 ^ k) - 1).toNat = 2 ^ k - 1 := by
    rw [toNat_sub_of_le' (by rw [e, UInt64.toNat_one]; exact hp), e, UInt64.toNat_one]
  have h' := congrArg UInt64.toNat h
  rw [UInt64.toNat_and, e2, Nat.and_two_pow_sub_one_eq_mod, UInt64.toNat_one] at h'
  exact h'

/-- Everything `NewRingWithCustomNTT` returns is usable. -/
theorem newRingCustom_valid {fuel N n m : ℕ} {moduli : List UInt64} {ty : RingType} {r : Ring}
    (hm : n ≤ m) (hm' : m < 63) (hN : N = 2 ^ n) (hq : ∀ q ∈ moduli, q.toNat < 2 ^ 63)
    (h : newRingCustom fuel N moduli ty (2 * 2 ^ m) = .ok r) :
    r.moduli = moduli ∧ ∀ s ∈ r.subs, s.Valid m := by
  obtain ⟨h1, _, _, _, h5, _, _, _, _, h6⟩ := newRingCustom_ok h
  have h4n : 4 ≤ n := by
    by_contra hc
    have : 2 ^ n ≤ 2 ^ 3 := Nat.pow_le_pow_right (by omega) (by omega)
    omega
  have e2 : 2 * 2 ^ m = 2 ^ (m + 1) := by ring
  have key : ∀ (l : List UInt64) (ss : List SubRing), (∀ q ∈ l, q ∈ moduli) →
      List.Forall₂ (fun a b => genSub fuel (2 * 2 ^ m) a = some b) l ss →
      ss.map (·.q) = l ∧ ∀ s ∈ ss, s.Valid m := by
    intro l ss hl hf
    induction hf with
    | nil => simp
    | @cons a s l ss hg _ ih =>
      have ha := hl a (by simp)
      have hv := genSub_valid (by omega) hm' (h5 a ha).1
        (and_mask_eq_one (by omega) (by rw [← e2]; exact (h5 a ha).2)) (hq a ha) hg
      obtain ⟨i1, i2⟩ := ih (fun q hq => hl q (by simp [hq]))
      refine ⟨by simp [i1, hv.1], ?_⟩
      intro t ht
      rcases List.mem_cons.1 ht with rfl | ht
      · exact hv.2
      · exact i2 t ht
  exact key moduli r.subs (fun _ h => h) h6

end FastKsw
