import Verif.Model.FKeySwitch
import Verif.Props.Ring
import Verif.Props.RingMisc
import Verif.Lemmas.Accumulate
import Verif.Lemmas.ModDown
import Verif.Lemmas.CRT
import Verif.Lemmas.Scaling

/-!
# Blocks of moduli and the objects built on them by `frlwe`
-/

namespace FastKsw

open Finset

/-! ## A ring on some of the moduli of another one -/

theorem mapM_isSome {α β : Type} {f : α → Option β} {l : List α}
    (h : ∀ a ∈ l, ∃ b, f a = some b) : ∃ out, l.mapM f = some out := by
  induction l with
  | nil => exact ⟨[], by simp⟩
  | cons a l ih =>
    obtain ⟨b, hb⟩ := h a (by simp)
    obtain ⟨out, ho⟩ := ih (fun x hx => h x (by simp [hx]))
    exact ⟨b :: out, by simp [List.mapM_cons, hb, ho]⟩

theorem forall2_left {α β : Type} {R : α → β → Prop} {l : List α} {m : List β}
    (h : List.Forall₂ R l m) : ∀ a ∈ l, ∃ b, R a b := by
  induction h with
  | nil => simp
  | cons hr _ ih =>
    intro a ha
    rcases List.mem_cons.1 ha with rfl | ha
    · exact ⟨_, hr⟩
    · exact ih a ha

theorem newRing_sub {fuel N : ℕ} {Q Q' : List UInt64} {r : Ring} (h : newRing fuel N Q = .ok r)
    (hne : Q' ≠ []) (hnd : Q'.Nodup) (hsub : ∀ q ∈ Q', q ∈ Q) :
    ∃ r', newRing fuel N Q' = .ok r' := by
  obtain ⟨h1, ⟨n, hn⟩, h3, h4, h5, h6, h7, h8, h10, h9⟩ := newRingCustom_ok h
  have hsubs := forall2_left h9
  obtain ⟨out, ho⟩ := mapM_isSome (f := genSub fuel (2 * N)) (l := Q')
    (fun a ha => hsubs a (hsub a ha))
  unfold newRing newRingCustom
  rw [if_neg, if_neg, if_neg]
  · have hf : Q'.find? (fun qi => decide (¬ isPrime qi) || (qi &&& (UInt64.ofNat (2 * N) - 1)) != 1) = none := by
      rw [List.find?_eq_none]
      intro q hq
      have := h5 q (hsub q hq)
      simp only [Bool.or_eq_true, decide_eq_true_eq, bne_iff_ne, ne_eq, not_or, not_not]
      exact this
    rw [hf, ho]
    exact ⟨_, rfl⟩
  · rw [(allDistinct_iff _ _).2 ⟨hnd, by simp⟩]; simp
  · simpa using hne
  · push Not
    refine ⟨h1, fun hc => ?_⟩
    exfalso
    apply hc
    exact (Nat.and_sub_one_eq_zero_iff_isPowerOfTwo (by omega)).2 ⟨n, hn⟩

theorem newRing_valid' {fuel N n : ℕ} (hN : N = 2 ^ n) (hn : n < 62) {Q : List UInt64} {r : Ring}
    (hq : ∀ q ∈ Q, q.toNat < 2 ^ 61) (h : newRing fuel N Q = .ok r) :
    r.Valid n ∧ r.Small ∧ r.moduli = Q := by
  have hlt : 2 ^ n < 2 ^ 62 := Nat.pow_lt_pow_right (by omega) hn
  obtain ⟨n', e, hv, hm, -⟩ := Props.C17_newRing_valid fuel N (by omega) Q
    (fun q h => by have := hq q h; omega) r h
  have : n' = n := Nat.pow_right_injective (le_refl 2) (by simp only; omega)
  subst this
  refine ⟨hv, fun s hs => hq _ ?_, hm⟩
  rw [← hm]
  exact List.mem_map_of_mem hs

/-! ## Blocks -/

theorem blockModuli_eq (moduli : List UInt64) (size i : ℕ) :
    blockModuli moduli size moduli.length i = (moduli.drop (i * size)).take size := by
  apply List.ext_getElem?
  intro j
  have e : blockModuli moduli size moduli.length i
      = (List.range (min size (moduli.length - i * size))).map fun j => Row.at moduli (i * size + j) := by
    unfold blockModuli
    have : ∀ s, (List.range s).filterMap (fun j => if i * size + j < moduli.length then
        some (Row.at moduli (i * size + j)) else none)
        = (List.range (min s (moduli.length - i * size))).map fun j => Row.at moduli (i * size + j) := by
      intro s
      induction s with
      | zero => simp
      | succ s ih =>
        rw [List.range_succ, List.filterMap_append, ih]
        by_cases hc : i * size + s < moduli.length
        · rw [show min (s + 1) (moduli.length - i * size) = min s (moduli.length - i * size) + 1 by omega,
            List.range_succ, List.map_append]
          rw [show min s (moduli.length - i * size) = s by omega]
          simp [hc]
        · rw [show min (s + 1) (moduli.length - i * size) = min s (moduli.length - i * size) by omega]
          simp [hc]
    exact this size
  rw [e, List.getElem?_take]
  by_cases h1 : j < size
  · rw [if_pos h1, List.getElem?_drop]
    by_cases h2 : i * size + j < moduli.length
    · have : j < min size (moduli.length - i * size) := by omega
      simp [this, h2, Row.at]
    · have : ¬ j < min size (moduli.length - i * size) := by omega
      simp [this, h2]
  · rw [if_neg h1]
    have : ¬ j < min size (moduli.length - i * size) := by omega
    simp
    omega

theorem blockCount_eq (size cnt i : ℕ) : blockCount size cnt i = min size (cnt - i * size) := by
  have : ∀ s, (List.range s).foldl (fun c j => if i * size + j < cnt then c + 1 else c) 0
      = min s (cnt - i * size) := by
    intro s
    induction s with
    | zero => simp
    | succ s ih =>
      rw [List.range_succ, List.foldl_append, ih]
      simp only [List.foldl_cons, List.foldl_nil]
      split <;> omega
  exact this size

/-- what is needed of the ring of block `i` of the moduli of `r` -/
structure BlockRing (n : ℕ) (r : Ring) (size i : ℕ) (b : Ring) : Prop where
  valid : b.Valid n
  small : b.Small
  len : b.subs.length = min size (r.subs.length - i * size)
  q : ∀ j < b.subs.length, (b.sub j).q = (r.sub (i * size + j)).q

theorem blockRing_of {fuel n size i : ℕ} {r : Ring} (hn : n < 62) (sr : r.Small)
    (hr : newRing fuel (2 ^ n) r.moduli = .ok r) (hsz : 0 < size) (hi : i * size < r.subs.length) :
    ∃ b, newRing fuel (2 ^ n) (blockModuli r.moduli size r.subs.length i) = .ok b ∧
      BlockRing n r size i b := by
  have hl : r.moduli.length = r.subs.length := by simp [Ring.moduli]
  rw [← hl, blockModuli_eq]
  have hq : ∀ q ∈ r.moduli, q.toNat < 2 ^ 61 := by
    intro q hq
    simp only [Ring.moduli, List.mem_map] at hq
    obtain ⟨s, hs, rfl⟩ := hq
    exact sr s hs
  have hsub : ∀ q ∈ (r.moduli.drop (i * size)).take size, q ∈ r.moduli :=
    fun q h => List.mem_of_mem_drop (List.mem_of_mem_take h)
  obtain ⟨h1, h2, h3⟩ := newRing_valid' rfl hn hq hr
  have hne : (r.moduli.drop (i * size)).take size ≠ [] := by
    intro h0
    have := congrArg List.length h0
    simp only [List.length_take, List.length_drop, List.length_nil] at this
    omega
  obtain ⟨b, hb⟩ := newRing_sub hr hne
    ((h1.nodup.sublist (List.drop_sublist _ _)).sublist (List.take_sublist _ _)) hsub
  obtain ⟨b1, b2, b3⟩ := newRing_valid' rfl hn (fun q h => hq q (hsub q h)) hb
  refine ⟨b, hb, b1, b2, ?_, ?_⟩
  · have := congrArg List.length b3
    simp only [Ring.moduli, List.length_map, List.length_take, List.length_drop] at this
    exact this
  · intro j hj
    rw [← at_moduli b hj, b3]
    have hlen := congrArg List.length b3
    simp only [Ring.moduli, List.length_map, List.length_take, List.length_drop] at hlen
    have h1 : i * size + j < r.subs.length := by omega
    have h2 : j < size := by omega
    rw [← at_moduli r h1]
    unfold Row.at
    simp [List.getD, h2]

/-- an element of `mapM` over a range -/
theorem mapM_range {β : Type} {f : ℕ → Option β} {m : ℕ} {g : ℕ → β} (h : ∀ i < m, f i = some (g i)) :
    (List.range m).mapM f = some ((List.range m).map g) := by
  induction m with
  | zero => simp
  | succ m ih =>
    rw [List.range_succ, List.mapM_append, ih (fun i hi => h i (by omega))]
    simp [h m (by omega)]

/-- all block rings -/
theorem blockRings_ok {fuel n size len : ℕ} {r : Ring} (hn : n < 62) (sr : r.Small)
    (hr : newRing fuel (2 ^ n) r.moduli = .ok r) (hsz : 0 < size)
    (hlen : ∀ i < len, i * size < r.subs.length) :
    ∃ g : ℕ → Ring, blockRings fuel (2 ^ n) r.moduli size r.subs.length len = some ((List.range len).map g) ∧
      ∀ i < len, BlockRing n r size i (g i) := by
  have key : ∀ i, ∃ b, i < len → newRing fuel (2 ^ n) (blockModuli r.moduli size r.subs.length i) = .ok b ∧
      BlockRing n r size i b := by
    intro i
    by_cases hi : i < len
    · obtain ⟨b, h1, h2⟩ := blockRing_of hn sr hr hsz (hlen i hi)
      exact ⟨b, fun _ => ⟨h1, h2⟩⟩
    · exact ⟨r, fun h => absurd h hi⟩
  choose g hg using key
  refine ⟨g, mapM_range (fun i hi => ?_), fun i hi => (hg i hi).2⟩
  rw [(hg i hi).1]; rfl

end FastKsw
