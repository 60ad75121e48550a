import Verif.Spec.GenModuli
import Verif.Props.Primes
import Verif.Props.Derived
import Verif.Props.RingMisc
import Verif.Props.KeyGen
import Mathlib.Data.List.GetD

/-!
# C102: moduli and parameters generated from bit sizes
-/

namespace FastKsw.Props

theorem mod_gap {m a b : ℕ} (hab : a < b) (h : a % m = b % m) : a + m ≤ b := by
  have := Nat.le_of_dvd (by omega) (Nat.dvd_of_mod_eq_zero (Nat.sub_mod_eq_zero_of_mod_eq h.symm))
  omega

theorem off_le {s x D : ℕ} (h1 : x ≤ 2 ^ s + 1 + D) (h2 : 2 ^ s + 1 ≤ x + D) : offTwoPow s x ≤ D := by
  unfold offTwoPow
  have : ((2 ^ s : ℕ) : ℤ) = 2 ^ s := by push_cast; rfl
  rw [← this]
  omega

theorem le_off {s x D : ℕ} (h : 2 ^ s + 1 + D ≤ x ∨ x + D ≤ 2 ^ s + 1) : D ≤ offTwoPow s x := by
  unfold offTwoPow
  have : ((2 ^ s : ℕ) : ℤ) = 2 ^ s := by push_cast; rfl
  rw [← this]
  omega

/-- the state of the search between its two halves: all moduli between `pv` and `nx` are listed -/
structure QInv (m s : ℕ) (ps : List UInt64) (nx pv : ℕ) : Prop where
  mem : ∀ x : UInt64, x ∈ ps ↔ ModulusOf m s x ∧ pv ≤ x.toNat ∧ x.toNat ≤ nx
  nodup : ps.Nodup
  sorted : ps.Pairwise fun x y => offTwoPow s x.toNat ≤ offTwoPow s y.toNat
  nxs : 2 ^ s + 1 ≤ nx
  pvs : pv ≤ 2 ^ s + 1
  nxm : nx % m = 1
  pvm : pv % m = 1

theorem QInv.off {m s : ℕ} {ps : List UInt64} {nx pv D : ℕ} (I : QInv m s ps nx pv) (h1 : nx ≤ 2 ^ s + 1 + D)
    (h2 : 2 ^ s + 1 ≤ pv + D) : ∀ x ∈ ps, offTwoPow s x.toNat ≤ D := by
  intro x hx
  have := (I.mem x).1 hx
  exact off_le (by omega) (by omega)

theorem pairwise_snoc {l : List UInt64} {x : UInt64} {s : ℕ}
    (h : l.Pairwise fun x y => offTwoPow s x.toNat ≤ offTwoPow s y.toNat) (hx : ∀ y ∈ l, offTwoPow s y.toNat ≤ offTwoPow s x.toNat) :
    (l ++ [x]).Pairwise fun x y => offTwoPow s x.toNat ≤ offTwoPow s y.toNat := by
  rw [List.pairwise_append]
  refine ⟨h, List.pairwise_singleton _ _, ?_⟩
  intro a ha b hb
  rw [List.mem_singleton.1 hb]
  exact hx a ha

theorem nodup_snoc {l : List UInt64} {x : UInt64} (h : l.Nodup) (hx : x ∉ l) : (l ++ [x]).Nodup := by
  rw [List.nodup_append]
  refine ⟨h, by simp, ?_⟩
  intro a ha b hb hab
  rw [List.mem_singleton.1 hb] at hab
  subst hab
  exact hx ha

/-- a step upwards -/
theorem QInv.up {m s : ℕ} (hm : 1 < m) (hs : s ≤ 60) {ps : List UInt64} {nx pv : ℕ} (I : QInv m s ps nx pv) {x : UInt64}
    (hx : x.toNat = nx + m) (hb : 2 * (2 ^ s + 1) ≤ nx + pv + m) :
    QInv m s (if isPrime x then ps ++ [x] else ps) (nx + m) pv := by
  have hxm : x.toNat % m = 1 := by rw [hx, Nat.add_mod_right]; exact I.nxm
  have a := I.nxs
  have b := I.pvs
  have hle : ∀ y ∈ ps, offTwoPow s y.toNat ≤ offTwoPow s x.toNat := fun y hy =>
    (I.off (D := nx + m - (2 ^ s + 1)) (by omega) (by omega) y hy).trans (le_off (by omega))
  have hnot : x ∉ ps := fun hc => by have := (I.mem x).1 hc; omega
  have key : ∀ y : UInt64, ModulusOf m s y → y.toNat ≤ nx + m → y.toNat ≤ nx ∨ y = x := by
    intro y hy hle
    by_cases h : y.toNat ≤ nx
    · exact Or.inl h
    · have := mod_gap (m := m) (by omega : nx < y.toNat) (by rw [I.nxm, hy.ntt.2])
      exact Or.inr (UInt64.toNat_inj.1 (by omega))
  refine ⟨?_, ?_, ?_, by omega, b, by rw [Nat.add_mod_right]; exact I.nxm, I.pvm⟩
  · intro y
    split
    · rename_i hp
      rw [List.mem_append, List.mem_singleton, I.mem y]
      constructor
      · rintro (h | rfl)
        · exact ⟨h.1, h.2.1, by omega⟩
        · exact ⟨⟨⟨hp, hxm⟩, fun h => by omega, by omega⟩, by omega, by omega⟩
      · rintro ⟨h1, h2, h3⟩
        rcases key y h1 h3 with h | h
        · exact Or.inl ⟨h1, h2, h⟩
        · exact Or.inr h
    · rename_i hp
      rw [I.mem y]
      constructor
      · rintro h
        exact ⟨h.1, h.2.1, by omega⟩
      · rintro ⟨h1, h2, h3⟩
        rcases key y h1 h3 with h | h
        · exact ⟨h1, h2, h⟩
        · exact absurd (h ▸ h1.ntt.1) hp
  · split
    · exact nodup_snoc I.nodup hnot
    · exact I.nodup
  · split
    · exact pairwise_snoc I.sorted hle
    · exact I.sorted

/-- a step downwards -/
theorem QInv.down {m s : ℕ} (hm : 1 < m) {ps : List UInt64} {nx pv : ℕ} (I : QInv m s ps nx pv) {x : UInt64}
    (hx : x.toNat + m = pv) (hb : nx + pv ≤ 2 * (2 ^ s + 1) + m) :
    QInv m s (if isPrime x then ps ++ [x] else ps) nx (pv - m) := by
  have hxm : x.toNat % m = 1 := by rw [← I.pvm, ← hx, Nat.add_mod_right]
  have a := I.nxs
  have b := I.pvs
  have hle : ∀ y ∈ ps, offTwoPow s y.toNat ≤ offTwoPow s x.toNat := fun y hy =>
    (I.off (D := 2 ^ s + 1 + m - pv) (by omega) (by omega) y hy).trans (le_off (by omega))
  have hnot : x ∉ ps := fun hc => by have := (I.mem x).1 hc; omega
  have key : ∀ y : UInt64, ModulusOf m s y → pv - m ≤ y.toNat → pv ≤ y.toNat ∨ y = x := by
    intro y hy hle
    by_cases h : pv ≤ y.toNat
    · exact Or.inl h
    · have := mod_gap (m := m) (by omega : y.toNat < pv) (by rw [I.pvm, hy.ntt.2])
      exact Or.inr (UInt64.toNat_inj.1 (by omega))
  refine ⟨?_, ?_, ?_, a, by omega, ?_, ?_⟩
  · intro y
    split
    · rename_i hp
      rw [List.mem_append, List.mem_singleton, I.mem y]
      constructor
      · rintro (h | rfl)
        · exact ⟨h.1, by omega, h.2.2⟩
        · exact ⟨⟨⟨hp, hxm⟩, fun h => by subst h; omega, by omega⟩, by omega, by omega⟩
      · rintro ⟨h1, h2, h3⟩
        rcases key y h1 h2 with h | h
        · exact Or.inl ⟨h1, h, h3⟩
        · exact Or.inr h
    · rename_i hp
      rw [I.mem y]
      constructor
      · rintro h
        exact ⟨h.1, by omega, h.2.2⟩
      · rintro ⟨h1, h2, h3⟩
        rcases key y h1 h2 with h | h
        · exact ⟨h1, h, h3⟩
        · exact absurd (h ▸ h1.ntt.1) hp
  · split
    · exact nodup_snoc I.nodup hnot
    · exact I.nodup
  · split
    · exact pairwise_snoc I.sorted hle
    · exact I.sorted
  · exact I.nxm
  · rw [show pv - m = x.toNat by omega]; exact hxm

/-- nothing nearer was left out -/
theorem QInv.done {m s n : ℕ} {ps : List UInt64} {nx pv D : ℕ} (I : QInv m s ps nx pv) (hn : ps.length = n)
    (h1 : nx ≤ 2 ^ s + 1 + D) (h2 : 2 ^ s + 1 ≤ pv + D) (ha : 2 ^ 64 ≤ nx + m ∨ 2 ^ s + 1 + D ≤ nx + m ∨ s = 61)
    (hb : pv < m ∨ D + pv ≤ 2 ^ s + 1 + m) : NearestModuli m s n ps := by
  refine ⟨hn, I.nodup, fun x hx => ((I.mem x).1 hx).1, I.sorted, ?_⟩
  intro y hy hn x hx
  refine (I.off h1 h2 x hx).trans ?_
  rw [I.mem y] at hn
  have hc : y.toNat < pv ∨ nx < y.toNat := by
    by_contra hc
    exact hn ⟨hy, by omega, by omega⟩
  rcases hc with hc | hc
  · have := mod_gap (m := m) hc (by rw [I.pvm, hy.ntt.2])
    exact le_off (by omega)
  · have := mod_gap (m := m) hc (by rw [I.nxm, hy.ntt.2])
    have := y.toNat_lt
    have h61 := hy.below
    have a := I.nxs
    rcases ha with ha | ha | ha
    · omega
    · exact le_off (by omega)
    · have := h61 ha
      subst ha
      omega

theorem QInv.few {m s n : ℕ} {ps : List UInt64} {nx pv : ℕ} (I : QInv m s ps nx pv) (hn : ps.length < n)
    (ha : 2 ^ 64 ≤ nx + m ∨ s = 61) (hb : pv ≤ m) : TooFew m s n := by
  intro l hl hc
  refine lt_of_le_of_lt (List.Nodup.subperm hl ?_).length_le hn
  intro y hy
  have hy' := hc y hy
  rw [I.mem y]
  refine ⟨hy', ?_, ?_⟩
  · by_contra h
    have := mod_gap (m := m) (by omega : y.toNat < pv) (by rw [I.pvm, hy'.ntt.2])
    have : y.toNat = 0 := by omega
    have hp := hy'.ntt.1
    rw [this] at hp
    exact absurd hp Nat.not_prime_zero
  · by_contra h
    have := mod_gap (m := m) (by omega : nx < y.toNat) (by rw [I.nxm, hy'.ntt.2])
    have := y.toNat_lt
    have a := I.nxs
    rcases ha with ha | ha
    · omega
    · have := hy'.below ha
      subst ha
      omega

theorem overflow_iff {nx m : UInt64} : 0xffffffffffffffff - m < nx ↔ 18446744073709551616 ≤ nx.toNat + m.toNat := by
  have h6 : (0xffffffffffffffff - m).toNat = 2 ^ 64 - 1 - m.toNat :=
    UInt64.toNat_sub_of_le _ _ (UInt64.le_iff_toNat_le.2 (by
      have := m.toNat_lt
      show m.toNat ≤ 2 ^ 64 - 1
      omega))
  have := m.toNat_lt
  rw [UInt64.lt_iff_toNat_lt, h6]
  omega

theorem up_toNat {nx m : UInt64} (h : ¬ 18446744073709551616 ≤ nx.toNat + m.toNat) : (nx + m).toNat = nx.toNat + m.toNat := by
  rw [UInt64.toNat_add, Nat.mod_eq_of_lt (by omega)]

theorem down_toNat {pv m : UInt64} (h : m.toNat ≤ pv.toNat) : (pv - m).toNat + m.toNat = pv.toNat := by
  rw [UInt64.toNat_sub_of_le _ _ (UInt64.le_iff_toNat_le.2 h)]
  omega

/-- the loop of `GenerateNTTPrimesQ` -/
theorem genPrimesQ_spec {m : UInt64} {s levels : ℕ} (hm : 1 < m.toNat) (hs : s ≤ 60) : ∀ (fuel : ℕ) (ps : List UInt64)
    (nx pv : UInt64) (cn cp : Bool), QInv m.toNat s ps nx.toNat pv.toNat → ps.length < levels →
    (cn = true → cp = true → nx.toNat + pv.toNat = 2 * (2 ^ s + 1)) →
    (cn = false → 18446744073709551616 ≤ nx.toNat + m.toNat ∧ (cp = true → nx.toNat + pv.toNat ≤ 2 * (2 ^ s + 1))) →
    (cp = false → pv.toNat < m.toNat ∧ (cn = true → 2 * (2 ^ s + 1) ≤ nx.toNat + pv.toNat)) →
    (∀ l, genPrimesQLoop m levels fuel ps nx pv cn cp = some (some l) → NearestModuli m.toNat s levels l) ∧
    (genPrimesQLoop m levels fuel ps nx pv cn cp = some none → TooFew m.toNat s levels) := by
  intro fuel
  induction fuel with
  | zero => intro ps nx pv cn cp _ _ _ _ _; exact ⟨fun l h => (by cases h), fun h => (by cases h)⟩
  | succ fuel ih =>
    intro ps nx pv cn cp I hlen hsync hcn hcp
    unfold genPrimesQLoop
    split
    · rename_i hno
      have hn : cn = false := by cases cn <;> simp_all
      have hp : cp = false := by cases cp <;> simp_all
      refine ⟨fun l h => (by cases h), fun _ => ?_⟩
      exact I.few hlen (Or.inl (hcn hn).1) (hcp hp).1.le
    rename_i hsome
    simp only [gt_iff_lt]
    simp only [overflow_iff]
    simp only [UInt64.lt_iff_toNat_lt]
    -- upward half
    obtain ⟨nx', ps', cn', e1, e2, e3, I', hmv⟩ : ∃ (nx' : UInt64) (ps' : List UInt64) (cn' : Bool),
        nx' = (if cn = true ∧ ¬ 18446744073709551616 ≤ nx.toNat + m.toNat then nx + m else nx) ∧
        ps' = (if cn = true ∧ ¬ 18446744073709551616 ≤ nx.toNat + m.toNat ∧ isPrime nx' then ps ++ [nx'] else ps) ∧
        cn' = (cn && !decide (18446744073709551616 ≤ nx.toNat + m.toNat)) ∧ QInv m.toNat s ps' nx'.toNat pv.toNat ∧
        ((cn = true ∧ cn' = true ∧ nx'.toNat = nx.toNat + m.toNat) ∨
          (cn' = false ∧ nx' = nx ∧ ps' = ps ∧ 18446744073709551616 ≤ nx.toNat + m.toNat)) := by
      refine ⟨_, _, _, rfl, rfl, rfl, ?_⟩
      by_cases h : cn = true ∧ ¬ 18446744073709551616 ≤ nx.toNat + m.toNat
      · rw [if_pos h]
        have e : (if cn = true ∧ ¬ 18446744073709551616 ≤ nx.toNat + m.toNat ∧ isPrime (nx + m) then ps ++ [nx + m] else ps) =
            if isPrime (nx + m) then ps ++ [nx + m] else ps := by
          by_cases hp : isPrime (nx + m)
          · rw [if_pos ⟨h.1, h.2, hp⟩, if_pos hp]
          · rw [if_neg (fun hc => hp hc.2.2), if_neg hp]
        rw [e, up_toNat h.2]
        refine ⟨I.up hm hs (up_toNat h.2) ?_, Or.inl ⟨h.1, ?_, rfl⟩⟩
        · cases hc : cp
          · have := (hcp hc).2 h.1; omega
          · have := hsync h.1 hc; omega
        · rw [h.1, decide_eq_false h.2]; rfl
      · rw [if_neg h, if_neg (fun hc => h ⟨hc.1, hc.2.1⟩)]
        have ho : 18446744073709551616 ≤ nx.toNat + m.toNat := by
          cases hc : cn
          · exact (hcn hc).1
          · by_contra ho; exact h ⟨hc, ho⟩
        refine ⟨I, Or.inr ⟨?_, rfl, rfl, ho⟩⟩
        rw [decide_eq_true ho, Bool.not_true, Bool.and_false]
    rw [← e1, ← e3, ← e2]
    have hlen' : ps'.length ≤ ps.length + 1 := by
      rw [e2]; split <;> simp
    have hbelow : nx.toNat + pv.toNat ≤ 2 * (2 ^ s + 1) ∨ pv.toNat < m.toNat := by
      cases hc : cp
      · exact Or.inr (hcp hc).1
      · cases hc' : cn
        · exact Or.inl ((hcn hc').2 hc)
        · exact Or.inl (hsync hc' hc).le
    split
    · rename_i hret
      refine ⟨fun l h => ?_, fun h => (by cases h)⟩
      cases h
      have hnx : nx'.toNat = nx.toNat + m.toNat := by
        rcases hmv with h | h
        · exact h.2.2
        · exact absurd h.2.2.2 hret.2.1
      have a := I.nxs
      have b := I.pvs
      refine I'.done (D := nx'.toNat - (2 ^ s + 1)) hret.2.2.2 (by omega) ?_ (Or.inr (Or.inl (by omega))) ?_
      · cases hc : cp
        · have := (hcp hc).2 hret.1; omega
        · have := hsync hret.1 hc; omega
      · rcases hbelow with h | h
        · right; omega
        · left; omega
    rename_i hnret
    have hlt' : ps'.length < levels := by
      by_cases hp : cn = true ∧ ¬ 18446744073709551616 ≤ nx.toNat + m.toNat ∧ isPrime nx'
      · have : ps'.length ≠ levels := fun hc => hnret ⟨hp.1, hp.2.1, hp.2.2, hc⟩
        omega
      · rw [e2, if_neg hp]; exact hlen
    -- downward half
    obtain ⟨pv', ps'', cp', f1, f2, f3, I'', hmv'⟩ : ∃ (pv' : UInt64) (ps'' : List UInt64) (cp' : Bool),
        pv' = (if cp = true ∧ ¬ pv.toNat < m.toNat then pv - m else pv) ∧
        ps'' = (if cp = true ∧ ¬ pv.toNat < m.toNat ∧ isPrime pv' then ps' ++ [pv'] else ps') ∧
        cp' = (cp && !decide (pv.toNat < m.toNat)) ∧ QInv m.toNat s ps'' nx'.toNat pv'.toNat ∧
        ((cp = true ∧ cp' = true ∧ pv'.toNat + m.toNat = pv.toNat) ∨
          (cp' = false ∧ pv' = pv ∧ ps'' = ps' ∧ pv.toNat < m.toNat)) := by
      refine ⟨_, _, _, rfl, rfl, rfl, ?_⟩
      by_cases h : cp = true ∧ ¬ pv.toNat < m.toNat
      · rw [if_pos h]
        have e : (if cp = true ∧ ¬ pv.toNat < m.toNat ∧ isPrime (pv - m) then ps' ++ [pv - m] else ps') =
            if isPrime (pv - m) then ps' ++ [pv - m] else ps' := by
          by_cases hp : isPrime (pv - m)
          · rw [if_pos ⟨h.1, h.2, hp⟩, if_pos hp]
          · rw [if_neg (fun hc => hp hc.2.2), if_neg hp]
        have hd := down_toNat (pv := pv) (m := m) (by omega)
        rw [e, show (pv - m).toNat = pv.toNat - m.toNat by omega]
        refine ⟨I'.down hm hd ?_, Or.inl ⟨h.1, ?_, by omega⟩⟩
        · rcases hmv with g | g
          · have := hsync g.1 h.1; omega
          · rw [g.2.1]
            rcases hbelow with k | k
            · omega
            · exact absurd k h.2
        · rw [h.1, decide_eq_false h.2]; rfl
      · rw [if_neg h, if_neg (fun hc => h ⟨hc.1, hc.2.1⟩)]
        have ho : pv.toNat < m.toNat := by
          cases hc : cp
          · exact (hcp hc).1
          · by_contra ho; exact h ⟨hc, ho⟩
        refine ⟨I', Or.inr ⟨?_, rfl, rfl, ho⟩⟩
        rw [decide_eq_true ho, Bool.not_true, Bool.and_false]
    rw [← f1, ← f3, ← f2]
    have hlen'' : ps''.length ≤ ps'.length + 1 := by
      rw [f2]; split <;> simp
    split
    · rename_i hret
      refine ⟨fun l h => ?_, fun h => (by cases h)⟩
      cases h
      have hpv : pv'.toNat + m.toNat = pv.toNat := by
        rcases hmv' with h | h
        · exact h.2.2
        · exact absurd h.2.2.2 hret.2.1
      have a := I.nxs
      have b := I.pvs
      refine I''.done (D := 2 ^ s + 1 - pv'.toNat) hret.2.2.2 ?_ (by omega) ?_ (Or.inr (by omega))
      · rcases hmv with g | g
        · have := hsync g.1 hret.1; omega
        · rw [g.2.1]
          rcases hbelow with k | k <;> omega
      · rcases hmv with g | g
        · have := hsync g.1 hret.1; right; left; omega
        · rw [g.2.1]; exact Or.inl g.2.2.2
    rename_i hnret'
    have hlt'' : ps''.length < levels := by
      by_cases hp : cp = true ∧ ¬ pv.toNat < m.toNat ∧ isPrime pv'
      · have : ps''.length ≠ levels := fun hc => hnret' ⟨hp.1, hp.2.1, hp.2.2, hc⟩
        omega
      · rw [f2, if_neg hp]; exact hlt'
    refine ih ps'' nx' pv' cn' cp' I'' hlt'' ?_ ?_ ?_
    · intro h1 h2
      rcases hmv with g | g
      · rcases hmv' with k | k
        · have := hsync g.1 k.1; omega
        · rw [k.1] at h2; cases h2
      · rw [g.1] at h1; cases h1
    · intro h1
      rcases hmv with g | g
      · rw [g.2.1] at h1; cases h1
      · rw [g.2.1]
        refine ⟨g.2.2.2, fun hc => ?_⟩
        rcases hmv' with k | k
        · rcases hbelow with hh | hh <;> omega
        · rw [k.1] at hc; cases hc
    · intro h1
      rcases hmv' with k | k
      · rw [k.2.1] at h1; cases h1
      · rw [k.2.1]
        refine ⟨k.2.2.2, fun hc => ?_⟩
        rcases hmv with g | g
        · cases hc : cp
          · have := (hcp hc).2 g.1; omega
          · have := hsync g.1 hc; omega
        · rw [g.1] at hc; cases hc

theorem start_toNat {s : ℕ} (hs : s ≤ 61) : (UInt64.ofNat (2 ^ s) + 1).toNat = 2 ^ s + 1 := by
  have : 2 ^ s ≤ 2 ^ 61 := Nat.pow_le_pow_right (by omega) hs
  rw [UInt64.toNat_add, UInt64.toNat_ofNat', Nat.mod_eq_of_lt (by omega : 2 ^ s < 2 ^ 64)]
  show (2 ^ s + 1) % 2 ^ 64 = _
  exact Nat.mod_eq_of_lt (by omega)

/-- the start of both searches -/
theorem QInv.init {m : UInt64} {s : ℕ} (hm : 1 < m.toNat) (hs : s ≤ 61) (hd : m.toNat ∣ 2 ^ s) :
    QInv m.toNat s [] (UInt64.ofNat (2 ^ s) + 1).toNat (UInt64.ofNat (2 ^ s) + 1).toNat := by
  have h1 := start_mod hm hd
  rw [start_toNat hs] at h1 ⊢
  refine ⟨fun x => ⟨fun h => by simp at h, ?_⟩, List.nodup_nil, List.Pairwise.nil, le_rfl, le_rfl, h1, h1⟩
  rintro ⟨h, h2, h3⟩
  exact absurd (le_antisymm h3 h2) h.ne

/-- the loop of `GenerateNTTPrimesP` -/
theorem genPrimesP_spec {m : UInt64} {n : ℕ} (hm : 1 < m.toNat) : ∀ (fuel : ℕ) (ps : List UInt64) (x : UInt64),
    QInv m.toNat 61 ps (2 ^ 61 + 1) x.toNat → ps.length < n →
    (∀ l, genPrimesPLoop m n fuel ps x = some (some l) → NearestModuli m.toNat 61 n l) ∧
    (genPrimesPLoop m n fuel ps x = some none → TooFew m.toNat 61 n) := by
  intro fuel
  induction fuel with
  | zero => intro ps x _ _; exact ⟨fun l h => (by cases h), fun h => (by cases h)⟩
  | succ fuel ih =>
    intro ps x I hlen
    unfold genPrimesPLoop
    split
    · rename_i hgt
      have hgt' : m.toNat < x.toNat := UInt64.lt_iff_toNat_lt.1 hgt
      have hd := down_toNat (pv := x) (m := m) (by omega)
      have b := I.pvs
      have I' := I.down hm hd (by omega)
      rw [show x.toNat - m.toNat = (x - m).toNat by omega] at I'
      dsimp only
      split
      · rename_i hp
        rw [if_pos hp] at I'
        split
        · rename_i hl
          refine ⟨fun l h => ?_, fun h => (by cases h)⟩
          cases h
          exact I'.done (D := 2 ^ 61 + 1 - (x - m).toNat) hl (by omega) (by omega) (Or.inr (Or.inr rfl)) (by omega)
        · rename_i hl
          exact ih _ _ I' (by rw [List.length_append, List.length_singleton] at hl ⊢; omega)
      · rename_i hp
        rw [if_neg hp] at I'
        exact ih _ _ I' hlen
    · rename_i hgt
      refine ⟨fun l h => (by cases h), fun _ => I.few hlen (Or.inr rfl) ?_⟩
      by_contra hc
      exact hgt (UInt64.lt_iff_toNat_lt.2 (by omega))

/-- **C102 (primes of one size).** For every size from the logarithm of the root order up to 61, `GenerateNTTPrimes` returns the
`n` usable primes nearest to the power of two, nearest first; it panics only when there are fewer. -/
theorem C102_primes {fuel s n : ℕ} {m : UInt64} (hm : 1 < m.toNat) (hs : s ≤ 61) (hd : m.toNat ∣ 2 ^ s) (hn : 0 < n) :
    (∀ l, generateNTTPrimes fuel s m n = some (some l) → NearestModuli m.toNat s n l) ∧
    (generateNTTPrimes fuel s m n = some none → TooFew m.toNat s n) := by
  unfold generateNTTPrimes
  rw [if_neg (by omega)]
  have I := QInv.init hm hs hd
  split
  · rename_i h61
    subst h61
    refine genPrimesP_spec hm fuel [] _ ?_ hn
    have e := start_toNat (s := 61) le_rfl
    convert I using 2
    rw [e]
  · have e := start_toNat hs
    refine genPrimesQ_spec hm (by omega) fuel [] _ _ true true I hn ?_ ?_ ?_
    · intro _ _
      rw [e]; ring
    · intro h; cases h
    · intro h; cases h

theorem ite_some_ne {α : Type} {c : Prop} [Decidable c] {a : α} {b : Option α} (h : b ≠ none) :
    (if c then some a else b) ≠ none := by
  split
  · simp
  · exact h

/-- the search of `GenerateNTTPrimesQ` ends -/
theorem genPrimesQ_ends {m : UInt64} {levels : ℕ} (hm : 0 < m.toNat) : ∀ (fuel : ℕ) (ps : List UInt64) (nx pv : UInt64)
    (cn cp : Bool), (if cn then 2 ^ 64 - nx.toNat else 0) + (if cp then pv.toNat + 1 else 0) < fuel →
    genPrimesQLoop m levels fuel ps nx pv cn cp ≠ none := by
  intro fuel
  induction fuel with
  | zero => intro ps nx pv cn cp h; omega
  | succ fuel ih =>
    intro ps nx pv cn cp h
    unfold genPrimesQLoop
    split
    · simp
    rename_i hsome
    simp only [gt_iff_lt]
    simp only [overflow_iff]
    simp only [UInt64.lt_iff_toNat_lt]
    refine ite_some_ne (ite_some_ne (ih _ _ _ _ _ ?_))
    have hl := nx.toNat_lt
    have h1 : (if (cn && !decide (18446744073709551616 ≤ nx.toNat + m.toNat)) = true then
        2 ^ 64 - (if cn = true ∧ ¬ 18446744073709551616 ≤ nx.toNat + m.toNat then nx + m else nx).toNat else 0) +
        (if cn then 1 else 0) ≤ (if cn then 2 ^ 64 - nx.toNat else 0) := by
      cases cn
      · simp
      · by_cases ho : 18446744073709551616 ≤ nx.toNat + m.toNat
        · rw [decide_eq_true ho]; simp; omega
        · have e := up_toNat ho
          simp only [ho, decide_false, not_false_eq_true, and_true, if_true, Bool.not_false, Bool.and_true, e]; omega
    have h2 : (if (cp && !decide (pv.toNat < m.toNat)) = true then
        (if cp = true ∧ ¬ pv.toNat < m.toNat then pv - m else pv).toNat + 1 else 0) +
        (if cp then 1 else 0) ≤ (if cp then pv.toNat + 1 else 0) := by
      cases cp
      · simp
      · by_cases ho : pv.toNat < m.toNat
        · rw [decide_eq_true ho]; simp
        · have := down_toNat (pv := pv) (m := m) (by omega)
          simp only [ho, decide_false, not_false_eq_true, and_true, if_true, Bool.not_false, Bool.and_true]; omega
    have h3 : 1 ≤ (if cn then 1 else 0) + (if cp then 1 else 0) := by
      cases cn <;> cases cp <;> simp_all
    omega

/-- the search of `GenerateNTTPrimesP` ends -/
theorem genPrimesP_ends {m : UInt64} {n : ℕ} (hm : 0 < m.toNat) : ∀ (fuel : ℕ) (ps : List UInt64) (x : UInt64),
    x.toNat < fuel → genPrimesPLoop m n fuel ps x ≠ none := by
  intro fuel
  induction fuel with
  | zero => intro ps x h; omega
  | succ fuel ih =>
    intro ps x h
    unfold genPrimesPLoop
    split
    · rename_i hgt
      have hgt' : m.toNat < x.toNat := UInt64.lt_iff_toNat_lt.1 hgt
      have hd := down_toNat (pv := x) (m := m) (by omega)
      dsimp only
      split
      · split
        · simp
        · exact ih _ _ (by omega)
      · exact ih _ _ (by omega)
    · simp

/-- **C102 (termination).** `GenerateNTTPrimes` always returns or panics. -/
theorem C102_terminates {fuel s n : ℕ} {m : UInt64} (hm : 0 < m.toNat) (hf : 2 ^ 65 < fuel) :
    generateNTTPrimes fuel s m n ≠ none := by
  unfold generateNTTPrimes
  split
  · simp
  have := (UInt64.ofNat (2 ^ s) + 1).toNat_lt
  split
  · exact genPrimesP_ends hm fuel [] _ (by omega)
  · refine genPrimesQ_ends hm fuel [] _ _ true true ?_
    simp only [if_true]
    omega

/-- **C102 fails for the power of two plus one** (documented as "the best available deviation from the base power of 2"): 257
is a usable prime at distance one, and is not returned. -/
theorem C102_fermat_violated : generateNTTPrimes 20 8 32 1 = some (some [193]) ∧ NttPrime 32 257 ∧
    ((257 : ℤ) - 2 ^ 8).natAbs < ((193 : ℤ) - 2 ^ 8).natAbs := by
  refine ⟨by decide +kernel, ⟨by norm_num, by norm_num⟩, by norm_num⟩

/-! ## The chain of moduli -/

theorem genPrimesFor_ok {fuel : ℕ} {m : UInt64} {sizes : List ℤ} : ∀ {l : List ℤ} {f : ℤ → List UInt64},
    genPrimesFor fuel m sizes l = some (.ok f) → l.Nodup →
    ∀ s ∈ l, generateNTTPrimes fuel s.toNat m (sizes.count s) = some (some (f s)) := by
  intro l
  induction l with
  | nil => intro f _ _ s hs; simp at hs
  | cons t l ih =>
    intro f h hnd s hs
    unfold genPrimesFor at h
    split at h
    · cases h
    · cases h
    · rename_i ps hps
      rw [List.nodup_cons] at hnd
      cases hg : genPrimesFor fuel m sizes l with
      | none => rw [hg] at h; cases h
      | some r =>
        rw [hg] at h
        cases r with
        | err => cases h
        | panic => cases h
        | ok g =>
          cases h
          rcases List.mem_cons.1 hs with rfl | hs
          · rw [Function.update_self]; exact hps
          · have hne : s ≠ t := fun e => hnd.1 (e ▸ hs)
            rw [Function.update_of_ne hne]
            exact ih hg hnd.2 s hs

theorem genPrimesFor_cases {fuel : ℕ} {m : UInt64} {sizes : List ℤ} : ∀ {l : List ℤ},
    genPrimesFor fuel m sizes l ≠ some .err ∧ (genPrimesFor fuel m sizes l = some .panic →
      ∃ s ∈ l, generateNTTPrimes fuel s.toNat m (sizes.count s) = some none) ∧
    (genPrimesFor fuel m sizes l = none → ∃ s ∈ l, generateNTTPrimes fuel s.toNat m (sizes.count s) = none) := by
  intro l
  induction l with
  | nil => exact ⟨by simp [genPrimesFor], fun h => by simp [genPrimesFor] at h, fun h => by simp [genPrimesFor] at h⟩
  | cons t l ih =>
    unfold genPrimesFor
    split
    · rename_i h
      exact ⟨by simp, fun h => by simp at h, fun _ => ⟨t, by simp, h⟩⟩
    · rename_i h
      exact ⟨by simp, fun _ => ⟨t, by simp, h⟩, fun h => by simp at h⟩
    · obtain ⟨i1, i2, i3⟩ := ih
      cases hg : genPrimesFor fuel m sizes l with
      | none =>
        obtain ⟨s, hs, h⟩ := i3 hg
        exact ⟨by simp, fun h => by simp at h, fun _ => ⟨s, List.mem_cons_of_mem _ hs, h⟩⟩
      | some r =>
        cases r with
        | err => exact absurd hg i1
        | panic =>
          obtain ⟨s, hs, h⟩ := i2 hg
          exact ⟨by simp, fun _ => ⟨s, List.mem_cons_of_mem _ hs, h⟩, fun h => by simp at h⟩
        | ok g => exact ⟨by simp, fun h => by simp at h, fun h => by simp at h⟩

/-- the assignment takes the primes of each size in order -/
theorem assignPrimes_ok : ∀ {l : List ℤ} {f : ℤ → List UInt64}, (∀ s, l.count s ≤ (f s).length) →
    ∃ r, assignPrimes f l = .ok (r, fun s => (f s).drop (l.count s)) ∧ r.length = l.length ∧
      ∀ i (h : i < l.length), r.getD i 0 = (f l[i]).getD ((l.take i).count l[i]) 0 := by
  intro l
  induction l with
  | nil => intro f _; exact ⟨[], by simp [assignPrimes], rfl, fun i h => by simp at h⟩
  | cons t l ih =>
    intro f hf
    unfold assignPrimes
    cases ht : f t with
    | nil =>
      have := hf t
      rw [ht] at this
      simp at this
    | cons x xs =>
      dsimp only
      obtain ⟨r, h1, h2, h3⟩ := ih (f := Function.update f t xs) (by
        intro s
        have := hf s
        by_cases hs : s = t
        · subst hs
          rw [Function.update_self]
          rw [ht, List.count_cons_self, List.length_cons] at this
          omega
        · rw [Function.update_of_ne hs]
          rw [List.count_cons_of_ne (Ne.symm hs)] at this
          exact this)
      rw [h1]
      refine ⟨x :: r, ?_, by simp [h2], ?_⟩
      · simp only [Go.bind_ok, Go.pure_eq, Go.ok.injEq, Prod.mk.injEq, true_and]
        funext s
        by_cases hs : s = t
        · subst hs
          rw [Function.update_self, ht, List.count_cons_self, List.drop_succ_cons]
        · rw [Function.update_of_ne hs, List.count_cons_of_ne (Ne.symm hs)]
      · intro i hi
        cases i with
        | zero => simp [ht]
        | succ i =>
          have hi' : i < l.length := by simpa using hi
          simp only [List.getD_cons_succ, List.getElem_cons_succ, List.take_succ_cons]
          rw [h3 i hi']
          by_cases hs : l[i] = t
          · rw [hs, Function.update_self, ht, List.count_cons_self, List.getD_cons_succ]
          · rw [Function.update_of_ne hs, List.count_cons_of_ne (Ne.symm hs)]

theorem count_take_lt {l : List ℤ} : ∀ {i : ℕ} (h : i < l.length), (l.take i).count l[i] < l.count l[i] := by
  intro i h
  have e0 : l.count l[i] = (l.take i).count l[i] + (l.drop i).count l[i] := by
    rw [← List.count_append, List.take_append_drop]
  have : 0 < (l.drop i).count l[i] := by
    rw [List.count_pos_iff]
    have e : l.drop i = l[i] :: l.drop (i + 1) := List.drop_eq_getElem_cons h
    rw [e]; exact List.mem_cons_self
  omega

theorem count_take_mono {l : List ℤ} {i j : ℕ} (hij : i < j) (hj : j < l.length) (he : l[i] = l[j]) :
    (l.take i).count l[i] < (l.take j).count l[j] := by
  have h := count_take_lt (l := l.take j) (i := i) (by rw [List.length_take]; omega)
  rw [List.getElem_take, List.take_take, min_eq_left hij.le] at h
  rw [← he]
  exact h

/-- every occurrence number is met -/
theorem exists_count_take {l : List ℤ} {s : ℤ} : ∀ {k : ℕ}, k < l.count s →
    ∃ j, ∃ h : j < l.length, l[j] = s ∧ (l.take j).count s = k := by
  induction l with
  | nil => intro k h; simp at h
  | cons t l ih =>
    intro k h
    by_cases ht : t = s
    · subst ht
      cases k with
      | zero => exact ⟨0, by simp, by simp, by simp⟩
      | succ k =>
        rw [List.count_cons_self] at h
        obtain ⟨j, hj, e1, e2⟩ := ih (k := k) (by omega)
        exact ⟨j + 1, by simpa using hj, by simpa using e1, by rw [List.take_succ_cons, List.count_cons_self, e2]⟩
    · rw [List.count_cons_of_ne ht] at h
      obtain ⟨j, hj, e1, e2⟩ := ih h
      exact ⟨j + 1, by simpa using hj, by simpa using e1, by rw [List.take_succ_cons, List.count_cons_of_ne ht, e2]⟩

theorem moduliFor_of {m : ℕ} {sizes : List ℤ} {f : ℤ → List UInt64} {r : List UInt64}
    (hf : ∀ s ∈ sizes, NearestModuli m s.toNat (sizes.count s) (f s)) (hl : r.length = sizes.length)
    (hr : ∀ i (h : i < sizes.length), r.getD i 0 = (f sizes[i]).getD ((sizes.take i).count sizes[i]) 0) : ModuliFor m sizes r := by
  have at_ : ∀ i (h : i < sizes.length), ∃ k, ∃ hk : k < (f sizes[i]).length, k = (sizes.take i).count sizes[i] ∧
      r.getD i 0 = (f sizes[i])[k] := by
    intro i h
    have hk : (sizes.take i).count sizes[i] < (f sizes[i]).length := by
      rw [(hf _ (List.getElem_mem h)).length]; exact count_take_lt h
    exact ⟨_, hk, rfl, by rw [hr i h, List.getD_eq_getElem _ _ hk]⟩
  refine ⟨hl, ?_, ?_, ?_, ?_⟩
  · intro i h
    obtain ⟨k, hk, -, e⟩ := at_ i h
    rw [e]
    exact (hf _ (List.getElem_mem h)).usable _ (List.getElem_mem hk)
  · intro i j hij hj he hc
    obtain ⟨k, hk, e1, e⟩ := at_ i (by omega)
    obtain ⟨k', hk', e1', e'⟩ := at_ j hj
    have hlt := count_take_mono hij hj he
    rw [e, e'] at hc
    have hc' : (f sizes[j])[k]'(by rw [← he]; exact hk) = (f sizes[j])[k'] := by
      rw [← hc]; simp only [he]
    have := ((hf _ (List.getElem_mem hj)).nodup.getElem_inj_iff).1 hc'
    omega
  · intro i j hij hj he
    obtain ⟨k, hk, e1, e⟩ := at_ i (by omega)
    obtain ⟨k', hk', e1', e'⟩ := at_ j hj
    have hlt := count_take_mono hij hj he
    rw [e, e']
    have := List.pairwise_iff_getElem.1 (hf _ (List.getElem_mem hj)).sorted k k' (by rw [← he]; exact hk) hk' (by omega)
    simp only [he]
    exact this
  · intro i h y hy hno
    obtain ⟨k, hk, -, e⟩ := at_ i h
    rw [e]
    refine (hf _ (List.getElem_mem h)).nearest y hy ?_ _ (List.getElem_mem hk)
    intro hmem
    obtain ⟨k', hk', e'⟩ := List.getElem_of_mem hmem
    obtain ⟨j, hj, j1, j2⟩ := exists_count_take (l := sizes) (s := sizes[i]) (k := k') (by
      rw [← (hf _ (List.getElem_mem h)).length]; exact hk')
    refine hno j hj j1 ?_
    rw [hr j hj, j1, j2, List.getD_eq_getElem _ _ hk', e']

theorem checkModuliLogSize_iff {logQ logP : List ℤ} : checkModuliLogSize logQ logP = .ok () ↔
    (∀ s ∈ logQ, 1 ≤ s ∧ s ≤ 60) ∧ ∀ s ∈ logP, 1 ≤ s ∧ s ≤ 61 := by
  unfold checkModuliLogSize maxModuliSize
  have a : (logQ.any (fun qi => decide (qi ≤ 0 ∨ qi > ((60 : ℕ) : ℤ))) = true) ↔ ¬ ∀ s ∈ logQ, 1 ≤ s ∧ s ≤ 60 := by
    rw [List.any_eq_true]
    push Not
    constructor
    · rintro ⟨x, hx, h⟩
      have := of_decide_eq_true h
      exact ⟨x, hx, fun _ => by omega⟩
    · rintro ⟨x, hx, h⟩
      exact ⟨x, hx, decide_eq_true (by by_contra hc; have := h (by omega); omega)⟩
  have b : (logP.any (fun qi => decide (qi ≤ 0 ∨ qi > ((60 : ℕ) : ℤ) + 1)) = true) ↔ ¬ ∀ s ∈ logP, 1 ≤ s ∧ s ≤ 61 := by
    rw [List.any_eq_true]
    push Not
    constructor
    · rintro ⟨x, hx, h⟩
      have := of_decide_eq_true h
      exact ⟨x, hx, fun _ => by omega⟩
    · rintro ⟨x, hx, h⟩
      exact ⟨x, hx, decide_eq_true (by by_contra hc; have := h (by omega); omega)⟩
  split
  · rename_i h
    exact ⟨fun h => (by cases h), fun hc => absurd hc.1 (a.1 h)⟩
  · rename_i h
    split
    · rename_i h'
      exact ⟨fun h => (by cases h), fun hc => absurd hc.2 (b.1 h')⟩
    · rename_i h'
      exact ⟨fun _ => ⟨by by_contra hc; exact h (a.2 hc), by by_contra hc; exact h' (b.2 hc)⟩, fun _ => rfl⟩

theorem checkSizeParams_iff {logN lenQ lenP : ℕ} : checkSizeParams logN lenQ lenP = .ok () ↔
    4 ≤ logN ∧ logN ≤ 17 ∧ lenQ ≤ 100 ∧ lenP ≤ 100 := by
  unfold checkSizeParams maxLogN minLogN maxModuliCount
  split
  · exact ⟨fun h => (by cases h), fun h => by omega⟩
  split
  · exact ⟨fun h => (by cases h), fun h => by omega⟩
  split
  · exact ⟨fun h => (by cases h), fun h => by omega⟩
  split
  · exact ⟨fun h => (by cases h), fun h => by omega⟩
  exact ⟨fun _ => by omega, fun _ => rfl⟩

/-- `GenModuli` on sizes within the limits -/
theorem genModuli_inRange {fuel : ℕ} {logN : ℤ} {logQ logP : List ℤ} (h : SizesInRange logN logQ logP) :
    genModuli fuel logN logQ logP =
      match genPrimesFor fuel (UInt64.ofNat (2 ^ (logN.toNat + 1))) (logQ ++ logP) (logQ ++ logP).dedup with
      | none => none
      | some .err => some .err
      | some .panic => some .panic
      | some (.ok primes) => some (do
        let (q, primes) ← assignPrimes primes logQ
        let (p, _) ← assignPrimes primes logP
        return (q, p)) := by
  obtain ⟨h1, h2, h3, h4, h5⟩ := h
  unfold genModuli
  rw [if_neg (by omega), checkSizeParams_iff.2 ⟨by omega, by omega, h3, h4⟩]
  dsimp only
  rw [checkModuliLogSize_iff.2 h5]
  rfl

theorem genModuli_outOfRange {fuel : ℕ} {logN : ℤ} {logQ logP : List ℤ} (h : ¬ SizesInRange logN logQ logP) :
    genModuli fuel logN logQ logP = some .err := by
  unfold genModuli
  split
  · rfl
  rename_i h0
  cases hs : checkSizeParams logN.toNat logQ.length logP.length with
  | error e => rfl
  | ok u =>
    dsimp only
    have := checkSizeParams_iff.1 hs
    cases hm : checkModuliLogSize logQ logP with
    | error e => rfl
    | ok u =>
      have h5 := checkModuliLogSize_iff.1 hm
      exact absurd ⟨by omega, by omega, this.2.2.1, this.2.2.2, h5⟩ h

theorem genModuli_cases {fuel : ℕ} {logN : ℤ} {logQ logP : List ℤ} (hs : SizesInRange logN logQ logP)
    (hbig : ∀ s ∈ logQ ++ logP, logN + 1 ≤ s) :
    (genModuli fuel logN logQ logP = none ∧ fuel ≤ 2 ^ 65) ∨
    (genModuli fuel logN logQ logP = some .panic ∧
      ∃ s ∈ logQ ++ logP, TooFew (2 ^ (logN + 1).toNat) s.toNat ((logQ ++ logP).count s)) ∨
    ∃ q p, genModuli fuel logN logQ logP = some (.ok (q, p)) ∧ q.length = logQ.length ∧ p.length = logP.length ∧
      ModuliFor (2 ^ (logN + 1).toNat) (logQ ++ logP) (q ++ p) := by
  rw [genModuli_inRange hs]
  obtain ⟨h1, h2, -, -, h5, h6⟩ := hs
  have hN : logN.toNat + 1 = (logN + 1).toNat := by omega
  set m := UInt64.ofNat (2 ^ (logN.toNat + 1)) with hm
  have hmn : m.toNat = 2 ^ (logN + 1).toNat := by
    rw [hm, UInt64.toNat_ofNat', hN]
    refine Nat.mod_eq_of_lt (Nat.pow_lt_pow_right (by omega) (by omega))
  have hm1 : 1 < m.toNat := by rw [hmn]; exact Nat.one_lt_two_pow (by omega)
  have hsz : ∀ s ∈ logQ ++ logP, s.toNat ≤ 61 ∧ m.toNat ∣ 2 ^ s.toNat ∧ 0 < (logQ ++ logP).count s := by
    intro s hs
    refine ⟨?_, ?_, List.count_pos_iff.2 hs⟩
    · rcases List.mem_append.1 hs with h | h
      · have := h5 s h; omega
      · have := h6 s h; omega
    · rw [hmn]
      have := hbig s hs
      exact pow_dvd_pow 2 (by omega)
  obtain ⟨c1, c2, c3⟩ := genPrimesFor_cases (fuel := fuel) (m := m) (sizes := logQ ++ logP) (l := (logQ ++ logP).dedup)
  cases hg : genPrimesFor fuel m (logQ ++ logP) (logQ ++ logP).dedup with
  | none =>
    obtain ⟨s, hs, h⟩ := c3 hg
    refine Or.inl ⟨rfl, ?_⟩
    by_contra hf
    exact C102_terminates (by omega) (by omega) h
  | some r =>
    cases r with
    | err => exact absurd hg c1
    | panic =>
      obtain ⟨s, hs, h⟩ := c2 hg
      rw [List.mem_dedup] at hs
      obtain ⟨z1, z2, z3⟩ := hsz s hs
      refine Or.inr (Or.inl ⟨rfl, s, hs, ?_⟩)
      rw [← hmn]
      exact (C102_primes hm1 z1 z2 z3).2 h
    | ok f =>
      dsimp only
      have hf : ∀ s ∈ logQ ++ logP, NearestModuli m.toNat s.toNat ((logQ ++ logP).count s) (f s) := by
        intro s hs
        obtain ⟨z1, z2, z3⟩ := hsz s hs
        exact (C102_primes hm1 z1 z2 z3).1 _ (genPrimesFor_ok hg (List.nodup_dedup _) s (List.mem_dedup.2 hs))
      have hlen : ∀ s, (logQ ++ logP).count s ≤ (f s).length := by
        intro s
        by_cases hs : s ∈ logQ ++ logP
        · rw [(hf s hs).length]
        · rw [List.count_eq_zero_of_not_mem hs]; omega
      obtain ⟨q, q1, q2, q3⟩ := assignPrimes_ok (l := logQ) (f := f) (fun s => by
        have := hlen s; rw [List.count_append] at this; omega)
      obtain ⟨p, p1, p2, p3⟩ := assignPrimes_ok (l := logP) (f := fun s => (f s).drop (logQ.count s)) (fun s => by
        have := hlen s; rw [List.count_append] at this; rw [List.length_drop]; omega)
      refine Or.inr (Or.inr ⟨q, p, ?_, q2, p2, ?_⟩)
      · rw [q1, Go.bind_ok]
        dsimp only
        rw [p1]
        rfl
      · rw [← hmn]
        refine moduliFor_of hf (by simp [q2, p2]) ?_
        intro i hi
        by_cases hi' : i < logQ.length
        · rw [List.getD_append _ _ _ _ (by omega), q3 i hi', List.getElem_append_left hi', List.take_append_of_le_length hi'.le]
        · have hip : i - logQ.length < logP.length := by rw [List.length_append] at hi; omega
          rw [List.getD_append_right _ _ _ _ (by omega), q2, p3 _ hip, List.getElem_append_right (by omega),
            List.take_append, List.take_of_length_le (l := logQ) (by omega), List.count_append]
          simp only [List.getD_eq_getElem?_getD, List.getElem?_drop]

/-- **C102 (rejection).** `GenModuli` returns an error exactly when a size is outside of the limits: the degree between `2^4` and
`2^17`, at most 100 moduli in each chain, sizes from 1 to 60 for the first and to 61 for the second. -/
theorem C102_rejects (fuel : ℕ) (logN : ℤ) (logQ logP : List ℤ) (hbig : ∀ s ∈ logQ ++ logP, logN + 1 ≤ s) :
    genModuli fuel logN logQ logP = some .err ↔ ¬ SizesInRange logN logQ logP := by
  constructor
  · intro h hs
    rcases genModuli_cases (fuel := fuel) hs hbig with ⟨g, -⟩ | ⟨g, -⟩ | ⟨q, p, g, -⟩ <;> · rw [g] at h; cases h
  · exact genModuli_outOfRange

/-- **C102 (partial, the chain).** `GenModuli` returns; on sizes within the limits, each at least the logarithm of the root order,
it either delivers as many moduli as sizes in each chain, all usable primes, distinct and ordered within each size (over both
chains), with no usable prime of that size nearer to the power of two left out — or panics because there are too few.  Missing:
moduli of different sizes may coincide (`C102_shared_violated`); sizes below the logarithm of the root order
(`C09_smallLogQ_violated`). -/
theorem C102_genModuli_partial {fuel : ℕ} {logN : ℤ} {logQ logP : List ℤ} (hs : SizesInRange logN logQ logP)
    (hbig : ∀ s ∈ logQ ++ logP, logN + 1 ≤ s) :
    (2 ^ 65 < fuel → genModuli fuel logN logQ logP ≠ none) ∧
    (∀ q p, genModuli fuel logN logQ logP = some (.ok (q, p)) → q.length = logQ.length ∧ p.length = logP.length ∧
      ModuliFor (2 ^ (logN + 1).toNat) (logQ ++ logP) (q ++ p)) ∧
    (genModuli fuel logN logQ logP = some .panic →
      ∃ s ∈ logQ ++ logP, TooFew (2 ^ (logN + 1).toNat) s.toNat ((logQ ++ logP).count s)) := by
  rcases genModuli_cases (fuel := fuel) hs hbig with ⟨g, h⟩ | ⟨g, h⟩ | ⟨q, p, g, h⟩
  · refine ⟨fun hf => absurd h (by omega), ?_, ?_⟩ <;> rw [g] <;> simp
  · refine ⟨?_, ?_, fun _ => h⟩ <;> rw [g] <;> simp
  · refine ⟨by rw [g]; simp, ?_, by rw [g]; simp⟩
    intro q' p' h'
    rw [g] at h'
    cases h'
    exact h

/-- `GenModuli` does deliver -/
theorem genModuli_example : genModuli 20 4 [6, 8, 6] [8] = some (.ok ([97, 193, 193], [353])) := by decide +kernel

/-- **C102 (partial, moduli of different sizes).** When every modulus is within a quarter of its power of two, all moduli of both
chains are distinct. -/
theorem C102_distinct_partial {m : ℕ} {sizes : List ℤ} {moduli : List UInt64} (M : ModuliFor m sizes moduli)
    (hs : ∀ s ∈ sizes, 2 ≤ s) (hq : ∀ i (h : i < sizes.length),
      4 * offTwoPow (sizes[i]).toNat (moduli.getD i 0).toNat < 2 ^ (sizes[i]).toNat) : moduli.Nodup := by
  have b : ∀ i (h : i < sizes.length), (3 * 2 ^ (sizes[i]).toNat < 4 * (moduli.getD i 0).toNat) ∧
      4 * (moduli.getD i 0).toNat < 5 * 2 ^ (sizes[i]).toNat + 4 := by
    intro i h
    have := hq i h
    have e : ((2 ^ (sizes[i]).toNat : ℕ) : ℤ) = 2 ^ (sizes[i]).toNat := by push_cast; rfl
    unfold offTwoPow at this
    rw [← e] at this
    omega
  have key : ∀ i j (hi : i < sizes.length) (hj : j < sizes.length), sizes[i] < sizes[j] →
      moduli.getD i 0 ≠ moduli.getD j 0 := by
    intro i j hi hj hlt he
    have b1 := (b i hi).2
    have b2 := (b j hj).1
    rw [he] at b1
    have h2 := hs _ (List.getElem_mem hi)
    have h1 : 2 ^ ((sizes[i]).toNat + 1) ≤ 2 ^ (sizes[j]).toNat := Nat.pow_le_pow_right (by omega) (by omega)
    have h4 : 2 ^ 2 ≤ 2 ^ (sizes[i]).toNat := Nat.pow_le_pow_right (by omega) (by omega)
    rw [pow_succ] at h1
    omega
  rw [List.nodup_iff_pairwise_ne, List.pairwise_iff_getElem]
  intro i j hi hj hij he
  have hl := M.length
  have hi' : i < sizes.length := by omega
  have hj' : j < sizes.length := by omega
  rw [← List.getD_eq_getElem _ 0 hi, ← List.getD_eq_getElem _ 0 hj] at he
  rcases lt_trichotomy sizes[i] sizes[j] with h | h | h
  · exact key i j hi' hj' h he
  · exact M.distinct i j hij hj' h he
  · exact key j i hj' hi' h he.symm

/-! ## Parameters -/

theorem newParameters_check {fuel logN : ℕ} {q p : List UInt64} {h : ℕ} {sigma : UInt64} {ty : RingType} {P : RParams}
    (hP : newParameters fuel logN q p h sigma ty = .ok P) : checkModuli q p = .ok () := by
  unfold newParameters at hP
  split at hP
  · cases hP
  split at hP
  · cases hP
  · assumption

/-- **C102 (accepted parameters).** Standard parameters accepted by `NewParameters` whose moduli are below `2^61`, with no modulus
in both chains, meet the hypotheses of the correctness theorems: valid rings of degree `2^logN` on the given moduli. -/
theorem C102_keyParams {fuel logN : ℕ} {q p : List UInt64} {h : ℕ} {sigma : UInt64} {P : RParams}
    (hP : newParameters fuel logN q p h sigma .standard = .ok P) (hp : p ≠ []) (hsmall : ∀ x ∈ q ++ p, x.toNat < 2 ^ 61)
    (hdisj : ∀ x ∈ q, x ∉ p) : ∃ rP, P.ringP = some rP ∧ KeyParams logN P.ringQ rP ∧ P.ringQ.moduli = q ∧ rP.moduli = p := by
  obtain ⟨-, -, -, -, -, -, l1, l2, l3, l4⟩ := newParameters_fields hP
  obtain ⟨hQ, hp'⟩ := newParameters_rings hP
  rcases hp' with ⟨h0, -⟩ | ⟨-, rP, e, hrP⟩
  · exact absurd h0 hp
  have valid : ∀ {m : List UInt64} {r : Ring}, (∀ x ∈ m, x.toNat < 2 ^ 61) → newRingFromType fuel (2 ^ logN) m .standard = .ok r →
      r.Valid logN ∧ r.moduli = m := by
    intro m r hm hr
    have hN : 2 ^ logN ≤ 2 ^ 17 := Nat.pow_le_pow_right (by omega) l2
    obtain ⟨n, e1, V, e2, -⟩ := C17_newRing_valid fuel (2 ^ logN) (by omega) m (fun x hx => by have := hm x hx; omega) r hr
    rw [Nat.pow_right_injective le_rfl e1]
    exact ⟨V, e2⟩
  obtain ⟨VQ, mQ⟩ := valid (fun x hx => hsmall x (List.mem_append_left _ hx)) hQ
  obtain ⟨VP, mP⟩ := valid (fun x hx => hsmall x (List.mem_append_right _ hx)) hrP
  have small : ∀ {r : Ring}, (∀ x ∈ r.moduli, x.toNat < 2 ^ 61) → r.Small := fun hr s hs =>
    hr _ (List.mem_map.2 ⟨s, hs, rfl⟩)
  have mem : ∀ {r : Ring} {i : ℕ}, i < r.subs.length → (r.sub i).q ∈ r.moduli := by
    intro r i hi
    unfold Ring.sub Ring.moduli
    rw [List.getD_eq_getElem _ _ hi]
    exact List.mem_map.2 ⟨_, List.getElem_mem hi, rfl⟩
  have lQ : P.ringQ.subs.length = q.length := by rw [← mQ]; simp [Ring.moduli]
  have lP : rP.subs.length = p.length := by rw [← mP]; simp [Ring.moduli]
  have pos : 0 < P.ringQ.subs.length := List.length_pos_iff.2 VQ.ne_nil
  have posP : 0 < rP.subs.length := List.length_pos_iff.2 VP.ne_nil
  refine ⟨rP, e, ⟨⟨VQ, small (fun x hx => hsmall x (List.mem_append_left _ (mQ ▸ hx))), VP,
    small (fun x hx => hsmall x (List.mem_append_right _ (mP ▸ hx))), ?_, by omega, by omega⟩, by omega, by omega⟩, mQ, mP⟩
  intro i hi j hj he
  have a := mem hi
  have b := mem hj
  rw [mQ] at a
  rw [mP, ← he] at b
  exact hdisj _ a b

/-- **C102 (literals by sizes).** Parameters returned for a literal have its degree and ring type, the moduli generated for its
sizes (for twice the degree in the conjugate-invariant ring), the Hamming weight and deviation of the literal or their defaults. -/
theorem C102_literal {fuel : ℕ} {logN : ℤ} {logQ logP : List ℤ} {sigma : UInt64} {h : ℕ} {ty : RingType} {P : RParams}
    (hP : newParametersFromLiteral fuel (sizeLit logN logQ logP sigma h ty) = some (.ok P)) :
    genModuli fuel (sizeDegree logN ty) logQ logP = some (.ok (P.qi, P.pi)) ∧
    (P.logN : ℤ) = logN ∧ P.ringType = ty ∧ P.h = (if h = 0 then 2 ^ (logN.toNat - 1) else h) ∧
    P.sigma = (if floatEq sigma 0 then defaultSigma else sigma) ∧
    newParameters fuel P.logN P.qi P.pi P.h P.sigma ty = .ok P := by
  unfold newParametersFromLiteral sizeLit at hP
  cases hh : (ParamLit.mk logN none none (some logQ) (some logP) sigma h ty).fillH with
  | panic => rw [hh] at hP; cases hP
  | err => rw [hh] at hP; cases hP
  | ok h' =>
    rw [hh] at hP
    dsimp only at hP
    replace hP : (match genModuli fuel (sizeDegree logN ty) logQ logP with
      | none => none
      | some r => some (r >>= fun qp => newParametersInt fuel logN qp.1 qp.2 h' (if floatEq sigma 0 then defaultSigma else sigma) ty)) =
        some (.ok P) := by cases ty <;> exact hP
    cases hg : genModuli fuel (sizeDegree logN ty) logQ logP with
    | none => rw [hg] at hP; cases hP
    | some r =>
      rw [hg] at hP
      cases r with
      | err => cases hP
      | panic => cases hP
      | ok qp =>
        obtain ⟨q, p⟩ := qp
        simp only [Go.bind_ok, Option.some.injEq] at hP
        unfold newParametersInt at hP
        split at hP
        · cases hP
        rename_i hneg
        cases hn : newParameters fuel logN.toNat q p h' (if floatEq sigma 0 then defaultSigma else sigma) ty with
        | error e => rw [hn] at hP; cases hP
        | ok P' =>
          rw [hn] at hP
          cases hP
          obtain ⟨a1, a2, a3, a4, a5, a6, l1, l2, -⟩ := newParameters_fields hn
          refine ⟨by rw [a2, a3], by rw [a1]; omega, a6, ?_, a5, by rw [a1, a2, a3, a4, a5]; exact hn⟩
          rw [a4]
          unfold ParamLit.fillH at hh
          dsimp only at hh
          split
          · rename_i h0
            rw [if_pos h0, if_neg (by omega)] at hh
            cases hh
            rw [Nat.mod_eq_of_lt (Nat.pow_lt_pow_right (by omega) (by omega))]
            congr 1
            omega
          · rename_i h0
            rw [if_neg h0] at hh
            cases hh
            rfl

/-- **C102 (partial, parameters of literals by sizes).** When all sizes are at least `logN + 1` and every generated modulus is
within a quarter of its power of two, standard parameters returned for a literal with a second chain meet the hypotheses of the
correctness theorems.  Missing: `C102_shared_violated`. -/
theorem C102_literal_keyParams_partial {fuel : ℕ} {logN : ℤ} {logQ logP : List ℤ} {sigma : UInt64} {h : ℕ} {P : RParams}
    (hP : newParametersFromLiteral fuel (sizeLit logN logQ logP sigma h .standard) = some (.ok P)) (hp : logP ≠ [])
    (hbig : ∀ s ∈ logQ ++ logP, logN + 1 ≤ s) (hq : ∀ i (h : i < (logQ ++ logP).length),
      4 * offTwoPow ((logQ ++ logP)[i]).toNat ((P.qi ++ P.pi).getD i 0).toNat < 2 ^ ((logQ ++ logP)[i]).toNat) :
    ∃ rP, P.ringP = some rP ∧ KeyParams logN.toNat P.ringQ rP ∧ P.ringQ.moduli = P.qi ∧ rP.moduli = P.pi ∧
      P.qi.length = logQ.length ∧ P.pi.length = logP.length ∧ ModuliFor (2 ^ (logN + 1).toNat) (logQ ++ logP) (P.qi ++ P.pi) := by
  obtain ⟨hg, hN, -, -, -, hn⟩ := C102_literal hP
  change genModuli fuel logN logQ logP = _ at hg
  have hs : SizesInRange logN logQ logP := by
    by_contra hc
    rw [genModuli_outOfRange hc] at hg
    cases hg
  obtain ⟨e1, e2, M⟩ := (C102_genModuli_partial hs hbig).2.1 _ _ hg
  obtain ⟨-, -, -, -, h5, h6⟩ := hs
  have hnd := C102_distinct_partial M (fun s hs' => by have := hbig s hs'; have := hs'; have := newParameters_fields hn; omega) hq
  have hsm : ∀ x ∈ P.qi ++ P.pi, x.toNat < 2 ^ 61 := by
    intro x hx
    obtain ⟨i, hi, rfl⟩ := List.getElem_of_mem hx
    have hi' : i < (logQ ++ logP).length := by rw [← M.length]; exact hi
    have hlt := hq i hi'
    have hu := (M.usable i hi').below
    rw [List.getD_eq_getElem _ 0 hi] at hlt hu
    by_cases h61 : ((logQ ++ logP)[i]).toNat = 61
    · exact hu h61
    · have hle : ((logQ ++ logP)[i]).toNat ≤ 60 := by
        have : (logQ ++ logP)[i] ≤ 61 := by
          rcases List.mem_append.1 (List.getElem_mem hi') with h | h
          · have := h5 _ h; omega
          · have := h6 _ h; omega
        omega
      have e : ((2 ^ ((logQ ++ logP)[i]).toNat : ℕ) : ℤ) = 2 ^ ((logQ ++ logP)[i]).toNat := by push_cast; rfl
      have h60 : 2 ^ ((logQ ++ logP)[i]).toNat ≤ 2 ^ 60 := Nat.pow_le_pow_right (by omega) hle
      unfold offTwoPow at hlt
      rw [← e] at hlt
      omega
  have hpne : P.pi ≠ [] := by
    intro h0
    rw [h0] at e2
    exact hp (List.length_eq_zero_iff.1 e2.symm)
  obtain ⟨rP, r1, r2, r3, r4⟩ := C102_keyParams hn hpne hsm
    (fun x hx hx' => (List.nodup_append.1 hnd).2.2 x hx x hx' rfl)
  exact ⟨rP, r1, by rw [← hN, Int.toNat_natCast]; exact r2, r3, r4, e1, e2, M⟩

/-- **C102 (other literals).** A literal must give either both chains or both lists of sizes, and nothing else: every other one is
refused, with an error or (for a missing Hamming weight and a degree below 2) a panic. -/
theorem C102_literal_refused {fuel : ℕ} {l : ParamLit}
    (h1 : ¬ (l.q.isSome ∧ l.p.isSome ∧ l.logQ = none ∧ l.logP = none))
    (h2 : ¬ (l.logQ.isSome ∧ l.logP.isSome ∧ l.q = none ∧ l.p = none)) :
    newParametersFromLiteral fuel l = some (if l.h = 0 ∧ l.logN < 1 then .panic else .err) := by
  unfold newParametersFromLiteral
  have hh : l.fillH = if l.h = 0 ∧ l.logN < 1 then .panic else
      .ok (if l.h = 0 then 2 ^ (l.logN - 1).toNat % 2 ^ 64 else l.h) := by
    unfold ParamLit.fillH
    by_cases h0 : l.h = 0
    · by_cases hn : l.logN < 1
      · rw [if_pos h0, if_pos (by omega), if_pos ⟨h0, hn⟩]
      · rw [if_pos h0, if_neg (by omega), if_neg (by omega), if_pos h0]
    · rw [if_neg h0, if_neg (fun hc => h0 hc.1), if_neg h0]
  rw [hh]
  by_cases hc : l.h = 0 ∧ l.logN < 1
  · rw [if_pos hc, if_pos hc]
  · rw [if_neg hc, if_neg hc]
    dsimp only
    split
    · rename_i e1 e2 e3 e4
      exact absurd ⟨by rw [e1]; rfl, by rw [e3]; rfl, e2, e4⟩ h1
    · rename_i e1 e2 e3 e4
      exact absurd ⟨by rw [e2]; rfl, by rw [e4]; rfl, e1, e3⟩ h2
    · rfl

example (fuel : ℕ) : newParametersFromLiteral fuel ⟨4, some [97], none, none, some [5], defaultSigma, 8, .standard⟩ = some .err :=
  C102_literal_refused (by simp) (by simp)

set_option maxRecDepth 1000000 in
theorem shared_isOk : (newParameters 100 4 [97] [97] 8 defaultSigma .standard).isOk = true := by decide +kernel

set_option maxRecDepth 1000000 in
theorem sizes_isOk : (newParameters 100 4 [577] [929] 8 defaultSigma .standard).isOk = true := by decide +kernel

theorem fromLiteral_of {fuel : ℕ} {logN : ℕ} {logQ logP : List ℤ} {sigma : UInt64} {h : ℕ} {q p : List UInt64} {P : RParams}
    (hg : genModuli fuel logN logQ logP = some (.ok (q, p))) (hh : h ≠ 0) (hs : floatEq sigma 0 = false)
    (hP : newParameters fuel logN q p h sigma .standard = .ok P) :
    newParametersFromLiteral fuel (sizeLit logN logQ logP sigma h .standard) = some (.ok P) := by
  unfold newParametersFromLiteral sizeLit ParamLit.fillH
  dsimp only
  rw [if_neg hh]
  dsimp only
  rw [hg, hs]
  simp only [Go.bind_ok]
  unfold newParametersInt
  rw [if_neg (by omega), Int.toNat_natCast]
  simp only [Bool.false_eq_true, if_false]
  rw [hP]
  rfl

/-- **C102 fails across sizes**: for the sizes 6 and 5 in degree 16, the modulus 97 is generated in both chains, and
`NewParametersFromLiteral` accepts (in the ring modulo `QP` the results are then wrong, `C101_sharedPrime_violated`). -/
theorem C102_shared_violated : ∃ P, newParametersFromLiteral 100 (sizeLit 4 [6] [5] defaultSigma 8 .standard) = some (.ok P) ∧
    P.qi = [97] ∧ P.pi = [97] := by
  obtain ⟨P, hP⟩ := newParameters_of_isOk shared_isOk
  refine ⟨P, fromLiteral_of (logN := 4) (by decide +kernel) (by omega) (by decide +kernel) hP, ?_⟩
  obtain ⟨-, a2, a3, -⟩ := newParameters_fields hP
  exact ⟨a2, a3⟩

-- the hypotheses of `C102_literal_keyParams_partial` are met: sizes 9 and 10
example : ∃ P, newParametersFromLiteral 100 (sizeLit 4 [9] [10] defaultSigma 8 .standard) = some (.ok P) ∧
    (∀ s ∈ ([9] ++ [10] : List ℤ), 4 + 1 ≤ s) ∧ ∀ i (h : i < ([9] ++ [10] : List ℤ).length),
      4 * offTwoPow (([9] ++ [10] : List ℤ)[i]).toNat ((P.qi ++ P.pi).getD i 0).toNat < 2 ^ (([9] ++ [10] : List ℤ)[i]).toNat := by
  obtain ⟨P, hP⟩ := newParameters_of_isOk sizes_isOk
  refine ⟨P, fromLiteral_of (logN := 4) (by decide +kernel) (by omega) (by decide +kernel) hP, by simp, ?_⟩
  obtain ⟨-, a2, a3, -⟩ := newParameters_fields hP
  rw [a2, a3]
  intro i h
  have : i < 2 := h
  interval_cases i
  · show 4 * offTwoPow 9 577 < 2 ^ 9
    decide +kernel
  · show 4 * offTwoPow 10 929 < 2 ^ 10
    decide +kernel

end FastKsw.Props
