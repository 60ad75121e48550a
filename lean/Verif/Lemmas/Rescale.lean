import Verif.Lemmas.FloatMono
import Verif.Lemmas.Components
import Verif.Props.Scaling

/-!
# The loop of `Rescale`, and division of ciphertexts
-/

namespace FastKsw

open Props Finset

/-- the scale after `j` divisions by the top moduli of a ciphertext at level `level`, in float64 -/
def scaleAfter (r : Ring) (level : ℕ) (s : ℚ) : ℕ → ℚ
  | 0 => s
  | j + 1 => f64Div (scaleAfter r level s j) (f64OfNat (r.qs (level - j)))

theorem rescaleLoop_some {r : Ring} {ms s : ℚ} {level : ℕ} : ∀ {i nb nb' : ℕ} {s' : ℚ}, i + nb = level + 1 →
    rescaleLoop r ms i nb (scaleAfter r level s nb) = some (nb', s') →
    nb ≤ nb' ∧ nb' ≤ level ∧ s' = scaleAfter r level s nb' ∧
      (∀ j, nb < j → j ≤ nb' → f64Div ms 2 ≤ scaleAfter r level s j) ∧ scaleAfter r level s (nb' + 1) < f64Div ms 2
  | 0, nb, nb', s', _, h => by simp [rescaleLoop] at h
  | i + 1, nb, nb', s', hi, h => by
    have e : f64Div (scaleAfter r level s nb) (f64OfNat (r.sub i).q.toNat) = scaleAfter r level s (nb + 1) := by
      rw [scaleAfter, show level - nb = i by omega]
    simp only [rescaleLoop] at h
    rw [e] at h
    split at h
    · rename_i hc
      obtain ⟨h1, h2, h3, h4, h5⟩ := rescaleLoop_some (by omega) h
      refine ⟨by omega, h2, h3, fun j hj hj' => ?_, h5⟩
      rcases (by omega : j = nb + 1 ∨ nb + 1 < j) with rfl | hj2
      · exact hc
      · exact h4 j hj2 hj'
    · rename_i hc
      simp only [Option.some.injEq, Prod.mk.injEq] at h
      obtain ⟨rfl, rfl⟩ := h
      exact ⟨le_rfl, by omega, rfl, fun j _ _ => by omega, not_le.1 hc⟩

theorem rescaleLoop_none {r : Ring} {ms s : ℚ} {level : ℕ} : ∀ {i nb : ℕ}, i + nb = level + 1 →
    rescaleLoop r ms i nb (scaleAfter r level s nb) = none →
    ∀ j, nb < j → j ≤ level + 1 → f64Div ms 2 ≤ scaleAfter r level s j
  | 0, nb, hi, _ => fun j _ _ => by omega
  | i + 1, nb, hi, h => by
    have e : f64Div (scaleAfter r level s nb) (f64OfNat (r.sub i).q.toNat) = scaleAfter r level s (nb + 1) := by
      rw [scaleAfter, show level - nb = i by omega]
    simp only [rescaleLoop] at h
    rw [e] at h
    split at h
    · rename_i hc
      have := rescaleLoop_none (nb := nb + 1) (by omega) h
      intro j hj hj'
      rcases (by omega : j = nb + 1 ∨ nb + 1 < j) with rfl | hj2
      · exact hc
      · exact this j hj2 hj'
    · exact absurd h (by simp)

theorem scaleAfter_pos {r : Ring} {level : ℕ} {s : ℚ} (hs : 0 < s) (hq : ∀ u ≤ level, 0 < r.qs u) (j : ℕ) :
    0 < scaleAfter r level s j := by
  induction j with
  | zero => exact hs
  | succ j ih =>
    have : (0 : ℚ) < r.qs (level - j) := by exact_mod_cast hq (level - j) (by omega)
    exact f64_pos (div_pos ih (f64_pos this))

/-- each division lowers the scale: a float64 divided by a modulus of at least 1 -/
theorem scaleAfter_anti {r : Ring} {level : ℕ} {s : ℚ} (hs : 0 < s) (hf : f64 s = s) (hq : ∀ u ≤ level, 0 < r.qs u)
    {i j : ℕ} (hij : i ≤ j) : scaleAfter r level s j ≤ scaleAfter r level s i := by
  induction j, hij using Nat.le_induction with
  | base => exact le_rfl
  | succ j _ ih =>
    refine le_trans ?_ ih
    have hp := scaleAfter_pos hs hq j
    have h1 : (1 : ℚ) ≤ r.qs (level - j) := by exact_mod_cast hq (level - j) (by omega)
    have h2 : (1 : ℚ) ≤ f64 (r.qs (level - j)) := by
      have := f64_mono (by norm_num) h1
      rwa [show f64 1 = 1 by simpa using f64_nat (m := 1) (by norm_num)] at this
    have h3 : scaleAfter r level s j / f64 (r.qs (level - j)) ≤ scaleAfter r level s j := div_le_self hp.le h2
    have h4 : f64 (scaleAfter r level s j) = scaleAfter r level s j := by
      cases j with
      | zero => exact hf
      | succ j =>
        have : (0 : ℚ) < r.qs (level - j) := by exact_mod_cast hq (level - j) (by omega)
        exact f64_idem _ (div_pos (scaleAfter_pos hs hq j) (f64_pos this))
    show f64 _ ≤ _
    rw [← h4]
    exact f64_mono (div_pos (h4.symm ▸ hp) (lt_of_lt_of_le one_pos h2)) (by rw [h4]; exact h3)

section
variable {n : ℕ} {r : Ring} (hr : r.Valid n)
include hr

/-- every family of residues has an integer polynomial with these values -/
theorem exists_lift_one (v : ∀ u, ℕ → ZMod (r.sub u).q.toNat) :
    ∃ X : ℕ → ℤ, ∀ u < r.subs.length, ∀ k < 2 ^ n, r.nttVec n X u k = v u k := by
  have h4 := hr.four_le
  have key : ∀ x : (∀ u, ZMod (r.sub u).q.toNat), ∃ z : ℤ, ∀ u < r.subs.length, (z : ZMod (r.sub u).q.toNat) = x u := by
    intro x
    have hpp : Set.Pairwise (range r.subs.length : Set ℕ) (Function.onFun Nat.Coprime fun u => (r.sub u).q.toNat) := by
      intro u hu w hw huw
      have hu' := mem_range.1 hu
      have hw' := mem_range.1 hw
      rw [Function.onFun, Nat.coprime_primes (hr.subAt hu').prime (hr.subAt hw').prime]
      exact fun he => huw (hr.q_inj hu' hw' he)
    obtain ⟨z, hz⟩ := Nat.chineseRemainderOfFinset (fun u => (x u).val) (fun u => (r.sub u).q.toNat) (range r.subs.length)
      (fun u hu => (hr.subAt (mem_range.1 hu)).prime.ne_zero) hpp
    refine ⟨z, fun u hu => ?_⟩
    have : NeZero (r.sub u).q.toNat := ⟨(hr.subAt hu).prime.ne_zero⟩
    have := (ZMod.natCast_eq_natCast_iff _ _ _).2 (hz u (mem_range.2 hu))
    rw [Int.cast_natCast, this, ZMod.natCast_zmod_val]
  choose X hX using fun k => key (fun u => coeffsOf (r.sub u).psi n (v u) k)
  refine ⟨X, fun u hu k hk => ?_⟩
  rw [← evals_coeffsOf (hr.subAt hu) (by omega) (v u) k hk]
  exact evals_congr _ _ (fun j _ => hX j u hu) k

/-- every family of ring elements has an integer representative -/
theorem exists_intR (x : ∀ u, Rq (2 ^ n) (r.qs u)) : ∃ X : ℕ → ℤ, ∀ u < r.subs.length, x u = intR (2 ^ n) (r.qs u) X := by
  have h4 := hr.four_le
  obtain ⟨X, hX⟩ := exists_lift_one hr (fun u k => if h : u < r.subs.length ∧ k < 2 ^ n then
    (haveI := (hr.subAt h.1).fact; evalAt ((hr.subAt h.1).psiOK (by omega)) h.2 (x u)) else 0)
  refine ⟨X, fun u hu => ?_⟩
  have := (hr.subAt hu).fact
  rw [← ofNtt_nttVec hr hu]
  refine ext_eval ((hr.subAt hu).psiOK (by omega)) fun k hk => ?_
  rw [evalAt_ofNtt _ _ hk, hX u hu k hk, dif_pos ⟨hu, hk⟩]

/-- a polynomial in the NTT domain holds the NTT values of any integer representative of its element -/
theorem EltIs.nttVec {level : ℕ} {A : ℕ → ℕ} {p : Rows} {x : ∀ u, Rq (2 ^ n) (r.qs u)} {X : ℕ → ℤ}
    (hl : level < r.subs.length) (h : EltIs n r level A true p x) (hx : ∀ u ≤ level, x u = intR (2 ^ n) (r.qs u) X) :
    PolyIs r level A p (r.nttVec n X) := by
  have h4 := hr.four_le
  refine (h.polyIs hr).congr fun u hu k hk => ?_
  rw [hr.deg] at hk
  have V := hr.subAt (show u < r.subs.length by omega)
  have := V.fact
  have e : ofNtt (r.sub u).psi n (zval _ (p.row u)) = ofNtt (r.sub u).psi n (r.nttVec n X u) := by
    have e1 : ofNtt (r.sub u).psi n (zval _ (p.row u)) = x u := h.val u hu
    rw [e1, hx u hu, ofNtt_nttVec hr (by omega)]
  have := congrArg (evalAt (V.psiOK (by omega)) hk) e
  rwa [evalAt_ofNtt, evalAt_ofNtt] at this

end

end FastKsw
