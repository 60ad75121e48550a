import Verif.Spec.Ring
import Verif.Lemmas.Bits
import Mathlib.FieldTheory.Finite.Basic
import Mathlib.RingTheory.IntegralDomain

/-! Helper lemmas: ring construction. -/

namespace FastKsw

/-! ### Twiddle law -/

theorem twLaw_of_psi {q : ℕ} {psi : ZMod q} {n : ℕ} (h : psi ^ 2 ^ n = -1) :
    TwLaw (2 ^ n) (fun k => psi ^ revBits n k) := by
  refine ⟨by simp [revBits_zero], fun c h1 h2 => ?_⟩
  obtain ⟨m, rfl⟩ : ∃ m, n = m + 1 := by
    cases n with
    | zero => simp at h2; omega
    | succ m => exact ⟨m, rfl⟩
  have hd := revBits_double m (c / 2) (by rw [pow_succ] at h2; omega)
  have hh : revBits (m + 1) c * 2 = c % 2 * 2 ^ (m + 1) + revBits (m + 1) (c / 2) := by
    rw [hd, revBits]; ring
  unfold rho
  rw [← pow_mul, hh, pow_add]
  rcases Nat.mod_two_eq_zero_or_one c with h3 | h3
  · simp [h3]
  · simp [h3, h]

theorem evalPt_psi {q : ℕ} {psi : ZMod q} {n : ℕ} (h : psi ^ 2 ^ n = -1) (hn : 1 ≤ n) {i : ℕ}
    (hi : i < 2 ^ n) :
    evalPt (2 ^ n) (fun k => psi ^ revBits n k) i = psi ^ (2 * revBits n i + 1) := by
  obtain ⟨m, rfl⟩ : ∃ m, n = m + 1 := ⟨n - 1, by omega⟩
  unfold evalPt rho
  have hp : 2 ^ (m + 1) = 2 * 2 ^ m := by ring
  have e1 : (2 ^ (m + 1) + i) % 2 = i % 2 := by omega
  have e2 : (2 ^ (m + 1) + i) / 2 = 2 ^ m + i / 2 := by omega
  have hi2 : i / 2 < 2 ^ m := by omega
  have e3 : revBits (m + 1) (2 ^ m + i / 2) = 1 + 2 * revBits m (i / 2) := by
    have hrev : revBits (m + 1) (1 + 2 * revBits m (i / 2)) = 2 ^ m + i / 2 := by
      rw [revBits]
      have a1 : (1 + 2 * revBits m (i / 2)) % 2 = 1 := by omega
      have a2 : (1 + 2 * revBits m (i / 2)) / 2 = revBits m (i / 2) := by omega
      rw [a1, a2, revBits_involutive _ _ hi2]; ring
    rw [← hrev, revBits_involutive]
    have := revBits_lt m (i / 2)
    omega
  rw [e1, e2]; beta_reduce; rw [e3]
  have e4 : 2 * revBits (m + 1) i + 1 = i % 2 * 2 ^ (m + 1) + (1 + 2 * revBits m (i / 2)) := by
    rw [revBits]; ring
  rw [e4, pow_add _ (i % 2 * 2 ^ (m + 1))]
  rcases Nat.mod_two_eq_zero_or_one i with h3 | h3
  · simp [h3]
  · simp [h3, h]

/-! ### Power table -/

theorem powTable_spec {q qInv : UInt64} (hinv : q * qInv = 1) (hq : q.toNat ≤ 2 ^ 63)
    (P : ZMod q.toNat)
    (start psi : UInt64) (n : ℕ) (hn : n ≤ 64)
    (hs : start.toNat < q.toNat ∧ (start.toNat : ZMod q.toNat) = 2 ^ 64)
    (hp : psi.toNat < q.toNat ∧ (psi.toNat : ZMod q.toNat) = P * 2 ^ 64) :
    (powTable start psi q qInv n (2 ^ n)).length = 2 ^ n ∧
    TwTable (2 ^ n) q (powTable start psi q qInv n (2 ^ n)) (fun k => P ^ revBits n k) := by
  have hpos : 1 ≤ 2 ^ n := Nat.one_le_two_pow
  have key : ∀ J, J < 2 ^ n →
      let tab := (List.range J).foldl (fun tab j =>
        let prev := bitReverse64 j n
        let next := bitReverse64 (j + 1) n
        List.set tab next (mred (Row.at tab prev) psi q qInv)) ((List.replicate (2 ^ n) (0 : UInt64)).set 0 start)
      tab.length = 2 ^ n ∧ ∀ j ≤ J, (Row.at tab (revBits n j)).toNat < q.toNat ∧
        ((Row.at tab (revBits n j)).toNat : ZMod q.toNat) = P ^ j * 2 ^ 64 := by
    intro J
    induction J with
    | zero =>
      intro _
      refine ⟨by simp, fun j hj => ?_⟩
      have : j = 0 := by omega
      subst this
      simp only [List.range_zero, List.foldl_nil, revBits_zero, Row.at_set]
      rw [if_pos ⟨trivial, by simp⟩]
      simpa using hs
    | succ J ih =>
      intro hJ
      obtain ⟨l, h⟩ := ih (by omega)
      rw [List.range_succ, List.foldl_append, List.foldl_cons, List.foldl_nil]
      generalize (List.range J).foldl (fun tab j =>
        let prev := bitReverse64 j n
        let next := bitReverse64 (j + 1) n
        List.set tab next (mred (Row.at tab prev) psi q qInv)) ((List.replicate (2 ^ n) (0 : UInt64)).set 0 start)
        = tab at l h
      simp only [bitReverse64_eq n J hn (by omega), bitReverse64_eq n (J + 1) hn hJ]
      refine ⟨by simpa using l, fun j hj => ?_⟩
      rw [Row.at_set]
      by_cases hjJ : j = J + 1
      · subst hjJ
        rw [if_pos ⟨rfl, by rw [l]; exact revBits_lt _ _⟩]
        obtain ⟨a, b⟩ := h J le_rfl
        have hxy := mul_lt_of_lt_left psi a
        have h1 := mred_spec hinv hq _ _ hxy
        have h2 := mred_zmod hinv hq _ _ hxy
        refine ⟨h1.1, ?_⟩
        apply (two_pow_unit (odd_of_mul_eq_one hinv)).mul_right_cancel
        rw [h2, b, hp.2]; ring
      · rw [if_neg]
        · exact h j (by omega)
        · rintro ⟨h1, _⟩
          exact hjJ (revBits_inj (by omega) hJ h1)
  obtain ⟨l, h⟩ := key (2 ^ n - 1) (by omega)
  have heq : powTable start psi q qInv n (2 ^ n) = _ := rfl
  unfold powTable powTable.mred'
  refine ⟨l, fun k hk => ?_⟩
  have := h (revBits n k) (by have := revBits_lt n k; omega)
  rwa [revBits_involutive n k hk] at this

/-! ### Factors -/

theorem gcd_toNat_dvd (a b : UInt64) (h : gcd a b > 1) :
    (gcd a b).toNat = Nat.gcd a.toNat b.toNat ∧ a ≠ 0 ∧ b ≠ 0 := by
  unfold gcd at h ⊢
  by_cases h0 : a = 0 ∨ b = 0
  · rw [if_pos h0] at h
    exact absurd h (by decide)
  · rw [if_neg h0] at h ⊢
    push Not at h0
    exact ⟨gcdLoop_toNat _ _ _ (Nat.lt_succ_self _), h0⟩

theorem pollardInner_spec (m c : UInt64) (hm : 0 < m.toNat) (fuel : ℕ) (x y d : UInt64)
    (h : pollardInner m c fuel x y = some d) :
    d = 0 ∨ (1 < d.toNat ∧ d.toNat ∣ m.toNat ∧ d.toNat < m.toNat) := by
  induction fuel generalizing x y with
  | zero => simp [pollardInner] at h
  | succ fuel ih =>
    rw [pollardInner] at h
    have hx : ∀ z, (polynomialPollardsRho z m c).toNat < m.toNat := by
      intro z
      unfold polynomialPollardsRho
      rw [UInt64.toNat_mod]; exact Nat.mod_lt _ hm
    generalize hX : polynomialPollardsRho x m c = X at h
    generalize hY : polynomialPollardsRho (polynomialPollardsRho y m c) m c = Y at h
    have hXl : X.toNat < m.toNat := hX ▸ hx x
    have hYl : Y.toNat < m.toNat := hY ▸ hx _
    generalize hA : (if Y > X then (Y, X) else (X, Y)) = A at h
    have hsub : (A.1 - A.2).toNat < m.toNat := by
      by_cases hc : Y > X
      · rw [if_pos hc] at hA
        subst hA
        have : X.toNat < Y.toNat := hc
        show (Y - X).toNat < _
        rw [toNat_sub_of_le' (by omega)]; omega
      · rw [if_neg hc] at hA
        subst hA
        have : ¬ X.toNat < Y.toNat := hc
        show (X - Y).toNat < _
        rw [toNat_sub_of_le' (by omega)]; omega
    simp only at h
    by_cases hd : gcd (A.1 - A.2) m > 1
    · rw [if_pos hd] at h
      cases h
      right
      obtain ⟨e, h1, h2⟩ := gcd_toNat_dvd _ _ hd
      have h1' : 0 < (A.1 - A.2).toNat := by
        rcases Nat.eq_zero_or_pos (A.1 - A.2).toNat with h3 | h3
        · exact absurd (UInt64.toNat_inj.1 (by rw [h3]; rfl)) h1
        · exact h3
      refine ⟨hd, ?_, ?_⟩
      · rw [e]; exact Nat.gcd_dvd_right _ _
      · rw [e]
        exact lt_of_le_of_lt (Nat.le_of_dvd h1' (Nat.gcd_dvd_left _ _)) hsub
    · rw [if_neg hd] at h
      by_cases h0 : gcd (A.1 - A.2) m ≠ 0
      · rw [if_pos h0] at h; exact ih _ _ h
      · rw [if_neg h0] at h
        cases h; left; rfl

theorem pollardOuter_spec (fuel : ℕ) (m : UInt64) (hm : 0 < m.toNat) (cs : List UInt64)
    (d : UInt64) (h : pollardOuter fuel m cs = some d) :
    d = 0 ∨ (1 < d.toNat ∧ d.toNat ∣ m.toNat ∧ d.toNat < m.toNat) := by
  induction cs with
  | nil => simp [pollardOuter] at h; left; exact h.symm
  | cons c cs ih =>
    rw [pollardOuter] at h
    cases hp : pollardInner m c fuel 2 2 with
    | none => rw [hp] at h; simp at h
    | some e =>
      rw [hp] at h
      simp only at h
      by_cases he : e > 1
      · rw [if_pos he] at h
        cases h
        exact pollardInner_spec m c hm fuel _ _ _ hp
      · rw [if_neg he] at h; exact ih h

/-- every factor is a divisor above one -/
def FactorsOK (n : ℕ) (fs : List UInt64) : Prop := ∀ f ∈ fs, 1 < f.toNat ∧ f.toNat ∣ n

theorem FactorsOK.append {n : ℕ} {fs : List UInt64} (h : FactorsOK n fs) {f : UInt64}
    (h1 : 1 < f.toNat) (h2 : f.toNat ∣ n) : FactorsOK n (fs ++ [f]) := by
  intro g hg
  rcases List.mem_append.1 hg with h3 | h3
  · exact h g h3
  · rw [List.mem_singleton.1 h3]; exact ⟨h1, h2⟩

theorem divOut_spec (p : UInt64) (fuel : ℕ) (m : UInt64) (b : Bool) (hm : 0 < m.toNat) :
    let r := divOut p fuel m b
    0 < r.1.toNat ∧ r.1.toNat ∣ m.toNat ∧ (r.2 = true → b = true ∨ p.toNat ∣ m.toNat) ∧
      (b = true → r.2 = true) := by
  induction fuel generalizing m b with
  | zero => exact ⟨hm, dvd_rfl, fun h => Or.inl h, fun h => h⟩
  | succ fuel ih =>
    rw [divOut]
    by_cases h : m % p = 0
    · rw [if_pos h]
      have hmod : m.toNat % p.toNat = 0 := by rw [← UInt64.toNat_mod, h]; rfl
      have hdvd : p.toNat ∣ m.toNat := Nat.dvd_of_mod_eq_zero hmod
      have hdiv : (m / p).toNat ∣ m.toNat := by
        rw [UInt64.toNat_div]; exact Nat.div_dvd_of_dvd hdvd
      have hpos : 0 < (m / p).toNat := Nat.pos_of_dvd_of_pos hdiv hm
      obtain ⟨a, b', c, d⟩ := ih (m / p) true hpos
      exact ⟨a, b'.trans hdiv, fun _ => Or.inr hdvd, fun _ => d rfl⟩
    · rw [if_neg h]
      exact ⟨hm, dvd_rfl, fun h => Or.inl h, fun h => h⟩

theorem smallFactors_spec (ps : List ℕ) (hps : ∀ p ∈ ps, 1 < p ∧ p < 2 ^ 64) (n : ℕ) (m : UInt64)
    (fs : List UInt64)
    (hm : 0 < m.toNat) (hmn : m.toNat ∣ n) (hfs : FactorsOK n fs) :
    let r := smallFactors ps m fs
    0 < r.1.toNat ∧ r.1.toNat ∣ n ∧ FactorsOK n r.2 ∧ ∀ f ∈ fs, f ∈ r.2 := by
  induction ps generalizing m fs with
  | nil => exact ⟨hm, hmn, hfs, fun f h => h⟩
  | cons p ps ih =>
    rw [smallFactors]
    obtain ⟨a, b, c, _⟩ := divOut_spec (UInt64.ofNat p) 64 m false hm
    have hp := hps p (by simp)
    have hpn : (UInt64.ofNat p).toNat = p := by
      rw [UInt64.toNat_ofNat']; exact Nat.mod_eq_of_lt hp.2
    by_cases hb : (divOut (UInt64.ofNat p) 64 m false).2 = true
    · have := ih (fun p h => hps p (by simp [h])) _ (fs ++ [UInt64.ofNat p]) a (b.trans hmn)
        (hfs.append (by rw [hpn]; exact hp.1) ((c hb).resolve_left (by simp) |>.trans hmn))
      simp only [hb, if_true]
      exact ⟨this.1, this.2.1, this.2.2.1, fun f hf => this.2.2.2 f (by simp [hf])⟩
    · have := ih (fun p h => hps p (by simp [h])) _ fs a (b.trans hmn) hfs
      simp only [hb]
      exact this

theorem largeFactors_spec (fuelRho fuel n : ℕ) (m : UInt64) (fs out : List UInt64)
    (hm : 1 < m.toNat) (hmn : m.toNat ∣ n) (hfs : FactorsOK n fs)
    (h : largeFactors fuelRho fuel m fs = some out) :
    FactorsOK n out ∧ ∀ f ∈ fs, f ∈ out := by
  induction fuel generalizing m fs with
  | zero => simp [largeFactors] at h
  | succ fuel ih =>
    rw [largeFactors] at h
    cases hp : factorizationPollardsRho fuelRho m with
    | none => rw [hp] at h; simp at h
    | some d =>
      rw [hp] at h
      simp only at h
      by_cases hd : d = 0
      · rw [if_pos hd] at h
        cases h
        exact ⟨hfs.append hm hmn, fun f hf => by simp [hf]⟩
      · rw [if_neg hd] at h
        rcases pollardOuter_spec _ _ (by omega) _ _ hp with h0 | ⟨d1, d2, d3⟩
        · exact absurd h0 hd
        · have hdiv : (m / d).toNat ∣ m.toNat := by
            rw [UInt64.toNat_div]; exact Nat.div_dvd_of_dvd d2
          have hgt : 1 < (m / d).toNat := by
            rw [UInt64.toNat_div]
            obtain ⟨k, hk⟩ := d2
            rw [hk, Nat.mul_div_cancel_left _ (by omega)]
            by_contra hk1
            have : k ≤ 1 := by omega
            have : d.toNat * k ≤ d.toNat * 1 := Nat.mul_le_mul_left _ this
            omega
          by_cases hl : fs.length > 0 ∧ fs.getLast? = some d
          · rw [if_pos hl] at h
            exact ih _ _ hgt (hdiv.trans hmn) hfs h
          · rw [if_neg hl] at h
            have := ih _ _ hgt (hdiv.trans hmn) (hfs.append d1 (d2.trans hmn)) h
            exact ⟨this.1, fun f hf => this.2 f (by simp [hf])⟩

theorem smallPrimes_ok : ∀ p ∈ smallPrimes, 1 < p ∧ p < 2 ^ 64 := by
  have : smallPrimes.all (fun p => decide (1 < p ∧ p < 2 ^ 64)) = true := by decide +kernel
  intro p hp
  simpa using List.all_eq_true.1 this p hp

theorem smallPrimes_two : ∃ t, smallPrimes = 2 :: t := ⟨_, rfl⟩

theorem getFactors_spec (fuel : ℕ) (n : UInt64) (hn : 0 < n.toNat) (heven : n.toNat % 2 = 0)
    (out : List UInt64) (h : getFactors fuel n = some out) :
    FactorsOK n.toNat out ∧ (2 : UInt64) ∈ out := by
  unfold getFactors at h
  have hs := smallFactors_spec smallPrimes smallPrimes_ok n.toNat n [] hn dvd_rfl (by intro f hf; simp at hf)
  have h2 : (2 : UInt64) ∈ (smallFactors smallPrimes n []).2 := by
    obtain ⟨t, ht⟩ := smallPrimes_two
    have hok := smallPrimes_ok
    rw [ht] at hok ⊢
    rw [smallFactors]
    have hb : (divOut (UInt64.ofNat 2) 64 n false).2 = true := by
      have hmod : n % UInt64.ofNat 2 = 0 := by
        rw [← UInt64.toNat_inj, UInt64.toNat_mod]; exact heven
      have hdiv : 0 < (n / UInt64.ofNat 2).toNat := by
        rw [UInt64.toNat_div]; exact Nat.div_pos (by have : (UInt64.ofNat 2).toNat = 2 := rfl; omega) (by decide)
      rw [show (64 : ℕ) = 63 + 1 from rfl, divOut, if_pos hmod]
      exact (divOut_spec _ _ _ true hdiv).2.2.2 rfl
    have hd := divOut_spec (UInt64.ofNat 2) 64 n false hn
    simp only [hb, if_true]
    have := smallFactors_spec t (fun p hp => hok p (by simp [hp])) n.toNat
      (divOut (UInt64.ofNat 2) 64 n false).1 ([] ++ [UInt64.ofNat 2]) hd.1 hd.2.1 (by
        intro f hf
        simp only [List.nil_append, List.mem_singleton] at hf
        subst hf
        exact ⟨by decide, Nat.dvd_of_mod_eq_zero heven⟩)
    exact this.2.2.2 2 (by simp)
  generalize smallFactors smallPrimes n [] = r at h hs h2
  simp only at h
  by_cases h1 : r.1 = 1
  · rw [if_pos h1] at h
    cases h
    exact ⟨hs.2.2.1, h2⟩
  · rw [if_neg h1] at h
    have hgt : 1 < r.1.toNat := by
      have h3 := hs.1
      have : r.1.toNat ≠ 1 := fun h4 => h1 (UInt64.toNat_inj.1 h4)
      omega
    have := largeFactors_spec fuel 64 n.toNat _ _ _ hgt hs.2.1 hs.2.2.1 h
    exact ⟨this.1, this.2 2 h2⟩

/-! ### Primitive root -/

theorem rootRejected_false {q g : UInt64} (fs : List UInt64) (nf : Bool)
    (h : rootRejected q g fs nf = false) :
    ∀ f ∈ fs, modExp g ((q - 1) / f) q ≠ 1 := by
  induction fs generalizing nf with
  | nil => intro f hf; simp at hf
  | cons f fs ih =>
    rw [rootRejected] at h
    by_cases h1 : modExp g ((q - 1) / f) q = 1
    · rw [if_pos h1] at h; simp at h
    · rw [if_neg h1] at h
      intro f' hf'
      rcases List.mem_cons.1 hf' with h2 | h2
      · rw [h2]; exact h1
      · exact ih _ h f' h2

theorem rootRejected_of_all {q g : UInt64} (fs : List UInt64) (hne : fs ≠ []) (nf : Bool)
    (h : ∀ f ∈ fs, modExp g ((q - 1) / f) q ≠ 1) : rootRejected q g fs nf = false := by
  have key : ∀ fs : List UInt64, (∀ f ∈ fs, modExp g ((q - 1) / f) q ≠ 1) →
      rootRejected q g fs false = false := by
    intro fs
    induction fs with
    | nil => intro _; rfl
    | cons f fs ih =>
      intro h
      rw [rootRejected, if_neg (h f (by simp))]
      exact ih (fun f' hf' => h f' (by simp [hf']))
  cases fs with
  | nil => exact absurd rfl hne
  | cons f fs =>
    rw [rootRejected, if_neg (h f (by simp))]
    exact key fs (fun f' hf' => h f' (by simp [hf']))

theorem primitiveRootLoop_spec {q : UInt64} (factors : List UInt64) (g0 : UInt64)
    (h0 : rootRejected q g0 factors true = false) (fuel : ℕ) (g r : UInt64)
    (hg : g.toNat < g0.toNat) (h : primitiveRootLoop q factors fuel g = some r) :
    g.toNat < r.toNat ∧ r.toNat ≤ g0.toNat ∧ rootRejected q r factors true = false := by
  induction fuel generalizing g with
  | zero => simp [primitiveRootLoop] at h
  | succ fuel ih =>
    rw [primitiveRootLoop] at h
    have hg1 : (g + 1).toNat = g.toNat + 1 := by
      have := g0.toNat_lt
      rw [UInt64.toNat_add]; simp; omega
    by_cases hr : rootRejected q (g + 1) factors true = true
    · simp only [hr, if_true] at h
      have : (g + 1).toNat ≠ g0.toNat := by
        intro e
        rw [UInt64.toNat_inj.1 e] at hr
        rw [h0] at hr; simp at hr
      have := ih (g + 1) (by omega) h
      exact ⟨by omega, this.2⟩
    · simp only [hr] at h
      cases h
      simp only [Bool.not_eq_true] at hr
      exact ⟨by omega, by omega, hr⟩

/-- there is a generator of the multiplicative group with representative ≥ 3 -/
theorem exists_big_root {q : ℕ} (hp : q.Prime) (h32 : 33 ≤ q) :
    ∃ g : ℕ, 3 ≤ g ∧ g < q ∧ ∀ e, 0 < e → e < q - 1 → (g : ZMod q) ^ e ≠ 1 := by
  have : Fact q.Prime := ⟨hp⟩
  obtain ⟨u, hu⟩ := IsCyclic.exists_generator (α := (ZMod q)ˣ)
  have hord : orderOf u = q - 1 := by
    rw [orderOf_eq_card_of_forall_mem_zpowers hu, Nat.card_eq_fintype_card, ZMod.card_units]
  have key : ∀ v : (ZMod q)ˣ, orderOf v = q - 1 → ∀ e, 0 < e → e < q - 1 →
      (((v : ZMod q).val : ℕ) : ZMod q) ^ e ≠ 1 := by
    intro v hv e he1 he2 h
    rw [ZMod.natCast_zmod_val] at h
    have : v ^ e = 1 := Units.ext (by simpa using h)
    have := Nat.le_of_dvd he1 (orderOf_dvd_of_pow_eq_one this)
    omega
  have hval : ∀ v : (ZMod q)ˣ, orderOf v = q - 1 → 2 ≤ (v : ZMod q).val := by
    intro v hv
    by_contra hlt
    have h01 : (v : ZMod q).val = 0 ∨ (v : ZMod q).val = 1 := by omega
    rcases h01 with h | h
    · exact v.ne_zero ((ZMod.val_eq_zero _).1 h)
    · have : (v : ZMod q) = 1 := by
        rw [← ZMod.natCast_zmod_val (v : ZMod q), h]; simp
      have : v = 1 := Units.ext (by simpa using this)
      rw [this, orderOf_one] at hv
      omega
  by_cases h2 : (u : ZMod q).val = 2
  · have hord' : orderOf u⁻¹ = q - 1 := by rw [orderOf_inv, hord]
    refine ⟨((u⁻¹ : (ZMod q)ˣ) : ZMod q).val, ?_, ZMod.val_lt _, key _ hord'⟩
    have h3 := hval _ hord'
    by_contra hlt
    have h4 : ((u⁻¹ : (ZMod q)ˣ) : ZMod q).val = 2 := by omega
    have h5 : (u : ZMod q) * ((u⁻¹ : (ZMod q)ˣ) : ZMod q) = 1 := Units.mul_inv u
    rw [← ZMod.natCast_zmod_val (u : ZMod q), ← ZMod.natCast_zmod_val ((u⁻¹ : (ZMod q)ˣ) : ZMod q),
      h2, h4] at h5
    have h6 : ((4 : ℕ) : ZMod q) = ((1 : ℕ) : ZMod q) := by
      push_cast at h5 ⊢
      linear_combination h5
    rw [ZMod.natCast_eq_natCast_iff'] at h6
    rw [Nat.mod_eq_of_lt (by omega), Nat.mod_eq_of_lt (by omega)] at h6
    omega
  · have := hval _ hord
    exact ⟨(u : ZMod q).val, by omega, ZMod.val_lt _, key _ hord⟩

theorem primitiveRoot_some {fuel : ℕ} {q g : UInt64} (h : primitiveRoot fuel q = some g) :
    ∃ factors, getFactors fuel (q - 1) = some factors ∧
      primitiveRootLoop q factors fuel 2 = some g := by
  exact Option.bind_eq_some_iff.1 h

theorem primitiveRoot_spec {fuel : ℕ} {q g : UInt64} (hp : q.toNat.Prime) (h33 : 33 ≤ q.toNat)
    (hodd : q.toNat % 2 = 1) (hq : q.toNat ≤ 2 ^ 63) (h : primitiveRoot fuel q = some g) :
    3 ≤ g.toNat ∧ g.toNat < q.toNat ∧ (g.toNat : ZMod q.toNat) ^ ((q.toNat - 1) / 2) = -1 := by
  have : Fact q.toNat.Prime := ⟨hp⟩
  have hq1 : (q - 1).toNat = q.toNat - 1 := by
    rw [toNat_sub_of_le' (by rw [UInt64.toNat_one]; omega), UInt64.toNat_one]
  have h1q : 1 < q.toNat := by omega
  obtain ⟨factors, hf, h⟩ := primitiveRoot_some h
  obtain ⟨hfok, h2⟩ := getFactors_spec fuel (q - 1) (by omega) (by omega) factors hf
  obtain ⟨g0, g3, gq, gr⟩ := exists_big_root hp h33
  have hg0 : (UInt64.ofNat g0).toNat = g0 := by
    rw [UInt64.toNat_ofNat']; have := q.toNat_lt; exact Nat.mod_eq_of_lt (by omega)
  have hg2 : (2 : UInt64).toNat = 2 := rfl
  have hne1 : ∀ (g e : UInt64), modExp g e q ≠ 1 ↔ (g.toNat : ZMod q.toNat) ^ e.toNat ≠ 1 := by
    intro g e
    rw [not_iff_not, ← UInt64.toNat_inj, modExp_toNat h1q hq]
    rw [UInt64.toNat_one]
    have h3 := ZMod.natCast_eq_natCast_iff' (g.toNat ^ e.toNat) 1 q.toNat
    push_cast at h3
    rw [h3, Nat.mod_eq_of_lt h1q]
  have hacc : rootRejected q (UInt64.ofNat g0) factors true = false := by
    apply rootRejected_of_all _ (List.ne_nil_of_mem h2)
    intro f hf
    obtain ⟨f1, f2⟩ := hfok f hf
    rw [hne1, hg0, UInt64.toNat_div]
    apply gr
    · exact Nat.div_pos (Nat.le_of_dvd (by omega) f2) (by omega)
    · rw [hq1]; exact Nat.div_lt_self (by omega) f1
  obtain ⟨r1, r2, r3⟩ := primitiveRootLoop_spec factors _ hacc fuel 2 g (by rw [hg0, hg2]; omega) h
  rw [hg0] at r2
  refine ⟨by omega, by omega, ?_⟩
  have := rootRejected_false _ _ r3 2 h2
  rw [hne1, UInt64.toNat_div, hq1, hg2] at this
  have hgne : (g.toNat : ZMod q.toNat) ≠ 0 := by
    intro h0
    rw [ZMod.natCast_eq_zero_iff] at h0
    have := Nat.le_of_dvd (by omega) h0
    omega
  have hsq : ((g.toNat : ZMod q.toNat) ^ ((q.toNat - 1) / 2)) ^ 2 = 1 := by
    rw [← pow_mul, show (q.toNat - 1) / 2 * 2 = q.toNat - 1 by omega]
    exact ZMod.pow_card_sub_one_eq_one hgne
  rcases sq_eq_one_iff.1 hsq with h5 | h5
  · exact absurd h5 this
  · exact h5

/-! ### One modulus -/

theorem inv_two_pow {q : ℕ} (hodd : q % 2 = 1) (a : ZMod q) : a * 2 ^ 64 * (2 ^ 64)⁻¹ = a := by
  rw [mul_assoc, ZMod.mul_inv_of_unit _ (two_pow_unit hodd), mul_one]

theorem mform_zmod {q : UInt64} (hq1 : 1 < q.toNat) (hq : q.toNat ≤ 2 ^ 63) (x : UInt64) :
    (mform x q (bredParams q)).toNat < q.toNat ∧
    ((mform x q (bredParams q)).toNat : ZMod q.toNat) = x.toNat * 2 ^ 64 := by
  rw [mform_toNat hq1 hq]
  refine ⟨Nat.mod_lt _ (by omega), ?_⟩
  rw [ZMod.natCast_mod]
  simp only [Nat.cast_mul, Nat.cast_pow, Nat.cast_ofNat]

theorem modExp_zmod {q : UInt64} (hq1 : 1 < q.toNat) (hq : q.toNat ≤ 2 ^ 63) (x e : UInt64) :
    ((modExp x e q).toNat : ZMod q.toNat) = (x.toNat : ZMod q.toNat) ^ e.toNat := by
  rw [modExp_toNat hq1 hq, ZMod.natCast_mod, Nat.cast_pow]

theorem len64_lt {x k : ℕ} (h : x < 2 ^ k) : len64 x ≤ k := by
  unfold len64
  split
  · omega
  · have := (Nat.log2_lt (by assumption)).2 h
    omega

theorem genSub_valid {fuel n : ℕ} {q : UInt64} {s : SubRing} (hn : 4 ≤ n) (hn' : n < 63)
    (hp : q.toNat.Prime) (hone : q.toNat % 2 ^ (n + 1) = 1) (hq : q.toNat < 2 ^ 63)
    (h : genSub fuel (2 * 2 ^ n) q = some s) : s.q = q ∧ s.Valid n := by
  have : Fact q.toNat.Prime := ⟨hp⟩
  unfold genSub at h
  simp only [Option.bind_eq_some_iff] at h
  obtain ⟨g, hg, hs⟩ := h
  have h32 : 2 ^ 5 ∣ 2 ^ (n + 1) := pow_dvd_pow 2 (by omega)
  have hmod32 : q.toNat % 32 = 1 := by
    have := Nat.mod_mod_of_dvd q.toNat h32
    rw [hone] at this
    simpa using this.symm
  have hodd : q.toNat % 2 = 1 := by omega
  have hne1 := hp.one_lt
  have h33 : 33 ≤ q.toNat := by omega
  obtain ⟨g3, gq, groot⟩ := primitiveRoot_spec hp h33 hodd (by omega) hg
  have hhalf : 2 * 2 ^ n / 2 = 2 ^ n := by omega
  have hpn : 2 ^ (n + 1) = 2 * 2 ^ n := by ring
  have hpow : 2 ^ (n + 1) < 2 ^ 64 := Nat.pow_lt_pow_right (by omega) (by omega)
  have hnr : (UInt64.ofNat (2 * 2 ^ n)).toNat = 2 * 2 ^ n := by
    rw [UInt64.toNat_ofNat']; exact Nat.mod_eq_of_lt (by omega)
  have hnr2 : (UInt64.ofNat (2 ^ n)).toNat = 2 ^ n := by
    rw [UInt64.toNat_ofNat']; exact Nat.mod_eq_of_lt (by omega)
  have hq1 : (q - 1).toNat = q.toNat - 1 := by
    rw [toNat_sub_of_le' (by rw [UInt64.toNat_one]; omega), UInt64.toNat_one]
  have hq2 : (q - 2).toNat = q.toNat - 2 := by
    have : (2 : UInt64).toNat = 2 := rfl
    rw [toNat_sub_of_le' (by omega), this]
  -- the Montgomery constant
  have hmp : (if (q &&& (q - 1)) ≠ 0 ∧ q ≠ 0 then mredParams q else 0) = mredParams q := by
    rw [if_pos]
    constructor
    · intro h0
      have h1 : (q &&& (q - 1)).toNat = 0 := by rw [h0]; rfl
      rw [UInt64.toNat_and, hq1] at h1
      -- q odd and > 2: bit k ≥ 1 set in both
      have h2 : ∃ k, 1 ≤ k ∧ q.toNat.testBit k = true := by
        by_contra hne
        push Not at hne
        have : q.toNat = 1 := by
          apply Nat.eq_of_testBit_eq
          intro k
          rcases Nat.eq_zero_or_pos k with h3 | h3
          · subst h3; simp [hodd]
          · have := hne k h3
            simp only [ne_eq, Bool.not_eq_true] at this
            rw [this]
            exact (Nat.testBit_lt_two_pow (Nat.one_lt_two_pow (by omega))).symm
        omega
      obtain ⟨k, hk1, hk2⟩ := h2
      have h3 : (q.toNat - 1).testBit k = true := by
        obtain ⟨j, rfl⟩ : ∃ j, k = j + 1 := ⟨k - 1, by omega⟩
        rw [Nat.testBit_succ] at hk2 ⊢
        rw [show (q.toNat - 1) / 2 = q.toNat / 2 by omega]; exact hk2
      have h4 : (q.toNat &&& (q.toNat - 1)).testBit k = true := by
        rw [Nat.testBit_and, hk2, h3]; rfl
      rw [h1] at h4
      simp at h4
    · rintro rfl
      simp at h33
  have hmpinv : q * mredParams q = 1 := mredParams_spec q hodd
  -- psi
  have hdvd : 2 * 2 ^ n ∣ q.toNat - 1 := by
    rw [← hpn]
    exact (Nat.modEq_iff_dvd' (by omega)).1 (show 1 % _ = q.toNat % _ by
      rw [hone, Nat.mod_eq_of_lt (by rw [hpn]; have := Nat.one_le_two_pow (n := n); omega)])
  obtain ⟨c, hc⟩ := hdvd
  have hpw : ((q - 1) / UInt64.ofNat (2 * 2 ^ n)).toNat = c := by
    rw [UInt64.toNat_div, hq1, hnr, hc, Nat.mul_div_cancel_left _ (by positivity)]
  have hgne : (g.toNat : ZMod q.toNat) ≠ 0 := by
    intro h0
    rw [ZMod.natCast_eq_zero_iff] at h0
    have := Nat.le_of_dvd (by omega) h0
    omega
  have hcle : c ≤ q.toNat - 1 := by
    rw [hc]; exact Nat.le_mul_of_pos_left _ (by positivity)
  have hpi : ((q - 1) - (q - 1) / UInt64.ofNat (2 * 2 ^ n)).toNat = q.toNat - 1 - c := by
    rw [toNat_sub_of_le' (by rw [hpw, hq1]; exact hcle), hpw, hq1]
  set P : ZMod q.toNat := (g.toNat : ZMod q.toNat) ^ c with hP
  have hPn : P ^ 2 ^ n = -1 := by
    have he : (q.toNat - 1) / 2 = c * 2 ^ n := by
      rw [hc, mul_assoc, Nat.mul_div_cancel_left _ (by omega), mul_comm]
    rw [hP, ← pow_mul, ← groot, he]
  have hPinv : (g.toNat : ZMod q.toNat) ^ (q.toNat - 1 - c) = P⁻¹ := by
    apply eq_inv_of_mul_eq_one_left
    rw [hP, ← pow_add, Nat.sub_add_cancel hcle]
    exact ZMod.pow_card_sub_one_eq_one hgne
  simp only [hmp, hhalf, len64_two_pow, Nat.add_sub_cancel, Option.some.injEq] at hs
  have m1 := mform_zmod hne1 hq.le (modExp g ((q - 1) / UInt64.ofNat (2 * 2 ^ n)) q)
  rw [modExp_zmod hne1 hq.le, hpw, ← hP] at m1
  have m2 := mform_zmod hne1 hq.le
    (modExp g ((q - 1) - (q - 1) / UInt64.ofNat (2 * 2 ^ n)) q)
  rw [modExp_zmod hne1 hq.le, hpi, hPinv] at m2
  have m3 := mform_zmod hne1 hq.le 1
  rw [UInt64.toNat_one, Nat.cast_one, one_mul] at m3
  have m4 := mform_zmod hne1 hq.le (modExp (UInt64.ofNat (2 ^ n)) (q - 2) q)
  rw [modExp_zmod hne1 hq.le, hnr2, hq2] at m4
  have t1 := powTable_spec hmpinv hq.le P _ _ n (by omega) m3 m1
  have t2 := powTable_spec hmpinv hq.le P⁻¹ _ _ n (by omega) m3 m2
  subst hs
  have hpsi : ((mform (modExp g ((q - 1) / UInt64.ofNat (2 * 2 ^ n)) q) q
      (bredParams q)).toNat : ZMod q.toNat) * (2 ^ 64)⁻¹ = P := by
    rw [m1.2, inv_two_pow hodd]
  refine ⟨rfl, ?_⟩
  constructor
  · exact hp
  · exact hone
  · exact hq
  · rfl
  · exact hmpinv
  · show (UInt64.ofNat (2 ^ len64 q.toNat) - 1).toNat = _
    have hl := len64_lt hq
    have h1 : (UInt64.ofNat (2 ^ len64 q.toNat)).toNat = 2 ^ len64 q.toNat := by
      rw [UInt64.toNat_ofNat']
      exact Nat.mod_eq_of_lt (Nat.pow_lt_pow_right (by omega) (by omega))
    have : 1 ≤ 2 ^ len64 q.toNat := Nat.one_le_two_pow
    rw [toNat_sub_of_le' (by rw [h1, UInt64.toNat_one]; exact this), h1, UInt64.toNat_one]
  · unfold SubRing.psi; dsimp only; rw [hpsi]; exact hPn
  · unfold SubRing.psi; dsimp only; rw [hpsi]; exact m1
  · unfold SubRing.psi; dsimp only; rw [hpsi]; exact m2
  · unfold SubRing.tw SubRing.psi; dsimp only; rw [hpsi]; exact t1.2
  · unfold SubRing.twInv SubRing.psi; dsimp only; rw [hpsi]; exact t2.2
  · refine ⟨m4.1, ?_⟩
    show ((mform (modExp (UInt64.ofNat (2 ^ n)) (q - 2) q) q (bredParams q)).toNat : ZMod q.toNat)
      * 2 ^ n = 2 ^ 64
    rw [m4.2]
    have h2ne : (2 : ZMod q.toNat) ^ n ≠ 0 := by
      apply pow_ne_zero
      intro h0
      have : ((2 : ℕ) : ZMod q.toNat) = 0 := by exact_mod_cast h0
      rw [ZMod.natCast_eq_zero_iff] at this
      have := Nat.le_of_dvd (by omega) this
      omega
    have hf : ((2 : ZMod q.toNat) ^ n) ^ (q.toNat - 2) * 2 ^ n = 1 := by
      rw [← pow_succ, show q.toNat - 2 + 1 = q.toNat - 1 by omega]
      exact ZMod.pow_card_sub_one_eq_one h2ne
    simp only [Nat.cast_pow, Nat.cast_ofNat]
    linear_combination 2 ^ 64 * hf

end FastKsw
