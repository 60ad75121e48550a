import Verif.Lemmas.Factors
import Mathlib.NumberTheory.LucasPrimality

/-!
# Primality certificates

The moduli of the parameter sets in /repo are proved prime by Lucas' test, with the factors of `q - 1`
certified in the same way.  The checker is evaluated by the kernel.
-/

namespace FastKsw

/-- `acc * a^e mod p` for `e < 2^k` -/
def powModAux (p : ℕ) : ℕ → ℕ → ℕ → ℕ → ℕ
  | 0, _, _, acc => acc
  | k + 1, a, e, acc => powModAux p k (a * a % p) (e / 2) (bif Nat.beq (e % 2) 1 then acc * a % p else acc)

theorem powModAux_eq (p k a e acc : ℕ) (he : e < 2 ^ k) : (powModAux p k a e acc : ZMod p) = acc * a ^ e := by
  induction k generalizing a e acc with
  | zero =>
    have : e = 0 := by simpa using he
    subst this
    simp [powModAux]
  | succ k ih =>
    rw [powModAux, ih _ _ _ (by rw [pow_succ] at he; omega)]
    rw [ZMod.natCast_mod, Nat.cast_mul]
    have hd : e = 2 * (e / 2) + e % 2 := by omega
    cases hb : Nat.beq (e % 2) 1 with
    | true =>
      rw [cond_true, ZMod.natCast_mod, Nat.cast_mul]
      have : e % 2 = 1 := Nat.eq_of_beq_eq_true hb
      conv_rhs => rw [hd, this, pow_add, pow_mul, pow_one]
      ring
    | false =>
      rw [cond_false]
      have : e % 2 = 0 := by
        have := Nat.ne_of_beq_eq_false hb
        omega
      conv_rhs => rw [hd, this, add_zero, pow_mul]
      ring

/-- the product of prime powers -/
def prodPows : List (ℕ × ℕ) → ℕ
  | [] => 1
  | (f, k) :: l => f ^ k * prodPows l

/-- a factor is certified: a small prime, or proved before -/
def factorKnown (known : List ℕ) (f : ℕ) : Bool :=
  (Nat.ble 2 f && Nat.ble f 17423 && noDivisor f trialPrimes) || known.any (Nat.beq f)

/-- certificate `(p, a, fs)`: `fs` is the factorisation of `p - 1`, `a` a primitive root -/
def prattCheck (known : List ℕ) (c : ℕ × ℕ × List (ℕ × ℕ)) : Bool :=
  Nat.ble 2 c.1 && Nat.ble c.1 (2 ^ 64) && Nat.beq (c.1 - 1) (prodPows c.2.2) &&
    Nat.beq (powModAux c.1 64 c.2.1 (c.1 - 1) 1) 1 &&
    c.2.2.all fun f => factorKnown known f.1 && !Nat.beq (powModAux c.1 64 c.2.1 ((c.1 - 1) / f.1) 1) 1

theorem factorKnown_prime {known : List ℕ} (hk : ∀ p ∈ known, p.Prime) {f : ℕ} (h : factorKnown known f = true) :
    f.Prime := by
  simp only [factorKnown, Bool.or_eq_true, Bool.and_eq_true, Nat.ble_eq] at h
  rcases h with ⟨⟨h1, h2⟩, h3⟩ | h
  · exact (noDivisor_prime h1 (by omega)).1 h3
  · obtain ⟨p, hp, he⟩ := List.any_eq_true.1 h
    rw [Nat.eq_of_beq_eq_true he]
    exact hk p hp

theorem prime_dvd_prodPows {q : ℕ} (hq : q.Prime) (l : List (ℕ × ℕ)) (hl : ∀ f ∈ l, f.1.Prime) (h : q ∣ prodPows l) :
    ∃ f ∈ l, f.1 = q := by
  induction l with
  | nil => exact absurd (Nat.dvd_one.1 h) hq.one_lt.ne'
  | cons x l ih =>
    obtain ⟨f, k⟩ := x
    rw [prodPows] at h
    rcases hq.dvd_mul.1 h with h | h
    · exact ⟨(f, k), List.mem_cons_self,
        ((Nat.prime_dvd_prime_iff_eq hq (hl _ List.mem_cons_self)).1 (hq.dvd_of_dvd_pow h)).symm⟩
    · obtain ⟨g, hg, e⟩ := ih (fun g hg => hl g (List.mem_cons_of_mem _ hg)) h
      exact ⟨g, List.mem_cons_of_mem _ hg, e⟩

theorem prattCheck_prime {known : List ℕ} (hk : ∀ p ∈ known, p.Prime) {c : ℕ × ℕ × List (ℕ × ℕ)}
    (h : prattCheck known c = true) : c.1.Prime := by
  obtain ⟨p, a, fs⟩ := c
  simp only [prattCheck, Bool.and_eq_true, Nat.ble_eq, List.all_eq_true, Bool.not_eq_true'] at h
  obtain ⟨⟨⟨⟨h2, h64⟩, hprod⟩, h1⟩, hf⟩ := h
  have hprod' := Nat.eq_of_beq_eq_true hprod
  have hpow : ∀ e, e ≤ p - 1 → ((powModAux p 64 a e 1 : ℕ) : ZMod p) = (a : ZMod p) ^ e := by
    intro e he
    rw [powModAux_eq p 64 a e 1 (by omega)]
    simp
  apply lucas_primality p (a : ZMod p)
  · rw [← hpow _ le_rfl, Nat.eq_of_beq_eq_true h1, Nat.cast_one]
  · intro q hq hd
    rw [hprod'] at hd
    obtain ⟨f, hfm, rfl⟩ := prime_dvd_prodPows hq fs (fun f hf' => factorKnown_prime hk (hf f hf').1) hd
    rw [← hpow _ (Nat.div_le_self _ _)]
    intro he
    have hlt : ∀ k a e acc, acc < p → powModAux p k a e acc < p := by
      intro k
      induction k with
      | zero => intro a e acc h; exact h
      | succ k ih =>
        intro a e acc h
        rw [powModAux]
        apply ih
        cases Nat.beq (e % 2) 1 with
        | true => exact Nat.mod_lt _ (by omega)
        | false => exact h
    have h3 := (hf f hfm).2
    replace he : ((powModAux p 64 a ((p - 1) / f.1) 1 : ℕ) : ZMod p) = ((1 : ℕ) : ZMod p) := by rw [he, Nat.cast_one]
    rw [ZMod.natCast_eq_natCast_iff', Nat.mod_eq_of_lt (hlt _ _ _ _ (by omega)),
      Nat.mod_eq_of_lt (by omega)] at he
    rw [he] at h3
    exact absurd h3 (by decide)

/-- all certificates, each may use those before -/
def prattAll (known : List ℕ) : List (ℕ × ℕ × List (ℕ × ℕ)) → Bool
  | [] => true
  | c :: cs => prattCheck known c && prattAll (c.1 :: known) cs

theorem prattAll_prime {known : List ℕ} (hk : ∀ p ∈ known, p.Prime) {cs : List (ℕ × ℕ × List (ℕ × ℕ))}
    (h : prattAll known cs = true) : ∀ c ∈ cs, c.1.Prime := by
  induction cs generalizing known with
  | nil => simp
  | cons c cs ih =>
    rw [prattAll, Bool.and_eq_true] at h
    have hp := prattCheck_prime hk h.1
    intro d hd
    rcases List.mem_cons.1 hd with rfl | hd
    · exact hp
    · refine ih ?_ h.2 d hd
      intro p hp'
      rcases List.mem_cons.1 hp' with rfl | hp'
      · exact hp
      · exact hk p hp'

end FastKsw
