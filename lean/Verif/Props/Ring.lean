import Verif.Lemmas.NewRing
import Verif.Lemmas.VecOps

/-!
# C17: ring construction; C45, C60: bit reversal, distinctness
-/

namespace FastKsw.Props

/-- **C17.** Whenever `NewRing` succeeds (on moduli below `2^63`) the degree is a
power of two `≥ 16`, the moduli are distinct primes `≡ 1 (mod 2N)`, and for each
of them the stored root satisfies `ψ^N = -1`, `ψ·ψ⁻¹ = 1`, and the tables hold
`ψ^bitrev(j)` and `ψ^-bitrev(j)` in Montgomery form. -/
theorem C17_newRing_valid (fuel N : ℕ) (hN : N < 2 ^ 62) (moduli : List UInt64)
    (hq : ∀ q ∈ moduli, q.toNat < 2 ^ 63) (r : Ring) (h : newRing fuel N moduli = .ok r) :
    ∃ n, N = 2 ^ n ∧ r.Valid n ∧ r.moduli = moduli ∧
    ∀ s ∈ r.subs, s.q.toNat.Prime ∧ s.q.toNat % (2 * N) = 1 ∧
      ∃ psi : ZMod s.q.toNat, psi ^ N = -1 ∧ (∃ psiInv, psi * psiInv = 1 ∧
        (s.psiInvMont.toNat : ZMod s.q.toNat) = psiInv * 2 ^ 64 ∧
        ∀ j < N, (s.nttPsiInv.at j).toNat < s.q.toNat ∧
          ((s.nttPsiInv.at j).toNat : ZMod s.q.toNat) = psiInv ^ revBits n j * 2 ^ 64) ∧
      (s.psiMont.toNat : ZMod s.q.toNat) = psi * 2 ^ 64 ∧
      (∀ j < N, (s.nttPsi.at j).toNat < s.q.toNat ∧
        ((s.nttPsi.at j).toNat : ZMod s.q.toNat) = psi ^ revBits n j * 2 ^ 64) ∧
      (s.nttNInv.toNat : ZMod s.q.toNat) * N = 2 ^ 64 := by
  obtain ⟨h1, ⟨n, hn⟩, h3, h4, h5, h6, h7, h8, h10, h9⟩ := newRingCustom_ok h
  have hn62 : n < 62 := by
    by_contra hc
    have : 2 ^ 62 ≤ 2 ^ n := Nat.pow_le_pow_right (by omega) (by omega)
    omega
  have h4n : 4 ≤ n := by
    by_contra hc
    have : 2 ^ n ≤ 2 ^ 3 := Nat.pow_le_pow_right (by omega) (by omega)
    omega
  obtain ⟨hm, hv⟩ := newRingCustom_valid (n := n) (m := n) le_rfl (by omega) hn hq
    (by rw [← hn]; exact h)
  refine ⟨n, hn, ⟨h4n, h6.trans hn, by rw [h7, hn, pow_succ, mul_comm], h8, ?_, by rw [hm]; exact h4, hv,
    by rw [hm]; exact h10⟩, hm, ?_⟩
  · intro h0
    rw [h0] at h9
    cases h9
    exact h3 rfl
  · intro s hs
    have V := hv s hs
    have : Fact s.q.toNat.Prime := ⟨V.prime⟩
    have h0 : s.psi ≠ 0 := by
      intro h
      have := V.psi_pow
      rw [h, zero_pow (Nat.two_pow_pos n).ne'] at this
      simp at this
    refine ⟨V.prime, ?_, s.psi, by rw [hn]; exact V.psi_pow, ⟨s.psi⁻¹, mul_inv_cancel₀ h0,
      V.psiInvMont.2, ?_⟩, V.psiMont.2, ?_, ?_⟩
    · have := V.one_mod
      rw [hn]; rwa [pow_succ, mul_comm] at this
    · rw [hn]; exact V.tableInv
    · rw [hn]; exact V.table
    · rw [hn]; push_cast; exact V.nInv.2

/-- **C17 (rejection).** `NewRing` fails on a degree that is not a power of two
`≥ 16`, on an empty list, a repetition, a composite, or a modulus `≢ 1 (mod 2N)`. -/
theorem C17_newRing_rejects (fuel N : ℕ) (hN : N < 2 ^ 62) (moduli : List UInt64)
    (hbad : N < 16 ∨ (∀ n, N ≠ 2 ^ n) ∨ moduli = [] ∨ ¬ moduli.Nodup ∨
      ∃ q ∈ moduli, ¬ q.toNat.Prime ∨ q.toNat % (2 * N) ≠ 1) :
    ∀ r, newRing fuel N moduli ≠ .ok r := by
  intro r h
  obtain ⟨h1, ⟨n, hn⟩, h3, h4, h5, _⟩ := newRingCustom_ok h
  rcases hbad with hb | hb | hb | hb | ⟨q, hq, hb | hb⟩
  · omega
  · exact hb n hn
  · exact h3 hb
  · exact hb h4
  · exact hb (h5 q hq).1
  · apply hb
    have hn62 : n < 62 := by
      by_contra hc
      have : 2 ^ 62 ≤ 2 ^ n := Nat.pow_le_pow_right (by omega) (by omega)
      omega
    have e : 2 * N = 2 ^ (n + 1) := by rw [hn]; ring
    rw [e]
    exact and_mask_eq_one (by omega) (by rw [← e]; exact (h5 q hq).2)

-- NewRing does succeed: N = 16, moduli 97 and 193
set_option maxRecDepth 1000000 in
theorem newRing_example : (newRing 100 16 [97, 193]).toOption.isSome = true := by
  decide +kernel

-- and rejects: degree 24, modulus 96, a repetition, 7 ≢ 1 mod 32
example : (newRing 100 24 [97]).toOption.isSome = false ∧
    (newRing 100 16 [97, 97]).toOption.isSome = false ∧
    (newRing 100 16 [7]).toOption.isSome = false := by decide +kernel

/-- **C45.** `BitReverse64(·, n)` is an involution of `[0, 2^n)`, hence a bijection,
and bit `b` of the result is bit `n-1-b` of the argument. -/
theorem C45_bitReverse_involutive (n x : ℕ) (hn : n ≤ 63) (hx : x < 2 ^ n) :
    bitReverse64 x n < 2 ^ n ∧ bitReverse64 (bitReverse64 x n) n = x ∧
    ∀ b < n, (bitReverse64 x n).testBit b = x.testBit (n - 1 - b) := by
  rw [bitReverse64_eq n x (by omega) hx]
  have h := revBits_lt n x
  refine ⟨h, ?_, ?_⟩
  · rw [bitReverse64_eq n _ (by omega) h, revBits_involutive _ _ hx]
  · intro b hb
    rw [revBits_testBit]; simp [hb]

example : bitReverse64 6 4 = 6 ∧ bitReverse64 1 4 = 8 ∧ bitReverse64 5 5 = 20 := by decide

/-- **C60 (second half).** `AllDistinct` detects every repetition. -/
theorem C60_allDistinct (l : List UInt64) : allDistinct l [] = true ↔ l.Nodup := by
  rw [allDistinct_iff]; simp

example : allDistinct [1, 2, 3, 2] [] = false ∧ allDistinct [5, 6, 7] [] = true := by decide

end FastKsw.Props
