import Verif.Lemmas.FSwitch

/-!
# Size of the key-switching error
-/

namespace FastKsw

open Finset

theorem abs_convSum_le {N m : ℕ} {a b : ℕ → ℕ → ℤ} {Ma Mb : ℤ} (ha : ∀ i < m, ∀ k < N, |a i k| ≤ Ma)
    (hb : ∀ i < m, ∀ k < N, |b i k| ≤ Mb) {k : ℕ} (hk : k < N) : |convSum N m a b k| ≤ m * (N * (Ma * Mb)) := by
  unfold convSum
  refine (abs_sum_le_sum_abs _ _).trans ?_
  have := sum_le_card_nsmul (range m) (fun i => |negConv N (a i) (b i) k|) (N * (Ma * Mb))
    (fun i hi => abs_negConv_le (ha i (mem_range.1 hi)) (hb i (mem_range.1 hi)) hk)
  simpa using this

/-- if the digit blocks have product at most `M`, the key errors are at most `Be` and the target secret
at most `Bs`, the error of the key switch satisfies
`P |E| ≤ (1 + 2^-42) (beta N M Be + P (1 + N Bs))` -/
theorem KeySwitched.noise {n : ℕ} {rQ rP : Ring} {lQ lP : ℕ} {a d0 d1 : ∀ u, Rq (2 ^ n) (rQ.qs u)}
    {sIn sOut : ℕ → ℤ} {e : ℕ → ℕ → ℤ} {E : ℕ → ℤ} (h : KeySwitched n rQ rP lQ lP a d0 d1 sIn sOut e E)
    {M : ℕ} {Be Bs : ℤ} (hM : ∀ i, i * (lP + 1) ≤ lQ → rQ.blockQ (lP + 1) (lQ + 1) i ≤ M)
    (he : ∀ i, i * (lP + 1) ≤ lQ → ∀ k < 2 ^ n, |e i k| ≤ Be) (hs : ∀ k < 2 ^ n, |sOut k| ≤ Bs) {k : ℕ}
    (hk : k < 2 ^ n) :
    2 ^ 42 * (rP.prodQ lP * |E k|) ≤ (2 ^ 42 + 1) *
      (((lQ + lP + 1) / (lP + 1) : ℕ) * (2 ^ n * (M * Be)) + rP.prodQ lP * (1 + 2 ^ n * Bs)) := by
  obtain ⟨A, Z0, Z1, hA, hz0, hz1, hE, -⟩ := h
  set b := (lQ + lP + 1) / (lP + 1) with hb
  set P : ℤ := (rP.prodQ lP : ℤ) with hP
  have hi : ∀ i < b, i * (lP + 1) ≤ lQ := by
    intro i hi
    have h1 : (i + 1) * (lP + 1) ≤ b * (lP + 1) := Nat.mul_le_mul_right _ (by omega)
    have h2 : b * (lP + 1) ≤ lQ + lP + 1 := Nat.div_mul_le_self _ _
    rw [Nat.add_mul, one_mul] at h1
    omega
  have c1 : |convSum (2 ^ n) b (fun i k => 2 ^ 42 * A i k) e k| ≤ b * ((2 ^ n : ℕ) * (((2 ^ 42 + 1) * M) * Be)) := by
    refine abs_convSum_le (fun i hi' k hk => ?_) (fun i hi' => he i (hi i hi')) hk
    rw [abs_mul, show |(2 ^ 42 : ℤ)| = 2 ^ 42 by norm_num]
    refine ((hA i (hi i hi')).1 k hk).abs_le.trans ?_
    have := hM i (hi i hi')
    exact mul_le_mul_of_nonneg_left (by exact_mod_cast this) (by norm_num)
  have e1 : convSum (2 ^ n) b (fun i k => 2 ^ 42 * A i k) e k = 2 ^ 42 * convSum (2 ^ n) b A e k := by
    unfold convSum negConv
    rw [mul_sum]
    refine sum_congr rfl (fun i _ => ?_)
    rw [mul_sum]
    refine sum_congr rfl (fun j _ => ?_)
    split <;> ring
  have c2 : |negConv (2 ^ n) (fun k => 2 ^ 42 * Z1 k) sOut k| ≤ (2 ^ n : ℕ) * (((2 ^ 42 + 1) * P) * Bs) := by
    refine abs_negConv_le (fun k hk => ?_) hs hk
    rw [abs_mul, show |(2 ^ 42 : ℤ)| = 2 ^ 42 by norm_num]
    exact (hz1 k hk).abs_le
  have e2 : negConv (2 ^ n) (fun k => 2 ^ 42 * Z1 k) sOut k = 2 ^ 42 * negConv (2 ^ n) Z1 sOut k := by
    unfold negConv
    rw [mul_sum]
    refine sum_congr rfl (fun j _ => ?_)
    split <;> ring
  have c3 := (hz0 k hk).abs_le
  have hpos : 0 ≤ P := by positivity
  have e3 : (2 : ℤ) ^ 42 * (P * |E k|) = |2 ^ 42 * (P * E k)| := by
    rw [abs_mul, abs_mul, abs_of_nonneg hpos, show |(2 ^ 42 : ℤ)| = 2 ^ 42 by norm_num]
  rw [e3, hE k hk]
  rw [e1] at c1
  rw [e2] at c2
  have t1 := abs_sub (2 ^ 42 * convSum (2 ^ n) b A e k - 2 ^ 42 * Z0 k) (2 ^ 42 * negConv (2 ^ n) Z1 sOut k)
  have t2 := abs_sub (2 ^ 42 * convSum (2 ^ n) b A e k) (2 ^ 42 * Z0 k)
  have e4 : |(2 : ℤ) ^ 42 * Z0 k| = 2 ^ 42 * |Z0 k| := by
    rw [abs_mul, show |(2 ^ 42 : ℤ)| = 2 ^ 42 by norm_num]
  rw [e4] at t2
  rw [show (2 : ℤ) ^ 42 * (convSum (2 ^ n) b A e k - Z0 k - negConv (2 ^ n) Z1 sOut k)
    = 2 ^ 42 * convSum (2 ^ n) b A e k - 2 ^ 42 * Z0 k - 2 ^ 42 * negConv (2 ^ n) Z1 sOut k by ring]
  rw [← hP] at c3
  rw [Nat.cast_pow, Nat.cast_ofNat] at c1 c2
  refine t1.trans ((add_le_add (t2.trans (add_le_add c1 c3)) c2).trans (le_of_eq ?_))
  ring

end FastKsw
