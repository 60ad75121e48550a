import Verif.Spec.KeySwitch

/-!
# The algebra of key-switching: digits times key, divided by `P`
-/

namespace FastKsw

open Finset

section
variable {N q : ℕ}

theorem intR_congr {a b : ℕ → ℤ} (h : ∀ k < N, (a k : ZMod q) = b k) : intR N q a = intR N q b :=
  toR_congr h

theorem intR_sub (a b : ℕ → ℤ) : intR N q a - intR N q b = intR N q (fun k => a k - b k) := by
  unfold intR
  rw [toR_sub]; simp

theorem intR_natMul (c : ℕ) (a : ℕ → ℤ) : (c : Rq N q) * intR N q a = intR N q (fun k => c * a k) := by
  unfold intR
  have := toR_smul (N := N) (c : ZMod q) (fun k => (a k : ZMod q))
  rw [map_natCast] at this
  rw [this]
  simp

theorem intR_convSum (m : ℕ) (a b : ℕ → ℕ → ℤ) :
    intR N q (convSum N m a b) = ∑ i ∈ range m, intR N q (a i) * intR N q (b i) := by
  induction m with
  | zero =>
    simp only [range_zero, sum_empty]
    unfold intR toR convSum
    simp
  | succ m ih =>
    rw [sum_range_succ, ← ih, intR_mul, intR_add]
    refine intR_congr (fun k _ => ?_)
    unfold convSum
    rw [sum_range_succ]

end

theorem prodQ_ne_zero {n : ℕ} {rQ rP : Ring} (hQ : rQ.Valid n) (hP : rP.Valid n) (hd : rQ.Disjoint rP)
    {u : ℕ} (hu : u < rQ.subs.length) {l : ℕ} (hl : l < rP.subs.length) :
    IsUnit (rP.prodQ l : ZMod (rQ.qs u)) := by
  have V := hQ.subAt hu
  rw [ZMod.isUnit_iff_coprime]
  refine Nat.Coprime.prod_left (fun i hi => ?_)
  have := mem_range.1 hi
  rw [Nat.coprime_primes (hP.subAt (by omega)).prime V.prime]
  intro he
  exact hd u hu i (by omega) (UInt64.toNat_inj.1 he.symm)

theorem keyswitch_relation {n : ℕ} {rQ rP : Ring} (hQ : rQ.Valid n) (hP : rP.Valid n) (hd : rQ.Disjoint rP)
    {levelQ lP : ℕ} (hl : levelQ < rQ.subs.length) (hlP : lP < rP.subs.length) {alpha beta : ℕ} (ha : 0 < alpha)
    (hb : ∀ u ≤ levelQ, u / alpha < beta) {B A' : ℕ → ℕ → ℤ} {sIn sOut : ℕ → ℤ} {e : ℕ → ℕ → ℤ}
    (relQ : ∀ i < beta, ∀ u ≤ levelQ,
      intR (2 ^ n) (rQ.qs u) (B i) + intR (2 ^ n) (rQ.qs u) (A' i) * intR (2 ^ n) (rQ.qs u) sOut
        = intR (2 ^ n) (rQ.qs u) (e i)
          + if u / alpha = i then (rP.prodQ lP : Rq (2 ^ n) (rQ.qs u))
              * intR (2 ^ n) (rQ.qs u) sIn else 0)
    (relP : ∀ i < beta, ∀ u ≤ lP,
      intR (2 ^ n) (rP.qs u) (B i) + intR (2 ^ n) (rP.qs u) (A' i) * intR (2 ^ n) (rP.qs u) sOut
        = intR (2 ^ n) (rP.qs u) (e i))
    {A : ℕ → ℕ → ℤ} {v : ∀ u, ℕ → ZMod (rQ.sub u).q.toNat}
    (hA : ∀ i < beta, BlockRep rQ alpha (levelQ + 1) i v (A i)) {Z0 Z1 Y0 Y1 : ℕ → ℤ}
    (hZ0 : ExtInt rP lP (rP.intVec (convSum (2 ^ n) beta A B)) Z0)
    (hZ1 : ExtInt rP lP (rP.intVec (convSum (2 ^ n) beta A A')) Z1)
    (hY0 : ∀ k < 2 ^ n, (rP.prodQ lP : ℤ) * Y0 k = convSum (2 ^ n) beta A B k - Z0 k)
    (hY1 : ∀ k < 2 ^ n, (rP.prodQ lP : ℤ) * Y1 k = convSum (2 ^ n) beta A A' k - Z1 k) :
    ∃ E : ℕ → ℤ,
      (∀ k < 2 ^ n, (rP.prodQ lP : ℤ) * E k
        = convSum (2 ^ n) beta A e k - Z0 k - negConv (2 ^ n) Z1 sOut k) ∧
      ∀ u ≤ levelQ, intR (2 ^ n) (rQ.qs u) Y0 + intR (2 ^ n) (rQ.qs u) Y1 * intR (2 ^ n) (rQ.qs u) sOut
        = toR (2 ^ n) (rQ.qs u) (v u) * intR (2 ^ n) (rQ.qs u) sIn + intR (2 ^ n) (rQ.qs u) E := by
  have h4 := hQ.four_le
  set P := rP.prodQ lP with hPd
  -- divisibility by `P`
  have hdvd : ∀ k, ∃ E : ℤ, k < 2 ^ n → (P : ℤ) * E
      = convSum (2 ^ n) beta A e k - Z0 k - negConv (2 ^ n) Z1 sOut k := by
    intro k
    by_cases hk : k < 2 ^ n
    · obtain ⟨E, hE⟩ := hP.dvd_of_cong (l := lP) hlP
        (a := convSum (2 ^ n) beta A e k - Z0 k) (b := negConv (2 ^ n) Z1 sOut k) (fun u hu => by
          have V := hP.subAt (show u < rP.subs.length by omega)
          have := V.fact
          have hz0 : intR (2 ^ n) (rP.qs u) Z0 = intR (2 ^ n) (rP.qs u) (convSum (2 ^ n) beta A B) :=
            intR_congr (fun k hk => hZ0.cong k (by rw [hP.deg]; exact hk) u hu)
          have hz1 : intR (2 ^ n) (rP.qs u) Z1 = intR (2 ^ n) (rP.qs u) (convSum (2 ^ n) beta A A') :=
            intR_congr (fun k hk => hZ1.cong k (by rw [hP.deg]; exact hk) u hu)
          have key : intR (2 ^ n) (rP.qs u) (fun k => convSum (2 ^ n) beta A e k - Z0 k)
              = intR (2 ^ n) (rP.qs u) (negConv (2 ^ n) Z1 sOut) := by
            rw [← intR_sub, ← intR_mul, hz0, hz1, intR_convSum, intR_convSum, intR_convSum, sum_mul,
              sub_eq_iff_eq_add, ← sum_add_distrib]
            refine sum_congr rfl (fun i hi => ?_)
            rw [← relP i (mem_range.1 hi) u (by omega)]
            ring
          exact toR_injective (V.psiOK (by omega)) key k hk)
      exact ⟨E, fun _ => hE.symm⟩
    · exact ⟨0, fun h => absurd h hk⟩
  choose E hE using hdvd
  refine ⟨E, hE, fun u hu => ?_⟩
  have hu' : u < rQ.subs.length := by omega
  have e0 : (P : Rq (2 ^ n) (rQ.qs u)) * intR (2 ^ n) (rQ.qs u) Y0
      = intR (2 ^ n) (rQ.qs u) (convSum (2 ^ n) beta A B) - intR (2 ^ n) (rQ.qs u) Z0 := by
    rw [intR_natMul, intR_sub]
    exact intR_congr (fun k hk => by rw [hY0 k hk])
  have e1 : (P : Rq (2 ^ n) (rQ.qs u)) * intR (2 ^ n) (rQ.qs u) Y1
      = intR (2 ^ n) (rQ.qs u) (convSum (2 ^ n) beta A A') - intR (2 ^ n) (rQ.qs u) Z1 := by
    rw [intR_natMul, intR_sub]
    exact intR_congr (fun k hk => by rw [hY1 k hk])
  have e2 : (P : Rq (2 ^ n) (rQ.qs u)) * intR (2 ^ n) (rQ.qs u) E
      = intR (2 ^ n) (rQ.qs u) (convSum (2 ^ n) beta A e) - intR (2 ^ n) (rQ.qs u) Z0
        - intR (2 ^ n) (rQ.qs u) Z1 * intR (2 ^ n) (rQ.qs u) sOut := by
    rw [intR_natMul, intR_sub, intR_mul, intR_sub]
    exact intR_congr (fun k hk => by rw [hE k hk])
  have e3 : intR (2 ^ n) (rQ.qs u) (convSum (2 ^ n) beta A B)
      + intR (2 ^ n) (rQ.qs u) (convSum (2 ^ n) beta A A') * intR (2 ^ n) (rQ.qs u) sOut
      = intR (2 ^ n) (rQ.qs u) (convSum (2 ^ n) beta A e)
        + toR (2 ^ n) (rQ.qs u) (v u) * ((P : Rq (2 ^ n) (rQ.qs u)) * intR (2 ^ n) (rQ.qs u) sIn) := by
    rw [intR_convSum, intR_convSum, intR_convSum, sum_mul, ← sum_add_distrib]
    have : ∀ i ∈ range beta, intR (2 ^ n) (rQ.qs u) (A i) * intR (2 ^ n) (rQ.qs u) (B i)
        + intR (2 ^ n) (rQ.qs u) (A i) * intR (2 ^ n) (rQ.qs u) (A' i) * intR (2 ^ n) (rQ.qs u) sOut
        = intR (2 ^ n) (rQ.qs u) (A i) * intR (2 ^ n) (rQ.qs u) (e i)
          + if u / alpha = i then intR (2 ^ n) (rQ.qs u) (A i)
            * ((P : Rq (2 ^ n) (rQ.qs u)) * intR (2 ^ n) (rQ.qs u) sIn) else 0 := by
      intro i hi
      have h1 := relQ i (mem_range.1 hi) u hu
      rw [mul_assoc, ← mul_add, h1, mul_add]
      congr 1
      split
      · rfl
      · rw [mul_zero]
    rw [sum_congr rfl this, sum_add_distrib, sum_ite_eq, if_pos (mem_range.2 (hb u hu))]
    congr 2
    refine toR_congr (fun k hk => ?_)
    have hdm := Nat.div_add_mod u alpha
    rw [Nat.mul_comm] at hdm
    have hmod := Nat.mod_lt u ha
    exact (hA _ (hb u hu)).cong k (by rw [hQ.deg]; exact hk) u (by omega) (by omega) (by omega)
  have hunit : IsUnit (P : Rq (2 ^ n) (rQ.qs u)) := by
    have := (prodQ_ne_zero hQ hP hd hu' hlP).map
      (AdjoinRoot.of ((Polynomial.X : Polynomial (ZMod (rQ.qs u))) ^ 2 ^ n + 1))
    rwa [map_natCast] at this
  refine hunit.mul_left_cancel ?_
  rw [mul_add, mul_add, e2, ← mul_assoc, e0, e1, sub_mul]
  linear_combination e3

end FastKsw
