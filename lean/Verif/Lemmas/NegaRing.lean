import Verif.Spec.NegaRing
import Verif.Lemmas.RingGen
import Mathlib.Algebra.Field.GeomSum

/-! Helper lemmas: negacyclic ring, evaluation, NTT-domain representation. -/

namespace FastKsw

open Finset Polynomial

theorem negConv_eval {K A : Type*} [CommRing K] [CommRing A] (f : K →+* A) (N : ℕ) (x : A)
    (hx : x ^ N = -1) (a b : ℕ → K) :
    ∑ k ∈ range N, f (negConv N a b k) * x ^ k
      = (∑ i ∈ range N, f (a i) * x ^ i) * (∑ j ∈ range N, f (b j) * x ^ j) := by
  rw [sum_mul]
  simp only [negConv, map_sum, sum_mul]
  rw [sum_comm]
  apply sum_congr rfl
  intro i hi
  have hiN : i < N := mem_range.1 hi
  rw [mul_sum]
  have e1 : (N - i) + i = N := by omega
  have e2 : i + (N - i) = N := by omega
  have s1 := sum_range_add (fun j => f (a i) * x ^ i * (f (b j) * x ^ j)) (N - i) i
  have s2 := sum_range_add
    (fun k => f (if i ≤ k then a i * b (k - i) else -(a i * b (N + k - i))) * x ^ k) i (N - i)
  rw [e1] at s1
  rw [e2] at s2
  rw [s1, s2, add_comm]
  congr 1
  · apply sum_congr rfl
    intro j _
    rw [if_pos (by omega), show i + j - i = j by omega, pow_add, map_mul]
    ring
  · apply sum_congr rfl
    intro j hj
    have hj' := mem_range.1 hj
    rw [if_neg (by omega), show N + j - i = N - i + j by omega, map_neg, map_mul]
    have : x ^ i * x ^ (N - i) = -1 := by rw [← pow_add, e2, hx]
    rw [pow_add]
    linear_combination (-(f (a i) * f (b (N - i + j)) * x ^ j)) * this

section
variable {N q : ℕ}

theorem root_pow : (AdjoinRoot.root ((X : (ZMod q)[X]) ^ N + 1)) ^ N = -1 := by
  have h : (AdjoinRoot.mk ((X : (ZMod q)[X]) ^ N + 1)) ((X : (ZMod q)[X]) ^ N + 1) = 0 :=
    AdjoinRoot.mk_self
  rw [map_add, map_pow, map_one, AdjoinRoot.mk_X] at h
  exact eq_neg_of_add_eq_zero_left h

theorem toR_mul (a b : ℕ → ZMod q) : toR N q a * toR N q b = toR N q (negConv N a b) :=
  (negConv_eval (AdjoinRoot.of _) N _ root_pow a b).symm

theorem toR_add (a b : ℕ → ZMod q) : toR N q a + toR N q b = toR N q (fun k => a k + b k) := by
  simp only [toR, ← sum_add_distrib]
  apply sum_congr rfl
  intro j _
  rw [map_add, add_mul]

theorem toR_neg (a : ℕ → ZMod q) : -toR N q a = toR N q (fun k => -a k) := by
  simp only [toR, ← sum_neg_distrib]
  apply sum_congr rfl
  intro j _
  rw [map_neg, neg_mul]

theorem toR_sub (a b : ℕ → ZMod q) : toR N q a - toR N q b = toR N q (fun k => a k - b k) := by
  rw [sub_eq_add_neg, toR_neg, toR_add]
  simp only [sub_eq_add_neg]

theorem toR_congr {a b : ℕ → ZMod q} (h : ∀ k < N, a k = b k) : toR N q a = toR N q b := by
  apply sum_congr rfl
  intro j hj
  rw [h j (mem_range.1 hj)]

theorem toR_smul (c : ZMod q) (a : ℕ → ZMod q) :
    AdjoinRoot.of _ c * toR N q a = toR N q (fun k => c * a k) := by
  simp only [toR, mul_sum]
  apply sum_congr rfl
  intro j _
  rw [map_mul, mul_assoc]

theorem intR_mul (a b : ℕ → ℤ) : intR N q a * intR N q b = intR N q (negConv N a b) := by
  unfold intR
  rw [toR_mul]
  apply toR_congr
  intro k _
  simp only [negConv, Int.cast_sum]
  apply sum_congr rfl
  intro i _
  split <;> push_cast <;> rfl

theorem intR_add (a b : ℕ → ℤ) : intR N q a + intR N q b = intR N q (fun k => a k + b k) := by
  unfold intR
  rw [toR_add]; simp

/-- evaluation of a ring element at a root of `X^N+1` -/
noncomputable def evalHom (e : ZMod q) (h : e ^ N = -1) : Rq N q →+* ZMod q :=
  AdjoinRoot.lift (RingHom.id _) e (by simp [h])

theorem evalHom_toR (e : ZMod q) (h : e ^ N = -1) (c : ℕ → ZMod q) :
    evalHom e h (toR N q c) = ∑ j ∈ range N, c j * e ^ j := by
  simp [evalHom, toR, map_sum]

/-- every element is a `toR` -/
theorem exists_toR (hN : 0 < N) (a : Rq N q) : ∃ c, a = toR N q c := by
  rcases subsingleton_or_nontrivial (ZMod q) with hs | hs
  · refine ⟨fun _ => 0, ?_⟩
    have h10 : (1 : Rq N q) = 0 := by
      have : (1 : ZMod q) = 0 := Subsingleton.elim _ _
      have h2 := congrArg (AdjoinRoot.of ((X : (ZMod q)[X]) ^ N + 1)) this
      simpa using h2
    rw [← mul_one a, h10, mul_zero, ← mul_one (toR N q _), h10, mul_zero]
  obtain ⟨p, rfl⟩ := AdjoinRoot.mk_surjective a
  have hmon : ((X : (ZMod q)[X]) ^ N + 1).Monic := by
    have := monic_X_pow_add_C (1 : ZMod q) (by omega : N ≠ 0)
    simpa using this
  have hdeg : ((X : (ZMod q)[X]) ^ N + 1).natDegree = N := by
    have := natDegree_X_pow_add_C (n := N) (r := (1 : ZMod q))
    simpa using this
  refine ⟨(p %ₘ (X ^ N + 1)).coeff, ?_⟩
  have h1 : AdjoinRoot.mk ((X : (ZMod q)[X]) ^ N + 1) p
      = AdjoinRoot.mk _ (p %ₘ ((X : (ZMod q)[X]) ^ N + 1)) := by
    rw [AdjoinRoot.mk_eq_mk]
    have := modByMonic_add_div p ((X : (ZMod q)[X]) ^ N + 1)
    refine ⟨p /ₘ (X ^ N + 1), ?_⟩
    linear_combination -this
  rw [h1]
  have hlt : (p %ₘ ((X : (ZMod q)[X]) ^ N + 1)).natDegree < N := by
    have := natDegree_modByMonic_lt p hmon (by
      intro h
      have := congrArg natDegree h
      rw [hdeg, natDegree_one] at this
      omega)
    rwa [hdeg] at this
  conv_lhs => rw [as_sum_range' _ N hlt]
  rw [map_sum]
  apply sum_congr rfl
  intro j _
  rw [← C_mul_X_pow_eq_monomial, map_mul, map_pow, AdjoinRoot.mk_C, AdjoinRoot.mk_X]

end

section field
variable {q n : ℕ} [Fact q.Prime]

/-- Data for evaluation: a root of `X^(2^n)+1` modulo an odd prime. -/
structure PsiOK (psi : ZMod q) (n : ℕ) : Prop where
  odd : q % 2 = 1
  pos : 1 ≤ n
  pow : psi ^ 2 ^ n = -1

theorem two_ne_zero_of_odd (h : q % 2 = 1) : (2 : ZMod q) ≠ 0 := by
  intro h0
  have : ((2 : ℕ) : ZMod q) = 0 := by exact_mod_cast h0
  rw [ZMod.natCast_eq_zero_iff] at this
  have h2 := (Fact.out : q.Prime).two_le
  have := Nat.le_of_dvd (by omega) this
  have : q = 2 := by omega
  omega

variable {psi : ZMod q} (hp : PsiOK psi n)
include hp

theorem nttPoint_eq {i : ℕ} (hi : i < 2 ^ n) :
    nttPoint psi n i = evalPt (2 ^ n) (fun k => psi ^ revBits n k) i :=
  (evalPt_psi hp.pow hp.pos hi).symm

theorem nttPoint_pow {i : ℕ} (hi : i < 2 ^ n) : nttPoint psi n i ^ 2 ^ n = -1 := by
  rw [nttPoint_eq hp hi]
  exact evalPt_pow_N (twLaw_of_psi hp.pow) rfl hi

theorem nttPoint_ne_zero {i : ℕ} (hi : i < 2 ^ n) : nttPoint psi n i ≠ 0 := by
  intro h
  have := nttPoint_pow hp hi
  rw [h, zero_pow (by positivity)] at this
  simp at this

theorem nttPoint_inj {i j : ℕ} (hi : i < 2 ^ n) (hj : j < 2 ^ n)
    (h : nttPoint psi n i = nttPoint psi n j) : i = j := by
  rw [nttPoint_eq hp hi, nttPoint_eq hp hj] at h
  exact evalPt_inj (twLaw_of_psi hp.pow) (two_ne_zero_of_odd hp.odd) rfl hi hj h

/-- evaluation at output index `i` -/
noncomputable def evalAt {i : ℕ} (hi : i < 2 ^ n) : Rq (2 ^ n) q →+* ZMod q :=
  evalHom (nttPoint psi n i) (nttPoint_pow hp hi)

/-- Elements with the same values at all points are equal. -/
theorem ext_eval {a b : Rq (2 ^ n) q}
    (h : ∀ i (hi : i < 2 ^ n), evalAt hp hi a = evalAt hp hi b) : a = b := by
  obtain ⟨c, rfl⟩ := exists_toR (by positivity) a
  obtain ⟨d, rfl⟩ := exists_toR (by positivity) b
  apply toR_congr
  apply eval_injective (e := nttPoint psi n) (fun i hi j hj hij => nttPoint_inj hp hi hj hij)
  intro i hi
  have := h i hi
  simpa only [evalAt, evalHom_toR] using this

/-- coefficients are determined by the element -/
theorem toR_injective {c d : ℕ → ZMod q} (h : toR (2 ^ n) q c = toR (2 ^ n) q d) :
    ∀ j < 2 ^ n, c j = d j := by
  apply eval_injective (e := nttPoint psi n) (fun i hi j hj hij => nttPoint_inj hp hi hj hij)
  intro i hi
  rw [← evalHom_toR _ (nttPoint_pow hp hi), ← evalHom_toR _ (nttPoint_pow hp hi), h]

theorem evalAt_ofNtt (v : ℕ → ZMod q) {k : ℕ} (hk : k < 2 ^ n) :
    evalAt hp hk (ofNtt psi n v) = v k := by
  have h2 := two_ne_zero_of_odd (q := q) hp.odd
  unfold ofNtt
  rw [evalAt, evalHom_toR]
  have e1 : ∀ j, (((2 : ZMod q) ^ n)⁻¹ * ∑ i ∈ range (2 ^ n), v i * (nttPoint psi n i)⁻¹ ^ j)
      * nttPoint psi n k ^ j
      = ((2 : ZMod q) ^ n)⁻¹ * ∑ i ∈ range (2 ^ n), v i * ((nttPoint psi n i)⁻¹ * nttPoint psi n k) ^ j := by
    intro j
    rw [mul_assoc, sum_mul]
    congr 1
    apply sum_congr rfl
    intro i _
    rw [mul_pow]; ring
  simp only [e1]
  rw [← mul_sum, sum_comm]
  have e2 : ∀ i ∈ range (2 ^ n), ∑ j ∈ range (2 ^ n), v i * ((nttPoint psi n i)⁻¹ * nttPoint psi n k) ^ j
      = if i = k then v k * 2 ^ n else 0 := by
    intro i hi
    have hi' := mem_range.1 hi
    rw [← mul_sum]
    by_cases hik : i = k
    · subst hik
      rw [if_pos rfl, inv_mul_cancel₀ (nttPoint_ne_zero hp hi')]
      simp
    · rw [if_neg hik]
      have hne : (nttPoint psi n i)⁻¹ * nttPoint psi n k ≠ 1 := by
        intro h
        rw [inv_mul_eq_one₀ (nttPoint_ne_zero hp hi')] at h
        exact hik (nttPoint_inj hp hi' hk h)
      rw [geom_sum_eq hne, mul_pow, inv_pow, nttPoint_pow hp hi', nttPoint_pow hp hk]
      simp
  rw [sum_congr rfl e2, sum_ite_eq' (range (2 ^ n)) k, if_pos (mem_range.2 hk)]
  have : ((2 : ZMod q) ^ n) ≠ 0 := pow_ne_zero _ h2
  field_simp

theorem ofNtt_unique {a : Rq (2 ^ n) q} {v : ℕ → ZMod q}
    (h : ∀ i (hi : i < 2 ^ n), evalAt hp hi a = v i) : a = ofNtt psi n v := by
  apply ext_eval hp
  intro i hi
  rw [h i hi, evalAt_ofNtt hp v hi]

theorem ofNtt_mul (v w : ℕ → ZMod q) : ofNtt psi n v * ofNtt psi n w = ofNtt psi n (fun i => v i * w i) := by
  apply ofNtt_unique hp
  intro i hi
  rw [map_mul, evalAt_ofNtt, evalAt_ofNtt]

theorem ofNtt_add (v w : ℕ → ZMod q) : ofNtt psi n v + ofNtt psi n w = ofNtt psi n (fun i => v i + w i) := by
  apply ofNtt_unique hp
  intro i hi
  rw [map_add, evalAt_ofNtt, evalAt_ofNtt]

theorem ofNtt_sub (v w : ℕ → ZMod q) : ofNtt psi n v - ofNtt psi n w = ofNtt psi n (fun i => v i - w i) := by
  apply ofNtt_unique hp
  intro i hi
  rw [map_sub, evalAt_ofNtt, evalAt_ofNtt]

theorem ofNtt_neg (v : ℕ → ZMod q) : -ofNtt psi n v = ofNtt psi n (fun i => -v i) := by
  apply ofNtt_unique hp
  intro i hi
  rw [map_neg, evalAt_ofNtt]

theorem ofNtt_smul (c : ZMod q) (v : ℕ → ZMod q) :
    AdjoinRoot.of _ c * ofNtt psi n v = ofNtt psi n (fun i => c * v i) := by
  apply ofNtt_unique hp
  intro i hi
  rw [map_mul, evalAt_ofNtt]
  simp [evalAt, evalHom]

omit hp [Fact q.Prime] in
theorem ofNtt_congr {v w : ℕ → ZMod q} (h : ∀ i < 2 ^ n, v i = w i) : ofNtt psi n v = ofNtt psi n w := by
  unfold ofNtt
  apply toR_congr
  intro j _
  congr 1
  apply sum_congr rfl
  intro i hi
  rw [h i (mem_range.1 hi)]

/-- `a` in coefficients and `v` in values denote the same element -/
theorem toR_eq_ofNtt {c v : ℕ → ZMod q}
    (h : ∀ i < 2 ^ n, ∑ j ∈ range (2 ^ n), c j * nttPoint psi n i ^ j = v i) :
    toR (2 ^ n) q c = ofNtt psi n v := by
  apply ofNtt_unique hp
  intro i hi
  rw [evalAt, evalHom_toR, h i hi]

theorem ofNtt_injective {v w : ℕ → ZMod q} (h : ofNtt psi n v = ofNtt psi n w) :
    ∀ i < 2 ^ n, v i = w i := by
  intro i hi
  rw [← evalAt_ofNtt hp v hi, h, evalAt_ofNtt]

end field

end FastKsw
