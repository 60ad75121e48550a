import Verif.Lemmas.ConjInv
import Verif.Props.Automorphism
import Verif.Props.Sparse

/-!
# C58, C67: the conjugate-invariant ring
-/

namespace FastKsw

open Finset

/-! ## One modulus -/

theorem revBits_compl {n i : ℕ} (hi : i < 2 ^ n) : revBits n (2 ^ n - 1 - i) = 2 ^ n - 1 - revBits n i := by
  have hr := revBits_lt n i
  rw [show 2 ^ n - 1 - i = 2 ^ n - (i + 1) by omega, show 2 ^ n - 1 - revBits n i = 2 ^ n - (revBits n i + 1) by omega]
  apply Nat.eq_of_testBit_eq
  intro k
  rw [revBits_testBit, Nat.testBit_two_pow_sub_succ hi, Nat.testBit_two_pow_sub_succ hr, revBits_testBit]
  by_cases hk : k < n
  · have : n - 1 - k < n := by omega
    simp [hk, this]
  · simp [hk]

/-- points `i` and `2^n-1-i` are inverse to each other -/
theorem nttPoint_compl {q : ℕ} {psi : ZMod q} {n : ℕ} (h : psi ^ 2 ^ n = -1) {i : ℕ} (hi : i < 2 ^ n) :
    nttPoint psi n i * nttPoint psi n (2 ^ n - 1 - i) = 1 := by
  have hr := revBits_lt n i
  unfold nttPoint
  rw [revBits_compl hi, ← pow_add,
    show 2 * revBits n i + 1 + (2 * (2 ^ n - 1 - revBits n i) + 1) = 2 ^ n * 2 by omega, pow_mul, h]
  ring

/-- a symmetric polynomial takes the same values at `e` and `e⁻¹` -/
theorem symm_eval_inv {R : Type*} [CommRing R] {N : ℕ} (hN : 0 < N) {e e' : R} (hee : e * e' = 1)
    (he : e ^ (2 * N) = -1) (v : ℕ → R) :
    ∑ j ∈ range (2 * N), symm N v j * e' ^ j = ∑ j ∈ range (2 * N), symm N v j * e ^ j := by
  obtain ⟨M, hM⟩ : ∃ M, 2 * N = M + 1 := ⟨2 * N - 1, by omega⟩
  rw [hM, sum_range_succ', sum_range_succ', ← sum_range_reflect]
  congr 1
  · apply sum_congr rfl
    intro j hj
    have hj := mem_range.1 hj
    have e1 : symm N v (M - 1 - j + 1) = - symm N v (j + 1) := by
      unfold symm
      rcases lt_trichotomy (j + 1) N with h | h | h
      · rw [if_neg (by omega), if_neg (by omega), if_pos h, show 2 * N - (M - 1 - j + 1) = j + 1 by omega]
      · rw [if_neg (by omega), if_pos (by omega), if_neg (by omega), if_pos h, neg_zero]
      · rw [if_pos (by omega), if_neg (by omega), if_neg (by omega), neg_neg]
        congr 1
        omega
    have e2 : e' ^ (M - 1 - j + 1) = - e ^ (j + 1) := by
      have h1 : e ^ (j + 1) * e ^ (M - 1 - j + 1) = -1 := by
        rw [← pow_add, ← he]
        congr 1
        omega
      calc e' ^ (M - 1 - j + 1) = -(e ^ (j + 1) * e ^ (M - 1 - j + 1)) * e' ^ (M - 1 - j + 1) := by
            rw [h1]; ring
        _ = - e ^ (j + 1) * (e * e') ^ (M - 1 - j + 1) := by rw [mul_pow]; ring
        _ = _ := by rw [hee, one_pow, mul_one]
    rw [e1, e2]
    ring
  · simp

section
variable {n : ℕ} {s : SubRing} (V : s.Valid (n + 1))
include V

theorem evals_symm_compl (hn : 1 ≤ n) (v : ℕ → ZMod s.q.toNat) {i : ℕ} (hi : i < 2 ^ (n + 1)) :
    evals s.psi (n + 1) (symm (2 ^ n) v) (2 ^ (n + 1) - 1 - i) = evals s.psi (n + 1) (symm (2 ^ n) v) i := by
  have := V.fact
  unfold evals
  rw [show 2 ^ (n + 1) = 2 * 2 ^ n by ring] at *
  refine symm_eval_inv (by positivity) ?_ ?_ v
  · have := nttPoint_compl V.psi_pow (i := i) (by rw [pow_succ]; omega)
    rwa [show 2 ^ (n + 1) = 2 * 2 ^ n by ring] at this
  · have := nttPoint_pow (V.psiOK (by omega)) (i := i) (by rw [pow_succ]; omega)
    rwa [show 2 ^ (n + 1) = 2 * 2 ^ n by ring] at this

theorem ciNttLazy_is (hq : s.q.toNat < 2 ^ 61) {B : ℕ}
    (hB2 : B + 4 * s.q.toNat ≤ 2 ^ 64) {x : Row} {v : ℕ → ZMod s.q.toNat}
    (hx : RowIs (2 ^ n) s.q.toNat B x v) :
    RowIs (2 ^ n) s.q.toNat (2 ^ 64) (ciNttLazy x (2 ^ n) s.nttPsi s.q s.mred)
      (evals s.psi (n + 1) (symm (2 ^ n) v)) := by
  have e2 : 2 ^ (n + 1) = 2 * 2 ^ n := by ring
  have htab := V.table
  have htw := twLaw_sub V
  obtain ⟨B', h1, h2, h3⟩ : ∃ B', B ≤ B' ∧ 4 * s.q.toNat ≤ B' ∧ B' + 4 * s.q.toNat ≤ 2 ^ 64 :=
    ⟨max B (4 * s.q.toNat), le_max_left _ _, le_max_right _ _, by omega⟩
  rw [e2] at htab
  have htw' : TwLaw (2 * 2 ^ n) (s.tw (n + 1)) := by rw [← e2]; exact htw
  obtain ⟨z1, z2⟩ := ciNttLazy_spec V.mred (by omega) rfl htab htw' h2 h3 x hx.len
    (fun k hk => lt_of_lt_of_le (hx.lt k hk) h1)
  refine ⟨z1, fun k _ => UInt64.toNat_lt _, fun i hi => ?_⟩
  rw [z2 i hi]
  unfold evals
  rw [e2]
  apply sum_congr rfl
  intro j hj
  have hp := evalPt_sub V (by omega) (i := i) (by omega)
  rw [e2] at hp
  rw [hp]
  congr 1
  unfold symm
  have hj := mem_range.1 hj
  split
  · rename_i h; exact hx.val j h
  · split
    · rfl
    · rw [hx.val _ (by omega)]

theorem ciNtt_is (hq : s.q.toNat < 2 ^ 61) {B : ℕ}
    (hB2 : B + 4 * s.q.toNat ≤ 2 ^ 64) {x : Row} {v : ℕ → ZMod s.q.toNat}
    (hx : RowIs (2 ^ n) s.q.toNat B x v) :
    RowIs (2 ^ n) s.q.toNat s.q.toNat (s.ciNtt (2 ^ n) x) (evals s.psi (n + 1) (symm (2 ^ n) v)) :=
  reduceVec_is V.arith (ciNttLazy_is V hq hB2 hx)

theorem symm_injective (hn : 1 ≤ n) {v w : ℕ → ZMod s.q.toNat}
    (h : ∀ i < 2 ^ n, evals s.psi (n + 1) (symm (2 ^ n) v) i = evals s.psi (n + 1) (symm (2 ^ n) w) i) :
    ∀ j < 2 ^ n, v j = w j := by
  have e2 : 2 ^ (n + 1) = 2 * 2 ^ n := by ring
  have h' : ∀ i < 2 ^ (n + 1), evals s.psi (n + 1) (symm (2 ^ n) v) i = evals s.psi (n + 1) (symm (2 ^ n) w) i := by
    intro i hi
    by_cases hi' : i < 2 ^ n
    · exact h i hi'
    · rw [← evals_symm_compl V hn v hi, ← evals_symm_compl V hn w hi]
      exact h _ (by omega)
  intro j hj
  have h1 := coeffsOf_unique V (by omega) h' j (by omega)
  rw [coeffsOf_evals V (by omega) _ j (by omega)] at h1
  unfold symm at h1
  rwa [if_pos hj, if_pos hj] at h1

theorem ciInvNtt_is (hn : 1 ≤ n) (hq : s.q.toNat < 2 ^ 61) {x : Row} {v : ℕ → ZMod s.q.toNat}
    (hx : RowIs (2 ^ n) s.q.toNat (2 * s.q.toNat) x v) :
    ∃ c, RowIs (2 ^ n) s.q.toNat s.q.toNat (s.ciInvNtt (2 ^ n) x) c ∧
      ∀ i < 2 ^ n, evals s.psi (n + 1) (symm (2 ^ n) c) i = v i := by
  have e2 : 2 ^ (n + 1) = 2 * 2 ^ n := by ring
  have htab := V.tableInv
  have htw := twLaw_sub V
  rw [e2] at htab
  have htw' : TwLaw (2 * 2 ^ n) (s.tw (n + 1)) := by rw [← e2]; exact htw
  obtain ⟨z1, z2⟩ := ciInvNttCore_spec V.mred hq rfl hn htab htw' (fun k _ => twInv_mul V k) x hx.len hx.lt
  have hr : RowIs (2 ^ n) s.q.toNat (2 ^ 64) (ciInvNttCore x (2 ^ n) s.nttPsiInv s.q s.mred)
      (zval s.q.toNat (ciInvNttCore x (2 ^ n) s.nttPsiInv s.q s.mred)) :=
    ⟨z1, fun k _ => UInt64.toNat_lt _, fun _ _ => rfl⟩
  have hm := mulScalarMontgomeryVec_is V.arith hr s.nttNInv V.nInv.1
  refine ⟨_, hm, fun i hi => ?_⟩
  have hsc : ∀ (f : ℕ → ZMod s.q.toNat) (a : ZMod s.q.toNat) (j : ℕ),
      symm (2 ^ n) (fun k => f k * a) j = symm (2 ^ n) f j * a := by
    intro f a j
    unfold symm
    split
    · rfl
    · split <;> ring
  have hsum := z2 i hi
  rw [hx.val i hi] at hsum
  unfold evals
  rw [e2]
  have hp := evalPt_sub V (by omega) (i := i) (by omega)
  rw [e2] at hp
  rw [hp] at hsum
  have hni := nInv_rinv V
  have : ∀ j ∈ range (2 * 2 ^ n),
      symm (2 ^ n) (fun k => zval s.q.toNat (ciInvNttCore x (2 ^ n) s.nttPsiInv s.q s.mred) k *
        (s.nttNInv.toNat : ZMod s.q.toNat) * rinv s.q.toNat) j * nttPoint s.psi (n + 1) i ^ j =
      symm (2 ^ n) (zval s.q.toNat (ciInvNttCore x (2 ^ n) s.nttPsiInv s.q s.mred)) j *
        nttPoint s.psi (n + 1) i ^ j * ((s.nttNInv.toNat : ZMod s.q.toNat) * rinv s.q.toNat) := by
    intro j _
    simp only [mul_assoc]
    rw [hsc]
    ring
  rw [sum_congr rfl this, ← sum_mul, hsum]
  calc _ = v i * ((s.nttNInv.toNat : ZMod s.q.toNat) * rinv s.q.toNat * 2 ^ (n + 1)) := by push_cast; ring
    _ = v i := by rw [hni, mul_one]

end


namespace Props

/-! ## Rings -/

/-- What `NewRingConjugateInvariant` builds: degree `2^n`, a `2^(n+2)`-th root of unity for every modulus. -/
structure CIValid (n : ℕ) (r : Ring) : Prop where
  four_le : 4 ≤ n
  deg : r.n = 2 ^ n
  type : r.type = .conjugateInvariant
  sub : ∀ s ∈ r.subs, s.Valid (n + 1)

/-- The two rings over the same moduli: the conjugate-invariant one of degree `N`, the standard one of degree `2N`. -/
structure CIPair (n : ℕ) (r rS : Ring) : Prop where
  ci : CIValid n r
  std : rS.Valid (n + 1)
  subs : rS.subs = r.subs

theorem mapM_forall₂ {α β : Type*} {f : α → Option β} {R : α → β → Prop} (hR : ∀ a b, R a b → f a = some b) :
    ∀ {l : List α} {ss : List β}, List.Forall₂ R l ss → l.mapM f = some ss := by
  intro l ss h
  induction h with
  | nil => rfl
  | cons h1 _ ih => simp [List.mapM_cons, hR _ _ h1, ih]

/-- `NewRingConjugateInvariant(N, moduli)` and `NewRing(2N, moduli)` form such a pair. -/
theorem C67_rings {fuel N : ℕ} {moduli : List UInt64} {r rS : Ring} (hq : ∀ q ∈ moduli, q.toNat < 2 ^ 63)
    (hN : N < 2 ^ 60)
    (h : newRingConjugateInvariant fuel N moduli = .ok r) (hS : newRing fuel (2 * N) moduli = .ok rS) :
    ∃ n, N = 2 ^ n ∧ CIPair n r rS := by
  unfold newRingConjugateInvariant at h
  obtain ⟨h1, ⟨n, hn⟩, -, -, -, hd, -, ht, -, hf⟩ := newRingCustom_ok h
  subst hn
  have h4 : 4 ≤ n := by
    by_contra hc
    have : 2 ^ n ≤ 2 ^ 3 := Nat.pow_le_pow_right (by omega) (by omega)
    omega
  have h60 : n < 60 := (Nat.pow_lt_pow_iff_right (by omega)).1 hN
  have e4 : 4 * 2 ^ n = 2 * 2 ^ (n + 1) := by ring
  have e2 : 2 * 2 ^ n = 2 ^ (n + 1) := by ring
  rw [e4] at h hf
  obtain ⟨-, hv⟩ := newRingCustom_valid (n := n) (m := n + 1) (by omega) (by omega) rfl hq h
  rw [e2] at hS
  obtain ⟨n', hn', hVS, -⟩ := C17_newRing_valid fuel _ (Nat.pow_lt_pow_right (by omega) (by omega)) moduli hq rS hS
  obtain rfl : n' = n + 1 := (Nat.pow_right_injective le_rfl hn').symm
  have hS' := hS
  unfold newRing at hS'
  obtain ⟨-, -, -, -, -, -, -, -, -, hfS⟩ := newRingCustom_ok hS'
  have hm := mapM_forall₂ (fun _ _ h => h) hf
  have hmS := mapM_forall₂ (fun _ _ h => h) hfS
  rw [hm] at hmS
  exact ⟨n, rfl, ⟨h4, hd, ht, hv⟩, hVS, (Option.some.inj hmS).symm⟩

theorem unfoldRow_spec {N : ℕ} {x y : Row} (hx : x.length = N) (hy : y.length = 2 * N) :
    (unfoldRow N x y).length = 2 * N ∧
    (∀ j < N, (unfoldRow N x y).at j = x.at j) ∧
    ∀ j < N, (unfoldRow N x y).at (2 * N - 1 - j) = x.at j := by
  have key : ∀ k ≤ N, ∀ z : Row, z.length = 2 * N → ∀ t : Row,
      t = (List.range k).foldl (fun tmp2 k => tmp2.set (N + k) (x.at (N - 1 - k))) z →
      t.length = 2 * N ∧ ∀ j < 2 * N, t.at j = if N ≤ j ∧ j < N + k then x.at (2 * N - 1 - j) else z.at j := by
    intro k
    induction k with
    | zero =>
      rintro - z hz t rfl
      exact ⟨hz, fun j _ => by rw [if_neg (by omega)]⟩
    | succ k ih =>
      intro hk z hz t ht
      rw [List.range_succ, List.foldl_append] at ht
      obtain ⟨i1, i2⟩ := ih (by omega) z hz _ rfl
      simp only [List.foldl_cons, List.foldl_nil] at ht
      generalize (List.range k).foldl (fun tmp2 k => tmp2.set (N + k) (x.at (N - 1 - k))) z = u at i1 i2 ht
      subst ht
      refine ⟨by rw [List.length_set, i1], fun j hj => ?_⟩
      by_cases hjk : N + k = j
      · subst hjk
        rw [if_pos (by omega)]
        rw [Row.at_set, if_pos ⟨rfl, by omega⟩, show 2 * N - 1 - (N + k) = N - 1 - k by omega]
      · rw [Row.at_set, if_neg (by omega), i2 j hj]
        by_cases hc : N ≤ j ∧ j < N + k
        · rw [if_pos hc, if_pos (by omega)]
        · rw [if_neg hc, if_neg (by omega)]
  have hz : (x ++ y.drop x.length).length = 2 * N := by
    rw [List.length_append, List.length_drop, hx, hy]; omega
  obtain ⟨a, b⟩ := key N le_rfl _ hz _ rfl
  refine ⟨a, fun j hj => ?_, fun j hj => ?_⟩
  · refine (b j (by omega)).trans ?_
    rw [if_neg (by omega)]
    unfold Row.at
    rw [List.getD_eq_getElem _ _ (by omega), List.getElem_append_left (by omega), List.getD_eq_getElem]
  · refine (b _ (by omega)).trans ?_
    rw [if_pos (by omega), show 2 * N - 1 - (2 * N - 1 - j) = j by omega]

theorem row_ext_lt {x y : Row} (h : x.length = y.length) (h' : ∀ k < x.length, x.at k = y.at k) : x = y := by
  apply List.ext_getElem h
  intro k h1 h2
  have := h' k h1
  unfold Row.at at this
  rwa [List.getD_eq_getElem _ _ h1, List.getD_eq_getElem _ _ h2] at this

theorem CIPair.at {n : ℕ} {r rS : Ring} (h : CIPair n r rS) {i : ℕ} (hi : i < r.subs.length) :
    rS.sub i = r.sub i ∧ (r.sub i).Valid (n + 1) := by
  refine ⟨by unfold Ring.sub; rw [h.subs], h.ci.sub _ (Ring.sub_mem hi)⟩

/-- **C67 (transform).**  Let the row `i` of `ps` hold the polynomial `a₀ + Σ aⱼ(X^j + X^-j)` of degree below `2N` whose
compressed form `a₀, …, a_{N-1}` is the row `i` of `p`.  Unfolding the conjugate-invariant transform of `p` gives the
standard transform of `ps` in the ring of degree `2N`, whatever the three receivers held. -/
theorem C67_ntt {n : ℕ} {r rS : Ring} (hr : CIPair n r rS) (hsm : r.Small) (level : ℕ) (hl : level < r.subs.length)
    (p ps o1 o2 o3 : Rows) (hp : ∀ i ≤ level, (p.row i).length = r.n ∧ ∀ k < r.n, ((p.row i).at k).toNat < 2 ^ 62)
    (hps : ∀ i ≤ level, RowIs rS.n (r.sub i).q.toNat (2 ^ 62) (ps.row i) (symm r.n (zval (r.sub i).q.toNat (p.row i))))
    (h1 : level < o1.length) (h2 : level < o2.length) (h3 : level < o3.length)
    (hw : ∀ i ≤ level, (o2.row i).length = rS.n) :
    ∃ u, unfold level (r.ciNttLvl level p o1) o2 = some u ∧ u.length = o2.length ∧
      ∀ i ≤ level, u.row i = (rS.nttLvl level ps o3).row i := by
  have e2 : 2 ^ (n + 1) = 2 * 2 ^ n := by ring
  have hd := hr.ci.deg
  have hdS := hr.std.deg
  have h4 := hr.ci.four_le
  rw [hd] at hp hps
  rw [hdS] at hps hw
  have hci : ∀ i ≤ level, (r.ciNttLvl level p o1).row i = (r.sub i).ciNtt (2 ^ n) (p.row i) := by
    intro i hi
    unfold Ring.ciNttLvl
    rw [row_writeLvl hi h1, hd]
  have his : ∀ i ≤ level, RowIs (2 ^ n) (r.sub i).q.toNat (r.sub i).q.toNat ((r.ciNttLvl level p o1).row i)
      (evals (r.sub i).psi (n + 1) (symm (2 ^ n) (zval (r.sub i).q.toNat (p.row i)))) := by
    intro i hi
    have hq := hsm _ (Ring.sub_mem (show i < r.subs.length by omega))
    rw [hci i hi]
    exact ciNtt_is (hr.at (by omega)).2 hq (B := 2 ^ 62) (by omega) (RowIs.refl _ (hp i hi).1 (hp i hi).2)
  have hlen := (his 0 (by omega)).len
  refine ⟨_, by unfold unfold; rw [if_neg (by rw [hlen, hw 0 (by omega), e2]; simp)], length_writeLvl .., fun i hi => ?_⟩
  rw [row_writeLvl hi h2, hlen]
  have hq := hsm _ (Ring.sub_mem (show i < r.subs.length by omega))
  obtain ⟨es, V⟩ := hr.at (show i < r.subs.length by omega)
  unfold Ring.nttLvl
  rw [row_writeLvl hi h3, es, hdS]
  refine RowIs.ext ?_ (ntt_is V (by omega) hq (by omega) (hps i hi))
  obtain ⟨u1, u2, u3⟩ := unfoldRow_spec (his i hi).len ((hw i hi).trans e2)
  have hat : ∀ k < 2 ^ (n + 1), ∃ k' < 2 ^ n, (unfoldRow (2 ^ n) ((r.ciNttLvl level p o1).row i) (o2.row i)).at k =
      ((r.ciNttLvl level p o1).row i).at k' ∧ (k' = k ∨ k = 2 ^ (n + 1) - 1 - k') := by
    intro k hk
    by_cases hk' : k < 2 ^ n
    · exact ⟨k, hk', u2 k hk', Or.inl rfl⟩
    · refine ⟨2 ^ (n + 1) - 1 - k, by omega, ?_, Or.inr (by omega)⟩
      rw [← u3 _ (by omega)]
      congr 1
      omega
  refine ⟨u1.trans e2.symm, fun k hk => ?_, fun k hk => ?_⟩
  · obtain ⟨k', hk', e, -⟩ := hat k hk
    rw [e]
    exact (his i hi).lt k' hk'
  · obtain ⟨k', hk', e, hc⟩ := hat k hk
    unfold zval
    rw [e]
    refine ((his i hi).val k' hk').trans ?_
    rcases hc with rfl | rfl
    · rfl
    · exact (evals_symm_compl V (by omega) _ (by omega)).symm

/-- **C67 (inverse).**  On reduced polynomials the two transforms are inverse to each other, in both orders. -/
theorem C67_inverse {n : ℕ} {r : Ring} (hr : CIValid n r) (hsm : r.Small) (level : ℕ) (hl : level < r.subs.length)
    (p o1 o2 : Rows) (hp : ∀ i ≤ level, (p.row i).length = r.n ∧ ∀ k < r.n, (p.row i).at k < (r.sub i).q)
    (h1 : level < o1.length) (h2 : level < o2.length) :
    ∀ i ≤ level, (r.ciInvNttLvl level (r.ciNttLvl level p o1) o2).row i = p.row i ∧
      (r.ciNttLvl level (r.ciInvNttLvl level p o1) o2).row i = p.row i := by
  intro i hi
  have hq := hsm _ (Ring.sub_mem (show i < r.subs.length by omega))
  have V := hr.sub _ (Ring.sub_mem (show i < r.subs.length by omega))
  have h4 := hr.four_le
  have hd := hr.deg
  rw [hd] at hp
  obtain ⟨p1, p2⟩ := hp i hi
  have hx : RowIs (2 ^ n) (r.sub i).q.toNat (r.sub i).q.toNat (p.row i) (zval (r.sub i).q.toNat (p.row i)) :=
    RowIs.refl _ p1 p2
  unfold Ring.ciNttLvl Ring.ciInvNttLvl
  rw [row_writeLvl hi h2, row_writeLvl hi h2, row_writeLvl hi h1, row_writeLvl hi h1, hd]
  constructor
  · obtain ⟨c, c1, c2⟩ := ciInvNtt_is V (by omega) hq ((ciNtt_is V hq (by omega) hx).mono (by omega))
    exact (c1.congr (symm_injective V (by omega) c2)).ext hx
  · obtain ⟨c, c1, c2⟩ := ciInvNtt_is V (by omega) hq (hx.mono (by omega))
    exact ((ciNtt_is V hq (by omega) c1).congr c2).ext hx

/-- **C67 (product).**  Pointwise multiplication of the transforms is multiplication of the symmetric polynomials modulo
`X^2N + 1`: the result is again the compressed form of a symmetric polynomial. -/
theorem C67_mul {n : ℕ} {r : Ring} (hr : CIValid n r) (hsm : r.Small) (level : ℕ) (hl : level < r.subs.length)
    (p p' o1 o2 o3 o4 : Rows)
    (hp : ∀ i ≤ level, (p.row i).length = r.n ∧ ∀ k < r.n, ((p.row i).at k).toNat < 2 ^ 62)
    (hp' : ∀ i ≤ level, (p'.row i).length = r.n ∧ ∀ k < r.n, ((p'.row i).at k).toNat < 2 ^ 62)
    (h1 : level < o1.length) (h2 : level < o2.length) (h3 : level < o3.length) (h4 : level < o4.length) :
    ∀ i ≤ level,
      toR (2 * r.n) (r.sub i).q.toNat (symm r.n (zval (r.sub i).q.toNat
        ((r.ciInvNttLvl level (r.mulCoeffsLvl level (r.ciNttLvl level p o1) (r.ciNttLvl level p' o2) o3) o4).row i))) =
      toR (2 * r.n) (r.sub i).q.toNat (symm r.n (zval (r.sub i).q.toNat (p.row i))) *
        toR (2 * r.n) (r.sub i).q.toNat (symm r.n (zval (r.sub i).q.toNat (p'.row i))) := by
  intro i hi
  have hq := hsm _ (Ring.sub_mem (show i < r.subs.length by omega))
  have V := hr.sub _ (Ring.sub_mem (show i < r.subs.length by omega))
  have h4 := hr.four_le
  have hd := hr.deg
  have := V.fact
  rw [hd] at hp hp'
  have a := ciNtt_is V hq (B := 2 ^ 62) (by omega) (RowIs.refl _ (hp i hi).1 (hp i hi).2)
  have b := ciNtt_is V hq (B := 2 ^ 62) (by omega) (RowIs.refl _ (hp' i hi).1 (hp' i hi).2)
  obtain ⟨c, c1, c2⟩ := ciInvNtt_is V (by omega) hq ((mulCoeffsVec_is V.arith a b).mono (by omega))
  unfold Ring.ciInvNttLvl Ring.mulCoeffsLvl Ring.ciNttLvl
  rw [row_writeLvl hi (by assumption), row_writeLvl hi h3, row_writeLvl hi h2, row_writeLvl hi h1, hd,
    show 2 * 2 ^ n = 2 ^ (n + 1) by ring]
  have hc : ∀ j < 2 ^ (n + 1), symm (2 ^ n) (zval (r.sub i).q.toNat ((r.sub i).ciInvNtt (2 ^ n)
      (mulCoeffsVec ((r.sub i).ciNtt (2 ^ n) (p.row i)) ((r.sub i).ciNtt (2 ^ n) (p'.row i)) (r.sub i).q (r.sub i).bred))) j =
      symm (2 ^ n) c j := by
    intro j hj
    have e2 : 2 ^ (n + 1) = 2 * 2 ^ n := by ring
    unfold symm
    split
    · rename_i h; exact c1.val j h
    · split
      · rfl
      · rw [c1.val _ (by omega)]
  rw [toR_congr hc, ← ofNtt_evals V (by omega), ← ofNtt_evals V (by omega), ← ofNtt_evals V (by omega),
    ofNtt_mul (V.psiOK (by omega))]
  apply ofNtt_congr
  intro k hk
  have e2 : 2 ^ (n + 1) = 2 * 2 ^ n := by ring
  by_cases hk' : k < 2 ^ n
  · exact c2 k hk'
  · rw [← evals_symm_compl V (by omega) _ hk, ← evals_symm_compl V (by omega) _ hk, ← evals_symm_compl V (by omega) _ hk]
    exact c2 _ (by omega)

/-! ## C58 -/

/-- index table of `X ↦ X^-1` in the ring of degree `2N` -/
theorem index_conj {n : ℕ} {rS : Ring} (h : rS.Valid n) {i : ℕ} (hi : i < 2 ^ n) :
    ((rS.permuteNTTIndex (UInt64.ofNat rS.nthRoot - 1)).at i).toNat = 2 ^ n - 1 - i := by
  have hn := valid_n_lt h
  have h4 := h.four_le
  have hN : (UInt64.ofNat rS.nthRoot).toNat = 2 ^ (n + 1) := nthRoot_toNat h
  have hpp : 2 ^ (n + 1) = 2 * 2 ^ n := by ring
  have hg : (UInt64.ofNat rS.nthRoot - 1).toNat = 2 ^ (n + 1) - 1 := by
    rw [toNat_sub_of_le' (by rw [hN]; show 1 ≤ _; omega), hN]; rfl
  obtain ⟨a, b⟩ := permuteNTTIndex_at (by omega) (by omega) h.deg h.root (UInt64.ofNat rS.nthRoot - 1)
    (by rw [hg]; omega) hi
  apply revBits_inj a (by omega)
  rw [revBits_compl hi]
  have hr := revBits_lt n i
  have e : (2 ^ (n + 1) - 1) * (2 * revBits n i + 1) % 2 ^ (n + 1) = 2 ^ (n + 1) - (2 * revBits n i + 1) := by
    have e1 : (2 ^ (n + 1) - 1) * (2 * revBits n i + 1) =
        2 ^ (n + 1) - (2 * revBits n i + 1) + 2 ^ (n + 1) * (2 * revBits n i) := by
      have h0 : 2 * revBits n i + 1 ≤ 2 ^ (n + 1) := by omega
      zify [h0, show 1 ≤ 2 ^ (n + 1) by omega]
      ring
    rw [e1, Nat.add_mul_mod_self_left, Nat.mod_eq_of_lt (by omega)]
  rw [hg, e] at b
  omega

/-- **C58 (fixed by `X ↦ X^-1`).**  Whatever the polynomial and the receiver: permuting the unfolded polynomial by the
automorphism leaves every row as it is, and the ring element it denotes is fixed. -/
theorem C58_fixed {n : ℕ} {rS : Ring} (h : rS.Valid (n + 1)) (level : ℕ) (hl : level < rS.subs.length) (p o1 o2 : Rows)
    (hp : ∀ i ≤ level, (p.row i).length = 2 ^ n) (ho : ∀ i ≤ level, (o1.row i).length = 2 ^ (n + 1))
    (h1 : level < o1.length) (h2 : level < o2.length) :
    ∃ u, unfold level p o1 = some u ∧ u.length = o1.length ∧ (∀ i, level < i → u.row i = o1.row i) ∧
      ∀ i ≤ level, (u.row i).length = 2 ^ (n + 1) ∧ (u.row i).take (2 ^ n) = p.row i ∧
      (rS.permuteNTTLvl level u (UInt64.ofNat rS.nthRoot - 1) o2).row i = u.row i ∧
      ∀ (g : ℕ) (hg : g % 2 = 1), g % 2 ^ (n + 2) = 2 ^ (n + 2) - 1 →
        aut (2 ^ (n + 1)) (rS.sub i).q.toNat hg (ofNtt (rS.sub i).psi (n + 1) (zval (rS.sub i).q.toNat (u.row i))) =
          ofNtt (rS.sub i).psi (n + 1) (zval (rS.sub i).q.toNat (u.row i)) := by
  have e2 : 2 ^ (n + 1) = 2 * 2 ^ n := by ring
  have hd := h.deg
  have h4 := h.four_le
  refine ⟨_, by unfold unfold; rw [if_neg (by rw [hp 0 (by omega), ho 0 (by omega), e2]; simp)], length_writeLvl ..,
    fun i hi => row_writeLvl_above hi, fun i hi => ?_⟩
  have hl0 := hp 0 (by omega)
  obtain ⟨u1, u2, u3⟩ := unfoldRow_spec (hp i hi) ((ho i hi).trans e2)
  unfold Ring.permuteNTTLvl Ring.permuteNTTWithIndexLvl
  rw [row_writeLvl hi h1, row_writeLvl hi h2, row_writeLvl hi h1, hl0, hd]
  generalize unfoldRow (2 ^ n) (p.row i) (o1.row i) = u at u1 u2 u3
  have hs : ∀ j < 2 ^ (n + 1), u.at (2 ^ (n + 1) - 1 - j) = u.at j := by
    intro j hj
    by_cases hj' : j < 2 ^ n
    · rw [e2, u3 j hj', u2 j hj']
    · have := u3 (2 ^ (n + 1) - 1 - j) (by omega)
      rw [← u2 _ (by omega)] at this
      rw [← this]
      congr 1
      omega
  refine ⟨u1.trans e2.symm, ?_, ?_, ?_⟩
  · refine row_ext_lt (by rw [List.length_take, u1, hp i hi]; omega) (fun k hk => ?_)
    rw [List.length_take] at hk
    rw [Row.at_take, if_pos (by omega), u2 k (by omega)]
  · refine row_ext_lt (by simp [permuteNTTRow, u1, e2]) (fun k hk => ?_)
    have hk : k < 2 ^ (n + 1) := by simpa [permuteNTTRow] using hk
    rw [permuteNTTRow, at_map_range _ _ hk, index_conj h hk, hs k hk]
  · intro g hg hg'
    have V := h.subAt hl |> fun _ => h.sub _ (Ring.sub_mem (show i < rS.subs.length by omega))
    have := V.fact
    have hN : 0 < 2 ^ (n + 1) := by positivity
    rw [← ofNtt_permute (V.psiOK (by omega)) hg (fun i => 2 ^ (n + 1) - 1 - i) ?_]
    · apply ofNtt_congr
      intro k hk
      unfold zval
      rw [hs k hk]
    · intro j hj
      have hr := revBits_lt (n + 1) j
      refine ⟨by omega, ?_⟩
      rw [revBits_compl hj, Nat.mul_mod, hg']
      have e3 : 2 ^ (n + 1 + 1) = 2 * 2 ^ (n + 1) := by ring
      have e4 : 2 ^ (n + 2) = 2 * 2 ^ (n + 1) := by ring
      rw [show n + 1 + 1 = n + 2 from rfl, Nat.mod_eq_of_lt (show 2 * revBits (n + 1) j + 1 < 2 ^ (n + 2) by omega)]
      have e1 : (2 ^ (n + 2) - 1) * (2 * revBits (n + 1) j + 1) =
          2 ^ (n + 2) - (2 * revBits (n + 1) j + 1) + 2 ^ (n + 2) * (2 * revBits (n + 1) j) := by
        have h0 : 2 * revBits (n + 1) j + 1 ≤ 2 ^ (n + 2) := by omega
        zify [h0, show 1 ≤ 2 ^ (n + 2) by omega]
        ring
      rw [e1, Nat.add_mul_mod_self_left, Nat.mod_eq_of_lt (by omega)]
      omega

/-- **C58 (folding).**  Fold after Unfold is twice the polynomial. -/
theorem C58_fold {n : ℕ} {r rS : Ring} (hr : CIPair n r rS) (level : ℕ) (hl : level < r.subs.length) (p o1 o2 : Rows)
    (hp : ∀ i ≤ level, (p.row i).length = r.n ∧ ∀ k < r.n, (p.row i).at k < (r.sub i).q)
    (ho : ∀ i ≤ level, (o1.row i).length = rS.n) (ho2 : (o2.row 0).length = r.n)
    (h1 : level < o1.length) (h2 : level < o2.length) :
    ∃ u f, unfold level p o1 = some u ∧
      r.fold level u (rS.permuteNTTIndex (UInt64.ofNat rS.nthRoot - 1)) o2 = some f ∧
      f.length = o2.length ∧ (∀ i, level < i → f.row i = o2.row i) ∧
      ∀ i ≤ level, (f.row i).length = r.n ∧
        ∀ k < r.n, ((f.row i).at k).toNat = 2 * ((p.row i).at k).toNat % (r.sub i).q.toNat := by
  have e2 : 2 ^ (n + 1) = 2 * 2 ^ n := by ring
  have hd := hr.ci.deg
  have hdS := hr.std.deg
  rw [hd] at hp ho2 ⊢
  rw [hdS] at ho
  obtain ⟨u, hu, ul, -, us⟩ := C58_fixed hr.std level (by rw [hr.subs]; exact hl) p o1 o1 (fun i hi => (hp i hi).1) ho h1 h1
  refine ⟨u, _, hu, by unfold Ring.fold; rw [if_neg (by rw [(us 0 (by omega)).1, ho2, e2]; simp)], ?_, ?_, ?_⟩
  · rw [length_writeLvl]; exact length_writeLvl ..
  · intro i hi
    rw [row_writeLvl_above hi]
    exact row_writeLvl_above hi
  · intro i hi
    obtain ⟨a1, a2, a3, -⟩ := us i hi
    have V := (hr.at (show i < r.subs.length by omega)).2
    have hp1 : permuteNTTRow (2 ^ n) (rS.permuteNTTIndex (UInt64.ofNat rS.nthRoot - 1)) (u.row i) = p.row i := by
      refine row_ext_lt (by simp [permuteNTTRow, (hp i hi).1]) (fun k hk => ?_)
      have hk : k < 2 ^ n := by simpa [permuteNTTRow] using hk
      have hb : (rS.permuteNTTLvl level u (UInt64.ofNat rS.nthRoot - 1) o1).row i =
          permuteNTTRow (2 ^ (n + 1)) (rS.permuteNTTIndex (UInt64.ofNat rS.nthRoot - 1)) (u.row i) := by
        unfold Ring.permuteNTTLvl Ring.permuteNTTWithIndexLvl
        rw [row_writeLvl hi h1, hdS]
      rw [hb] at a3
      have h5 : Row.at (permuteNTTRow (2 ^ (n + 1)) (rS.permuteNTTIndex (UInt64.ofNat rS.nthRoot - 1)) (u.row i)) k =
          (u.row i).at k := by rw [a3]
      rw [permuteNTTRow, at_map_range _ _ (by omega)] at h5
      rw [permuteNTTRow, at_map_range _ _ hk, h5, ← a2, Row.at_take, if_pos hk]
    have hlp : level < (r.permuteNTTWithIndexLvl level u (rS.permuteNTTIndex (UInt64.ofNat rS.nthRoot - 1)) o2).length := by
      unfold Ring.permuteNTTWithIndexLvl; rw [length_writeLvl]; exact h2
    rw [row_writeLvl hi hlp]
    have hpr : (r.permuteNTTWithIndexLvl level u (rS.permuteNTTIndex (UInt64.ofNat rS.nthRoot - 1)) o2).row i = p.row i := by
      unfold Ring.permuteNTTWithIndexLvl; rw [row_writeLvl hi h2, hd, hp1]
    rw [hpr, hd, a2, List.take_of_length_le (hp i hi).1.le]
    have hx : RowIs (2 ^ n) (r.sub i).q.toNat (r.sub i).q.toNat (p.row i) (zval (r.sub i).q.toNat (p.row i)) :=
      RowIs.refl _ (hp i hi).1 (hp i hi).2
    have hs := addVec_is V.arith hx hx
    refine ⟨hs.len, fun k hk => ?_⟩
    have h1 := hs.val k hk
    have h2 := hs.lt k hk
    unfold zval at h1
    rw [← Nat.cast_add, ZMod.natCast_eq_natCast_iff, Nat.ModEq, Nat.mod_eq_of_lt h2] at h1
    rw [h1, two_mul]

/-! ## C68: padding -/

theorem foldl_set_above {N : ℕ} (idx : ℕ → ℕ) (f : Row → ℕ → UInt64) (k : ℕ) (hidx : ∀ j < k, idx j < N) (x : Row) :
    ((List.range k).foldl (fun t j => t.set (idx j) (f t j)) x).length = x.length ∧
    ∀ m, N ≤ m → Row.at ((List.range k).foldl (fun t j => t.set (idx j) (f t j)) x) m = x.at m := by
  induction k with
  | zero => exact ⟨rfl, fun _ _ => rfl⟩
  | succ k ih =>
    obtain ⟨i1, i2⟩ := ih (fun j hj => hidx j (by omega))
    rw [List.range_succ, List.foldl_append]
    simp only [List.foldl_cons, List.foldl_nil]
    refine ⟨by rw [List.length_set, i1], fun m hm => ?_⟩
    have := hidx k (by omega)
    rw [Row.at_set, if_neg (by omega), i2 m hm]

/-- the upper half of the receiver is never written -/
theorem padRow_above {n : ℕ} (q : UInt64) (ntt : Bool) (x y : Row) (hx : x.length = n) (hn : 0 < n) :
    ∀ j, n ≤ j → (padRow n q ntt x y).at j = y.at j := by
  intro j hj
  have h0 : Row.at (x ++ y.drop x.length) j = y.at j := by
    unfold Row.at
    simp only [List.getD_eq_getElem?_getD]
    rw [List.getElem?_append_right (by omega), List.getElem?_drop]
    congr 2
    omega
  unfold padRow
  cases ntt with
  | true =>
    refine ((foldl_set_above (N := n) (fun j => n - j - 1) (fun t j => Row.at t j) n (fun j _ => by omega) _).2 j hj).trans h0
  | false =>
    refine ((foldl_set_above (N := n) (fun j => n - (j + 1)) (fun t j => q - Row.at t (j + 1)) (n - 1)
      (fun j _ => by omega) _).2 j hj).trans ?_
    rw [Row.at_set, if_neg (by omega), h0]

/-- the lower half: values above the middle are lost -/
theorem padRow_ntt_below {n : ℕ} (q : UInt64) (x y : Row) (hx : x.length = n) :
    ∀ j < n, (padRow n q true x y).at j = x.at (min j (n - 1 - j)) := by
  have key : ∀ k ≤ n, ∀ t : Row, t = (List.range k).foldl (fun tmp j => tmp.set (n - j - 1) (Row.at tmp j))
      (x ++ y.drop x.length) → n ≤ t.length ∧
      ∀ j < n, t.at j = if n - 1 - j < k then x.at (min j (n - 1 - j)) else x.at j := by
    intro k
    induction k with
    | zero =>
      rintro - t rfl
      refine ⟨by simp [hx], fun j hj => ?_⟩
      rw [if_neg (by omega)]
      unfold Row.at
      simp only [List.range_zero, List.foldl_nil]
      rw [List.getD_eq_getElem _ _ (by simp; omega), List.getElem_append_left (by omega), List.getD_eq_getElem]
    | succ k ih =>
      intro hk t ht
      rw [List.range_succ, List.foldl_append] at ht
      obtain ⟨i1, i2⟩ := ih (by omega) _ rfl
      simp only [List.foldl_cons, List.foldl_nil] at ht
      generalize (List.range k).foldl (fun tmp j => tmp.set (n - j - 1) (Row.at tmp j)) (x ++ y.drop x.length) = u
        at i1 i2 ht
      subst ht
      refine ⟨by rw [List.length_set]; exact i1, fun j hj => ?_⟩
      rw [Row.at_set]
      by_cases hjk : j = n - k - 1
      · rw [if_pos ⟨hjk, by omega⟩, if_pos (by omega), i2 k (by omega)]
        split
        · congr 1; omega
        · congr 1; omega
      · rw [if_neg (by omega), i2 j hj]
        by_cases hc : n - 1 - j < k
        · rw [if_pos hc, if_pos (by omega)]
        · rw [if_neg hc, if_neg (by omega)]
  intro j hj
  have := (key n le_rfl _ rfl).2 j hj
  rw [if_pos (by omega)] at this
  exact this

/-- **C68 fails**, for all degrees, moduli and polynomials: the upper half of the receiver keeps its old content, in both
domains, so two receivers give two results; in the NTT domain half of the input values have no influence on the result;
in the coefficient domain the constant coefficient is lost. -/
theorem C68_violated {n : ℕ} (hn : 0 < n) (q : UInt64) (x : Row) (hx : x.length = 2 * n) :
    (∀ ntt y y', y.length = 4 * n → y'.length = 4 * n → y.at (2 * n) ≠ y'.at (2 * n) →
      padRow (2 * n) q ntt x y ≠ padRow (2 * n) q ntt x y') ∧
    (∀ x' y, x'.length = 2 * n → y.length = 4 * n → (∀ j < n, x.at j = x'.at j) →
      padRow (2 * n) q true x y = padRow (2 * n) q true x' y) ∧
    ∀ c y, padRow (2 * n) q false (x.set 0 c) y = padRow (2 * n) q false x y := by
  refine ⟨fun ntt y y' _ _ hne he => hne ?_, fun x' y hx' hy hxx => ?_, fun c y => ?_⟩
  · rw [← padRow_above q ntt x y hx (by omega) _ le_rfl, he, padRow_above q ntt x y' hx (by omega) _ le_rfl]
  · have hl : ∀ z : Row, z.length = 2 * n → (padRow (2 * n) q true z y).length = 4 * n := by
      intro z hz
      unfold padRow
      rw [if_pos rfl]
      refine ((foldl_set_above (N := 2 * n) (fun j => 2 * n - j - 1) (fun t j => Row.at t j) (2 * n)
        (fun j _ => by omega) _).1).trans ?_
      rw [List.length_append, List.length_drop, hz, hy]
      omega
    refine row_ext_lt ((hl x hx).trans (hl x' hx').symm) (fun k hk => ?_)
    by_cases h : k < 2 * n
    · rw [padRow_ntt_below q x y hx k h, padRow_ntt_below q x' y hx' k h]
      exact hxx _ (by omega)
    · rw [padRow_above q _ _ _ hx (by omega) _ (by omega), padRow_above q _ _ _ hx' (by omega) _ (by omega)]
  · unfold padRow
    simp only [Bool.false_eq_true, if_false]
    have h0 : List.set (x.set 0 c ++ y.drop (x.set 0 c).length) 0 0 = List.set (x ++ y.drop x.length) 0 0 := by
      cases x with
      | nil => simp at hx; omega
      | cons a l => simp
    rw [h0]

/-- **C68 (what holds).**  In the NTT domain, for a symmetric input row and a receiver whose upper half already mirrors it,
the result is the unfolded row.  Missing: every other input and receiver. -/
theorem C68_partial {n : ℕ} (hn : 0 < n) (q : UInt64) (x y : Row) (hx : x.length = n) (hy : y.length = 2 * n)
    (hs : ∀ j < n, x.at (n - 1 - j) = x.at j) (hm : ∀ j < n, y.at (2 * n - 1 - j) = x.at j) :
    ∀ j < 2 * n, (padRow n q true x y).at j = (unfoldRow n x y).at j := by
  obtain ⟨-, u2, u3⟩ := unfoldRow_spec hx hy
  intro j hj
  by_cases h : j < n
  · rw [padRow_ntt_below q x y hx j h, u2 j h]
    rcases Nat.le_total j (n - 1 - j) with h' | h'
    · rw [min_eq_left h']
    · rw [min_eq_right h', hs j h]
  · rw [padRow_above q true x y hx hn j (by omega)]
    have := u3 (2 * n - 1 - j) (by omega)
    rw [show 2 * n - 1 - (2 * n - 1 - j) = j by omega] at this
    rw [this, ← hm _ (by omega)]
    congr 1
    omega

/-- a concrete loss: degree 4, the rows `1 2 3 4` and `1 2 5 6` are padded to the same row -/
example : padRow 4 193 true [1, 2, 3, 4] [0, 0, 0, 0, 0, 0, 0, 0] = [1, 2, 2, 1, 0, 0, 0, 0] ∧
    padRow 4 193 true [1, 2, 5, 6] [0, 0, 0, 0, 0, 0, 0, 0] = [1, 2, 2, 1, 0, 0, 0, 0] := by decide

/-! ## Examples -/

/-- a standard ring of degree `2N ≥ 32` gives the conjugate-invariant ring of degree `N` -/
theorem ci_of_std {fuel N : ℕ} (hN : ¬ (N < 16 ∨ (Nat.land N (N - 1) ≠ 0 ∧ N ≠ 0))) {moduli : List UInt64} {rS : Ring}
    (h : newRing fuel (2 * N) moduli = .ok rS) : ∃ r, newRingConjugateInvariant fuel N moduli = .ok r := by
  unfold newRing newRingCustom at h
  unfold newRingConjugateInvariant newRingCustom
  rw [if_neg hN]
  rw [show 2 * (2 * N) = 4 * N by ring] at h
  split at h
  · cases h
  · split at h
    · cases h
    · rename_i h0
      rw [if_neg h0]
      split at h
      · cases h
      · rename_i h1
        rw [if_neg h1]
        split at h
        · split at h <;> cases h
        · rename_i h2
          split at h
          · cases h
          · exact ⟨_, rfl⟩

/-- degree 16 and 32, modulus 193: the hypotheses of `C67_ntt` and `C58_fold` on the rings -/
example : ∃ r rS : Ring, newRingConjugateInvariant 100 16 [193] = .ok r ∧ newRing 100 (2 * 16) [193] = .ok rS ∧
    CIPair 4 r rS ∧ r.Small := by
  obtain ⟨-, rS, -, h2, -⟩ := rings193
  obtain ⟨r, hr⟩ := ci_of_std (fuel := 100) (N := 16) (by decide) (moduli := [193]) h2
  obtain ⟨n, hn, hP⟩ := C67_rings (by simp) (by norm_num) hr h2
  obtain rfl : n = 4 := (Nat.pow_right_injective le_rfl (show 2 ^ 4 = 2 ^ n from hn)).symm
  refine ⟨r, rS, hr, h2, hP, fun s hs => ?_⟩
  obtain ⟨hm, -⟩ := newRingCustom_valid (fuel := 100) (n := 4) (m := 5) (by omega) (by omega) rfl (by simp) hr
  have : s.q ∈ r.moduli := List.mem_map.2 ⟨s, hs, rfl⟩
  rw [hm, List.mem_singleton] at this
  rw [this]
  decide

/-- a non-zero symmetric polynomial as `ps` in `C67_ntt`: `5 + 3(X + X^-1)`, degree 16 -/
example : RowIs 32 193 (2 ^ 62) ((([5, 3] : Row) ++ List.replicate 29 0) ++ [190])
    (symm 16 (zval 193 (([5, 3] : Row) ++ List.replicate 14 0))) := by
  refine ⟨rfl, by decide, by decide⟩

end Props

end FastKsw
