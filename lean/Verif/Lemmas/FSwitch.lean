import Verif.Lemmas.FDigit

/-!
# The fast key-switch as a whole
-/

namespace FastKsw

open Finset

/-! ## Size of the accumulated products -/

theorem abs_negConv_le {N : ℕ} {a b : ℕ → ℤ} {Ma Mb : ℤ} (ha : ∀ k < N, |a k| ≤ Ma)
    (hb : ∀ k < N, |b k| ≤ Mb) {k : ℕ} (hk : k < N) : |negConv N a b k| ≤ N * (Ma * Mb) := by
  unfold negConv
  calc |∑ i ∈ range N, if i ≤ k then a i * b (k - i) else -(a i * b (N + k - i))|
      ≤ ∑ i ∈ range N, |if i ≤ k then a i * b (k - i) else -(a i * b (N + k - i))| := abs_sum_le_sum_abs _ _
    _ ≤ ∑ _i ∈ range N, Ma * Mb := by
        refine sum_le_sum (fun i hi => ?_)
        have hi' := mem_range.1 hi
        have h0 : 0 ≤ Ma := le_trans (abs_nonneg _) (ha i hi')
        split
        · rw [abs_mul]
          exact mul_le_mul (ha i hi') (hb _ (by omega)) (abs_nonneg _) h0
        · rw [abs_neg, abs_mul]
          exact mul_le_mul (ha i hi') (hb _ (by omega)) (abs_nonneg _) h0
    _ = N * (Ma * Mb) := by simp

theorem NearRep.abs_le {M : ℕ} {z : ℤ} (h : NearRep M z) : 2 ^ 42 * |z| ≤ (2 ^ 42 + 1) * M := by
  have h1 := h.lo
  have h2 := h.hi
  rcases abs_cases z with ⟨e, _⟩ | ⟨e, _⟩ <;> rw [e] <;> omega

theorem fitsT_of {N beta T : ℕ} {A B : ℕ → ℕ → ℤ} {MA : ℕ → ℕ} {MB : ℕ}
    (hA : ∀ i < beta, ∀ k < N, NearRep (MA i) (A i k)) (hB : ∀ i < beta, ∀ k < N, NearRep MB (B i k))
    (hT : ∀ i < beta, 2 * (2 ^ 39 + 1) * (beta * N * MA i * MB) + 2 ^ 40 ≤ 2 ^ 39 * T) (hT0 : 3 ≤ T)
    {k : ℕ} (hk : k < N) : FitsT T (convSum N beta A B k) := by
  have hterm : ∀ i < beta, 2 ^ 84 * |negConv N (A i) (B i) k| ≤ (2 ^ 42 + 1) ^ 2 * (N * MA i * MB : ℕ) := by
    intro i hi
    have h1 := abs_negConv_le (N := N) (a := fun k => 2 ^ 42 * A i k) (b := fun k => 2 ^ 42 * B i k)
      (Ma := (2 ^ 42 + 1) * MA i) (Mb := (2 ^ 42 + 1) * MB)
      (fun k hk => by rw [abs_mul, abs_of_pos (by norm_num : (0 : ℤ) < 2 ^ 42)]; exact (hA i hi k hk).abs_le)
      (fun k hk => by rw [abs_mul, abs_of_pos (by norm_num : (0 : ℤ) < 2 ^ 42)]; exact (hB i hi k hk).abs_le) hk
    have h2 : negConv N (fun k => 2 ^ 42 * A i k) (fun k => 2 ^ 42 * B i k) k
        = 2 ^ 84 * negConv N (A i) (B i) k := by
      unfold negConv
      rw [mul_sum]
      refine sum_congr rfl (fun l _ => ?_)
      split <;> ring
    rw [h2, abs_mul, abs_of_pos (by norm_num : (0 : ℤ) < 2 ^ 84)] at h1
    refine h1.trans (le_of_eq ?_)
    push_cast
    ring
  -- sum of `beta` terms each at most `W / beta`
  have hsum : 2 ^ 84 * |convSum N beta A B k| ≤ ∑ i ∈ range beta, (2 ^ 42 + 1) ^ 2 * ((N * MA i * MB : ℕ) : ℤ) := by
    unfold convSum
    refine le_trans (mul_le_mul_of_nonneg_left (abs_sum_le_sum_abs _ _) (by norm_num)) ?_
    rw [mul_sum]
    exact sum_le_sum (fun i hi => hterm i (mem_range.1 hi))
  rcases Nat.eq_zero_or_pos beta with hb0 | hb0
  · subst hb0
    unfold FitsT convSum
    simp only [range_zero, sum_empty, abs_zero]
    omega
  · have hsum2 : beta * (2 * (2 ^ 39 + 1) * (∑ i ∈ range beta, (N * MA i * MB))) + beta * 2 ^ 40
        ≤ beta * (2 ^ 39 * T) := by
      have e1 : beta * (2 * (2 ^ 39 + 1) * (∑ i ∈ range beta, (N * MA i * MB))) + beta * 2 ^ 40
          = ∑ i ∈ range beta, (2 * (2 ^ 39 + 1) * (beta * N * MA i * MB) + 2 ^ 40) := by
        rw [sum_add_distrib, sum_const, card_range, smul_eq_mul, mul_sum, mul_sum]
        congr 1
        exact sum_congr rfl (fun i _ => by ring)
      have e2 : beta * (2 ^ 39 * T) = ∑ _i ∈ range beta, 2 ^ 39 * T := by
        rw [sum_const, card_range, smul_eq_mul]
      rw [e1, e2]
      exact sum_le_sum (fun i hi => hT i (mem_range.1 hi))
    have hsum3 : 2 * (2 ^ 39 + 1) * (∑ i ∈ range beta, (N * MA i * MB)) + 2 ^ 40 ≤ 2 ^ 39 * T := by
      rw [← mul_add] at hsum2
      exact Nat.le_of_mul_le_mul_left hsum2 hb0
    rw [← mul_sum, ← Nat.cast_sum] at hsum
    unfold FitsT
    generalize ∑ i ∈ range beta, (N * MA i * MB) = W at *
    have h0 := abs_nonneg (convSum N beta A B k)
    generalize |convSum N beta A B k| = S at *
    omega

theorem blockQ_mono {n size i : ℕ} {r : Ring} (hr : r.Valid n) {cnt cnt' : ℕ} (h : cnt ≤ cnt')
    (hc : cnt' ≤ r.subs.length) : r.blockQ size cnt i ≤ r.blockQ size cnt' i := by
  unfold Ring.blockQ
  refine prod_le_prod_of_subset_of_one_le' (range_subset_range.2 (by omega)) (fun j hj _ => ?_)
  have := mem_range.1 hj
  exact (hr.subAt (show i * size + j < r.subs.length by omega)).prime.one_lt.le

theorem fits_level {fuel n : ℕ} {p : FParams} (h : p.OK fuel n) (hF : p.Fits) {levelQ : ℕ}
    (hl : levelQ < p.ringQ.subs.length) {beta : ℕ} (hb : beta = ceilDivF (levelQ + 1) p.alpha)
    {A B : ℕ → ℕ → ℤ} {j : ℕ} (hj : j * p.gamma < p.ringR.subs.length)
    (hA : ∀ i < beta, ∀ k < 2 ^ n, NearRep (p.ringQ.blockQ p.alpha (levelQ + 1) i) (A i k))
    (hB : ∀ i < beta, ∀ k < 2 ^ n, NearRep (p.ringR.blockQ p.gamma p.ringR.subs.length j) (B i k))
    {k : ℕ} (hk : k < 2 ^ n) : FitsT (p.ringT.prodQ p.levelT) (convSum (2 ^ n) beta A B k) := by
  have ha := h.lenP
  have ha2 := h.alpha32
  have hq := h.q100
  have hT := h.lenT
  have hal : p.alpha = p.ringP.subs.length := rfl
  rw [ceilDivF_small (by omega) (by omega) (by omega)] at hb
  have hbl : ∀ i, i < beta ↔ i * p.alpha < levelQ + 1 := fun i => by
    rw [hb]; exact ceil_block (by omega)
  have key : ∀ i < beta, 2 * (2 ^ 39 + 1) * (beta * 2 ^ n * p.ringQ.blockQ p.alpha (levelQ + 1) i *
      p.ringR.blockQ p.gamma p.ringR.subs.length j) + 2 ^ 40 ≤ 2 ^ 39 * p.ringT.prodQ p.levelT := by
    intro i hi
    have h1 := (hbl i).1 hi
    refine le_trans ?_ (hF i j (by omega) hj)
    have h2 : beta ≤ (p.ringQ.subs.length + p.alpha - 1) / p.alpha := by
      rw [hb]; exact Nat.div_le_div_right (by omega)
    have h3 : p.ringQ.blockQ p.alpha (levelQ + 1) i ≤ p.ringQ.blockQ p.alpha p.ringQ.subs.length i :=
      blockQ_mono h.hQ (by omega) le_rfl
    rw [h.hQ.deg]
    gcongr
  refine fitsT_of hA hB key ?_ hk
  have h1 := key 0 ((hbl 0).2 (by omega))
  have h2 : 0 < beta * 2 ^ n * p.ringQ.blockQ p.alpha (levelQ + 1) 0 *
      p.ringR.blockQ p.gamma p.ringR.subs.length j := by
    have b1 : 0 < beta := lt_of_le_of_lt (Nat.zero_le _) ((hbl 0).2 (by omega))
    have b2 : 0 < p.ringQ.blockQ p.alpha (levelQ + 1) 0 := by
      refine prod_pos (fun j hj => ?_)
      have := mem_range.1 hj
      exact (h.hQ.subAt (show 0 * p.alpha + j < p.ringQ.subs.length by omega)).prime.pos
    have b3 : 0 < p.ringR.blockQ p.gamma p.ringR.subs.length j := by
      refine prod_pos (fun i hi => ?_)
      have := mem_range.1 hi
      exact (h.hR.subAt (show j * p.gamma + i < p.ringR.subs.length by omega)).prime.pos
    positivity
  generalize beta * 2 ^ n * p.ringQ.blockQ p.alpha (levelQ + 1) 0 *
      p.ringR.blockQ p.gamma p.ringR.subs.length j = W at *
  generalize p.ringT.prodQ p.levelT = T at *
  omega

/-! ## Congruent factors -/

theorem negConv_cast {N q : ℕ} {a a' b b' : ℕ → ℤ} (ha : ∀ k < N, (a k : ZMod q) = a' k)
    (hb : ∀ k < N, (b k : ZMod q) = b' k) {k : ℕ} (hk : k < N) :
    ((negConv N a b k : ℤ) : ZMod q) = ((negConv N a' b' k : ℤ) : ZMod q) := by
  unfold negConv
  push_cast
  refine sum_congr rfl (fun i hi => ?_)
  have := mem_range.1 hi
  split
  · push_cast
    rw [ha i this, hb _ (by omega)]
  · push_cast
    rw [ha i this, hb _ (by omega)]

theorem convSum_cast {N m q : ℕ} {a b b' : ℕ → ℕ → ℤ}
    (hb : ∀ i < m, ∀ k < N, (b i k : ZMod q) = b' i k) {k : ℕ} (hk : k < N) :
    ((convSum N m a b k : ℤ) : ZMod q) = ((convSum N m a b' k : ℤ) : ZMod q) := by
  unfold convSum
  push_cast
  exact sum_congr rfl (fun i hi => negConv_cast (fun _ _ => rfl) (hb i (mem_range.1 hi)) hk)

/-! ## The key in the form the fast key-switcher uses -/

/-- coefficient form of a key polynomial -/
def FParams.plain (p : FParams) (x : PolyQP) : PolyQP :=
  let x : PolyQP := ⟨p.ringQ.invMformLvl p.maxLevel x.q x.q, p.ringP.invMformLvl (p.alpha - 1) x.p x.p⟩
  ⟨p.ringQ.invNttLvl p.maxLevel x.q x.q, p.ringP.invNttLvl (p.alpha - 1) x.p x.p⟩

theorem unmont {n : ℕ} {r : Ring} (hr : r.Valid n) (sr : r.Small) {x : Rows} {X : ℕ → ℤ}
    (hx : PolyIs r (r.subs.length - 1) r.qs x (fun u k => r.nttVec n X u k * 2 ^ 64)) :
    PolyIs r (r.subs.length - 1) r.qs
      (r.invNttLvl (r.subs.length - 1) (r.invMformLvl (r.subs.length - 1) x x)
        (r.invMformLvl (r.subs.length - 1) x x)) (r.intVec X) := by
  have h0 := List.length_pos_iff.2 hr.ne_nil
  have hl : r.subs.length - 1 < r.subs.length := by omega
  have h1 : PolyIs r (r.subs.length - 1) r.qs (r.invMformLvl (r.subs.length - 1) x x) (r.nttVec n X) := by
    refine (writeLvl_is hx.lvl (fun u hu => ?_)).is
    have A := hr.arithLvl hl u hu
    refine (invMformVec_is A (hx.row u hu)).congr (fun k _ => ?_)
    have := mul_rinv A.odd
    rw [mul_assoc, this, mul_one]
  exact (invNttLvl_is hr sr hl (h1.mono (fun u _ => by omega)) h1.lvl).is

section
variable {fuel n : ℕ} {p : FParams} (h : p.OK fuel n)
include h

theorem plain_is {x : PolyQP} {X : ℕ → ℤ} (hx : x.IsMont n p.ringQ p.ringP p.maxLevel (p.alpha - 1) X) {u : ℕ}
    (hu : u < p.ringR.subs.length) :
    RowIs (2 ^ n) (p.ringR.sub u).q.toNat (p.ringR.sub u).q.toNat ((p.plain x).getR p.alpha u)
      (p.ringR.intVec X u) := by
  have hR := h.lenR
  have hal : p.alpha = p.ringP.subs.length := rfl
  have hQ := unmont h.hQ h.sQ hx.q
  have hP := unmont h.hP h.sP hx.p
  unfold PolyQP.getR
  split
  · rename_i h1
    have := hP.row u (by omega)
    exact RowIs.castInt h.hP.deg (by rw [h.qP (by omega)]) this
  · rename_i h1
    have := hQ.row (u - p.alpha) (by omega)
    refine RowIs.castInt h.hQ.deg ?_ this
    rw [← h.qQ (by omega), Nat.sub_add_cancel (by omega)]

theorem convertKey_is {kg : FKeyGenerator} (hk : kg.OK n p) {x : ℕ → PolyQP} {X : ℕ → ℕ → ℤ} {i : ℕ}
    (hx : (x i).IsMont n p.ringQ p.ringP p.maxLevel (p.alpha - 1) (X i)) (hi : i < p.beta) {j : ℕ}
    (hj : j * p.gamma < p.ringR.subs.length) :
    ∃ Z : ℕ → ℤ, BlockRep p.ringR p.gamma p.ringR.subs.length j (p.ringR.intVec (X i)) Z ∧
      PolyIs p.ringT p.levelT p.ringT.qs
        (FSwitchingKey.at ((List.range p.beta).map fun i => kg.polyQPToPolyTs (p.plain (x i))) i j)
        (fun t k => p.ringT.nttVec n Z t k * 2 ^ 64) := by
  have hg := h.gamma_pos
  have hg2 := h.gamma32
  have ha2 := h.alpha32
  have hq := h.q100
  have hR := h.lenR
  obtain ⟨Z, h1, h2⟩ := polyT_is h hk (fun u hu => plain_is h hx hu) hj
  refine ⟨Z, h1, ?_⟩
  unfold FSwitchingKey.at
  rw [getD_map_range' _ _ _ hi]
  unfold FKeyGenerator.polyQPToPolyTs
  simp only [hk.params]
  rw [h.cntR, ceilDivF_small hg (by omega) (by omega), getD_map_range' _ _ _ ((ceil_block hg).2 hj)]
  exact h2

end

/-- `externalProduct` on converted keys -/
theorem externalProduct_is {fuel n : ℕ} {p : FParams} (h : p.OK fuel n) (hF : p.Fits) {ksw : FKeySwitcher}
    (hk : ksw.OK n p) {kg : FKeyGenerator} (hg : kg.OK n p) {levelQ : ℕ} (hl : levelQ < p.ringQ.subs.length)
    {D : ℕ → ℕ}
    (hD : ∀ t ≤ p.levelT, D t ≤ 6 * p.ringT.qs t ∨ D t + 2 * p.ringT.qs t + 2 ^ 15 ≤ 2 ^ 64)
    {beta : ℕ} (hb : beta = ceilDivF (levelQ + 1) p.alpha) {dig : List Rows} {A : ℕ → ℕ → ℤ}
    (hA : ∀ i < beta, PolyIs p.ringT p.levelT D (dig.getD i []) (p.ringT.nttVec n (A i)))
    (hA2 : ∀ i < beta, ∀ k < 2 ^ n, NearRep (p.ringQ.blockQ p.alpha (levelQ + 1) i) (A i k))
    {x : ℕ → PolyQP} {X : ℕ → ℕ → ℤ} (hx : ∀ i < p.beta, (x i).IsMont n p.ringQ p.ringP p.maxLevel (p.alpha - 1) (X i))
    {c : Rows} (hc : levelQ < c.length) :
    ∃ Z Y : ℕ → ℤ, ExtInt p.ringP (p.alpha - 1) (p.ringP.intVec (convSum (2 ^ n) beta A X)) Z ∧
      (∀ k < 2 ^ n, (p.ringP.prodQ (p.alpha - 1) : ℤ) * Y k = convSum (2 ^ n) beta A X k - Z k) ∧
      PolyWritten p.ringQ levelQ p.ringQ.qs c
        (ksw.externalProduct levelQ dig ((List.range p.beta).map fun i => kg.polyQPToPolyTs (p.plain (x i))) c)
        (p.ringQ.intVec Y) := by
  have hlenP := h.lenP
  have ha2 := h.alpha32
  have hq := h.q100
  have hR := h.lenR
  have hgp := h.gamma_pos
  have hal : p.alpha = p.ringP.subs.length := rfl
  have hbb : beta ≤ p.beta := by
    unfold FParams.beta
    rw [hb, if_pos (by omega), ceilDivF_small (by omega) (by omega) (by omega),
      ceilDivF_small (by omega) (by omega) (by omega)]
    exact Nat.div_le_div_right (by omega)
  have key : ∀ i j, ∃ Z : ℕ → ℤ, i < beta → j * p.gamma < p.ringR.subs.length →
      BlockRep p.ringR p.gamma p.ringR.subs.length j (p.ringR.intVec (X i)) Z ∧
      PolyIs p.ringT p.levelT p.ringT.qs
        (FSwitchingKey.at ((List.range p.beta).map fun i => kg.polyQPToPolyTs (p.plain (x i))) i j)
        (fun t k => p.ringT.nttVec n Z t k * 2 ^ 64) := by
    intro i j
    by_cases hi : i < beta
    · by_cases hj : j * p.gamma < p.ringR.subs.length
      · obtain ⟨Z, hZ⟩ := convertKey_is h hg (hx i (by omega)) (by omega) hj
        exact ⟨Z, fun _ _ => hZ⟩
      · exact ⟨fun _ => 0, fun _ h' => absurd h' hj⟩
    · exact ⟨fun _ => 0, fun h' => absurd h' hi⟩
  choose B hB using key
  obtain ⟨e1, e2⟩ := externalProductQP_is h hk hl hD (dig := dig) (A := A) (B := B) hb hA
    (fun i hi j hj => (hB i j hi (by omega)).2)
    (fun j hj k hk' => fits_level h hF hl hb (by omega) hA2
      (fun i hi k hk' => (hB i j hi (by omega)).1.near k (by rw [h.hR.deg]; exact hk')) hk')
  -- both parts hold the same integer vector
  have hcong : ∀ u < levelQ + p.alpha + 1, ∀ k < 2 ^ n,
      ((convSum (2 ^ n) beta A (fun i => B i (u / p.gamma)) k : ℤ) : ZMod (p.ringR.sub u).q.toNat)
        = ((convSum (2 ^ n) beta A X k : ℤ) : ZMod (p.ringR.sub u).q.toNat) := by
    intro u hu k hk'
    have hdm := Nat.div_add_mod u p.gamma
    rw [Nat.mul_comm] at hdm
    have hmod := Nat.mod_lt u hgp
    refine convSum_cast (fun i hi k hk' => ?_) hk'
    exact (hB i (u / p.gamma) hi (by omega)).1.cong k (by rw [h.hR.deg]; exact hk') u (by omega) (by omega)
      (by omega)
  have f1 : PolyIs p.ringQ levelQ (fun i => 2 * p.ringQ.qs i + 1) _ (p.ringQ.intVec (convSum (2 ^ n) beta A X)) :=
    (e1.congr (fun u hu k hk' => by
      have := hcong (u + p.alpha) (by omega) k (by rw [← h.hQ.deg]; exact hk')
      rw [h.qQ (by omega)] at this
      exact this)).mono (fun u _ => by omega)
  have f2 : PolyIs p.ringP (p.alpha - 1) p.ringP.qs _ (p.ringP.intVec (convSum (2 ^ n) beta A X)) :=
    e2.congr (fun u hu k hk' => by
      have := hcong u (by omega) k (by rw [← h.hP.deg]; exact hk')
      rw [h.qP (by omega)] at this
      exact this)
  obtain ⟨Z, Y, z1, z2, z3⟩ := modDownQPtoQ_is h.hQ h.sQ h.hP h.sP h.disjoint hl
    (show p.alpha - 1 < p.ringP.subs.length by omega) (by omega) f1 f2 hc
  refine ⟨Z, Y, z1, fun k hk' => z2 k (by rw [h.hQ.deg]; exact hk'), ?_⟩
  unfold FKeySwitcher.externalProduct
  simp only [hk.params, hk.convQP]
  exact z3

end FastKsw
