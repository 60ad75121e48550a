import Verif.Lemmas.CRT
import Verif.Props.RingMisc

/-!
# C19, C20, C21: RNS basis extension and division by the second modulus

`r.prodQ level` is the product of the first `level + 1` moduli, `r.intVec X` the
residues of the integer coefficients `X`, `r.nttVec n X` the evaluations of these
residues at the points of the NTT.  `NearRep M z`: `-2^-42 M ≤ z < (1 + 2^-42) M`.
`ExtInt r level v Z`: the integers `Z` are `NearRep` for the product of the moduli
and have the residues `v`.
-/

namespace FastKsw.Props

variable {n : ℕ} {rQ rP : Ring} {levelQ levelP : ℕ}

/-- **C19.** `ModUpQtoP` of the residues of integers `x ∈ [0,Q)` gives the residues of `x + k Q` with
`k ∈ {-1,0,1}` the same for all target moduli and all target levels, `k = 0` unless `x` is within
`2^-42 Q` of `0` or `Q`.  The outputs are below `6 p_j < 2^64`: nothing wraps.  Input words need not
be reduced. -/
theorem C19_modUpQtoP (hQ : rQ.Valid n) (sQ : rQ.Small) (hP : rP.Valid n) (sP : rP.Small)
    (lQ : levelQ < rQ.subs.length) (l32 : levelQ < 32) (X : ℕ → ℤ)
    (hX : ∀ k < rQ.n, 0 ≤ X k ∧ X k < rQ.prodQ levelQ) (p1 : Rows) (A : ℕ → ℕ)
    (h1 : PolyIs rQ levelQ A p1 (rQ.intVec X)) :
    ∃ K : ℕ → ℤ, (∀ k < rQ.n, (K k = -1 ∨ K k = 0 ∨ K k = 1) ∧
        ((rQ.prodQ levelQ : ℤ) ≤ 2 ^ 42 * X k → 2 ^ 42 * X k < (2 ^ 42 - 1) * rQ.prodQ levelQ →
          K k = 0)) ∧
      ∀ levelP < rP.subs.length, ∀ p2 : Rows, levelP < p2.length →
        PolyWritten rP levelP (fun j => 6 * rP.qs j) p2
          ((newBasisExtender rQ rP).modUpQtoP levelQ levelP p1 p2)
          (rP.intVec fun k => X k + K k * rQ.prodQ levelQ) := by
  obtain ⟨Z, hZ, hw⟩ := modUpQtoP_is hQ sQ hP sP lQ l32 h1
  have hpos := prodQ_pos hQ lQ
  have key : ∀ k, ∃ c : ℤ, k < rQ.n → (c = -1 ∨ c = 0 ∨ c = 1) ∧ Z k = X k + c * rQ.prodQ levelQ := by
    intro k
    by_cases hk : k < rQ.n
    · obtain ⟨c, h, h'⟩ := (hZ.near k hk).shift
        (hQ.dvd_of_cong lQ (a := Z k) (b := X k) (fun i hi => hZ.cong k hk i hi)) (hX k hk).1 (hX k hk).2
      exact ⟨c, fun _ => ⟨h, h'⟩⟩
    · exact ⟨0, fun h => absurd h hk⟩
  choose K hK using key
  refine ⟨K, fun k hk => ⟨(hK k hk).1, fun b1 b2 => ?_⟩, fun levelP lP p2 hp2 => ?_⟩
  · have e := (hZ.near k hk).dvd_eq
      (hQ.dvd_of_cong lQ (a := Z k) (b := X k) (fun i hi => hZ.cong k hk i hi)) b1 b2
    have h' := (hK k hk).2
    rw [e] at h'
    have : K k * (rQ.prodQ levelQ : ℤ) = 0 := by linarith
    rcases mul_eq_zero.1 this with h | h
    · exact h
    · omega
  · have h := hw levelP lP p2 hp2
    have hN : rP.n = rQ.n := by rw [hQ.deg, hP.deg]
    exact ⟨(h.is.mono (fun i _ => Nat.mul_le_mul_right _ (by omega))).congr
      (fun i _ k hk => by simp only [Ring.intVec]; rw [(hK k (hN ▸ hk)).2]), h.len, h.above⟩

/-- **C19, other direction.** `ModUpPtoQ` -/
theorem C19_modUpPtoQ (hQ : rQ.Valid n) (sQ : rQ.Small) (hP : rP.Valid n) (sP : rP.Small)
    (lP : levelP < rP.subs.length) (l32 : levelP < 32) (X : ℕ → ℤ)
    (hX : ∀ k < rP.n, 0 ≤ X k ∧ X k < rP.prodQ levelP) (p1 : Rows) (A : ℕ → ℕ)
    (h1 : PolyIs rP levelP A p1 (rP.intVec X)) :
    ∃ K : ℕ → ℤ, (∀ k < rP.n, (K k = -1 ∨ K k = 0 ∨ K k = 1) ∧
        ((rP.prodQ levelP : ℤ) ≤ 2 ^ 42 * X k → 2 ^ 42 * X k < (2 ^ 42 - 1) * rP.prodQ levelP →
          K k = 0)) ∧
      ∀ levelQ < rQ.subs.length, ∀ p2 : Rows, levelQ < p2.length →
        PolyWritten rQ levelQ (fun j => 6 * rQ.qs j) p2
          ((newBasisExtender rQ rP).modUpPtoQ levelP levelQ p1 p2)
          (rQ.intVec fun k => X k + K k * rP.prodQ levelP) := by
  obtain ⟨K, h1, h2⟩ := C19_modUpQtoP (rQ := rP) (rP := rQ) hP sP hQ sQ lP l32 X hX p1 A h1
  exact ⟨K, h1, h2⟩

/-- **C20.** `ModDownQPtoQ` of the residues of any integers `x` gives, reduced, the residues of
`y = (x - z)/P` where `z` is congruent to `x` modulo `P` and `-2^-42 P ≤ z < (1 + 2^-42) P`; so
`P y` differs from `x` by less than `(1 + 2^-42) P`. -/
theorem C20_modDownQPtoQ (hQ : rQ.Valid n) (sQ : rQ.Small) (hP : rP.Valid n) (sP : rP.Small)
    (hd : ∀ i < rQ.subs.length, ∀ j < rP.subs.length, (rQ.sub i).q ≠ (rP.sub j).q)
    (lQ : levelQ < rQ.subs.length) (lP : levelP < rP.subs.length) (l32 : levelP < 32)
    (p1Q p1P p2Q : Rows) (A : ℕ → ℕ) (X : ℕ → ℤ)
    (hq : PolyIs rQ levelQ (fun i => 2 * rQ.qs i + 1) p1Q (rQ.intVec X))
    (hp : PolyIs rP levelP A p1P (rP.intVec X)) (h2 : levelQ < p2Q.length) :
    ∃ Z Y : ℕ → ℤ, (∀ k < rQ.n, (rP.prodQ levelP : ℤ) * Y k = X k - Z k ∧
        -(rP.prodQ levelP : ℤ) ≤ 2 ^ 42 * Z k ∧ 2 ^ 42 * Z k < (2 ^ 42 + 1) * rP.prodQ levelP) ∧
      PolyWritten rQ levelQ rQ.qs p2Q
        ((newBasisExtender rQ rP).modDownQPtoQ levelQ levelP p1Q p1P p2Q) (rQ.intVec Y) := by
  obtain ⟨Z, Y, h1, h2, h3⟩ := modDownQPtoQ_is hQ sQ hP sP hd lQ lP l32 hq hp h2
  have hN : rQ.n = rP.n := by rw [hQ.deg, hP.deg]
  exact ⟨Z, Y, fun k hk => ⟨h2 k hk, (h1.near k (hN ▸ hk)).lo, (h1.near k (hN ▸ hk)).hi⟩, h3⟩

/-- **C20 (NTT).** `ModDownQPtoQNTT` computes the NTT of such a quotient.  `hov` excludes overflow in
the lazy NTT; it always holds for at most 16 moduli `P`. -/
theorem C20_modDownQPtoQNTT (hQ : rQ.Valid n) (sQ : rQ.Small) (hP : rP.Valid n) (sP : rP.Small)
    (hd : ∀ i < rQ.subs.length, ∀ j < rP.subs.length, (rQ.sub i).q ≠ (rP.sub j).q)
    (lQ : levelQ < rQ.subs.length) (lP : levelP < rP.subs.length) (l32 : levelP < 32)
    (hov : ∀ i ≤ levelQ, ((levelP + 8) / 8 + 6) * rQ.qs i ≤ 2 ^ 64)
    (p1Q p1P p2Q : Rows) (X : ℕ → ℤ)
    (hq : PolyIs rQ levelQ (fun i => 2 * rQ.qs i + 1) p1Q (rQ.nttVec n X))
    (hp : PolyIs rP levelP (fun i => 2 * rP.qs i) p1P (rP.nttVec n X)) (h2 : levelQ < p2Q.length) :
    ∃ Z Y : ℕ → ℤ, (∀ k < rQ.n, (rP.prodQ levelP : ℤ) * Y k = X k - Z k ∧
        -(rP.prodQ levelP : ℤ) ≤ 2 ^ 42 * Z k ∧ 2 ^ 42 * Z k < (2 ^ 42 + 1) * rP.prodQ levelP) ∧
      PolyWritten rQ levelQ rQ.qs p2Q
        ((newBasisExtender rQ rP).modDownQPtoQNTT levelQ levelP p1Q p1P p2Q) (rQ.nttVec n Y) := by
  obtain ⟨Z, Y, h1, h2, h3⟩ := modDownQPtoQNTT_is hQ sQ hP sP hd lQ lP l32 hov hq hp h2
  have hN : rQ.n = rP.n := by rw [hQ.deg, hP.deg]
  exact ⟨Z, Y, fun k hk => ⟨h2 k hk, (h1.near k (hN ▸ hk)).lo, (h1.near k (hN ▸ hk)).hi⟩, h3⟩

/-- `hov` of `C20_modDownQPtoQNTT` for at most 16 moduli `P` -/
theorem C20_no_overflow (sQ : rQ.Small) (lQ : levelQ < rQ.subs.length) (h16 : levelP < 16) :
    ∀ i ≤ levelQ, ((levelP + 8) / 8 + 6) * rQ.qs i ≤ 2 ^ 64 := by
  intro i hi
  have h1 := sQ _ (Ring.sub_mem (show i < rQ.subs.length by omega))
  calc _ ≤ 8 * rQ.qs i := Nat.mul_le_mul_right _ (by omega)
    _ ≤ _ := by unfold Ring.qs; omega

/-- The full claim C21 for one pair of levels: for all inputs `ModDownQPtoP` gives the residues of
`(x - [x]_Q)/Q`. -/
def ModDownToP (rQ rP : Ring) (levelQ levelP : ℕ) : Prop :=
  ∀ (p1Q p1P p2P : Rows) (X : ℕ → ℤ), PolyIs rQ levelQ rQ.qs p1Q (rQ.intVec X) →
    PolyIs rP levelP rP.qs p1P (rP.intVec X) → levelP < p2P.length →
    ∃ Z Y : ℕ → ℤ, (∀ k < rP.n, (rQ.prodQ levelQ : ℤ) * Y k = X k - Z k ∧
        -(rQ.prodQ levelQ : ℤ) ≤ 2 ^ 42 * Z k ∧ 2 ^ 42 * Z k < (2 ^ 42 + 1) * rQ.prodQ levelQ) ∧
      PolyWritten rP levelP rP.qs p2P
        ((newBasisExtender rQ rP).modDownQPtoP levelQ levelP p1Q p1P p2P) (rP.intVec Y)

/-- **C21.** The claim holds for `levelQ = levelP`.  Missing: other pairs of levels, where the code
divides by the wrong product, see `C21_violated`. -/
theorem C21_modDownQPtoP_partial (hQ : rQ.Valid n) (sQ : rQ.Small) (hP : rP.Valid n) (sP : rP.Small)
    (hd : ∀ i < rQ.subs.length, ∀ j < rP.subs.length, (rQ.sub i).q ≠ (rP.sub j).q) {level : ℕ}
    (lQ : level < rQ.subs.length) (lP : level < rP.subs.length) (l32 : level < 32) :
    ModDownToP rQ rP level level := by
  intro p1Q p1P p2P X hq hp h2
  obtain ⟨Z, Y, h1, h2, h3⟩ := modDownQPtoP_is hQ sQ hP sP hd lQ lP l32 hq
    (hp.mono (fun i _ => by unfold Ring.qs; omega)) h2
  have hN : rQ.n = rP.n := by rw [hQ.deg, hP.deg]
  exact ⟨Z, Y, fun k hk => ⟨h2 k hk, (h1.near k (hN ▸ hk)).lo, (h1.near k (hN ▸ hk)).hi⟩, h3⟩

/-- What `ModDownQPtoP` computes for any two levels: `(x - z)/(q_0 ⋯ q_levelP)` with `z` the
representative of `x` modulo `q_0 ⋯ q_levelQ`. -/
theorem C21_actual_value (hQ : rQ.Valid n) (sQ : rQ.Small) (hP : rP.Valid n) (sP : rP.Small)
    (hd : ∀ i < rQ.subs.length, ∀ j < rP.subs.length, (rQ.sub i).q ≠ (rP.sub j).q)
    (lQ : levelQ < rQ.subs.length) (lP : levelP < rP.subs.length) (l32 : levelQ < 32)
    (lPQ : levelP < rQ.subs.length)
    (p1Q p1P p2P : Rows) (A : ℕ → ℕ) (X : ℕ → ℤ) (hq : PolyIs rQ levelQ A p1Q (rQ.intVec X))
    (hp : PolyIs rP levelP rP.qs p1P (rP.intVec X)) (h2 : levelP < p2P.length) :
    ∃ Z : ℕ → ℤ, ExtInt rQ levelQ (rQ.intVec X) Z ∧
      ∃ y, PolyWritten rP levelP rP.qs p2P
        ((newBasisExtender rQ rP).modDownQPtoP levelQ levelP p1Q p1P p2P) y ∧
        ∀ i ≤ levelP, ∀ k < rP.n, (rQ.prodQ levelP : ZMod (rP.sub i).q.toNat) * y i k
          = ((X k - Z k : ℤ) : ZMod (rP.sub i).q.toNat) := by
  obtain ⟨Z, hZ, hup⟩ := modUpQtoP_is hQ sQ hP sP lQ l32 hq
  refine ⟨Z, hZ, fun i k => (rP.intVec Z i k - rP.intVec X i k)
      * (((rP.sub i).q - ((genModDownParams rP rQ).row levelP).at i).toNat : ZMod (rP.sub i).q.toNat)
      * rinv (rP.sub i).q.toNat, writeLvl_is h2 (fun i hi => ?_), fun i hi k hk => ?_⟩
  · have hup' := (hup levelP lP (newPoly rP.n rP.subs.length) (by rw [length_newPoly]; exact lP)).is
    have V := hP.subAt (show i < rP.subs.length by omega)
    have hc := modDown_const hP hQ (Ring.Disjoint.symm hd) (show i < rP.subs.length by omega) lPQ
    have hlt := sP _ (Ring.sub_mem (show i < rP.subs.length by omega))
    refine (subVecAndMulScalarMontgomeryTwoQiVec_is V.arith (hup'.row i hi)
      ((hp.row i hi).mono (by unfold Ring.qs; omega)) ?_ _ hc.1)
    have : ((levelQ + 8) / 8 + 2) * (rP.sub i).q.toNat ≤ 6 * (rP.sub i).q.toNat :=
      Nat.mul_le_mul_right _ (by omega)
    show ((levelQ + 8) / 8 + 2) * (rP.sub i).q.toNat + _ ≤ _
    omega
  · have hc := modDown_const hP hQ (Ring.Disjoint.symm hd) (show i < rP.subs.length by omega) lPQ
    simp only [Ring.intVec, Int.cast_sub]
    calc _ = ((Z k : ZMod (rP.sub i).q.toNat) - X k) *
          ((((rP.sub i).q - ((genModDownParams rP rQ).row levelP).at i).toNat : ZMod (rP.sub i).q.toNat)
            * rinv (rP.sub i).q.toNat * rQ.prodQ levelP) := by ring
      _ = _ := by rw [hc.2]; ring

set_option maxRecDepth 1000000 in
theorem newRing_exampleP : (newRing 100 16 [257, 353]).toOption.isSome = true := by
  decide +kernel

/-- a second ring for examples and counterexamples -/
theorem exists_ringP : ∃ r, newRing 100 16 [257, 353] = .ok r ∧ r.Valid 4 ∧ r.subs.length = 2 ∧
    r.n = 16 ∧ (r.sub 0).q = 257 ∧ (r.sub 1).q = 353 := by
  have h := newRing_exampleP
  cases hr : newRing 100 16 [257, 353] with
  | error e => rw [hr] at h; cases h
  | ok r =>
    have hq : ∀ q ∈ ([257, 353] : List UInt64), q.toNat < 2 ^ 63 := by decide
    obtain ⟨n, h1, h2, h3, -⟩ := C17_newRing_valid 100 16 (by omega) [257, 353] hq r hr
    have h4 : n = 4 := Nat.pow_right_injective (le_refl 2) (by simpa using h1.symm)
    subst h4
    have hl : r.subs.length = 2 := by
      have := congrArg List.length h3
      simpa [Ring.moduli] using this
    refine ⟨r, rfl, h2, hl, by rw [h2.deg]; norm_num, ?_, ?_⟩
    · have := congrArg (fun l => l.getD 0 0) h3
      simpa [Ring.moduli, Ring.sub, List.getD, hl] using this
    · have := congrArg (fun l => l.getD 1 0) h3
      simpa [Ring.moduli, Ring.sub, List.getD, hl] using this

theorem small_of {r : Ring} {a b : UInt64} (h : r.subs.length = 2) (ha : (r.sub 0).q = a)
    (hb : (r.sub 1).q = b) (h1 : a.toNat < 2 ^ 61) (h2 : b.toNat < 2 ^ 61) : r.Small := by
  intro s hs
  obtain ⟨i, hi, rfl⟩ := List.mem_iff_getElem.1 hs
  have : r.subs[i] = r.sub i := by simp [Ring.sub, List.getD, hi]
  rw [this]
  rcases (by omega : i = 0 ∨ i = 1) with rfl | rfl
  · rw [ha]; exact h1
  · rw [hb]; exact h2

/-- the hypotheses of C19, C20, C21 hold for two rings returned by `NewRing` -/
theorem exists_rings : ∃ rQ rP : Ring, newRing 100 16 [97, 193] = .ok rQ ∧
    newRing 100 16 [257, 353] = .ok rP ∧ rQ.Valid 4 ∧ rQ.Small ∧ rP.Valid 4 ∧ rP.Small ∧
    rQ.subs.length = 2 ∧ rP.subs.length = 2 ∧ rQ.n = 16 ∧ rP.n = 16 ∧
    (rQ.sub 0).q = 97 ∧ (rQ.sub 1).q = 193 ∧ (rP.sub 0).q = 257 ∧ (rP.sub 1).q = 353 ∧
    ∀ i < rQ.subs.length, ∀ j < rP.subs.length, (rQ.sub i).q ≠ (rP.sub j).q := by
  obtain ⟨rQ, a1, a2, a3, a4, a5, a6⟩ := exists_ring
  obtain ⟨rP, b1, b2, b3, b4, b5, b6⟩ := exists_ringP
  refine ⟨rQ, rP, a1, b1, a2, small_of a3 a5 a6 (by decide) (by decide), b2,
    small_of b3 b5 b6 (by decide) (by decide), a3, b3, a4, b4, a5, a6, b5, b6, ?_⟩
  intro i hi j hj
  rcases (by omega : i = 0 ∨ i = 1) with rfl | rfl <;>
    rcases (by omega : j = 0 ∨ j = 1) with rfl | rfl <;> simp only [a5, a6, b5, b6] <;> decide

/-- every integer vector has a reduced RNS representation -/
theorem exists_poly {r : Ring} (hr : r.Valid n) {level : ℕ} (hl : level < r.subs.length)
    (X : ℕ → ℤ) : ∃ p, PolyIs r level r.qs p (r.intVec X) := by
  refine ⟨_, ((setCoefficientsBigintLvl_is (hr.arithLvl hl) (coeffs := (List.range r.n).map X)
    (p1 := newPoly r.n r.subs.length) (by simp) (by rw [length_newPoly]; exact hl) ?_).is).congr ?_⟩
  · intro i hi
    have : i < r.subs.length := by omega
    simp [newPoly, Rows.row, List.getD, this]
  · intro i hi k hk
    simp [Ring.intVec, List.getD, hk]

/-- **C21 is violated**: with moduli `97, 193` and `257, 353` the claim fails at `levelQ = 1`,
`levelP = 0`. -/
theorem C21_violated : ∃ rQ rP : Ring, newRing 100 16 [97, 193] = .ok rQ ∧
    newRing 100 16 [257, 353] = .ok rP ∧ ¬ ModDownToP rQ rP 1 0 := by
  obtain ⟨rQ, rP, e1, e2, hQ, sQ, hP, sP, lQ, lP, nQ, nP, q0, q1, p0, p1, hd⟩ := exists_rings
  refine ⟨rQ, rP, e1, e2, fun hclaim => ?_⟩
  have hprod : rQ.prodQ 1 = 18721 := by rw [prodQ_succ, prodQ_zero, q0, q1]; rfl
  have hprod0 : rQ.prodQ 0 = 97 := by rw [prodQ_zero, q0]; rfl
  obtain ⟨pq, hq⟩ := exists_poly hQ (level := 1) (by omega) (fun _ => 18721 + 9000)
  obtain ⟨pp, hp⟩ := exists_poly hP (level := 0) (by omega) (fun _ => 18721 + 9000)
  obtain ⟨Z, Y, h1, h2⟩ := hclaim pq pp pp _ hq hp hp.lvl
  obtain ⟨Z', h1', y, h2', h3'⟩ := C21_actual_value hQ sQ hP sP hd (levelQ := 1) (levelP := 0)
    (by omega) (by omega) (by omega) (by omega) pq pp pp _ _ hq hp hp.lvl
  obtain ⟨a1, a2, a3⟩ := h1 0 (by omega)
  have hz' : Z' 0 = 9000 := (h1'.near 0 (by omega)).dvd_eq (by
    have hd := hQ.dvd_of_cong (l := 1) (by omega) (a := Z' 0) (b := 18721 + 9000)
      (fun i hi => h1'.cong 0 (by omega) i hi)
    rw [hprod] at hd ⊢
    norm_num at hd ⊢
    omega) (by rw [hprod]; norm_num) (by rw [hprod]; norm_num)
  rw [hprod] at a1 a2 a3
  norm_num at a1 a2 a3
  have hy : Y 0 = 1 := by omega
  have r1 := (h2.is.row 0 le_rfl).val 0 (by omega)
  have r2 := (h2'.is.row 0 le_rfl).val 0 (by omega)
  have r3 := h3' 0 le_rfl 0 (by omega)
  rw [← r2, r1, hz', hprod0] at r3
  simp only [Ring.intVec, hy] at r3
  have hpq : (rP.sub 0).q.toNat = 257 := by rw [p0]; rfl
  have r4 : ((97 : ℤ) : ZMod (rP.sub 0).q.toNat) = ((18721 : ℤ) : ZMod (rP.sub 0).q.toNat) := by
    push_cast at r3 ⊢
    linear_combination r3
  rw [ZMod.intCast_eq_intCast_iff, hpq] at r4
  exact absurd r4 (by decide)

/-- inputs as in C19 and C20 exist, with coefficients in `[0,Q)` -/
example : ∃ rQ rP : Ring, rQ.Valid 4 ∧ rQ.Small ∧ rP.Valid 4 ∧ rP.Small ∧
    ∃ p, PolyIs rQ 1 rQ.qs p (rQ.intVec fun k => 1000 * k) ∧
      ∀ k < rQ.n, (0 : ℤ) ≤ 1000 * k ∧ (1000 * k : ℤ) < rQ.prodQ 1 := by
  obtain ⟨rQ, rP, e1, e2, hQ, sQ, hP, sP, lQ, lP, nQ, nP, q0, q1, p0, p1, hd⟩ := exists_rings
  obtain ⟨p, hp⟩ := exists_poly hQ (level := 1) (by omega) (fun k => 1000 * k)
  have hprod : rQ.prodQ 1 = 18721 := by rw [prodQ_succ, prodQ_zero, q0, q1]; rfl
  exact ⟨rQ, rP, hQ, sQ, hP, sP, p, hp, fun k hk => by rw [hprod]; constructor <;> push_cast <;> omega⟩

end FastKsw.Props
