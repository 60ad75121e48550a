import Verif.Lemmas.ModUpPoly

/-!
# Division by the second modulus
-/

namespace FastKsw

open Finset

/-- no modulus of `rQ` is a modulus of `rP` -/
def Ring.Disjoint (rQ rP : Ring) : Prop :=
  ∀ i < rQ.subs.length, ∀ j < rP.subs.length, (rQ.sub i).q ≠ (rP.sub j).q

theorem Ring.Disjoint.symm {rQ rP : Ring} (h : rQ.Disjoint rP) : rP.Disjoint rQ :=
  fun j hj i hi he => h i hi j hj he.symm

theorem prodQ_succ (r : Ring) (l : ℕ) : r.prodQ (l + 1) = r.prodQ l * (r.sub (l + 1)).q.toNat := by
  unfold Ring.prodQ
  rw [Finset.prod_range_succ]

theorem prodQ_zero (r : Ring) : r.prodQ 0 = (r.sub 0).q.toNat := by
  simp [Ring.prodQ]

theorem modExp_inv {s : SubRing} {n : ℕ} (V : s.Valid n) {p : UInt64} (hp : p.toNat.Prime)
    (hne : s.q ≠ p) :
    ((modExp p (s.q - 2) s.q).toNat : ZMod s.q.toNat) * p.toNat = 1 := by
  have := V.fact
  have h2 := V.prime.two_le
  rw [modExp_toNat V.prime.one_lt V.lt.le, ZMod.natCast_mod, Nat.cast_pow, ← pow_succ,
    UInt64.toNat_sub_of_le s.q 2 (UInt64.le_iff_toNat_le.2 h2)]
  show (p.toNat : ZMod s.q.toNat) ^ (s.q.toNat - 2 + 1) = 1
  rw [show s.q.toNat - 2 + 1 = s.q.toNat - 1 by omega]
  apply ZMod.pow_card_sub_one_eq_one
  intro h0
  rw [ZMod.natCast_eq_zero_iff] at h0
  rcases (Nat.dvd_prime hp).1 h0 with h | h
  · omega
  · exact hne (UInt64.toNat_inj.1 h)

theorem modDownParam_spec {n : ℕ} {rQ rP : Ring} (hQ : rQ.Valid n) (hP : rP.Valid n)
    (hd : rQ.Disjoint rP) {i : ℕ} (hi : i < rQ.subs.length) {j : ℕ} (hj : j < rP.subs.length) :
    (modDownParam rQ rP i j).toNat < (rQ.sub i).q.toNat ∧
    ((modDownParam rQ rP i j).toNat : ZMod (rQ.sub i).q.toNat) * rP.prodQ j = 2 ^ 64 := by
  have V := hQ.subAt hi
  induction j with
  | zero =>
    unfold modDownParam
    have h1 := word_mform V.arith (modExp (rP.sub 0).q ((rQ.sub i).q - 2) (rQ.sub i).q)
    have h2 := modExp_inv V (hP.subAt hj).prime (hd i hi 0 hj)
    refine ⟨h1.1, ?_⟩
    rw [h1.2, prodQ_zero, mul_right_comm, h2, one_mul]
  | succ j ih =>
    obtain ⟨i1, i2⟩ := ih (by omega)
    unfold modDownParam
    have h1 := word_mform V.arith (modExp (rP.sub (j + 1)).q ((rQ.sub i).q - 2) (rQ.sub i).q)
    have h2 := modExp_inv V (hP.subAt hj).prime (hd i hi (j + 1) hj)
    have h3 := word_mred V.arith
      (mform (modExp (rP.sub (j + 1)).q ((rQ.sub i).q - 2) (rQ.sub i).q) (rQ.sub i).q (rQ.sub i).bred)
      (modDownParam rQ rP i j) (mul_lt_of_lt_right _ i1)
    refine ⟨h3.1, ?_⟩
    rw [h3.2, h1.2, prodQ_succ, Nat.cast_mul]
    calc _ = ((modExp (rP.sub (j + 1)).q ((rQ.sub i).q - 2) (rQ.sub i).q).toNat
              * (rP.sub (j + 1)).q.toNat : ZMod (rQ.sub i).q.toNat)
            * ((modDownParam rQ rP i j).toNat * rP.prodQ j)
            * (2 ^ 64 * rinv (rQ.sub i).q.toNat) := by ring
      _ = _ := by rw [h2, i2, mul_rinv V.odd, one_mul, mul_one]

theorem row_at_genModDown {rQ rP : Ring} {i j : ℕ} (hi : i < rQ.subs.length)
    (hj : j < rP.subs.length) : ((genModDownParams rQ rP).row j).at i = modDownParam rQ rP i j := by
  simp [genModDownParams, Rows.row, Row.at, List.getD, hi, hj]

/-- the negated constant of `ModDown` -/
theorem modDown_const {n : ℕ} {rQ rP : Ring} (hQ : rQ.Valid n) (hP : rP.Valid n)
    (hd : rQ.Disjoint rP) {i : ℕ} (hi : i < rQ.subs.length) {j : ℕ} (hj : j < rP.subs.length) :
    ((rQ.sub i).q - ((genModDownParams rQ rP).row j).at i).toNat < (rQ.sub i).q.toNat ∧
    (((rQ.sub i).q - ((genModDownParams rQ rP).row j).at i).toNat : ZMod (rQ.sub i).q.toNat)
      * rinv (rQ.sub i).q.toNat * rP.prodQ j = -1 := by
  have V := hQ.subAt hi
  obtain ⟨h1, h2⟩ := modDownParam_spec hQ hP hd hi hj
  rw [row_at_genModDown hi hj, UInt64.toNat_sub_of_le _ _ (UInt64.le_iff_toNat_le.2 h1.le)]
  constructor
  · have : (modDownParam rQ rP i j).toNat ≠ 0 := by
      intro h0
      rw [h0, Nat.cast_zero, zero_mul] at h2
      exact two_pow_ne_zero V 64 h2.symm
    omega
  · rw [Nat.cast_sub h1.le, ZMod.natCast_self, zero_sub]
    calc _ = -(((modDownParam rQ rP i j).toNat * rP.prodQ j : ZMod (rQ.sub i).q.toNat)
            * rinv (rQ.sub i).q.toNat) := by ring
      _ = _ := by rw [h2, mul_rinv V.odd]

theorem exists_quot {n : ℕ} {rP : Ring} (hP : rP.Valid n) {levelP : ℕ}
    (lP : levelP < rP.subs.length) {X Z : ℕ → ℤ} (hZ : ExtInt rP levelP (rP.intVec X) Z) :
    ∃ Y : ℕ → ℤ, ∀ k < rP.n, (rP.prodQ levelP : ℤ) * Y k = X k - Z k := by
  have key : ∀ k, ∃ y : ℤ, k < rP.n → (rP.prodQ levelP : ℤ) * y = X k - Z k := by
    intro k
    by_cases hk : k < rP.n
    · obtain ⟨y, hy⟩ := hP.dvd_of_cong lP (a := X k) (b := Z k)
        (fun i hi => ((hZ.cong k hk i hi).trans rfl).symm)
      exact ⟨y, fun _ => hy.symm⟩
    · exact ⟨0, fun h => absurd h hk⟩
  choose Y hY using key
  exact ⟨Y, hY⟩

theorem length_newPoly (N m : ℕ) : (newPoly N m).length = m := by simp [newPoly]

/-- the word-level core: `(z - x) * (q - c)` in Montgomery form is `(x - z)/P` -/
theorem modDown_val {n : ℕ} {rQ rP : Ring} (hQ : rQ.Valid n) (hP : rP.Valid n)
    (hd : rQ.Disjoint rP) {i : ℕ} (hi : i < rQ.subs.length) {j : ℕ} (hj : j < rP.subs.length)
    {x y z : ZMod (rQ.sub i).q.toNat} (h : (rP.prodQ j : ZMod (rQ.sub i).q.toNat) * y = x - z) :
    (z - x) * (((rQ.sub i).q - ((genModDownParams rQ rP).row j).at i).toNat
      : ZMod (rQ.sub i).q.toNat) * rinv (rQ.sub i).q.toNat = y := by
  have h2 := (modDown_const hQ hP hd hi hj).2
  rw [← neg_sub, ← h]
  calc _ = -((((rQ.sub i).q - ((genModDownParams rQ rP).row j).at i).toNat
      : ZMod (rQ.sub i).q.toNat) * rinv (rQ.sub i).q.toNat * rP.prodQ j) * y := by ring
    _ = _ := by rw [h2, neg_neg, one_mul]

theorem intVec_quot {r : Ring} {M : ℕ} {X Y Z : ℕ → ℤ} {k : ℕ} (i : ℕ)
    (h : (M : ℤ) * Y k = X k - Z k) :
    (M : ZMod (r.sub i).q.toNat) * r.intVec Y i k = r.intVec X i k - r.intVec Z i k := by
  have := congrArg (fun t : ℤ => (t : ZMod (r.sub i).q.toNat)) h
  simpa [Ring.intVec] using this

theorem modDownQPtoQ_is {n : ℕ} {rQ rP : Ring} (hQ : rQ.Valid n) (sQ : rQ.Small) (hP : rP.Valid n)
    (sP : rP.Small) (hd : rQ.Disjoint rP) {levelQ levelP : ℕ} (lQ : levelQ < rQ.subs.length)
    (lP : levelP < rP.subs.length) (l32 : levelP < 32)
    {p1Q p1P p2Q : Rows} {A : ℕ → ℕ} {X : ℕ → ℤ}
    (hq : PolyIs rQ levelQ (fun i => 2 * rQ.qs i + 1) p1Q (rQ.intVec X))
    (hp : PolyIs rP levelP A p1P (rP.intVec X)) (h2 : levelQ < p2Q.length) :
    ∃ Z Y : ℕ → ℤ, ExtInt rP levelP (rP.intVec X) Z ∧
      (∀ k < rQ.n, (rP.prodQ levelP : ℤ) * Y k = X k - Z k) ∧
      PolyWritten rQ levelQ rQ.qs p2Q
        ((newBasisExtender rQ rP).modDownQPtoQ levelQ levelP p1Q p1P p2Q) (rQ.intVec Y) := by
  obtain ⟨Z, hZ, hup⟩ := modUpPtoQ_is hQ sQ hP sP lP l32 hp
  obtain ⟨Y, hY⟩ := exists_quot hP lP hZ
  have hN : rQ.n = rP.n := by rw [hQ.deg, hP.deg]
  refine ⟨Z, Y, hZ, fun k hk => hY k (hN ▸ hk), writeLvl_is h2 (fun i hi => ?_)⟩
  have hup' := (hup levelQ lQ (newPoly rQ.n rQ.subs.length) (by rw [length_newPoly]; exact lQ)).is
  have V := hQ.subAt (show i < rQ.subs.length by omega)
  have hc := modDown_const hQ hP hd (show i < rQ.subs.length by omega) lP
  have hlt := sQ _ (Ring.sub_mem (show i < rQ.subs.length by omega))
  refine (subVecAndMulScalarMontgomeryTwoQiVec_is V.arith (hup'.row i hi) (hq.row i hi) ?_ _
    hc.1).congr (fun k hk => ?_)
  · have : ((levelP + 8) / 8 + 2) * (rQ.sub i).q.toNat ≤ 6 * (rQ.sub i).q.toNat :=
      Nat.mul_le_mul_right _ (by omega)
    show ((levelP + 8) / 8 + 2) * (rQ.sub i).q.toNat + _ ≤ _
    omega
  · exact modDown_val hQ hP hd (show i < rQ.subs.length by omega) lP
      (intVec_quot i (hY k (hN ▸ hk)))

/-- evaluations of an integer vector, modulus by modulus -/
noncomputable def Ring.nttVec (r : Ring) (n : ℕ) (x : ℕ → ℤ) : ∀ i, ℕ → ZMod (r.sub i).q.toNat :=
  fun i => evals (r.sub i).psi n (r.intVec x i)

theorem evals_sub {q : ℕ} (psi : ZMod q) (n : ℕ) (a b : ℕ → ZMod q) (i : ℕ) :
    evals psi n (fun k => a k - b k) i = evals psi n a i - evals psi n b i := by
  simp only [evals, sub_mul, Finset.sum_sub_distrib]

theorem evals_smul {q : ℕ} (psi : ZMod q) (n : ℕ) (c : ZMod q) (a : ℕ → ZMod q) (i : ℕ) :
    evals psi n (fun k => c * a k) i = c * evals psi n a i := by
  simp only [evals, Finset.mul_sum, mul_assoc]

theorem evals_congr {q : ℕ} (psi : ZMod q) (n : ℕ) {a b : ℕ → ZMod q}
    (h : ∀ k < 2 ^ n, a k = b k) (i : ℕ) : evals psi n a i = evals psi n b i := by
  unfold evals
  exact Finset.sum_congr rfl (fun k hk => by rw [h k (mem_range.1 hk)])

theorem nttVec_quot {r : Ring} {n M : ℕ} {X Y Z : ℕ → ℤ} (i : ℕ)
    (h : ∀ k < 2 ^ n, (M : ℤ) * Y k = X k - Z k) (k : ℕ) :
    (M : ZMod (r.sub i).q.toNat) * r.nttVec n Y i k = r.nttVec n X i k - r.nttVec n Z i k := by
  unfold Ring.nttVec
  rw [← evals_smul, ← evals_sub]
  exact evals_congr _ _ (fun k hk => intVec_quot i (h k hk)) k

theorem modDownQPtoQNTT_is {n : ℕ} {rQ rP : Ring} (hQ : rQ.Valid n) (sQ : rQ.Small)
    (hP : rP.Valid n) (sP : rP.Small) (hd : rQ.Disjoint rP) {levelQ levelP : ℕ}
    (lQ : levelQ < rQ.subs.length) (lP : levelP < rP.subs.length) (l32 : levelP < 32)
    (hov : ∀ i ≤ levelQ, ((levelP + 8) / 8 + 6) * rQ.qs i ≤ 2 ^ 64)
    {p1Q p1P p2Q : Rows} {X : ℕ → ℤ}
    (hq : PolyIs rQ levelQ (fun i => 2 * rQ.qs i + 1) p1Q (rQ.nttVec n X))
    (hp : PolyIs rP levelP (fun i => 2 * rP.qs i) p1P (rP.nttVec n X)) (h2 : levelQ < p2Q.length) :
    ∃ Z Y : ℕ → ℤ, ExtInt rP levelP (rP.intVec X) Z ∧
      (∀ k < rQ.n, (rP.prodQ levelP : ℤ) * Y k = X k - Z k) ∧
      PolyWritten rQ levelQ rQ.qs p2Q
        ((newBasisExtender rQ rP).modDownQPtoQNTT levelQ levelP p1Q p1P p2Q) (rQ.nttVec n Y) := by
  have hN : rQ.n = rP.n := by rw [hQ.deg, hP.deg]
  have h4 := hQ.four_le
  have hinv : PolyIs rP levelP (fun i => 2 * rP.qs i)
      (rP.invNttLazyLvl levelP p1P (newPoly rP.n rP.subs.length)) (rP.intVec X) := by
    refine (writeLvl_is (by rw [length_newPoly]; exact lP) (fun i hi => ?_)).is
    have V := hP.subAt (show i < rP.subs.length by omega)
    have h := hp.row i hi
    rw [hP.deg] at h ⊢
    exact (invNttLazy_is V (by omega) (sP _ (Ring.sub_mem (by omega))) h).congr
      (coeffsOf_evals V (by omega) _)
  obtain ⟨Z, hZ, hup⟩ := modUpPtoQ_is hQ sQ hP sP lP l32 hinv
  obtain ⟨Y, hY⟩ := exists_quot hP lP hZ
  refine ⟨Z, Y, hZ, fun k hk => hY k (hN ▸ hk), writeLvl_is h2 (fun i hi => ?_)⟩
  have hw := hup levelQ lQ (newPoly rQ.n rQ.subs.length) (by rw [length_newPoly]; exact lQ)
  set W := (newBasisExtender rQ rP).modUpPtoQ levelP levelQ
    (rP.invNttLazyLvl levelP p1P (newPoly rP.n rP.subs.length)) (newPoly rQ.n rQ.subs.length) with hW
  have hup' := hw.is.row i hi
  have V := hQ.subAt (show i < rQ.subs.length by omega)
  have hc := modDown_const hQ hP hd (show i < rQ.subs.length by omega) lP
  have hlt := sQ _ (Ring.sub_mem (show i < rQ.subs.length by omega))
  have hov' := hov i hi
  have hb : ∃ B, ((levelP + 8) / 8 + 2) * rQ.qs i ≤ B ∧ 4 * rQ.qs i ≤ B ∧
      B + 4 * rQ.qs i ≤ 2 ^ 64 := by
    rw [add_mul] at hov' ⊢
    by_cases hle : 4 * rQ.qs i ≤ (levelP + 8) / 8 * rQ.qs i + 2 * rQ.qs i
    · exact ⟨_, le_rfl, hle, by omega⟩
    · exact ⟨4 * rQ.qs i, by omega, le_rfl, by unfold Ring.qs; omega⟩
  obtain ⟨B, b1, b2, b3⟩ := hb
  have hq' := hq.row i hi
  rw [hQ.deg] at hup' hq' ⊢
  have hntt := nttLazy_is V (by omega) hlt b2 b3 (hup'.mono b1)
  refine (subVecAndMulScalarMontgomeryTwoQiVec_is V.arith (A := B + 2 * rQ.qs i)
    (v := rQ.nttVec n Z i) ?_ hq' ?_ _ hc.1).congr (fun k hk => ?_)
  · have e : Rows.row (rQ.nttLazyLvl levelQ W W) i = (rQ.sub i).nttLazy (2 ^ n) (W.row i) := by
      unfold Ring.nttLazyLvl
      rw [row_writeLvl hi hw.is.lvl, hQ.deg]
    have hr : RowIs (2 ^ n) (rQ.sub i).q.toNat (B + 2 * rQ.qs i)
        (Rows.row (rQ.nttLazyLvl levelQ W W) i) (rQ.nttVec n Z i) := by
      rw [e]; exact hntt
    exact hr
  · unfold Ring.qs at b3 ⊢
    omega
  · exact modDown_val hQ hP hd (show i < rQ.subs.length by omega) lP
      (nttVec_quot i (fun k hk => hY k (by rw [hP.deg]; exact hk)) k)

/-- `ModDownQPtoP` is right when the constants it picks are those of `levelQ` -/
theorem modDownQPtoP_is {n : ℕ} {rQ rP : Ring} (hQ : rQ.Valid n) (sQ : rQ.Small) (hP : rP.Valid n)
    (sP : rP.Small) (hd : rQ.Disjoint rP) {level : ℕ} (lQ : level < rQ.subs.length)
    (lP : level < rP.subs.length) (l32 : level < 32)
    {p1Q p1P p2P : Rows} {A : ℕ → ℕ} {X : ℕ → ℤ}
    (hq : PolyIs rQ level A p1Q (rQ.intVec X))
    (hp : PolyIs rP level (fun i => 2 * rP.qs i + 1) p1P (rP.intVec X)) (h2 : level < p2P.length) :
    ∃ Z Y : ℕ → ℤ, ExtInt rQ level (rQ.intVec X) Z ∧
      (∀ k < rP.n, (rQ.prodQ level : ℤ) * Y k = X k - Z k) ∧
      PolyWritten rP level rP.qs p2P
        ((newBasisExtender rQ rP).modDownQPtoP level level p1Q p1P p2P) (rP.intVec Y) := by
  obtain ⟨Z, hZ, hup⟩ := modUpQtoP_is hQ sQ hP sP lQ l32 hq
  obtain ⟨Y, hY⟩ := exists_quot hQ lQ hZ
  have hN : rQ.n = rP.n := by rw [hQ.deg, hP.deg]
  refine ⟨Z, Y, hZ, fun k hk => hY k (hN ▸ hk), writeLvl_is h2 (fun i hi => ?_)⟩
  have hup' := (hup level lP (newPoly rP.n rP.subs.length) (by rw [length_newPoly]; exact lP)).is
  have V := hP.subAt (show i < rP.subs.length by omega)
  have hc := modDown_const hP hQ hd.symm (show i < rP.subs.length by omega) lQ
  have hlt := sP _ (Ring.sub_mem (show i < rP.subs.length by omega))
  refine (subVecAndMulScalarMontgomeryTwoQiVec_is V.arith (hup'.row i hi) (hp.row i hi) ?_ _
    hc.1).congr (fun k hk => ?_)
  · have : ((level + 8) / 8 + 2) * (rP.sub i).q.toNat ≤ 6 * (rP.sub i).q.toNat :=
      Nat.mul_le_mul_right _ (by omega)
    show ((level + 8) / 8 + 2) * (rP.sub i).q.toNat + _ ≤ _
    omega
  · exact modDown_val hP hQ hd.symm (show i < rP.subs.length by omega) lQ
      (intVec_quot i (hY k (hN ▸ hk)))

end FastKsw
