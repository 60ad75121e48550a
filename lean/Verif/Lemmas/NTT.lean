import Verif.Lemmas.NTTLayer
import Verif.Lemmas.NTTAlg
import Verif.Spec.NegaRing

/-! Helper lemmas: the NTT code computes evaluations. -/

namespace FastKsw

/-- `tab` holds the Montgomery forms of `w 0, ..., w (N-1)`. -/
def TwTable (N : ℕ) (q : UInt64) (tab : Row) (w : ℕ → ZMod q.toNat) : Prop :=
  ∀ k < N, (tab.at k).toNat < q.toNat ∧ ((tab.at k).toNat : ZMod q.toNat) = w k * 2 ^ 64

/-- all coefficients below `A` -/
def BoundedBy (N A : ℕ) (x : Row) : Prop := ∀ k < N, (x.at k).toNat < A

theorem mredConstant_tw {q qInv : UInt64} (hinv : q * qInv = 1) (hq : q.toNat ≤ 2 ^ 63)
    (v psi : UInt64) (W : ZMod q.toNat) (hp : psi.toNat < q.toNat)
    (hW : (psi.toNat : ZMod q.toNat) = W * 2 ^ 64) :
    (mredConstant v psi q qInv).toNat < 2 * q.toNat ∧
    ((mredConstant v psi q qInv).toNat : ZMod q.toNat) = v.toNat * W := by
  have hlt := mul_lt_of_lt_right v hp
  refine ⟨(mredConstant_spec hinv hq v psi hlt).2.1, ?_⟩
  have h := mredConstant_zmod hinv hq v psi hlt
  rw [hW, ← mul_assoc] at h
  exact (two_pow_unit (odd_of_mul_eq_one hinv)).mul_right_cancel h

theorem cast_eq_of_add_mul {q a b c : ℕ} (h : a + b = c) : (a : ZMod q) = (c : ZMod q) - b := by
  rw [← h]; push_cast; ring

theorem toNat_two_mul {q : UInt64} (hq : q.toNat < 2 ^ 63) : (2 * q).toNat = 2 * q.toNat := by
  rw [UInt64.toNat_mul]
  have : (2 : UInt64).toNat = 2 := rfl
  rw [this]; omega

theorem toNat_four_mul {q : UInt64} (hq : q.toNat < 2 ^ 62) : (4 * q).toNat = 4 * q.toNat := by
  rw [UInt64.toNat_mul]
  have : (4 : UInt64).toNat = 4 := rfl
  rw [this]; omega

theorem shl_one_eq (q : UInt64) : q <<< 1 = 2 * q := by
  rw [← UInt64.toNat_inj, UInt64.toNat_shiftLeft, UInt64.toNat_mul]
  have : (2 : UInt64).toNat = 2 := rfl
  have : (1 : UInt64).toNat = 1 := rfl
  simp only [Nat.shiftLeft_eq, *]
  norm_num [mul_comm]

theorem shl_two_eq (q : UInt64) : q <<< 2 = 4 * q := by
  rw [← UInt64.toNat_inj, UInt64.toNat_shiftLeft, UInt64.toNat_mul]
  have : (2 : UInt64).toNat = 2 := rfl
  have : (4 : UInt64).toNat = 4 := rfl
  simp only [Nat.shiftLeft_eq, *]
  norm_num [mul_comm]

/-- value and range of a sum/difference pair -/
theorem addsub_spec {q : UInt64} (u v : UInt64) (hq : q.toNat < 2 ^ 63)
    (hu : u.toNat + 2 * q.toNat < 2 ^ 64) (hv : v.toNat < 2 * q.toNat) :
    (u + v).toNat = u.toNat + v.toNat ∧ (u + 2 * q - v).toNat = u.toNat + 2 * q.toNat - v.toNat := by
  have h2 := toNat_two_mul hq
  constructor
  · rw [UInt64.toNat_add]; omega
  · rw [toNat_sub_of_le']
    · rw [UInt64.toNat_add, h2]; omega
    · rw [UInt64.toNat_add, h2]; omega

theorem butterflyNoRed_spec {q qInv : UInt64} (hinv : q * qInv = 1) (hq : q.toNat < 2 ^ 63)
    (u v psi : UInt64) (W : ZMod q.toNat) (hp : psi.toNat < q.toNat)
    (hW : (psi.toNat : ZMod q.toNat) = W * 2 ^ 64) (hu : u.toNat + 2 * q.toNat < 2 ^ 64) :
    let r := butterflyNoRed u v psi (2 * q) q qInv
    r.1.toNat < u.toNat + 2 * q.toNat ∧ r.2.toNat ≤ u.toNat + 2 * q.toNat ∧
    (r.1.toNat : ZMod q.toNat) = u.toNat + v.toNat * W ∧
    (r.2.toNat : ZMod q.toNat) = u.toNat - v.toNat * W := by
  obtain ⟨hb, hv⟩ := mredConstant_tw hinv hq.le v psi W hp hW
  obtain ⟨h1, h2⟩ := addsub_spec u (mredConstant v psi q qInv) hq hu hb
  refine ⟨?_, ?_, ?_, ?_⟩
  · simp only [butterflyNoRed]; omega
  · simp only [butterflyNoRed]; omega
  · simp only [butterflyNoRed, h1]; push_cast; rw [hv]
  · simp only [butterflyNoRed, h2]
    rw [Nat.cast_sub (by omega), hv]; push_cast; simp

theorem butterfly_eq (u v psi twoQ fourQ q qInv : UInt64) :
    butterfly u v psi twoQ fourQ q qInv =
      butterflyNoRed (if u ≥ fourQ then u - fourQ else u) v psi twoQ q qInv := rfl

theorem condsub_spec {q : UInt64} (hq : q.toNat < 2 ^ 62) (u : UInt64) {B : ℕ}
    (hB : 4 * q.toNat ≤ B) (hu : u.toNat < B + 4 * q.toNat) :
    (if u ≥ 4 * q then u - 4 * q else u).toNat < B ∧
    ((if u ≥ 4 * q then u - 4 * q else u).toNat : ZMod q.toNat) = u.toNat := by
  have h4 := toNat_four_mul hq
  by_cases h : u ≥ 4 * q
  · have h' : 4 * q.toNat ≤ u.toNat := by rw [← h4]; exact h
    rw [if_pos h, toNat_sub_of_le' (by rw [h4]; exact h'), h4]
    refine ⟨by omega, ?_⟩
    rw [Nat.cast_sub h']; push_cast; simp
  · have h' : ¬ 4 * q.toNat ≤ u.toNat := by rw [← h4]; exact h
    rw [if_neg h]
    exact ⟨by omega, rfl⟩

/-- What a forward butterfly must do: map coefficients `< A` to coefficients `< A'`. -/
def FwdOK (q : UInt64) (N : ℕ) (tab : Row) (w : ℕ → ZMod q.toNat) (A A' : ℕ)
    (bf : UInt64 → UInt64 → UInt64 → UInt64 × UInt64) : Prop :=
  ∀ u v k, k < N → u.toNat < A → v.toNat < A →
    (bf u v (tab.at k)).1.toNat < A' ∧ (bf u v (tab.at k)).2.toNat < A' ∧
    ((bf u v (tab.at k)).1.toNat : ZMod q.toNat) = u.toNat + v.toNat * w k ∧
    ((bf u v (tab.at k)).2.toNat : ZMod q.toNat) = u.toNat - v.toNat * w k

theorem fwdOK_noRed {q qInv : UInt64} (hinv : q * qInv = 1) (hq : q.toNat < 2 ^ 63) {N : ℕ}
    {tab : Row} {w : ℕ → ZMod q.toNat} (htab : TwTable N q tab w) {A : ℕ}
    (hA : A + 2 * q.toNat ≤ 2 ^ 64) :
    FwdOK q N tab w A (A + 2 * q.toNat)
      (fun u v psi => butterflyNoRed u v psi (2 * q) q qInv) := by
  intro u v k hk hu hv
  obtain ⟨h1, h2⟩ := htab k hk
  obtain ⟨a, b, c, d⟩ := butterflyNoRed_spec hinv hq u v (tab.at k) (w k) h1 h2 (by omega)
  beta_reduce
  exact ⟨by omega, by omega, c, d⟩

theorem fwdOK_red {q qInv : UInt64} (hinv : q * qInv = 1) (hq : q.toNat < 2 ^ 62) {N : ℕ}
    {tab : Row} {w : ℕ → ZMod q.toNat} (htab : TwTable N q tab w) {B : ℕ}
    (hB : 4 * q.toNat ≤ B) (hB2 : B + 2 * q.toNat ≤ 2 ^ 64) :
    FwdOK q N tab w (B + 4 * q.toNat) (B + 2 * q.toNat)
      (fun u v psi => butterfly u v psi (2 * q) (4 * q) q qInv) := by
  intro u v k hk hu hv
  obtain ⟨h1, h2⟩ := htab k hk
  obtain ⟨e1, e2⟩ := condsub_spec hq u hB hu
  obtain ⟨a, b, c, d⟩ := butterflyNoRed_spec hinv (by omega) (if u ≥ 4 * q then u - 4 * q else u) v
    (tab.at k) (w k) h1 h2 (by omega)
  rw [e2] at c d
  simp only [butterfly_eq]
  exact ⟨by omega, by omega, c, d⟩

theorem FwdOK.mono {q : UInt64} {N : ℕ} {tab : Row} {w : ℕ → ZMod q.toNat} {A A' A2 : ℕ}
    {bf : UInt64 → UInt64 → UInt64 → UInt64 × UInt64} (h : FwdOK q N tab w A A' bf)
    (hA : A2 ≤ A) : FwdOK q N tab w A2 A' bf :=
  fun u v k hk hu hv => h u v k hk (by omega) (by omega)

theorem layer_idx {N m t k : ℕ} (ht : 0 < t) (hN : m * (2 * t) = N) (hk : k < N) :
    m + k / (2 * t) < N ∧ (k % (2 * t) < t → k + t < N) := by
  have h1 : k / (2 * t) < m := by
    rw [Nat.div_lt_iff_lt_mul (by omega)]; omega
  have e1 := Nat.div_add_mod k (2 * t)
  refine ⟨?_, ?_⟩
  · nlinarith
  · intro h
    have : (k / (2 * t) + 1) * (2 * t) ≤ m * (2 * t) := Nat.mul_le_mul_right _ (by omega)
    nlinarith

theorem fwdLayer_spec {q : UInt64} {N : ℕ} {tab : Row} {w : ℕ → ZMod q.toNat} {A A' : ℕ}
    {bf : UInt64 → UInt64 → UInt64 → UInt64 × UInt64} (h : FwdOK q N tab w A A' bf)
    {m t : ℕ} (ht : 0 < t) (hN : m * (2 * t) = N) (x : Row) (hx : x.length = N)
    (hb : BoundedBy N A x) :
    (nttLayer bf tab m t x).length = N ∧ BoundedBy N A' (nttLayer bf tab m t x) ∧
    ∀ k < N, zval q.toNat (nttLayer bf tab m t x) k = fwdVal w m t (zval q.toNat x) k := by
  refine ⟨by rw [nttLayer_length, hx], ?_, ?_⟩
  · intro k hk
    obtain ⟨i1, i2⟩ := layer_idx ht hN hk
    rw [nttLayer_at _ _ _ _ _ ht (by omega), if_pos (by omega), layerVal]
    split
    · exact (h _ _ _ i1 (hb k hk) (hb _ (i2 (by assumption)))).1
    · exact (h _ _ _ i1 (hb (k - t) (by omega)) (hb k hk)).2.1
  · intro k hk
    obtain ⟨i1, i2⟩ := layer_idx ht hN hk
    unfold zval
    rw [nttLayer_at _ _ _ _ _ ht (by omega), if_pos (by omega), layerVal, fwdVal]
    split
    · exact (h _ _ _ i1 (hb k hk) (hb _ (i2 (by assumption)))).2.2.1
    · exact (h _ _ _ i1 (hb (k - t) (by omega)) (hb k hk)).2.2.2

theorem blockEval_congr {q N s i : ℕ} (e : ZMod q) {X Y : ℕ → ZMod q} (hs : s ∣ N) (hi : i < N)
    (h : ∀ k < N, X k = Y k) : blockEval e s X i = blockEval e s Y i := by
  unfold blockEval
  apply Finset.sum_congr rfl
  intro j hj
  have hj' := Finset.mem_range.1 hj
  rw [h]
  obtain ⟨c, rfl⟩ := hs
  have h1 : i / s < c := by
    rw [Nat.div_lt_iff_lt_mul (by omega), mul_comm]; exact hi
  have : (i / s + 1) * s ≤ c * s := Nat.mul_le_mul_right _ (by omega)
  nlinarith

/-- One forward layer preserves all block evaluations. -/
theorem fwdLayer_eval {q : UInt64} {N : ℕ} {tab : Row} {w : ℕ → ZMod q.toNat} (hw : TwLaw N w)
    {A A' : ℕ} {bf : UInt64 → UInt64 → UInt64 → UInt64 × UInt64} (h : FwdOK q N tab w A A' bf)
    {m t b : ℕ} (ht : t = 2 ^ b) (hm : 1 ≤ m) (hN : m * (2 * t) = N) (x : Row) (hx : x.length = N)
    (hb : BoundedBy N A x) :
    (nttLayer bf tab m t x).length = N ∧ BoundedBy N A' (nttLayer bf tab m t x) ∧
    ∀ i < N, blockEval (evalPt N w i) t (zval q.toNat (nttLayer bf tab m t x)) i
      = blockEval (evalPt N w i) (2 * t) (zval q.toNat x) i := by
  have ht0 : 0 < t := by rw [ht]; positivity
  obtain ⟨h1, h2, h3⟩ := fwdLayer_spec h ht0 hN x hx hb
  refine ⟨h1, h2, fun i hi => ?_⟩
  rw [blockEval_congr (N := N) _ ⟨m * 2, by rw [← hN]; ring⟩ hi h3]
  exact blockEval_fwd ht0 _ (evalPt_pow hw ht hN hm hi)

theorem len64_two_pow (a : ℕ) : len64 (2 ^ a) = a + 1 := by
  unfold len64
  rw [if_neg (by positivity), Nat.log2_two_pow]

/-- Main loop of the forward transform: from blocks of size `2^b`, `b ≥ 1`, at
`m = 2^a`. -/
theorem nttLoop_spec {q qInv : UInt64} (hinv : q * qInv = 1) (hq : q.toNat < 2 ^ 62) {N n : ℕ}
    (hNn : N = 2 ^ n)
    {tab : Row} {w : ℕ → ZMod q.toNat} (htab : TwTable N q tab w) (hw : TwLaw N w) {B : ℕ}
    (hB : 4 * q.toNat ≤ B) (hB2 : B + 4 * q.toNat ≤ 2 ^ 64) (fuel : ℕ) :
    ∀ (a b : ℕ) (x : Row), a + b = n → b ≤ fuel → 1 ≤ b → x.length = N →
      BoundedBy N (if a % 2 = 0 then B + 4 * q.toNat else B + 2 * q.toNat) x →
      let y := nttLoop N tab q qInv fuel (2 ^ a) (2 ^ b) x
      y.length = N ∧ BoundedBy N (B + 2 * q.toNat) y ∧
      ∀ i < N, zval q.toNat y i = blockEval (evalPt N w i) (2 ^ b) (zval q.toNat x) i := by
  induction fuel with
  | zero => intro a b x _ h2 h3; omega
  | succ fuel ih =>
    intro a b x hab hbf hb1 hx hbd
    obtain ⟨c, rfl⟩ : ∃ c, b = c + 1 := ⟨b - 1, by omega⟩
    have hN2 : 2 ^ a * (2 * 2 ^ c) = N := by rw [hNn, ← hab]; ring
    have hlt : 2 ^ a < N := by rw [hNn]; exact Nat.pow_lt_pow_right (by omega) (by omega)
    have hhalf : 2 ^ (c + 1) / 2 = 2 ^ c := by rw [pow_succ]; omega
    have hstep : nttLoop N tab q qInv (fuel + 1) (2 ^ a) (2 ^ (c + 1)) x =
        nttLoop N tab q qInv fuel (2 ^ (a + 1)) (2 ^ c)
          (if len64 (2 ^ a) % 2 = 1 ∨ 2 ^ c = 1 then
            nttLayer (fun u v psi => butterfly u v psi (2 * q) (4 * q) q qInv) tab (2 ^ a) (2 ^ c) x
          else
            nttLayer (fun u v psi => butterflyNoRed u v psi (2 * q) q qInv) tab (2 ^ a) (2 ^ c) x) := by
      rw [nttLoop, if_pos hlt]
      simp only [hhalf]
      rw [show 2 * 2 ^ a = 2 ^ (a + 1) by ring]
    -- the layer
    generalize hy : (if len64 (2 ^ a) % 2 = 1 ∨ 2 ^ c = 1 then
            nttLayer (fun u v psi => butterfly u v psi (2 * q) (4 * q) q qInv) tab (2 ^ a) (2 ^ c) x
          else
            nttLayer (fun u v psi => butterflyNoRed u v psi (2 * q) q qInv) tab (2 ^ a) (2 ^ c) x)
        = y at hstep
    have hy3 : y.length = N ∧
        BoundedBy N (if (a + 1) % 2 = 0 ∧ c ≠ 0 then B + 4 * q.toNat else B + 2 * q.toNat) y ∧
        ∀ i < N, blockEval (evalPt N w i) (2 ^ c) (zval q.toNat y) i
          = blockEval (evalPt N w i) (2 * 2 ^ c) (zval q.toNat x) i := by
      rw [len64_two_pow] at hy
      by_cases hc : (a + 1) % 2 = 1 ∨ 2 ^ c = 1
      · rw [if_pos hc] at hy
        have hbd' : BoundedBy N (B + 4 * q.toNat) x := by
          intro k hk
          have := hbd k hk
          split at this <;> omega
        have := fwdLayer_eval hw (fwdOK_red hinv hq htab hB (by omega)) rfl Nat.one_le_two_pow hN2 x
          hx hbd'
        rw [hy] at this
        rw [if_neg]
        · exact this
        · rintro ⟨h1, h2⟩
          rcases hc with hc | hc
          · omega
          · apply h2
            by_contra h3
            have : 2 ^ 1 ≤ 2 ^ c := Nat.pow_le_pow_right (by omega) (by omega)
            omega
      · rw [if_neg hc] at hy
        push Not at hc
        have ha : a % 2 ≠ 0 := by omega
        rw [if_neg ha] at hbd
        have := fwdLayer_eval hw (fwdOK_noRed hinv (by omega) htab (A := B + 2 * q.toNat) (by omega))
          rfl Nat.one_le_two_pow hN2 x hx hbd
        rw [hy] at this
        rw [if_pos ⟨by omega, fun h0 => hc.2 (by rw [h0]; rfl)⟩]
        rw [show B + 4 * q.toNat = B + 2 * q.toNat + 2 * q.toNat by ring]
        exact this
    obtain ⟨y1, y2, y3⟩ := hy3
    rw [hstep]
    rcases Nat.eq_zero_or_pos c with hc0 | hc0
    · subst hc0
      rw [if_neg (by simp)] at y2
      have hend : nttLoop N tab q qInv fuel (2 ^ (a + 1)) (2 ^ 0) y = y := by
        have : ¬ 2 ^ (a + 1) < N := by rw [hNn, ← hab]; simp
        cases fuel with
        | zero => rfl
        | succ f => rw [nttLoop, if_neg this]
      rw [hend]
      refine ⟨y1, y2, fun i hi => ?_⟩
      have := y3 i hi
      rw [pow_zero, blockEval_one] at this
      rw [this]; rfl
    · have y2' : BoundedBy N (if (a + 1) % 2 = 0 then B + 4 * q.toNat else B + 2 * q.toNat) y := by
        have e : ((a + 1) % 2 = 0 ∧ c ≠ 0) ↔ (a + 1) % 2 = 0 := by
          constructor
          · exact fun h => h.1
          · exact fun h => ⟨h, by omega⟩
        simpa only [e] using y2
      have := ih (a + 1) c y (by omega) (by omega) hc0 y1 y2'
      obtain ⟨z1, z2, z3⟩ := this
      refine ⟨z1, z2, fun i hi => ?_⟩
      rw [z3 i hi, y3 i hi, show 2 * 2 ^ c = 2 ^ (c + 1) by ring]

/-- `NTTLazy`: for coefficients bounded by `B`, every output coefficient is the
evaluation of the input polynomial and stays below `max B 4q + 2q`. -/
theorem nttLazy_spec {q qInv : UInt64} (hinv : q * qInv = 1) (hq : q.toNat < 2 ^ 62) {N n : ℕ}
    (hNn : N = 2 ^ n) (hn : 2 ≤ n)
    {tab : Row} {w : ℕ → ZMod q.toNat} (htab : TwTable N q tab w) (hw : TwLaw N w) {B : ℕ}
    (hB : 4 * q.toNat ≤ B) (hB2 : B + 4 * q.toNat ≤ 2 ^ 64) (x : Row) (hx : x.length = N)
    (hb : BoundedBy N B x) :
    (nttLazy x N tab q qInv).length = N ∧
    BoundedBy N (B + 2 * q.toNat) (nttLazy x N tab q qInv) ∧
    ∀ i < N, zval q.toNat (nttLazy x N tab q qInv) i
      = ∑ j ∈ Finset.range N, zval q.toNat x j * evalPt N w i ^ j := by
  obtain ⟨c, rfl⟩ : ∃ c, n = c + 1 := ⟨n - 1, by omega⟩
  have hhalf : N / 2 = 2 ^ c := by rw [hNn, pow_succ]; omega
  have hN2 : 1 * (2 * 2 ^ c) = N := by rw [hNn]; ring
  obtain ⟨y1, y2, y3⟩ := fwdLayer_eval hw (fwdOK_noRed hinv (by omega) htab (A := B) (by omega))
    rfl le_rfl hN2 x hx hb
  have hcN : c ≤ N := by
    rw [hNn]
    exact le_trans (by omega) (Nat.lt_two_pow_self (n := c + 1)).le
  obtain ⟨z1, z2, z3⟩ := nttLoop_spec hinv hq hNn htab hw hB hB2 N 1 c _ (by omega) hcN (by omega)
    y1 (by rw [if_neg (by omega)]; exact y2)
  unfold nttLazy
  simp only [hhalf]
  rw [show (2 : ℕ) ^ 1 = 2 from rfl] at z1 z2 z3
  refine ⟨z1, z2, fun i hi => ?_⟩
  rw [z3 i hi, y3 i hi, show 2 * 2 ^ c = N by omega, blockEval_full _ _ _ hi]

/-! ### Inverse transform -/

theorem invbutterfly_spec {q qInv : UInt64} (hinv : q * qInv = 1) (hq : q.toNat < 2 ^ 61)
    (u v psi : UInt64) (W : ZMod q.toNat) (hp : psi.toNat < q.toNat)
    (hW : (psi.toNat : ZMod q.toNat) = W * 2 ^ 64) (hu : u.toNat < 2 * q.toNat)
    (hv : v.toNat < 2 * q.toNat) :
    let r := invbutterfly u v psi (q <<< 1) (q <<< 2) q qInv
    r.1.toNat < 2 * q.toNat ∧ r.2.toNat < 2 * q.toNat ∧
    (r.1.toNat : ZMod q.toNat) = u.toNat + v.toNat ∧
    (r.2.toNat : ZMod q.toNat) = (u.toNat - v.toNat) * W := by
  have h2 := toNat_two_mul (q := q) (by omega)
  have h4 := toNat_four_mul (q := q) (by omega)
  have hs : (u + v).toNat = u.toNat + v.toNat := by rw [UInt64.toNat_add]; omega
  have hd : (u + 4 * q - v).toNat = u.toNat + 4 * q.toNat - v.toNat := by
    have : (u + 4 * q).toNat = u.toNat + 4 * q.toNat := by rw [UInt64.toNat_add, h4]; omega
    rw [toNat_sub_of_le' (by omega), this]
  obtain ⟨hb, hy⟩ := mredConstant_tw hinv (by omega) (u + 4 * q - v) psi W hp hW
  rw [hd, Nat.cast_sub (by omega)] at hy
  simp only [invbutterfly, shl_one_eq, shl_two_eq]
  refine ⟨?_, hb, ?_, ?_⟩
  · by_cases h : u + v ≥ 2 * q
    · have h' : 2 * q.toNat ≤ (u + v).toNat := by rw [← h2]; exact h
      rw [if_pos h, toNat_sub_of_le' (by omega)]; omega
    · have h' : ¬ 2 * q.toNat ≤ (u + v).toNat := by rw [← h2]; exact h
      rw [if_neg h]; omega
  · by_cases h : u + v ≥ 2 * q
    · have h' : 2 * q.toNat ≤ (u + v).toNat := by rw [← h2]; exact h
      rw [if_pos h, toNat_sub_of_le' (by omega), h2, hs, Nat.cast_sub (by omega)]
      push_cast; simp
    · rw [if_neg h, hs]; push_cast; rfl
  · rw [hy]; push_cast; simp

/-- One inverse layer doubles all block evaluations. -/
theorem invLayer_eval {q qInv : UInt64} (hinv : q * qInv = 1) (hq : q.toNat < 2 ^ 61) {N : ℕ}
    {tab : Row} {w w' : ℕ → ZMod q.toNat} (htab : TwTable N q tab w') (hw : TwLaw N w)
    (hww : ∀ k < N, w k * w' k = 1)
    {m t b : ℕ} (ht : t = 2 ^ b) (hm : 1 ≤ m) (hN : m * (2 * t) = N) (x : Row) (hx : x.length = N)
    (hb : BoundedBy N (2 * q.toNat) x) :
    let y := nttLayer (fun u v psi => invbutterfly u v psi (q <<< 1) (q <<< 2) q qInv) tab m t x
    y.length = N ∧ BoundedBy N (2 * q.toNat) y ∧
    ∀ i < N, blockEval (evalPt N w i) (2 * t) (zval q.toNat y) i
      = 2 * blockEval (evalPt N w i) t (zval q.toNat x) i := by
  have ht0 : 0 < t := by rw [ht]; positivity
  intro y
  have hval : ∀ k < N, (y.at k).toNat < 2 * q.toNat ∧
      zval q.toNat y k = invVal w' m t (zval q.toNat x) k := by
    intro k hk
    obtain ⟨i1, i2⟩ := layer_idx ht0 hN hk
    obtain ⟨p1, p2⟩ := htab _ i1
    have hyk : y.at k = _ := nttLayer_at _ tab m t x ht0 (by omega) k
    unfold zval
    rw [hyk, if_pos (by omega), layerVal, invVal]
    split
    · have := invbutterfly_spec hinv hq (x.at k) (x.at (k + t)) _ _ p1 p2 (hb k hk)
        (hb _ (i2 (by assumption)))
      exact ⟨this.1, this.2.2.1⟩
    · have := invbutterfly_spec hinv hq (x.at (k - t)) (x.at k) _ _ p1 p2 (hb (k - t) (by omega))
        (hb k hk)
      exact ⟨this.2.1, this.2.2.2⟩
  refine ⟨by rw [nttLayer_length, hx], fun k hk => (hval k hk).1, fun i hi => ?_⟩
  rw [blockEval_congr (N := N) _ ⟨m, by rw [← hN]; ring⟩ hi (fun k hk => (hval k hk).2)]
  exact blockEval_inv ht0 _ (hww _ (layer_idx ht0 hN hi).1) (evalPt_pow hw ht hN hm hi)

theorem invNttLoop_spec {q qInv : UInt64} (hinv : q * qInv = 1) (hq : q.toNat < 2 ^ 61) {N n : ℕ}
    (hNn : N = 2 ^ n)
    {tab : Row} {w w' : ℕ → ZMod q.toNat} (htab : TwTable N q tab w') (hw : TwLaw N w)
    (hww : ∀ k < N, w k * w' k = 1) (fuel : ℕ) :
    ∀ (a b : ℕ) (x : Row), a + b = n → a ≤ fuel → x.length = N →
      BoundedBy N (2 * q.toNat) x →
      let y := invNttLoop tab q qInv fuel (2 ^ a) (2 ^ b) x
      y.length = N ∧ BoundedBy N (2 * q.toNat) y ∧
      ∀ i < N, blockEval (evalPt N w i) N (zval q.toNat y) i
        = 2 ^ a * blockEval (evalPt N w i) (2 ^ b) (zval q.toNat x) i := by
  induction fuel with
  | zero =>
    intro a b x hab ha hx hb
    have : a = 0 := by omega
    subst this
    refine ⟨hx, hb, fun i hi => ?_⟩
    rw [show b = n by omega, ← hNn]; simp [invNttLoop]
  | succ fuel ih =>
    intro a b x hab ha hx hb
    rcases Nat.eq_zero_or_pos a with h0 | h0
    · subst h0
      have : invNttLoop tab q qInv (fuel + 1) (2 ^ 0) (2 ^ b) x = x := by
        rw [invNttLoop, if_neg (by simp)]
      rw [this]
      refine ⟨hx, hb, fun i hi => ?_⟩
      rw [show b = n by omega, ← hNn]; simp
    · obtain ⟨c, rfl⟩ : ∃ c, a = c + 1 := ⟨a - 1, by omega⟩
      have hhalf : 2 ^ (c + 1) / 2 = 2 ^ c := by rw [pow_succ]; omega
      have hgt : 2 ^ (c + 1) > 1 := Nat.one_lt_two_pow (by omega)
      have hN2 : 2 ^ c * (2 * 2 ^ b) = N := by rw [hNn, ← hab]; ring
      obtain ⟨y1, y2, y3⟩ := invLayer_eval hinv hq htab hw hww rfl Nat.one_le_two_pow hN2 x hx hb
      obtain ⟨z1, z2, z3⟩ := ih c (b + 1) _ (by omega) (by omega) y1 y2
      rw [invNttLoop, if_pos hgt]
      simp only [hhalf]
      rw [show 2 * 2 ^ b = 2 ^ (b + 1) by ring]
      refine ⟨z1, z2, fun i hi => ?_⟩
      rw [z3 i hi, show 2 ^ (b + 1) = 2 * 2 ^ b by ring, y3 i hi]
      ring

/-- `invNTTCore` on coefficients `< 2q`: the output polynomial evaluates to `N`
times the input values. -/
theorem invNttCore_spec {q qInv : UInt64} (hinv : q * qInv = 1) (hq : q.toNat < 2 ^ 61) {N n : ℕ}
    (hNn : N = 2 ^ n) (hn : 1 ≤ n)
    {tab : Row} {w w' : ℕ → ZMod q.toNat} (htab : TwTable N q tab w') (hw : TwLaw N w)
    (hww : ∀ k < N, w k * w' k = 1) (x : Row) (hx : x.length = N)
    (hb : BoundedBy N (2 * q.toNat) x) :
    (invNttCore x N tab q qInv).length = N ∧
    BoundedBy N (2 * q.toNat) (invNttCore x N tab q qInv) ∧
    ∀ i < N, ∑ j ∈ Finset.range N, zval q.toNat (invNttCore x N tab q qInv) j * evalPt N w i ^ j
      = N * zval q.toNat x i := by
  obtain ⟨c, rfl⟩ : ∃ c, n = c + 1 := ⟨n - 1, by omega⟩
  have hhalf : N / 2 = 2 ^ c := by rw [hNn, pow_succ]; omega
  have hN2 : 2 ^ c * (2 * 1) = N := by rw [hNn]; ring
  obtain ⟨y1, y2, y3⟩ := invLayer_eval hinv hq htab hw hww (t := 1) (b := 0) rfl Nat.one_le_two_pow hN2 x hx hb
  have hcN : c ≤ N := by
    rw [hNn]
    exact le_trans (by omega) (Nat.lt_two_pow_self (n := c + 1)).le
  obtain ⟨z1, z2, z3⟩ := invNttLoop_spec hinv hq hNn htab hw hww N c 1 _ (by omega) hcN y1 y2
  unfold invNttCore
  simp only [hhalf]
  rw [show (2 : ℕ) ^ 1 = 2 from rfl] at z1 z2 z3
  refine ⟨z1, z2, fun i hi => ?_⟩
  have := z3 i hi
  rw [blockEval_full _ _ _ hi] at this
  rw [this, show 2 = 2 * 1 from rfl, y3 i hi, blockEval_one]
  rw [hNn]; push_cast; ring

end FastKsw
