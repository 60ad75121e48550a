import Verif.Model.ConjInv
import Verif.Lemmas.Sparse

/-!
# The transform of the conjugate-invariant ring
-/

namespace FastKsw

open Finset

/-- coefficients `0 … 2N-1` of `a₀ + Σ aⱼ(X^j + X^-j)`, where `X^-j = -X^(2N-j)` -/
def symm {R : Type*} [Zero R] [Neg R] (N : ℕ) (v : ℕ → R) (j : ℕ) : R :=
  if j < N then v j else if j = N then 0 else - v (2 * N - j)

theorem nttLayerUp_at (bf) (tab : Row) (m h t : ℕ) (x : Row) (ht : 0 < t) (hl : h * (2 * t) ≤ x.length)
    (k : ℕ) : (nttLayerUp bf tab m h t t x).at k =
      if k < h * (2 * t) then layerVal bf tab m t x k else x.at k :=
  outerLoop_at bf tab m t h x ht hl k

theorem ci_idx {N h t k : ℕ} (ht : 0 < t) (hN : h * (2 * t) = N) (hk : k < N) :
    2 * h + k / (2 * t) < 2 * N ∧ (k % (2 * t) < t → k + t < N) := by
  obtain ⟨h1, h2⟩ := layer_idx ht hN hk
  refine ⟨?_, h2⟩
  have : h ≤ N := by rw [← hN]; exact Nat.le_mul_of_pos_right _ (by omega)
  omega

/-- a forward layer of the left half of degree `2N` -/
theorem ciLayer_eval {q : UInt64} {N : ℕ} {tab : Row} {w : ℕ → ZMod q.toNat} (hw : TwLaw (2 * N) w)
    {A A' : ℕ} {bf : UInt64 → UInt64 → UInt64 → UInt64 × UInt64} (hf : FwdOK q (2 * N) tab w A A' bf)
    {h t b : ℕ} (ht : t = 2 ^ b) (hm : 1 ≤ h) (hN : h * (2 * t) = N) (x : Row) (hx : x.length = N)
    (hb : BoundedBy N A x) :
    let y := nttLayerUp bf tab (2 * h) h t t x
    y.length = N ∧ BoundedBy N A' y ∧
    ∀ i < N, blockEval (evalPt (2 * N) w i) t (zval q.toNat y) i
      = blockEval (evalPt (2 * N) w i) (2 * t) (zval q.toNat x) i := by
  have ht0 : 0 < t := by rw [ht]; positivity
  intro y
  have hval : ∀ k < N, (y.at k).toNat < A' ∧
      zval q.toNat y k = fwdVal w (2 * h) t (zval q.toNat x) k := by
    intro k hk
    obtain ⟨i1, i2⟩ := ci_idx ht0 hN hk
    have hyk : y.at k = _ := nttLayerUp_at _ tab (2 * h) h t x ht0 (by omega) k
    unfold zval
    rw [hyk, if_pos (by omega), layerVal, fwdVal]
    split
    · obtain ⟨a, _, c, _⟩ := hf _ _ _ i1 (hb k hk) (hb _ (i2 (by assumption)))
      exact ⟨a, c⟩
    · obtain ⟨_, a, _, c⟩ := hf _ _ _ i1 (hb (k - t) (by omega)) (hb k hk)
      exact ⟨a, c⟩
  refine ⟨by rw [nttLayerUp_length, hx], fun k hk => (hval k hk).1, fun i hi => ?_⟩
  rw [blockEval_congr (N := N) _ ⟨h * 2, by rw [← hN]; ring⟩ hi (fun k hk => (hval k hk).2)]
  exact blockEval_fwd ht0 _ (evalPt_pow hw ht (by rw [← hN]; ring) (by omega) (by omega))

/-- an inverse layer of the left half of degree `2N` -/
theorem ciInvLayer_eval {q qInv : UInt64} (hinv : q * qInv = 1) (hq : q.toNat < 2 ^ 61) {N : ℕ}
    {tab : Row} {w w' : ℕ → ZMod q.toNat} (htab : TwTable (2 * N) q tab w') (hw : TwLaw (2 * N) w)
    (hww : ∀ k < 2 * N, w k * w' k = 1)
    {h t b : ℕ} (ht : t = 2 ^ b) (hm : 1 ≤ h) (hN : h * (2 * t) = N) (x : Row) (hx : x.length = N)
    (hb : BoundedBy N (2 * q.toNat) x) :
    let y := nttLayerUp (fun u v psi => invbutterfly u v psi (q <<< 1) (q <<< 2) q qInv) tab (2 * h) h t t x
    y.length = N ∧ BoundedBy N (2 * q.toNat) y ∧
    ∀ i < N, blockEval (evalPt (2 * N) w i) (2 * t) (zval q.toNat y) i
      = 2 * blockEval (evalPt (2 * N) w i) t (zval q.toNat x) i := by
  have ht0 : 0 < t := by rw [ht]; positivity
  intro y
  have hval : ∀ k < N, (y.at k).toNat < 2 * q.toNat ∧
      zval q.toNat y k = invVal w' (2 * h) t (zval q.toNat x) k := by
    intro k hk
    obtain ⟨i1, i2⟩ := ci_idx ht0 hN hk
    obtain ⟨p1, p2⟩ := htab _ i1
    have hyk : y.at k = _ := nttLayerUp_at _ tab (2 * h) h t x ht0 (by omega) k
    unfold zval
    rw [hyk, if_pos (by omega), layerVal, invVal]
    split
    · have := invbutterfly_spec hinv hq (x.at k) (x.at (k + t)) _ _ p1 p2 (hb k hk)
        (hb _ (i2 (by assumption)))
      exact ⟨this.1, this.2.2.1⟩
    · have := invbutterfly_spec hinv hq (x.at (k - t)) (x.at k) _ _ p1 p2 (hb (k - t) (by omega))
        (hb k hk)
      exact ⟨this.2.1, this.2.2.2⟩
  refine ⟨by rw [nttLayerUp_length, hx], fun k hk => (hval k hk).1, fun i hi => ?_⟩
  rw [blockEval_congr (N := N) _ ⟨h, by rw [← hN]; ring⟩ hi (fun k hk => (hval k hk).2)]
  exact blockEval_inv ht0 _ (hww _ (ci_idx ht0 hN hi).1)
    (evalPt_pow hw ht (by rw [← hN]; ring) (by omega) (by omega))

theorem ciNttLoop_spec {q qInv : UInt64} (hinv : q * qInv = 1) (hq : q.toNat < 2 ^ 62) {N n : ℕ}
    (hNn : N = 2 ^ n)
    {tab : Row} {w : ℕ → ZMod q.toNat} (htab : TwTable (2 * N) q tab w) (hw : TwLaw (2 * N) w) {B : ℕ}
    (hB : 4 * q.toNat ≤ B) (hB2 : B + 4 * q.toNat ≤ 2 ^ 64) (fuel : ℕ) :
    ∀ (a b : ℕ) (x : Row), a + b = n → b ≤ fuel → x.length = N →
      BoundedBy N (if a % 2 = 1 then B + 4 * q.toNat else B + 2 * q.toNat) x →
      let y := ciNttLoop N tab q qInv fuel (2 ^ (a + 1)) (2 ^ b) x
      y.length = N ∧
      ∀ i < N, zval q.toNat y i = blockEval (evalPt (2 * N) w i) (2 ^ b) (zval q.toNat x) i := by
  have hend : ∀ fuel (x : Row), ciNttLoop N tab q qInv fuel (2 ^ (n + 1)) (2 ^ 0) x = x := by
    intro fuel x
    cases fuel with
    | zero => rfl
    | succ f => rw [ciNttLoop, if_neg (by rw [hNn, pow_succ]; omega)]
  induction fuel with
  | zero =>
    intro a b x hab h2 hx _
    obtain rfl : b = 0 := by omega
    obtain rfl : a = n := by omega
    rw [hend]
    exact ⟨hx, fun i _ => by rw [pow_zero, blockEval_one]⟩
  | succ fuel ih =>
    intro a b x hab hbf hx hbd
    rcases Nat.eq_zero_or_pos b with h0 | hb1
    · subst h0
      obtain rfl : a = n := by omega
      rw [hend]
      exact ⟨hx, fun i _ => by rw [pow_zero, blockEval_one]⟩
    obtain ⟨c, rfl⟩ : ∃ c, b = c + 1 := ⟨b - 1, by omega⟩
    have hN2 : 2 ^ a * (2 * 2 ^ c) = N := by rw [hNn, ← hab]; ring
    have hlt : 2 ^ (a + 1) < 2 * N := by
      rw [hNn, ← pow_succ']; exact Nat.pow_lt_pow_right (by omega) (by omega)
    have hhalf : 2 ^ (c + 1) / 2 = 2 ^ c := by rw [pow_succ]; omega
    have hhalf' : 2 ^ (a + 1) / 2 = 2 ^ a := by rw [pow_succ]; omega
    rw [ciNttLoop, if_pos hlt]
    simp only [hhalf, hhalf', len64_two_pow]
    generalize hy : (if (a + 1 + 1) % 2 = 1 then
            nttLayerUp (fun u v psi => butterfly u v psi (2 * q) (4 * q) q qInv) tab (2 ^ (a + 1)) (2 ^ a) (2 ^ c) (2 ^ c) x
          else
            nttLayerUp (fun u v psi => butterflyNoRed u v psi (2 * q) q qInv) tab (2 ^ (a + 1)) (2 ^ a) (2 ^ c) (2 ^ c) x)
        = y
    have e2 : 2 ^ (a + 1) = 2 * 2 ^ a := by ring
    have hy3 : y.length = N ∧
        BoundedBy N (if (a + 1) % 2 = 1 then B + 4 * q.toNat else B + 2 * q.toNat) y ∧
        ∀ i < N, blockEval (evalPt (2 * N) w i) (2 ^ c) (zval q.toNat y) i
          = blockEval (evalPt (2 * N) w i) (2 * 2 ^ c) (zval q.toNat x) i := by
      rw [e2] at hy
      by_cases hc : a % 2 = 1
      · rw [if_pos (by omega)] at hy
        rw [if_pos hc] at hbd
        have := ciLayer_eval hw (fwdOK_red hinv hq htab hB (by omega)) rfl Nat.one_le_two_pow hN2 x hx hbd
        rw [hy] at this
        rw [if_neg (by omega)]
        exact this
      · rw [if_neg (by omega)] at hy
        rw [if_neg hc] at hbd
        have := ciLayer_eval hw (fwdOK_noRed hinv (by omega) htab (A := B + 2 * q.toNat) (by omega))
          rfl Nat.one_le_two_pow hN2 x hx hbd
        rw [hy] at this
        rw [if_pos (by omega), show B + 4 * q.toNat = B + 2 * q.toNat + 2 * q.toNat by ring]
        exact this
    obtain ⟨y1, y2, y3⟩ := hy3
    obtain ⟨z1, z2⟩ := ih (a + 1) c y (by omega) (by omega) y1 y2
    rw [show 2 * 2 ^ (a + 1) = 2 ^ (a + 1 + 1) by ring]
    refine ⟨z1, fun i hi => ?_⟩
    rw [z2 i hi, y3 i hi, show 2 * 2 ^ c = 2 ^ (c + 1) by ring]

theorem ciFirst_length (N : ℕ) (F q qInv : UInt64) (x : Row) : (ciFirst N F q qInv x).length = N := by
  simp [ciFirst]

theorem ciFirst_at (N : ℕ) (F q qInv : UInt64) (x : Row) {j : ℕ} (hj : j < N) :
    (ciFirst N F q qInv x).at j =
      if j = 0 then x.at 0 else x.at j + 2 * q - mredConstant (x.at (N - j)) F q qInv := by
  unfold Row.at
  rw [List.getD_eq_getElem _ _ (by rw [ciFirst_length]; exact hj)]
  simp [ciFirst]

theorem ciLast_length (N : ℕ) (F q qInv : UInt64) (x : Row) : (ciLast N F q qInv x).length = N := by
  simp [ciLast]

theorem ciLast_at (N : ℕ) (F q qInv : UInt64) (x : Row) {j : ℕ} (hj : j < N) :
    (ciLast N F q qInv x).at j =
      if j = 0 then cred (x.at 0 <<< 1) q else x.at j + (q <<< 1) - mredConstant (x.at (N - j)) F q qInv := by
  unfold Row.at
  rw [List.getD_eq_getElem _ _ (by rw [ciLast_length]; exact hj)]
  simp [ciLast]

/-- The lazy transform evaluates the symmetric polynomial at the first `N` points. -/
theorem ciNttLazy_spec {q qInv : UInt64} (hinv : q * qInv = 1) (hq : q.toNat < 2 ^ 62) {N n : ℕ}
    (hNn : N = 2 ^ n)
    {tab : Row} {w : ℕ → ZMod q.toNat} (htab : TwTable (2 * N) q tab w) (hw : TwLaw (2 * N) w) {B : ℕ}
    (hB : 4 * q.toNat ≤ B) (hB2 : B + 4 * q.toNat ≤ 2 ^ 64) (x : Row) (hx : x.length = N)
    (hb : BoundedBy N B x) :
    (ciNttLazy x N tab q qInv).length = N ∧
    ∀ i < N, zval q.toNat (ciNttLazy x N tab q qInv) i
      = ∑ j ∈ range (2 * N), symm N (zval q.toNat x) j * evalPt (2 * N) w i ^ j := by
  have hN0 : 0 < N := by rw [hNn]; positivity
  obtain ⟨p1, p2⟩ := htab 1 (by omega)
  have hfirst : ∀ j < N, ((ciFirst N (tab.at 1) q qInv x).at j).toNat < B + 2 * q.toNat ∧
      zval q.toNat (ciFirst N (tab.at 1) q qInv x) j =
        fwdVal w 1 N (symm N (zval q.toNat x)) j := by
    intro j hj
    unfold zval
    rw [ciFirst_at _ _ _ _ _ hj, fwdVal, if_pos (show j % (2 * N) < N by rw [Nat.mod_eq_of_lt (by omega)]; exact hj),
      Nat.div_eq_of_lt (by omega)]
    have hs1 : symm N (fun k => ((x.at k).toNat : ZMod q.toNat)) j = (x.at j).toNat := by
      unfold symm; rw [if_pos hj]
    by_cases h0 : j = 0
    · subst h0
      rw [if_pos rfl, hs1]
      have hbb := hb 0 hN0
      refine ⟨by omega, ?_⟩
      unfold symm
      rw [Nat.zero_add, if_neg (lt_irrefl N), if_pos rfl]
      ring
    · rw [if_neg h0]
      obtain ⟨m1, m2⟩ := mredConstant_tw hinv (by omega) (x.at (N - j)) (tab.at 1) (w 1) p1 p2
      have hbb := hb j hj
      obtain ⟨-, a2⟩ := addsub_spec (x.at j) (mredConstant (x.at (N - j)) (tab.at 1) q qInv) (by omega)
        (by omega) m1
      rw [hs1, a2]
      refine ⟨by omega, ?_⟩
      unfold symm
      rw [if_neg (by omega), if_neg (by omega), show 2 * N - (j + N) = N - j by omega,
        Nat.cast_sub (by omega), m2]
      push_cast
      simp
      ring
  obtain ⟨z1, z2⟩ := ciNttLoop_spec hinv hq hNn htab hw hB hB2 N 0 n (ciFirst N (tab.at 1) q qInv x) (by omega)
    (by rw [hNn]; exact Nat.lt_two_pow_self.le) (ciFirst_length ..) (fun j hj => by
      rw [if_neg (by omega)]; exact (hfirst j hj).1)
  have hd : ciNttLazy x N tab q qInv =
      ciNttLoop N tab q qInv N (2 ^ (0 + 1)) (2 ^ n) (ciFirst N (tab.at 1) q qInv x) := by
    unfold ciNttLazy; rw [← hNn]; norm_num
  rw [hd]
  refine ⟨z1, fun i hi => ?_⟩
  rw [z2 i hi, ← hNn, blockEval_congr (N := N) _ (dvd_refl N) hi (fun k hk => (hfirst k hk).2),
    blockEval_fwd hN0 _ (evalPt_pow hw hNn (by ring) le_rfl (by omega)), blockEval_full _ _ _ (by omega)]

theorem ciInvNttLoop_spec {q qInv : UInt64} (hinv : q * qInv = 1) (hq : q.toNat < 2 ^ 61) {N n : ℕ}
    (hNn : N = 2 ^ n)
    {tab : Row} {w w' : ℕ → ZMod q.toNat} (htab : TwTable (2 * N) q tab w') (hw : TwLaw (2 * N) w)
    (hww : ∀ k < 2 * N, w k * w' k = 1) (fuel : ℕ) :
    ∀ (a b : ℕ) (x : Row), a + b = n → a ≤ fuel → x.length = N →
      BoundedBy N (2 * q.toNat) x →
      let y := ciInvNttLoop tab q qInv fuel (2 ^ a) (2 ^ b) x
      y.length = N ∧ BoundedBy N (2 * q.toNat) y ∧
      ∀ i < N, blockEval (evalPt (2 * N) w i) N (zval q.toNat y) i
        = 2 ^ a * blockEval (evalPt (2 * N) w i) (2 ^ b) (zval q.toNat x) i := by
  induction fuel with
  | zero =>
    intro a b x hab ha hx hb
    have : a = 0 := by omega
    subst this
    refine ⟨hx, hb, fun i hi => ?_⟩
    rw [show b = n by omega, ← hNn]; simp [ciInvNttLoop]
  | succ fuel ih =>
    intro a b x hab ha hx hb
    rcases Nat.eq_zero_or_pos a with h0 | h0
    · subst h0
      have : ciInvNttLoop tab q qInv (fuel + 1) (2 ^ 0) (2 ^ b) x = x := by
        rw [ciInvNttLoop, if_neg (by simp)]
      rw [this]
      refine ⟨hx, hb, fun i hi => ?_⟩
      rw [show b = n by omega, ← hNn]; simp
    · obtain ⟨c, rfl⟩ : ∃ c, a = c + 1 := ⟨a - 1, by omega⟩
      have hhalf : 2 ^ (c + 1) / 2 = 2 ^ c := by rw [pow_succ]; omega
      have hgt : 2 ^ (c + 1) > 1 := Nat.one_lt_two_pow (by omega)
      have hN2 : 2 ^ c * (2 * 2 ^ b) = N := by rw [hNn, ← hab]; ring
      obtain ⟨y1, y2, y3⟩ := ciInvLayer_eval hinv hq htab hw hww rfl Nat.one_le_two_pow hN2 x hx hb
      rw [show 2 * 2 ^ c = 2 ^ (c + 1) by ring] at y1 y2 y3
      obtain ⟨z1, z2, z3⟩ := ih c (b + 1) _ (by omega) (by omega) y1 y2
      rw [ciInvNttLoop, if_pos hgt]
      simp only [hhalf]
      rw [show 2 * 2 ^ b = 2 ^ (b + 1) by ring]
      refine ⟨z1, z2, fun i hi => ?_⟩
      rw [z3 i hi, show 2 ^ (b + 1) = 2 * 2 ^ b by ring, y3 i hi]
      ring

/-- `invNTTConjugateInvariantCore` on entries below `2q`: `2N` times the polynomial whose transform is the
input. -/
theorem ciInvNttCore_spec {q qInv : UInt64} (hinv : q * qInv = 1) (hq : q.toNat < 2 ^ 61) {N n : ℕ}
    (hNn : N = 2 ^ n) (hn : 1 ≤ n)
    {tab : Row} {w w' : ℕ → ZMod q.toNat} (htab : TwTable (2 * N) q tab w') (hw : TwLaw (2 * N) w)
    (hww : ∀ k < 2 * N, w k * w' k = 1) (x : Row) (hx : x.length = N)
    (hb : BoundedBy N (2 * q.toNat) x) :
    (ciInvNttCore x N tab q qInv).length = N ∧
    ∀ i < N, ∑ j ∈ range (2 * N), symm N (zval q.toNat (ciInvNttCore x N tab q qInv)) j * evalPt (2 * N) w i ^ j
      = (2 * N) * zval q.toNat x i := by
  obtain ⟨c, rfl⟩ : ∃ c, n = c + 1 := ⟨n - 1, by omega⟩
  have hN0 : 0 < N := by rw [hNn]; positivity
  have hhalf : N / 2 = 2 ^ c := by rw [hNn, pow_succ]; omega
  have hN2 : 2 ^ c * (2 * 1) = N := by rw [hNn]; ring
  obtain ⟨y1, y2, y3⟩ := ciInvLayer_eval hinv hq htab hw hww (t := 1) (b := 0) rfl Nat.one_le_two_pow hN2 x hx hb
  rw [show 2 * 2 ^ c = N by omega] at y1 y2 y3
  have hcN : c ≤ N := by
    rw [hNn]
    exact le_trans (by omega) (Nat.lt_two_pow_self (n := c + 1)).le
  obtain ⟨z1, z2, z3⟩ := ciInvNttLoop_spec hinv hq hNn htab hw hww N c 1 _ (by omega) hcN y1 y2
  rw [show (2 : ℕ) ^ 1 = 2 from rfl] at z1 z2 z3
  unfold ciInvNttCore
  simp only [hhalf]
  generalize nttLayerUp _ tab N (2 ^ c) 1 1 x = L at y3 z1 z2 z3
  generalize ciInvNttLoop tab q qInv N (2 ^ c) 2 L = y at z1 z2 z3
  refine ⟨ciLast_length .., fun i hi => ?_⟩
  obtain ⟨p1, p2⟩ := htab 1 (by omega)
  have hw1 := hww 1 (by omega)
  have hsq : w 1 ^ 2 = -1 := by rw [hw.sq 1 le_rfl (by omega), rho_one hw]
  have hw' : w' 1 = - w 1 := by
    have : w' 1 = -(w 1 ^ 2) * w' 1 := by rw [hsq]; ring
    rw [this, pow_two, neg_mul, mul_assoc, hw1, mul_one]
  have hlast : ∀ j < N, zval q.toNat (ciLast N (tab.at 1) q qInv y) j =
      if j = 0 then 2 * zval q.toNat y 0 else zval q.toNat y j + zval q.toNat y (N - j) * w 1 := by
    intro j hj
    unfold zval
    rw [ciLast_at _ _ _ _ _ hj]
    by_cases h0 : j = 0
    · rw [if_pos h0, if_pos h0, shl_one_eq]
      have hbb := z2 0 hN0
      have h2 : (2 * y.at 0).toNat = 2 * (y.at 0).toNat := toNat_two_mul (by omega)
      unfold cred
      split
      · rename_i hge
        have hge' : q.toNat ≤ (2 * y.at 0).toNat := hge
        rw [toNat_sub_of_le' hge', Nat.cast_sub hge', h2]
        simp
      · rw [h2]; push_cast; rfl
    · rw [if_neg h0, if_neg h0, shl_one_eq]
      obtain ⟨m1, m2⟩ := mredConstant_tw hinv (by omega) (y.at (N - j)) (tab.at 1) (w' 1) p1 p2
      have hbb := z2 j hj
      obtain ⟨-, a2⟩ := addsub_spec (y.at j) (mredConstant (y.at (N - j)) (tab.at 1) q qInv) (by omega)
        (by omega) m1
      rw [a2, Nat.cast_sub (by omega), m2, hw']
      push_cast
      simp
  have hfw : ∀ k < N, fwdVal w 1 N (symm N (zval q.toNat (ciLast N (tab.at 1) q qInv y))) k =
      2 * zval q.toNat y k := by
    intro k hk
    rw [fwdVal, if_pos (show k % (2 * N) < N by rw [Nat.mod_eq_of_lt (by omega)]; exact hk), Nat.div_eq_of_lt (by omega), Nat.add_zero]
    unfold symm
    rw [if_pos hk, if_neg (show ¬ k + N < N by omega), hlast k hk]
    by_cases h0 : k = 0
    · subst h0
      rw [if_pos rfl, if_pos (by omega)]; ring
    · rw [if_neg h0, if_neg (by omega), show 2 * N - (k + N) = N - k by omega, hlast (N - k) (by omega),
        if_neg (by omega), show N - (N - k) = k by omega]
      have : ∀ a b : ZMod q.toNat, a + b * w 1 + -(b + a * w 1) * w 1 = a - a * w 1 ^ 2 := fun a b => by ring
      rw [this, hsq]
      ring
  have := z3 i hi
  rw [show 2 = 2 * 1 from rfl, y3 i hi, blockEval_one] at this
  rw [← blockEval_full _ _ _ (show i < 2 * N by omega),
    ← blockEval_fwd hN0 _ (evalPt_pow hw hNn (show 1 * (2 * N) = 2 * N by ring) le_rfl (show i < 2 * N by omega)),
    blockEval_congr (N := N) _ (dvd_refl N) hi hfw]
  have hlin : blockEval (evalPt (2 * N) w i) N (fun k => 2 * zval q.toNat y k) i =
      2 * blockEval (evalPt (2 * N) w i) N (zval q.toNat y) i := by
    unfold blockEval
    rw [mul_sum]
    exact sum_congr rfl fun _ _ => by ring
  rw [hlin, this, hNn]
  push_cast
  ring

end FastKsw
