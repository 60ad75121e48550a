import Verif.Model.Sparse
import Verif.Lemmas.SubNTT
import Verif.Lemmas.NewRing
import Verif.Lemmas.PolyIs
import Mathlib.Data.List.GetD

/-! Helper lemmas: transforms of sparse polynomials. -/

namespace FastKsw

open Finset

/-! ### Evaluations of `p(X^gap)` -/

theorem revBits_split (m d j w : ℕ) (hw : w < 2 ^ d) :
    revBits (m + d) (j * 2 ^ d + w) = revBits d w * 2 ^ m + revBits m j := by
  induction d generalizing w with
  | zero =>
    have : w = 0 := by simpa using hw
    subst this; simp [revBits]
  | succ d ih =>
    have e0 : j * 2 ^ (d + 1) = 2 * (j * 2 ^ d) := by ring
    have e1 : (j * 2 ^ (d + 1) + w) % 2 = w % 2 := by omega
    have e2 : (j * 2 ^ (d + 1) + w) / 2 = j * 2 ^ d + w / 2 := by omega
    rw [← add_assoc, revBits, e1, e2, ih (w / 2) (by rw [pow_succ] at hw; omega), revBits]
    ring

/-- coefficients of `p(X^gap)` -/
def spread {K : Type*} [Zero K] (gap : ℕ) (v : ℕ → K) (k : ℕ) : K :=
  if k % gap = 0 then v (k / gap) else 0

theorem sum_spread {K : Type*} [CommRing K] (c g : ℕ) (hg : 0 < g) (v : ℕ → K) (e : K) :
    ∑ k ∈ range (c * g), spread g v k * e ^ k = ∑ j ∈ range c, v j * (e ^ g) ^ j := by
  induction c with
  | zero => simp
  | succ c ih =>
    rw [Nat.succ_mul, sum_range_add, ih, sum_range_succ]
    congr 1
    rw [sum_eq_single 0]
    · unfold spread
      rw [if_pos (by simp), Nat.add_zero, Nat.mul_div_cancel _ hg, ← pow_mul, mul_comm g]
    · intro w hw hw0
      have hwg := mem_range.1 hw
      unfold spread
      rw [if_neg, zero_mul]
      rw [mul_comm c g, Nat.mul_add_mod, Nat.mod_eq_of_lt hwg]
      exact hw0
    · intro h
      exact absurd (mem_range.2 hg) h

theorem nttPoint_split {q : ℕ} {psi : ZMod q} {m d : ℕ} (h : psi ^ 2 ^ (m + d) = -1) (j w : ℕ)
    (hw : w < 2 ^ d) :
    nttPoint psi (m + d) (j * 2 ^ d + w) ^ 2 ^ d = nttPoint (psi ^ 2 ^ d) m j := by
  unfold nttPoint
  rw [revBits_split m d j w hw, ← pow_mul, ← pow_mul]
  rw [show (2 * (revBits d w * 2 ^ m + revBits m j) + 1) * 2 ^ d =
    2 ^ (m + d) * (2 * revBits d w) + 2 ^ d * (2 * revBits m j + 1) by rw [pow_add]; ring]
  rw [pow_add, pow_mul _ (2 ^ (m + d)), h, pow_mul (-1 : ZMod q)]
  simp

/-- The transform of degree `2^(m+d)` of `p(X^(2^d))` repeats every value of the transform of
degree `2^m` of `p`. -/
theorem evals_spread {q : ℕ} {psi : ZMod q} {m d : ℕ} (h : psi ^ 2 ^ (m + d) = -1)
    (v : ℕ → ZMod q) (k : ℕ) :
    evals psi (m + d) (spread (2 ^ d) v) k = evals (psi ^ 2 ^ d) m v (k / 2 ^ d) := by
  unfold evals
  have hd : 0 < 2 ^ d := by positivity
  rw [pow_add, sum_spread _ _ hd]
  have hk : k = k / 2 ^ d * 2 ^ d + k % 2 ^ d := by rw [mul_comm]; exact (Nat.div_add_mod k _).symm
  apply sum_congr rfl
  intro j _
  conv_lhs => rw [hk]
  rw [nttPoint_split h _ _ (Nat.mod_lt _ hd)]

/-! ### The in-memory transform -/

theorem nttLayerUp_eq (bf) (tab : Row) (m mUp t tUp : ℕ) (x : Row) :
    nttLayerUp bf tab m mUp t tUp x =
      (List.range mUp).foldl (fun x i => innerLoop bf (tab.at (m + i)) (2 * (i * t)) t tUp x) x := rfl

theorem nttLayerUp_outer (bf) (tab : Row) (m mUp t : ℕ) (x : Row) :
    nttLayerUp bf tab m mUp t t x = outerLoop bf tab m t mUp x := rfl

theorem nttLayerUp_length (bf) (tab : Row) (m mUp t tUp : ℕ) (x : Row) :
    (nttLayerUp bf tab m mUp t tUp x).length = x.length := by
  rw [nttLayerUp_eq]
  exact foldl_length _ _ (fun x a => innerLoop_length ..) x

theorem Row.at_take (x : Row) (n k : ℕ) : Row.at (x.take n) k = if k < n then x.at k else 0 := by
  unfold Row.at
  simp only [List.getD_eq_getElem?_getD, List.getElem?_take]
  split <;> simp

theorem row_ext {x y : Row} (h : x.length = y.length) (h2 : ∀ k, x.at k = y.at k) : x = y := by
  apply List.ext_getElem h
  intro k h3 h4
  have := h2 k
  unfold Row.at at this
  rwa [List.getD_eq_getElem _ _ h3, List.getD_eq_getElem _ _ h4] at this

/-- on the first `2mt` entries, extra blocks do nothing -/
theorem nttLayerUp_take (bf) (tab : Row) (m mUp t : ℕ) (x : Row) (ht : 0 < t) (hm : m ≤ mUp)
    (hl : mUp * (2 * t) ≤ x.length) :
    (nttLayerUp bf tab m mUp t t x).take (m * (2 * t)) =
      nttLayer bf tab m t (x.take (m * (2 * t))) := by
  have hle : m * (2 * t) ≤ mUp * (2 * t) := Nat.mul_le_mul_right _ hm
  have hlt : (x.take (m * (2 * t))).length = m * (2 * t) := by
    rw [List.length_take]; omega
  apply row_ext
  · rw [nttLayer_length, hlt, List.length_take, nttLayerUp_length]; omega
  · intro k
    rw [Row.at_take, nttLayerUp_outer, outerLoop_at _ _ _ _ _ _ ht hl,
      nttLayer_at _ _ _ _ _ ht (by rw [hlt])]
    by_cases hk : k < m * (2 * t)
    · obtain ⟨_, i2⟩ := layer_idx ht rfl hk
      rw [if_pos hk, if_pos (by omega), if_pos hk]
      unfold layerVal
      split
      · rw [Row.at_take, Row.at_take, if_pos hk, if_pos (i2 (by assumption))]
      · rw [Row.at_take, Row.at_take, if_pos hk, if_pos (by omega)]
    · rw [if_neg hk, if_neg hk, Row.at_take, if_neg hk]

theorem roundUp_of_dvd {k c : ℕ} (hc : 0 < c) (h : c ∣ k) : roundUp k c = k := by
  obtain ⟨e, rfl⟩ := h
  unfold roundUp
  have : (c * e + c - 1) / c = e := by
    rw [show c * e + c - 1 = (c - 1) + c * e by omega, Nat.add_mul_div_left _ _ hc,
      Nat.div_eq_of_lt (by omega), Nat.zero_add]
  rw [this, mul_comm]

theorem roundUp_of_le {k c : ℕ} (hk : 0 < k) (h : k ≤ c) : roundUp k c = c := by
  unfold roundUp
  have : (k + c - 1) / c = 1 := by
    rw [show k + c - 1 = (k - 1) + c by omega, Nat.add_div_right _ (by omega),
      Nat.div_eq_of_lt (by omega)]
  rw [this, one_mul]

theorem roundUp_pow (a e : ℕ) : roundUp (2 ^ a) (2 ^ e) = max (2 ^ a) (2 ^ e) := by
  rcases Nat.le_total a e with h | h
  · have := Nat.pow_le_pow_right (n := 2) (by omega) h
    rw [roundUp_of_le (by positivity) this, max_eq_right this]
  · have := Nat.pow_le_pow_right (n := 2) (by omega) h
    rw [roundUp_of_dvd (by positivity) (pow_dvd_pow 2 h), max_eq_left this]

theorem blocksPerStep_pow (c : ℕ) : blocksPerStep (2 ^ c) = 2 ^ (3 - c) := by
  unfold blocksPerStep
  by_cases h : 3 ≤ c
  · have := Nat.pow_le_pow_right (n := 2) (by omega) h
    rw [if_pos (by omega), show 3 - c = 0 by omega, pow_zero]
  · have : c < 3 := by omega
    interval_cases c <;> rfl

theorem mUp_ok (a c : ℕ) :
    2 ^ a ≤ roundUp (2 ^ a) (blocksPerStep (2 ^ c)) ∧
    roundUp (2 ^ a) (blocksPerStep (2 ^ c)) * (2 * 2 ^ c) ≤ max (2 ^ (a + c + 1)) 16 := by
  rw [blocksPerStep_pow, roundUp_pow]
  refine ⟨le_max_left _ _, ?_⟩
  rcases max_cases (2 ^ a) (2 ^ (3 - c)) with ⟨h, _⟩ | ⟨h, h2⟩
  · rw [h]
    refine le_trans (le_of_eq ?_) (le_max_left _ _)
    ring
  · rw [h]
    have hc : c ≤ 3 := by
      by_contra hc
      rw [show 3 - c = 0 by omega, pow_zero] at h2
      have := Nat.one_le_two_pow (n := a)
      omega
    refine le_trans (le_of_eq ?_) (le_max_right _ _)
    rw [show 2 ^ (3 - c) * (2 * 2 ^ c) = 2 * 2 ^ (3 - c + c) by rw [pow_add]; ring,
      Nat.sub_add_cancel hc]
    norm_num

theorem nttLoopMem_take (N n : ℕ) (hNn : N = 2 ^ n) (tab : Row) (q qInv : UInt64) (fuel : ℕ) :
    ∀ (a b : ℕ) (x : Row), a + b = n → max N 16 ≤ x.length →
      (nttLoopMem N tab q qInv fuel (2 ^ a) (2 ^ b) x).length = x.length ∧
      (nttLoopMem N tab q qInv fuel (2 ^ a) (2 ^ b) x).take N =
        nttLoop N tab q qInv fuel (2 ^ a) (2 ^ b) (x.take N) := by
  induction fuel with
  | zero => intro a b x _ _; exact ⟨rfl, rfl⟩
  | succ fuel ih =>
    intro a b x hab hl
    rw [nttLoopMem, nttLoop]
    by_cases hlt : 2 ^ a < N
    · rw [if_pos hlt, if_pos hlt]
      obtain ⟨c, rfl⟩ : ∃ c, b = c + 1 := by
        cases b with
        | zero => rw [hNn, ← hab] at hlt; simp at hlt
        | succ c => exact ⟨c, rfl⟩
      have hhalf : 2 ^ (c + 1) / 2 = 2 ^ c := by rw [pow_succ]; omega
      have h2 : 2 * 2 ^ a = 2 ^ (a + 1) := by ring
      have hN2 : 2 ^ a * (2 * 2 ^ c) = N := by rw [hNn, ← hab]; ring
      obtain ⟨u1, u2⟩ := mUp_ok a c
      rw [show a + c + 1 = n by omega, ← hNn] at u2
      simp only [hhalf, h2]
      have hL : ∀ bf, (nttLayerUp bf tab (2 ^ a) (roundUp (2 ^ a) (blocksPerStep (2 ^ c))) (2 ^ c)
          (2 ^ c) x).take N = nttLayer bf tab (2 ^ a) (2 ^ c) (x.take N) := by
        intro bf
        have := nttLayerUp_take bf tab (2 ^ a) _ (2 ^ c) x (by positivity) u1 (by omega)
        rwa [hN2] at this
      by_cases hc : len64 (2 ^ a) % 2 = 1 ∨ 2 ^ c = 1
      · rw [if_pos hc, if_pos hc, ← hL]
        refine ⟨?_, (ih (a + 1) c _ (by omega) (by rw [nttLayerUp_length]; exact hl)).2⟩
        exact (ih (a + 1) c _ (by omega) (by rw [nttLayerUp_length]; exact hl)).1.trans
          (nttLayerUp_length ..)
      · rw [if_neg hc, if_neg hc, ← hL]
        refine ⟨?_, (ih (a + 1) c _ (by omega) (by rw [nttLayerUp_length]; exact hl)).2⟩
        exact (ih (a + 1) c _ (by omega) (by rw [nttLayerUp_length]; exact hl)).1.trans
          (nttLayerUp_length ..)
    · rw [if_neg hlt, if_neg hlt]
      exact ⟨rfl, rfl⟩

theorem innerLoop_succ (bf) (w : UInt64) (b t n : ℕ) (x : Row) :
    innerLoop bf w b t (n + 1) x =
      ((innerLoop bf w b t n x).set (b + n)
        (bf ((innerLoop bf w b t n x).at (b + n)) ((innerLoop bf w b t n x).at (b + n + t)) w).1).set
        (b + n + t)
        (bf ((innerLoop bf w b t n x).at (b + n)) ((innerLoop bf w b t n x).at (b + n + t)) w).2 := by
  unfold innerLoop
  rw [List.range_succ, List.foldl_append]
  rfl

/-- the iterations `t … t+e-1` of the first layer, on entries that are zero past `2t` -/
theorem innerLoop_tail {q qInv : UInt64} (hinv : q * qInv = 1) (hq : q.toNat < 2 ^ 63)
    (w : UInt64) (W : ZMod q.toNat) (hp : w.toNat < q.toNat)
    (hW : (w.toNat : ZMod q.toNat) = W * 2 ^ 64) {t B : ℕ} {x : Row} (ht : 0 < t)
    (hB : B + 4 * q.toNat ≤ 2 ^ 64) (hlen : 16 ≤ x.length)
    (hz : ∀ k, 2 * t ≤ k → k < 16 → x.at k = 0) (e : ℕ) (he : t + e ≤ 8) (y0 : Row)
    (hy0 : y0 = innerLoop (fun u v psi => butterflyNoRed u v psi (2 * q) q qInv) w 0 t t x)
    (hb : ∀ k < 2 * t, (y0.at k).toNat < B + 2 * q.toNat) (y : Row)
    (hy : y = innerLoop (fun u v psi => butterflyNoRed u v psi (2 * q) q qInv) w 0 t (t + e) x) :
    (∀ k < 2 * t, (y.at k).toNat < B + 4 * q.toNat ∧ (t + e ≤ k → (y.at k).toNat < B + 2 * q.toNat) ∧
      zval q.toNat y k = zval q.toNat y0 k) ∧
    (∀ k, 2 * t + e ≤ k → k < 16 → y.at k = 0) := by
  induction e generalizing y with
  | zero =>
    have hyy : y = y0 := by rw [hy, hy0]; rfl
    subst hyy
    refine ⟨fun k hk => ⟨by have := hb k hk; omega, fun _ => hb k hk, rfl⟩, fun k h1 h2 => ?_⟩
    rw [hy0, innerLoop_at _ _ _ _ _ _ le_rfl (by omega), if_neg (by omega), if_neg (by omega)]
    exact hz k (by omega) h2
  | succ e ih =>
    obtain ⟨i1, i2⟩ := ih (by omega) _ rfl
    generalize hz' : innerLoop (fun u v psi => butterflyNoRed u v psi (2 * q) q qInv) w 0 t (t + e) x = z
      at i1 i2
    have hlz : z.length = x.length := by rw [← hz', innerLoop_length]
    rw [← add_assoc, innerLoop_succ, hz', Nat.zero_add] at hy
    have hzero : z.at (t + e + t) = 0 := i2 _ (by omega) (by omega)
    rw [hzero] at hy
    have hyat : ∀ k, y.at k = if k = t + e + t then
        (butterflyNoRed (z.at (t + e)) 0 w (2 * q) q qInv).2
      else if k = t + e then (butterflyNoRed (z.at (t + e)) 0 w (2 * q) q qInv).1 else z.at k := by
      intro k
      rw [hy, Row.at_set, Row.at_set, List.length_set]
      by_cases c1 : k = t + e + t
      · rw [if_pos ⟨c1, by omega⟩, if_pos c1]
      · rw [if_neg (by tauto), if_neg c1]
        by_cases c2 : k = t + e
        · rw [if_pos ⟨c2, by omega⟩, if_pos c2]
        · rw [if_neg (by tauto), if_neg c2]
    refine ⟨fun k hk => ?_, fun k h1 h2 => ?_⟩
    · obtain ⟨b1, b2, b3⟩ := i1 k hk
      unfold zval at b3 ⊢
      rw [hyat k, if_neg (by omega)]
      by_cases c2 : k = t + e
      · subst c2
        rw [if_pos rfl]
        have hu := b2 le_rfl
        obtain ⟨r1, _, r3, _⟩ := butterflyNoRed_spec hinv hq (z.at (t + e)) 0 w W hp hW (by omega)
        refine ⟨by omega, fun h => by omega, ?_⟩
        rw [r3, UInt64.toNat_zero, Nat.cast_zero, zero_mul, add_zero]
        exact b3
      · rw [if_neg c2]
        exact ⟨b1, fun h => b2 (by omega), b3⟩
    · rw [hyat k, if_neg (by omega), if_neg (by omega)]
      exact i2 k (by omega) h2

theorem nttLayerUp_one (bf) (tab : Row) (t tUp : ℕ) (x : Row) :
    nttLayerUp bf tab 1 1 t tUp x = innerLoop bf (tab.at 1) 0 t tUp x := by
  rw [nttLayerUp_eq]
  simp

/-- `NTT` on a prefix of a row: for degree at least 16, or zeroes behind the prefix up to 16, the
prefix becomes the transform of the prefix. -/
theorem nttLazyMem_spec {q qInv : UInt64} (hinv : q * qInv = 1) (hq : q.toNat < 2 ^ 62) {N n : ℕ}
    (hNn : N = 2 ^ n) (hn : 1 ≤ n)
    {tab : Row} {w : ℕ → ZMod q.toNat} (htab : TwTable N q tab w) (hw : TwLaw N w) {B B' : ℕ}
    (hB : 4 * q.toNat ≤ B') (hBB : B + 2 * q.toNat ≤ B') (hB2 : B' + 4 * q.toNat ≤ 2 ^ 64) (x : Row) (hx : max N 16 ≤ x.length)
    (hz : 4 ≤ n ∨ ∀ k, N ≤ k → k < 16 → x.at k = 0) (hb : BoundedBy N B x) :
    (nttLazyMem x N tab q qInv).length = x.length ∧
    BoundedBy N (B' + 2 * q.toNat) (nttLazyMem x N tab q qInv) ∧
    ∀ i < N, zval q.toNat (nttLazyMem x N tab q qInv) i
      = ∑ j ∈ Finset.range N, zval q.toNat x j * evalPt N w i ^ j := by
  obtain ⟨c, rfl⟩ : ∃ c, n = c + 1 := ⟨n - 1, by omega⟩
  have hhalf : N / 2 = 2 ^ c := by rw [hNn, pow_succ]; omega
  have hN2 : 1 * (2 * 2 ^ c) = N := by rw [hNn]; ring
  have hN2' : 2 * 2 ^ c = N := by omega
  have hN1 : 1 < N := by rw [hNn]; exact Nat.one_lt_two_pow (by omega)
  have hxt : (x.take N).length = N := by rw [List.length_take]; omega
  have hbt : BoundedBy N B (x.take N) := by
    intro k hk
    rw [Row.at_take, if_pos hk]; exact hb k hk
  have hzt : ∀ k < N, zval q.toNat (x.take N) k = zval q.toNat x k := by
    intro k hk
    unfold zval; rw [Row.at_take, if_pos hk]
  -- the reference first layer
  obtain ⟨y1, y2, y3⟩ := fwdLayer_eval hw (fwdOK_noRed hinv (by omega) htab (A := B) (by omega))
    rfl le_rfl hN2 (x.take N) hxt hbt
  -- the real first layer
  generalize hY : nttLayerUp (fun u v psi => butterflyNoRed u v psi (2 * q) q qInv) tab 1 1 (2 ^ c)
    (roundUp (2 ^ c) 8) x = Y
  have hYlen : Y.length = x.length := by rw [← hY, nttLayerUp_length]
  have hYval : BoundedBy N (B + 4 * q.toNat) Y ∧
      ∀ k < N, zval q.toNat (Y.take N) k = zval q.toNat
        (nttLayer (fun u v psi => butterflyNoRed u v psi (2 * q) q qInv) tab 1 (2 ^ c) (x.take N)) k := by
    have hbase : (nttLayerUp (fun u v psi => butterflyNoRed u v psi (2 * q) q qInv) tab 1 1 (2 ^ c)
        (2 ^ c) x).take N =
        nttLayer (fun u v psi => butterflyNoRed u v psi (2 * q) q qInv) tab 1 (2 ^ c) (x.take N) := by
      have := nttLayerUp_take (fun u v psi => butterflyNoRed u v psi (2 * q) q qInv) tab 1 1 (2 ^ c) x
        (by positivity) le_rfl (by omega)
      rwa [hN2] at this
    have hbase_at : ∀ k < N, (nttLayerUp (fun u v psi => butterflyNoRed u v psi (2 * q) q qInv) tab 1 1
        (2 ^ c) (2 ^ c) x).at k =
        (nttLayer (fun u v psi => butterflyNoRed u v psi (2 * q) q qInv) tab 1 (2 ^ c) (x.take N)).at k := by
      intro k hk
      rw [← hbase, Row.at_take, if_pos hk]
    by_cases h4 : 3 ≤ c
    · rw [show (8 : ℕ) = 2 ^ 3 from rfl, roundUp_pow,
        max_eq_left (Nat.pow_le_pow_right (by omega) h4)] at hY
      rw [← hY]
      refine ⟨fun k hk => ?_, fun k _ => by rw [hbase]⟩
      have := y2 k hk
      rw [hbase_at k hk]; omega
    · have hz' : ∀ k, N ≤ k → k < 16 → x.at k = 0 := by
        rcases hz with h | h
        · omega
        · exact h
      have hc8 : 2 ^ c ≤ 8 := by
        have := Nat.pow_le_pow_right (n := 2) (by omega) (show c ≤ 3 by omega)
        omega
      rw [roundUp_of_le (by positivity) hc8, nttLayerUp_one] at hY
      have hy0 := hbase_at
      rw [nttLayerUp_one] at hy0
      obtain ⟨t1, t2⟩ := htab 1 hN1
      obtain ⟨i1, _⟩ := innerLoop_tail hinv (by omega) (tab.at 1) (w 1) t1 t2
        (t := 2 ^ c) (B := B) (x := x) (by positivity) (by omega) (by omega)
        (fun k h1 h2 => hz' k (by omega) h2) (8 - 2 ^ c) (by omega) _ rfl
        (fun k hk => by rw [hy0 k (by omega)]; exact y2 k (by omega)) Y
        (by rw [← hY]; congr 1; omega)
      refine ⟨fun k hk => (i1 k (by omega)).1, fun k hk => ?_⟩
      have := (i1 k (by omega)).2.2
      unfold zval at this ⊢
      rw [Row.at_take, if_pos hk, this, hy0 k hk]
  obtain ⟨Y1, Y2⟩ := hYval
  have hYt : (Y.take N).length = N := by rw [List.length_take, hYlen]; omega
  obtain ⟨l1, l2⟩ := nttLoopMem_take N (c + 1) hNn tab q qInv N 1 c Y (by omega) (by rw [hYlen]; exact hx)
  rw [show (2 : ℕ) ^ 1 = 2 from rfl] at l1 l2
  have hdef : nttLazyMem x N tab q qInv = nttLoopMem N tab q qInv N 2 (2 ^ c) Y := by
    unfold nttLazyMem
    simp only [hhalf, hY]
  have hat : ∀ k < N, (nttLazyMem x N tab q qInv).at k =
      (nttLoop N tab q qInv N 2 (2 ^ c) (Y.take N)).at k := by
    intro k hk
    rw [hdef, ← l2, Row.at_take, if_pos hk]
  have hYb : BoundedBy N (B + 4 * q.toNat) (Y.take N) := by
    intro k hk
    rw [Row.at_take, if_pos hk]; exact Y1 k hk
  have hfin : BoundedBy N (B' + 2 * q.toNat) (nttLoop N tab q qInv N 2 (2 ^ c) (Y.take N)) ∧
      ∀ i < N, zval q.toNat (nttLoop N tab q qInv N 2 (2 ^ c) (Y.take N)) i =
        blockEval (evalPt N w i) (2 ^ c) (zval q.toNat (Y.take N)) i := by
    rcases Nat.eq_zero_or_pos c with hc0 | hc0
    · subst hc0
      have hstop : nttLoop N tab q qInv N 2 (2 ^ 0) (Y.take N) = Y.take N := by
        have h2 : ¬ 2 < N := by omega
        cases hN' : N with
        | zero => rfl
        | succ f => rw [nttLoop, if_neg (by omega)]
      rw [hstop]
      exact ⟨fun k hk => by have := hYb k hk; omega, fun i _ => by rw [pow_zero, blockEval_one]⟩
    · have hcN : c ≤ N := by
        rw [hNn]
        exact le_trans (by omega) (Nat.lt_two_pow_self (n := c + 1)).le
      obtain ⟨z1, z2, z3⟩ := nttLoop_spec hinv hq hNn htab hw (B := B') hB hB2
        N 1 c (Y.take N) (by omega) hcN (by omega) hYt
        (by rw [if_neg (by omega)]; intro k hk; have := hYb k hk; omega)
      rw [show (2 : ℕ) ^ 1 = 2 from rfl] at z1 z2 z3
      exact ⟨fun k hk => by have := z2 k hk; omega, z3⟩
  refine ⟨by rw [hdef, l1, hYlen], fun k hk => by rw [hat k hk]; exact hfin.1 k hk, fun i hi => ?_⟩
  have e1 : zval q.toNat (nttLazyMem x N tab q qInv) i =
      zval q.toNat (nttLoop N tab q qInv N 2 (2 ^ c) (Y.take N)) i := by
    unfold zval; rw [hat i hi]
  rw [e1, hfin.2 i hi, blockEval_congr (N := N) _ ⟨2, by omega⟩ hi Y2, y3 i hi, hN2',
    blockEval_full _ _ _ hi]
  exact Finset.sum_congr rfl fun j hj => by rw [hzt j (Finset.mem_range.1 hj)]

/-! ### Spreading -/

theorem setBlock_spec (c : UInt64) (b g : ℕ) (x : Row) (hl : b + g ≤ x.length) :
    ((List.range g).foldl (fun x w => x.set (b + w) c) x).length = x.length ∧
    ∀ k, Row.at ((List.range g).foldl (fun x w => x.set (b + w) c) x) k =
      if b ≤ k ∧ k < b + g then c else x.at k := by
  induction g with
  | zero => exact ⟨rfl, fun k => by rw [if_neg (by omega)]; rfl⟩
  | succ g ih =>
    obtain ⟨i1, i2⟩ := ih (by omega)
    simp only [List.range_succ, List.foldl_append, List.foldl_cons, List.foldl_nil]
    refine ⟨by rw [List.length_set]; exact i1, fun k => ?_⟩
    rw [Row.at_set, i2 k, i1]
    by_cases h : k = b + g
    · rw [if_pos ⟨h, by omega⟩, if_pos (by omega)]
    · rw [if_neg (by tauto)]
      have e : (b ≤ k ∧ k < b + g) ↔ (b ≤ k ∧ k < b + (g + 1)) := by omega
      simp only [e]

theorem mapSmallToLargeRow_spec (small large : Row) (gap : ℕ) (hs : 0 < small.length)
    (hl : large.length = small.length * gap) :
    (mapSmallToLargeRow small large).length = large.length ∧
    ∀ k < large.length, (mapSmallToLargeRow small large).at k = small.at (k / gap) := by
  have hgap : large.length / small.length = gap := by
    rw [hl, mul_comm, Nat.mul_div_cancel _ hs]
  unfold mapSmallToLargeRow
  simp only [hgap]
  have key : ∀ n ≤ small.length, ∃ y, y = (List.range n).foldl (fun large i =>
      (List.range gap).foldl (fun large w => large.set (i * gap + w) (small.at i)) large) large ∧
      y.length = large.length ∧ ∀ k < n * gap, Row.at y k = small.at (k / gap) := by
    intro n hn
    induction n with
    | zero => exact ⟨_, rfl, rfl, fun k hk => by omega⟩
    | succ n ih =>
      obtain ⟨y, hy, i1, i2⟩ := ih (by omega)
      have hle : (n + 1) * gap ≤ small.length * gap := Nat.mul_le_mul_right _ hn
      have e : (n + 1) * gap = n * gap + gap := by ring
      obtain ⟨j1, j2⟩ := setBlock_spec (small.at n) (n * gap) gap y (by omega)
      refine ⟨_, rfl, ?_, fun k hk => ?_⟩
      · rw [List.range_succ, List.foldl_append, ← hy]
        exact j1.trans i1
      · rw [List.range_succ, List.foldl_append, ← hy]
        refine (j2 k).trans ?_
        by_cases h : n * gap ≤ k
        · rw [if_pos ⟨h, by omega⟩]
          congr 1
          exact (Nat.div_eq_of_lt_le h (by omega)).symm
        · rw [if_neg (by omega)]
          exact i2 k (by omega)
  obtain ⟨y, hy, h1, h2⟩ := key small.length le_rfl
  rw [← hy]
  exact ⟨h1, fun k hk => h2 k (by omega)⟩

theorem spreadRow_spec (n gap : ℕ) (x : Row) (hg : 0 < gap) (hl : n * gap ≤ x.length) :
    (spreadRow n gap x).length = x.length ∧
    ∀ k < n * gap, (spreadRow n gap x).at k = x.at (k / gap) := by
  have key : ∀ n, ∀ x : Row, n * gap ≤ x.length →
      (spreadRow n gap x).length = x.length ∧
      (∀ k < n * gap, (spreadRow n gap x).at k = x.at (k / gap)) ∧
      (∀ k, n * gap ≤ k → (spreadRow n gap x).at k = x.at k) := by
    intro n
    induction n with
    | zero => intro x _; exact ⟨rfl, fun k hk => by omega, fun k _ => rfl⟩
    | succ n ih =>
      intro x hl
      have e : (n + 1) * gap = n * gap + gap := by ring
      obtain ⟨j1, j2⟩ := setBlock_spec (x.at n) (n * gap) gap x (by omega)
      generalize hy : (List.range gap).foldl (fun x' w => List.set x' (n * gap + w) (x.at n)) x = y
        at j1 j2
      have hstep : spreadRow (n + 1) gap x = spreadRow n gap y := by
        unfold spreadRow
        rw [List.range_succ, List.reverse_append, List.foldl_append, ← hy]
        rfl
      obtain ⟨i1, i2, i3⟩ := ih y (by omega)
      rw [hstep]
      refine ⟨by omega, fun k hk => ?_, fun k hk => ?_⟩
      · by_cases h : n * gap ≤ k
        · rw [i3 k h, j2, if_pos ⟨h, by omega⟩]
          congr 1
          exact (Nat.div_eq_of_lt_le h (by omega)).symm
        · have hd : k / gap < n := by rw [Nat.div_lt_iff_lt_mul hg]; omega
          have hlt : k / gap < n * gap := lt_of_lt_of_le hd (Nat.le_mul_of_pos_right _ hg)
          rw [i2 k (by omega), j2, if_neg (by omega)]
      · rw [i3 k (by omega), j2, if_neg (by omega)]
  exact ⟨(key n x hl).1, (key n x hl).2.1⟩

theorem onPrefix_at (len : ℕ) (f : UInt64 → UInt64) (x : Row) (k : ℕ) (hk : k < len)
    (hl : len ≤ x.length) :
    (onPrefix len (fun y => y.map f) x).at k = f (x.at k) := by
  have h8 : len ≤ roundUp len 8 := by unfold roundUp; omega
  unfold onPrefix Row.at
  have hk' : k < ((x.take (roundUp len 8)).map f).length := by
    rw [List.length_map, List.length_take]; omega
  rw [List.getD_append _ _ _ _ hk', List.getD_eq_getElem _ _ hk', List.getElem_map,
    List.getElem_take, List.getD_eq_getElem _ _ (by omega)]

theorem onPrefix_length (len : ℕ) (f : UInt64 → UInt64) (x : Row) :
    (onPrefix len (fun y => y.map f) x).length = x.length := by
  unfold onPrefix
  rw [List.length_append, List.length_map, ← List.length_append, List.take_append_drop]

/-! ### The table of the large ring serves the small degree -/

theorem table_small {s : SubRing} {m d : ℕ} (V : s.Valid (m + d)) :
    TwTable (2 ^ m) s.q s.nttPsi (fun k => (s.psi ^ 2 ^ d) ^ revBits m k) := by
  intro k hk
  have hle : 2 ^ m ≤ 2 ^ (m + d) := Nat.pow_le_pow_right (by omega) (by omega)
  obtain ⟨h1, h2⟩ := V.table k (by omega)
  refine ⟨h1, ?_⟩
  rw [h2]
  unfold SubRing.tw
  rw [revBits_extend m d k hk, pow_mul]

theorem psi_small_pow {s : SubRing} {m d : ℕ} (V : s.Valid (m + d)) :
    (s.psi ^ 2 ^ d) ^ 2 ^ m = -1 := by
  rw [← pow_mul, ← pow_add, add_comm, V.psi_pow]

/-- One row of the sparse transform. -/
theorem sparseNttRow_is {s : SubRing} {m d : ℕ} (V : s.Valid (m + d)) (hm : 1 ≤ m)
    (h16 : 4 ≤ m + d) (hq : s.q.toNat < 2 ^ 61) {B : ℕ} (hB2 : B + 6 * s.q.toNat ≤ 2 ^ 64) (mont : Bool)
    {x : Row} (hx : x.length = 2 ^ (m + d))
    (hz : 4 ≤ m ∨ ∀ k, 2 ^ m ≤ k → k < 16 → x.at k = 0)
    {v : ℕ → ZMod s.q.toNat} (hb : ∀ k < 2 ^ m, (x.at k).toNat < B)
    (hv : ∀ k < 2 ^ m, zval s.q.toNat x k = v k) :
    RowIs (2 ^ (m + d)) s.q.toNat s.q.toNat (s.sparseNttRow (2 ^ (m + d)) (2 ^ m) mont x)
      (fun k => evals s.psi (m + d) (spread (2 ^ d) v) k * (if mont then 2 ^ 64 else 1)) := by
  have h16' : 16 ≤ 2 ^ (m + d) := by
    calc 16 = 2 ^ 4 := rfl
      _ ≤ _ := Nat.pow_le_pow_right (by omega) h16
  have hle : 2 ^ m ≤ 2 ^ (m + d) := Nat.pow_le_pow_right (by omega) (by omega)
  have hgap : 2 ^ (m + d) / 2 ^ m = 2 ^ d := by
    rw [pow_add, mul_comm, Nat.mul_div_cancel _ (by positivity)]
  have hmul : 2 ^ m * 2 ^ d = 2 ^ (m + d) := (pow_add 2 m d).symm
  -- the transform
  have hmax : ∃ B', 4 * s.q.toNat ≤ B' ∧ B + 2 * s.q.toNat ≤ B' ∧ B' + 4 * s.q.toNat ≤ 2 ^ 64 := by
    rcases Nat.le_total (4 * s.q.toNat) (B + 2 * s.q.toNat) with h | h
    · exact ⟨B + 2 * s.q.toNat, h, le_rfl, by omega⟩
    · exact ⟨4 * s.q.toNat, le_rfl, h, by omega⟩
  obtain ⟨B', hB1, hB3, hB4⟩ := hmax
  obtain ⟨t1, t2, t3⟩ := nttLazyMem_spec V.mred (by omega) rfl hm (table_small V)
    (twLaw_of_psi (psi_small_pow V)) hB1 hB3 hB4 x (by rw [hx]; omega) hz hb
  generalize hL : nttLazyMem x (2 ^ m) s.nttPsi s.q s.mred = L at t1 t2 t3
  have A := V.arith
  have hvals : ∀ k < 2 ^ m, zval s.q.toNat L k = evals (s.psi ^ 2 ^ d) m v k := by
    intro k hk
    rw [t3 k hk]
    unfold evals
    apply sum_congr rfl
    intro j hj
    rw [hv j (mem_range.1 hj), evalPt_psi (psi_small_pow V) hm hk]
    rfl
  -- reduction
  have hM : nttMem x (2 ^ m) s.nttPsi s.q s.mred s.bred =
      onPrefix (2 ^ m) (fun y => y.map (fun x => bredAdd x s.q s.bred)) L := by
    unfold nttMem; rw [hL]; rfl
  have hMlen : (nttMem x (2 ^ m) s.nttPsi s.q s.mred s.bred).length = 2 ^ (m + d) := by
    rw [hM, onPrefix_length, t1, hx]
  have hMat : ∀ k < 2 ^ m, ((nttMem x (2 ^ m) s.nttPsi s.q s.mred s.bred).at k).toNat < s.q.toNat ∧
      zval s.q.toNat (nttMem x (2 ^ m) s.nttPsi s.q s.mred s.bred) k = evals (s.psi ^ 2 ^ d) m v k := by
    intro k hk
    unfold zval
    rw [hM, onPrefix_at _ _ _ _ hk (by rw [t1, hx]; exact hle), A.bred, ← hvals k hk]
    unfold zval
    rw [bredAdd_toNat A.one_lt A.lt.le]
    exact ⟨Nat.mod_lt _ (by have := A.one_lt; omega), ZMod.natCast_mod _ _⟩
  generalize hM' : nttMem x (2 ^ m) s.nttPsi s.q s.mred s.bred = M at hMlen hMat
  -- Montgomery form
  have hP : ∃ P, P = (if mont then onPrefix (2 ^ m) (fun z => mformVec z s.q s.bred) M else M) ∧
      P.length = 2 ^ (m + d) ∧ ∀ k < 2 ^ m, (Row.at P k).toNat < s.q.toNat ∧
        zval s.q.toNat P k = evals (s.psi ^ 2 ^ d) m v k * (if mont then 2 ^ 64 else 1) := by
    refine ⟨_, rfl, ?_⟩
    cases mont with
    | false => simpa using ⟨hMlen, hMat⟩
    | true =>
      simp only [if_true]
      have hf : onPrefix (2 ^ m) (fun z => mformVec z s.q s.bred) M =
          onPrefix (2 ^ m) (fun z => z.map (fun x => mform x s.q s.bred)) M := rfl
      rw [hf]
      refine ⟨by rw [onPrefix_length, hMlen], fun k hk => ?_⟩
      unfold zval
      rw [onPrefix_at _ _ _ _ hk (by rw [hMlen]; exact hle), A.bred, ← (hMat k hk).2]
      have h := mform_zmod A.one_lt A.lt.le (M.at k)
      exact ⟨h.1, h.2⟩
  obtain ⟨P, hPd, hPl, hPv⟩ := hP
  obtain ⟨s1, s2⟩ := spreadRow_spec (2 ^ m) (2 ^ d) P (by positivity) (by rw [hPl, hmul])
  have hdef : s.sparseNttRow (2 ^ (m + d)) (2 ^ m) mont x = spreadRow (2 ^ m) (2 ^ d) P := by
    unfold SubRing.sparseNttRow
    simp only [hM', hgap]
    rw [hPd]
  rw [hdef]
  have hdiv : ∀ k < 2 ^ (m + d), k / 2 ^ d < 2 ^ m := by
    intro k hk
    rw [Nat.div_lt_iff_lt_mul (by positivity), hmul]; exact hk
  refine ⟨by rw [s1, hPl], fun k hk => ?_, fun k hk => ?_⟩
  · rw [s2 k (by rw [hmul]; exact hk)]
    exact (hPv _ (hdiv k hk)).1
  · have := (hPv _ (hdiv k hk)).2
    unfold zval at this ⊢
    rw [s2 k (by rw [hmul]; exact hk), this, evals_spread V.psi_pow]

/-! ### Two rings over the same moduli -/

theorem genSub_root {fuel n : ℕ} {q : UInt64} {s : SubRing} (hn' : n < 63)
    (hq1 : 1 < q.toNat) (hq : q.toNat < 2 ^ 63) (h : genSub fuel (2 * 2 ^ n) q = some s) :
    ∃ g, primitiveRoot fuel q = some g ∧
      (s.psiMont.toNat : ZMod q.toNat) = (g.toNat : ZMod q.toNat) ^ ((q.toNat - 1) / (2 * 2 ^ n)) * 2 ^ 64 := by
  unfold genSub at h
  simp only [Option.bind_eq_some_iff] at h
  obtain ⟨g, hg, hs⟩ := h
  refine ⟨g, hg, ?_⟩
  simp only [Option.some.injEq] at hs
  subst hs
  have hpow : 2 ^ (n + 1) < 2 ^ 64 := Nat.pow_lt_pow_right (by omega) (by omega)
  have hnr : (UInt64.ofNat (2 * 2 ^ n)).toNat = 2 * 2 ^ n := by
    rw [UInt64.toNat_ofNat']; exact Nat.mod_eq_of_lt (by rw [pow_succ] at hpow; omega)
  have hqq : (q - 1).toNat = q.toNat - 1 := by
    rw [toNat_sub_of_le' (by rw [UInt64.toNat_one]; omega), UInt64.toNat_one]
  have m1 := mform_zmod hq1 hq.le (modExp g ((q - 1) / UInt64.ofNat (2 * 2 ^ n)) q)
  rw [modExp_zmod hq1 hq.le, UInt64.toNat_div, hnr, hqq] at m1
  exact m1.2

theorem forall2_getD {α β : Type*} {R : α → β → Prop} {l : List α} {l' : List β}
    (h : List.Forall₂ R l l') (a : α) (b : β) {i : ℕ} (hi : i < l.length) :
    R (l.getD i a) (l'.getD i b) := by
  induction h generalizing i with
  | nil => simp at hi
  | cons hr _ ih =>
    cases i with
    | zero => exact hr
    | succ i => exact ih (by simpa using hi)

/-- The roots of unity of two rings over the same moduli fit together. -/
theorem newRing_roots {fuel m d : ℕ} {moduli : List UInt64} {r1 r2 : Ring} (hmd : m + d < 62)
    (hq : ∀ q ∈ moduli, q.toNat < 2 ^ 63)
    (h1 : newRing fuel (2 ^ m) moduli = .ok r1) (h2 : newRing fuel (2 ^ (m + d)) moduli = .ok r2)
    {i : ℕ} (hi : i < moduli.length) :
    (r1.sub i).Valid m ∧ (r2.sub i).Valid (m + d) ∧ (r1.sub i).q = (r2.sub i).q ∧
    ((r1.sub i).psiMont.toNat : ZMod (r2.sub i).q.toNat) = (r2.sub i).psi ^ 2 ^ d * 2 ^ 64 := by
  obtain ⟨e1, v1⟩ := newRingCustom_valid (n := m) (m := m) le_rfl (by omega) rfl hq h1
  obtain ⟨e2, v2⟩ := newRingCustom_valid (n := m + d) (m := m + d) le_rfl (by omega) rfl hq h2
  have f1 := forall2_getD (newRingCustom_ok h1).2.2.2.2.2.2.2.2.2 0 default hi
  have f2 := forall2_getD (newRingCustom_ok h2).2.2.2.2.2.2.2.2.2 0 default hi
  have l1 : r1.subs.length = moduli.length := by rw [← e1]; simp [Ring.moduli]
  have l2 : r2.subs.length = moduli.length := by rw [← e2]; simp [Ring.moduli]
  have V1 := v1 _ (Ring.sub_mem (r := r1) (i := i) (by omega))
  have V2 := v2 _ (Ring.sub_mem (r := r2) (i := i) (by omega))
  have hmem : moduli.getD i 0 ∈ moduli := by
    rw [List.getD_eq_getElem _ _ hi]; exact List.getElem_mem hi
  have q1 : (r1.sub i).q = moduli.getD i 0 := by
    conv_rhs => rw [← e1]
    simp [Ring.moduli, Ring.sub, List.getD, show i < r1.subs.length by omega]
  have q2 : (r2.sub i).q = moduli.getD i 0 := by
    conv_rhs => rw [← e2]
    simp [Ring.moduli, Ring.sub, List.getD, show i < r2.subs.length by omega]
  refine ⟨V1, V2, q1.trans q2.symm, ?_⟩
  have hone : 1 < (moduli.getD i 0).toNat := by rw [← q1]; exact V1.prime.one_lt
  obtain ⟨g1, hg1, p1⟩ := genSub_root (by omega) hone (hq _ hmem) f1
  obtain ⟨g2, hg2, p2⟩ := genSub_root (by omega) hone (hq _ hmem) f2
  rw [hg1] at hg2
  cases hg2
  have hdvd : 2 ^ (m + d + 1) ∣ (moduli.getD i 0).toNat - 1 := by
    have := V2.one_mod
    rw [q2] at this
    exact (Nat.modEq_iff_dvd' (by omega)).1 (show 1 % _ = _ % _ by
      rw [this, Nat.mod_eq_of_lt (Nat.one_lt_two_pow (by omega))])
  obtain ⟨c, hc⟩ := hdvd
  have hexp : ((moduli.getD i 0).toNat - 1) / (2 * 2 ^ m) =
      ((moduli.getD i 0).toNat - 1) / (2 * 2 ^ (m + d)) * 2 ^ d := by
    rw [hc, show 2 ^ (m + d + 1) * c = 2 * 2 ^ (m + d) * c by ring,
      Nat.mul_div_cancel_left _ (by positivity),
      show 2 * 2 ^ (m + d) * c = 2 * 2 ^ m * (c * 2 ^ d) by rw [pow_add]; ring,
      Nat.mul_div_cancel_left _ (by positivity)]
  have hs1 : r1.subs.getD i default = r1.sub i := rfl
  have hs2 : r2.subs.getD i default = r2.sub i := rfl
  rw [hs1] at p1
  rw [hs2] at p2
  have hP := V2.psiMont.2
  rw [← q2] at p1 p2 hexp
  rw [p1, hexp, pow_mul]
  rw [p2] at hP
  rw [(two_pow_unit V2.odd).mul_right_cancel hP]

/-- The small ring's transform in terms of the large ring's root. -/
theorem nttSmall_is {s1 s2 : SubRing} {m d : ℕ} (V1 : s1.Valid m) (V2 : s2.Valid (m + d))
    (hqq : s1.q = s2.q)
    (hroot : (s1.psiMont.toNat : ZMod s2.q.toNat) = s2.psi ^ 2 ^ d * 2 ^ 64) (hm : 2 ≤ m)
    (hq : s2.q.toNat < 2 ^ 61) {B : ℕ} (hB2 : B + 4 * s2.q.toNat ≤ 2 ^ 64) {x : Row}
    {v : ℕ → ZMod s2.q.toNat} (hx : RowIs (2 ^ m) s2.q.toNat B x v) :
    RowIs (2 ^ m) s2.q.toNat s2.q.toNat (s1.ntt (2 ^ m) x) (evals (s2.psi ^ 2 ^ d) m v) := by
  have hodd := V2.odd
  obtain ⟨q1, a1, a2, a3, a4, a5, a6, a7, a8⟩ := s1
  dsimp only at hqq
  subst hqq
  have hp : SubRing.psi ⟨s2.q, a1, a2, a3, a4, a5, a6, a7, a8⟩ = s2.psi ^ 2 ^ d := by
    unfold SubRing.psi at hroot ⊢
    dsimp only at hroot ⊢
    rw [hroot, inv_two_pow hodd]
  have := ntt_is V1 hm hq hB2 hx
  rw [hp] at this
  exact this

/-! ### Strided copies -/

theorem strideCopy_spec (c step0 step1 : ℕ) (inp out : Row) (h0 : 0 < step0)
    (hl : c * step0 ≤ out.length) :
    (strideCopy (c * step0) step0 step1 inp out).length = out.length ∧
    ∀ k < c * step0, (strideCopy (c * step0) step0 step1 inp out).at k =
      if k % step0 = 0 then inp.at (k / step0 * step1) else out.at k := by
  have hcnt : (c * step0 + step0 - 1) / step0 = c := by
    rw [show c * step0 + step0 - 1 = (step0 - 1) + step0 * c by rw [mul_comm]; omega,
      Nat.add_mul_div_left _ _ h0, Nat.div_eq_of_lt (by omega), Nat.zero_add]
  unfold strideCopy
  rw [hcnt]
  have key : ∀ n ≤ c, ∃ y, y = (List.range n).foldl
      (fun out k => out.set (k * step0) (inp.at (k * step1))) out ∧ y.length = out.length ∧
      ∀ k < c * step0, Row.at y k =
        if k % step0 = 0 ∧ k / step0 < n then inp.at (k / step0 * step1) else out.at k := by
    intro n hn
    induction n with
    | zero => exact ⟨_, rfl, rfl, fun k _ => by rw [if_neg (fun h => Nat.not_lt_zero _ h.2)]; rfl⟩
    | succ n ih =>
      obtain ⟨y, hy, i1, i2⟩ := ih (by omega)
      refine ⟨_, rfl, ?_, fun k hk => ?_⟩
      · rw [List.range_succ, List.foldl_append, ← hy]
        simp only [List.foldl_cons, List.foldl_nil, List.length_set]
        exact i1
      · rw [List.range_succ, List.foldl_append, ← hy]
        simp only [List.foldl_cons, List.foldl_nil]
        have hlt : n * step0 < out.length := by
          exact lt_of_lt_of_le (Nat.mul_lt_mul_of_pos_right (by omega) h0) hl
        have e1 := Nat.div_add_mod k step0
        rw [Row.at_set, i1]
        by_cases hkn : k = n * step0
        · subst hkn
          rw [if_pos ⟨rfl, hlt⟩, if_pos ⟨by simp, by rw [Nat.mul_div_cancel _ h0]; omega⟩,
            Nat.mul_div_cancel _ h0]
        · rw [if_neg (by tauto), i2 k hk]
          have : (k % step0 = 0 ∧ k / step0 < n) ↔ (k % step0 = 0 ∧ k / step0 < n + 1) := by
            constructor
            · rintro ⟨a, b⟩; exact ⟨a, by omega⟩
            · rintro ⟨a, b⟩
              refine ⟨a, ?_⟩
              by_contra hc
              have : k / step0 = n := by omega
              apply hkn
              rw [← e1, a, this, Nat.add_zero, mul_comm]
          simp only [this]
  obtain ⟨y, hy, h1, h2⟩ := key c le_rfl
  rw [← hy]
  refine ⟨h1, fun k hk => ?_⟩
  rw [h2 k hk]
  have : k / step0 < c := by rw [Nat.div_lt_iff_lt_mul h0]; exact hk
  simp [this]

end FastKsw
