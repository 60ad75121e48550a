import Verif.Spec.Gauss
import Verif.Lemmas.EltIs
import Verif.Lemmas.Margin

/-!
# Products by constants `a + b X^(N/2)` in the NTT domain
-/

namespace FastKsw

open Finset Props

theorem revBits_one {n : ℕ} (hn : 1 ≤ n) : revBits n 1 = 2 ^ (n - 1) := by
  have := revBits_extend 1 (n - 1) 1 (by norm_num)
  rw [show 1 + (n - 1) = n by omega, show revBits 1 1 = 1 by decide, mul_one] at this
  exact this

theorem revBits_mod_two {n k : ℕ} (hn : 1 ≤ n) (hk : k < 2 ^ n) : revBits n k % 2 = if k < 2 ^ (n - 1) then 0 else 1 := by
  have h := revBits_testBit n k 0
  rw [Nat.testBit_zero] at h
  have e : 2 ^ n = 2 * 2 ^ (n - 1) := by rw [← pow_succ', show n - 1 + 1 = n by omega]
  have t : k.testBit (n - 1) = decide (2 ^ (n - 1) ≤ k) := by
    rw [Nat.testBit_eq_decide_div_mod_eq]
    congr 1
    by_cases hc : k < 2 ^ (n - 1)
    · rw [Nat.div_eq_of_lt hc]; simp; exact hc
    · rw [Nat.div_eq_of_lt_le (k := 1) (by omega) (by omega)]; simp; omega
  split
  · rename_i hc
    simp only [show n - 1 - 0 = n - 1 by omega, t] at h
    have : ¬ (2 ^ (n - 1) ≤ k) := by omega
    simp [this] at h
    omega
  · rename_i hc
    simp only [show n - 1 - 0 = n - 1 by omega, t] at h
    have h1 : 2 ^ (n - 1) ≤ k := by omega
    have h2 : 0 < n := hn
    simp [h1, h2] at h
    omega

section
variable {q : ℕ} [Fact q.Prime] {n : ℕ} {psi : ZMod q} (hp : PsiOK psi n)
include hp

theorem nttPoint_half {k : ℕ} (hk : k < 2 ^ n) :
    nttPoint psi n k ^ 2 ^ (n - 1) = if k < 2 ^ (n - 1) then psi ^ 2 ^ (n - 1) else -psi ^ 2 ^ (n - 1) := by
  have h1 := hp.pos
  have e : 2 ^ n = 2 * 2 ^ (n - 1) := by rw [← pow_succ', show n - 1 + 1 = n by omega]
  have e2 : (2 * revBits n k + 1) * 2 ^ (n - 1) = 2 ^ n * revBits n k + 2 ^ (n - 1) := by rw [e]; ring
  rw [nttPoint, ← pow_mul, e2, pow_add, pow_mul, hp.pow]
  have h := revBits_mod_two h1 hk
  split at h
  · rename_i hc
    rw [if_pos hc, (Nat.even_iff.2 h).neg_one_pow, one_mul]
  · rename_i hc
    rw [if_neg hc, (Nat.odd_iff.2 h).neg_one_pow, neg_one_mul]

/-- the NTT of `a + b X^(N/2)` -/
theorem evalAt_gauss (a b : ℤ) {k : ℕ} (hk : k < 2 ^ n) :
    evalAt hp hk (gauss n q a b) =
      if k < 2 ^ (n - 1) then (a : ZMod q) + b * psi ^ 2 ^ (n - 1) else a - b * psi ^ 2 ^ (n - 1) := by
  rw [gauss, map_add, map_mul, map_pow, map_intCast, map_intCast]
  have : evalAt hp hk (AdjoinRoot.root _) = nttPoint psi n k := by
    rw [evalAt, evalHom, AdjoinRoot.lift_root]
  rw [this, nttPoint_half hp hk]
  split <;> ring

theorem ofNtt_gauss (a b : ℤ) (v : ℕ → ZMod q) :
    ofNtt psi n (fun k => (if k < 2 ^ (n - 1) then (a : ZMod q) + b * psi ^ 2 ^ (n - 1) else a - b * psi ^ 2 ^ (n - 1)) * v k)
      = gauss n q a b * ofNtt psi n v := by
  apply ext_eval hp
  intro k hk
  rw [map_mul, evalAt_ofNtt, evalAt_ofNtt, evalAt_gauss]

end

theorem gauss_mul (n q : ℕ) (hn : 1 ≤ n) (a b c d : ℤ) :
    gauss n q a b * gauss n q c d = gauss n q (a * c - b * d) (a * d + b * c) := by
  have h : (AdjoinRoot.root ((Polynomial.X : Polynomial (ZMod q)) ^ 2 ^ n + 1)) ^ 2 ^ (n - 1)
      * (AdjoinRoot.root ((Polynomial.X : Polynomial (ZMod q)) ^ 2 ^ n + 1)) ^ 2 ^ (n - 1) = -1 := by
    rw [← pow_add, ← two_mul, ← pow_succ', show n - 1 + 1 = n by omega]
    have := AdjoinRoot.eval₂_root ((Polynomial.X : Polynomial (ZMod q)) ^ 2 ^ n + 1)
    simp only [Polynomial.eval₂_add, Polynomial.eval₂_pow, Polynomial.eval₂_X, Polynomial.eval₂_one] at this
    exact eq_neg_of_add_eq_zero_left this
  unfold gauss
  push_cast
  linear_combination (b * d : Rq (2 ^ n) q) * h

theorem gauss_one (n q : ℕ) : gauss n q 1 0 = 1 := by simp [gauss]

theorem gauss_int (n q : ℕ) (a : ℤ) : gauss n q a 0 = a := by simp [gauss]

/-- the two words of a row in Montgomery form hold `a ± b psi^(N/2)` -/
structure GaussPair (s : SubRing) (n : ℕ) (c : UInt64 × UInt64) (a b : ℤ) : Prop where
  le1 : c.1.toNat ≤ s.q.toNat
  le2 : c.2.toNat ≤ s.q.toNat
  val1 : (c.1.toNat : ZMod s.q.toNat) = (a + b * s.psi ^ 2 ^ (n - 1)) * 2 ^ 64
  val2 : (c.2.toNat : ZMod s.q.toNat) = (a - b * s.psi ^ 2 ^ (n - 1)) * 2 ^ 64

theorem mred_any {s : SubRing} (hs : s.Arith) {c : UInt64} (hc : c.toNat ≤ s.q.toNat) (x : UInt64) :
    (mred x c s.q s.mred).toNat < s.q.toNat ∧
      ((mred x c s.q s.mred).toNat : ZMod s.q.toNat) = x.toNat * c.toNat * rinv s.q.toNat := by
  refine word_mred hs x c ?_
  have h1 := hs.one_lt
  calc x.toNat * c.toNat ≤ x.toNat * s.q.toNat := Nat.mul_le_mul_left _ hc
    _ < 2 ^ 64 * s.q.toNat := Nat.mul_lt_mul_of_pos_right (UInt64.toNat_lt x) (by omega)
    _ = _ := mul_comm _ _

theorem at_halves {N : ℕ} {f g : UInt64 → UInt64} {x : Row} {k : ℕ} (hk : k < x.length) :
    (halves N (List.map f) (List.map g) x).at k = if k < N >>> 1 then f (x.at k) else g (x.at k) := by
  unfold halves Row.at
  rw [List.getD_eq_getElem?_getD, List.getD_eq_getElem?_getD, List.getElem?_append, List.length_map, List.length_take]
  by_cases h : k < N >>> 1
  · rw [if_pos (by omega), if_pos h]
    simp [h, hk]
  · rw [if_neg (by omega), if_neg h, List.getElem?_map, List.getElem?_drop]
    by_cases h' : x.length ≤ N >>> 1
    · omega
    · rw [min_eq_left (by omega), show N >>> 1 + (k - N >>> 1) = k by omega]
      simp [hk]

theorem length_halves {N : ℕ} {f g : UInt64 → UInt64} {x : Row} :
    (halves N (List.map f) (List.map g) x).length = x.length := by
  unfold halves
  rw [List.length_append, List.length_map, List.length_map, List.length_take, List.length_drop]
  omega

/-- different words on the two halves -/
theorem RowIs.halves {n q A C : ℕ} {f g : UInt64 → UInt64} {F G : ZMod q → ZMod q} {x : Row} {v : ℕ → ZMod q} (hn : 1 ≤ n)
    (hx : RowIs (2 ^ n) q A x v)
    (hf : ∀ u : UInt64, u.toNat < A → (f u).toNat < C ∧ ((f u).toNat : ZMod q) = F (u.toNat : ZMod q))
    (hg : ∀ u : UInt64, u.toNat < A → (g u).toNat < C ∧ ((g u).toNat : ZMod q) = G (u.toNat : ZMod q)) :
    RowIs (2 ^ n) q C (FastKsw.halves (2 ^ n) (List.map f) (List.map g) x)
      (fun k => if k < 2 ^ (n - 1) then F (v k) else G (v k)) := by
  have e : (2 ^ n) >>> 1 = 2 ^ (n - 1) := by
    rw [Nat.shiftRight_eq_div_pow, pow_one]
    have e : 2 ^ n = 2 * 2 ^ (n - 1) := by rw [← pow_succ', show n - 1 + 1 = n by omega]
    omega
  refine ⟨length_halves.trans hx.len, fun k hk => ?_, fun k hk => ?_⟩
  · rw [at_halves (by rw [hx.len]; exact hk), e]
    split
    · exact (hf _ (hx.lt k hk)).1
    · exact (hg _ (hx.lt k hk)).1
  · rw [zval, at_halves (by rw [hx.len]; exact hk), e, ← hx.val k hk]
    split
    · exact (hf _ (hx.lt k hk)).2
    · exact (hg _ (hx.lt k hk)).2

theorem mulPairRow_is {n : ℕ} (hn : 1 ≤ n) {s : SubRing} (hs : s.Arith) {c : UInt64 × UInt64} {a b : ℤ} (hc : GaussPair s n c a b)
    {A : ℕ} {x : Row} {v : ℕ → ZMod s.q.toNat} (hx : RowIs (2 ^ n) s.q.toNat A x v) :
    RowIs (2 ^ n) s.q.toNat s.q.toNat (mulPairRow (2 ^ n) s c.1 c.2 x)
      (fun k => (if k < 2 ^ (n - 1) then (a : ZMod s.q.toNat) + b * s.psi ^ 2 ^ (n - 1)
        else a - b * s.psi ^ 2 ^ (n - 1)) * v k) := by
  refine (RowIs.halves (q := s.q.toNat) (F := fun y : ZMod s.q.toNat => y * c.1.toNat * rinv s.q.toNat)
    (G := fun y : ZMod s.q.toNat => y * c.2.toNat * rinv s.q.toNat)
    (f := fun y => mred y c.1 s.q s.mred) (g := fun y => mred y c.2 s.q s.mred) hn hx
    (fun u _ => mred_any hs hc.le1 u) (fun u _ => mred_any hs hc.le2 u)).congr fun k _ => ?_
  have hR : (2 : ZMod s.q.toNat) ^ 64 * rinv s.q.toNat = 1 := mul_rinv hs.odd
  split
  · rw [hc.val1]; linear_combination (v k * (a + b * s.psi ^ 2 ^ (n - 1))) * hR
  · rw [hc.val2]; linear_combination (v k * (a - b * s.psi ^ 2 ^ (n - 1))) * hR

/-- **product of a polynomial by `a + b X^(N/2)`** -/
theorem mulPairLvl_elt {n : ℕ} {r : Ring} (hr : r.Valid n) {level : ℕ} (hl : level < r.subs.length) {A : ℕ → ℕ}
    {c : ℕ → UInt64 × UInt64} {a b : ℤ} (hc : ∀ u ≤ level, GaussPair (r.sub u) n (c u) a b) {p0 p1 : Rows} {x}
    (h0 : EltIs n r level A true p0 x) (h1 : level < p1.length) :
    EltWritten n r level r.qs true p1 (r.mulPairLvl level c p0 p1) (fun u => gauss n (r.qs u) a b * x u) := by
  have h4 := hr.four_le
  unfold Ring.mulPairLvl
  rw [hr.deg]
  refine (writeLvl_is (A := r.qs) (v := fun u k => (if k < 2 ^ (n - 1) then (a : ZMod (r.sub u).q.toNat) + b * (r.sub u).psi ^ 2 ^ (n - 1)
        else a - b * (r.sub u).psi ^ 2 ^ (n - 1)) * zval _ (p0.row u) k) h1 fun u hu => ?_).eltWritten hr fun u hu => ?_
  · have hx := (h0.polyIs hr).row u hu
    rw [hr.deg] at hx ⊢
    exact mulPairRow_is (by omega) (hr.subAt (show u < r.subs.length by omega)).arith (hc u hu) hx
  · have := (hr.subAt (show u < r.subs.length by omega)).fact
    rw [← h0.eltOf hr hu]
    simp only [Ring.eltOf, if_true]
    exact ofNtt_gauss ((hr.subAt (show u < r.subs.length by omega)).psiOK (by omega)) a b _

/-! ### Where the pairs come from -/

/-- `NttPsi[i][1]` is `psi^(N/2)` in Montgomery form -/
theorem SubRing.Valid.psi_half {n : ℕ} {s : SubRing} (hs : s.Valid n) (hn : 1 ≤ n) :
    (s.nttPsi.at 1).toNat < s.q.toNat ∧
      ((s.nttPsi.at 1).toNat : ZMod s.q.toNat) = s.psi ^ 2 ^ (n - 1) * 2 ^ 64 := by
  have := hs.table 1 (by have := Nat.one_lt_two_pow (show n ≠ 0 by omega); omega)
  rw [SubRing.tw, revBits_one hn] at this
  exact this

theorem cast_cred {q : ℕ} {a : UInt64} {qw : UInt64} (hq : qw.toNat = q) : ((cred a qw).toNat : ZMod q) = a.toNat :=
  cast_of_modEq (hq ▸ toNat_cred_modEq a qw)

/-- the pair made from the residues of `a` and `b`; `re` need not be reduced -/
theorem gaussPair_mform {n : ℕ} {s : SubRing} (hs : s.Valid n) (hn : 1 ≤ n) {re im : UInt64} {a b : ℤ}
    (hre : (re.toNat : ZMod s.q.toNat) = a) (him : (im.toNat : ZMod s.q.toNat) = b) (hlt : re.toNat + s.q.toNat < 2 ^ 64) :
    GaussPair s n (mform (cred (re + mred im (s.nttPsi.at 1) s.q s.mred) s.q) s.q s.bred,
      mform (cred (re + (s.q - mred im (s.nttPsi.at 1) s.q s.mred)) s.q) s.q s.bred) a b := by
  obtain ⟨p1, p2⟩ := hs.psi_half hn
  obtain ⟨m1, m2⟩ := mred_any hs.arith p1.le im
  have hR : (2 : ZMod s.q.toNat) ^ 64 * rinv s.q.toNat = 1 := mul_rinv hs.arith.odd
  have m3 : ((mred im (s.nttPsi.at 1) s.q s.mred).toNat : ZMod s.q.toNat) = b * s.psi ^ 2 ^ (n - 1) := by
    rw [m2, p2, him]
    linear_combination (b * s.psi ^ 2 ^ (n - 1)) * hR
  generalize mred im (s.nttPsi.at 1) s.q s.mred = w at m1 m3 ⊢
  have w1 := word_mform hs.arith (cred (re + w) s.q)
  have w2 := word_mform hs.arith (cred (re + (s.q - w)) s.q)
  have e1 : (re + w).toNat = re.toNat + w.toNat := by rw [UInt64.toNat_add, Nat.mod_eq_of_lt (by omega)]
  have e2 : (s.q - w).toNat = s.q.toNat - w.toNat := UInt64.toNat_sub_of_le _ _ (UInt64.le_iff_toNat_le.2 m1.le)
  have e3 : (re + (s.q - w)).toNat = re.toNat + (s.q.toNat - w.toNat) := by
    rw [UInt64.toNat_add, e2, Nat.mod_eq_of_lt (by omega)]
  refine ⟨w1.1.le, w2.1.le, ?_, ?_⟩
  · dsimp only
    rw [w1.2, cast_cred rfl, e1]
    push_cast
    rw [hre, m3]
  · dsimp only
    rw [w2.2, cast_cred rfl, e3]
    push_cast [Nat.cast_sub m1.le]
    rw [hre, m3, ZMod.natCast_self]
    ring

theorem gaussPair_same {n : ℕ} {s : SubRing} (hs : s.Valid n) {re : UInt64} {a : ℤ}
    (hre : (re.toNat : ZMod s.q.toNat) = a) :
    GaussPair s n (mform re s.q s.bred, mform re s.q s.bred) a 0 := by
  have w := word_mform hs.arith re
  refine ⟨w.1.le, w.1.le, ?_, ?_⟩ <;> dsimp only <;> rw [w.2, hre] <;> push_cast <;> ring

theorem gaussPair_i {n : ℕ} {s : SubRing} (hs : s.Valid n) (hn : 1 ≤ n) :
    GaussPair s n (s.nttPsi.at 1, s.q - s.nttPsi.at 1) 0 1 ∧ GaussPair s n (s.q - s.nttPsi.at 1, s.nttPsi.at 1) 0 (-1) := by
  obtain ⟨p1, p2⟩ := hs.psi_half hn
  have e2 : (s.q - s.nttPsi.at 1).toNat = s.q.toNat - (s.nttPsi.at 1).toNat :=
    UInt64.toNat_sub_of_le _ _ (UInt64.le_iff_toNat_le.2 p1.le)
  have c1 : ((s.q - s.nttPsi.at 1).toNat : ZMod s.q.toNat) = -(s.psi ^ 2 ^ (n - 1) * 2 ^ 64) := by
    rw [e2, Nat.cast_sub p1.le, p2, ZMod.natCast_self, zero_sub]
  refine ⟨⟨p1.le, by dsimp only; omega, ?_, ?_⟩, ⟨by dsimp only; omega, p1.le, ?_, ?_⟩⟩
  · dsimp only; rw [p2]; push_cast; ring
  · dsimp only; rw [c1]; push_cast; ring
  · dsimp only; rw [c1]; push_cast; ring
  · dsimp only; rw [p2]; push_cast; ring

/-! ### Fixed-point constants -/

/-- numbers with at most 52 significant bits are representable -/
theorem f64_nat_mul {m : ℕ} (hm : m ≤ 2 ^ 52) (k : ℤ) : f64 (m * (2 : ℚ) ^ k) = m * (2 : ℚ) ^ k := by
  rcases Nat.eq_zero_or_pos m with h0 | h0
  · subst h0; simp [f64]
  have hk : (0 : ℚ) < 2 ^ k := zpow_pos (by norm_num) _
  have hx : (0 : ℚ) < m * (2 : ℚ) ^ k := mul_pos (by exact_mod_cast h0) hk
  apply le_antisymm
  · exact f64_le_nat hx hm (k := k) le_rfl
  · refine le_f64_nat hx (m := m) (k := k) ?_ le_rfl
    have : Int.log 2 (m * (2 : ℚ) ^ k) ≤ k + 52 := by
      apply log_le_of_le hx
      calc (m : ℚ) * (2 : ℚ) ^ k ≤ 2 ^ 52 * (2 : ℚ) ^ k := mul_le_mul_of_nonneg_right (by exact_mod_cast hm) hk.le
        _ < 2 ^ 53 * (2 : ℚ) ^ k := mul_lt_mul_of_pos_right (by norm_num) hk
        _ = 2 ^ (k + 52 + 1) := by
          rw [zpow_add₀ (by norm_num), zpow_add₀ (by norm_num)]; norm_num; ring
    omega

theorem f64Add_half {m : ℕ} (hm : m < 2 ^ 51) : f64Add (f64 (m : ℚ)) (1 / 2) = m + 1 / 2 := by
  rw [f64_nat (by omega), f64Add]
  have := f64_nat_mul (m := 2 * m + 1) (by omega) (-1)
  have e : ((2 * m + 1 : ℕ) : ℚ) * (2 : ℚ) ^ (-1 : ℤ) = m + 1 / 2 := by push_cast; rw [zpow_neg_one]; ring
  rwa [e] at this

theorem floor_half (m : ℕ) : ⌊(m : ℚ) + 1 / 2⌋ = m := by
  rw [Int.floor_eq_iff]
  constructor <;> push_cast <;> linarith

/-- small integers are represented exactly -/
theorem fixedPoint_int {v : ℤ} (hv : |v| < 2 ^ 51) : fixedPoint v 1 = v := by
  have e : (1 : ℚ) * |(v : ℚ)| = ((v.natAbs : ℕ) : ℚ) := by
    rw [one_mul, Nat.cast_natAbs, Int.cast_abs]
  unfold fixedPoint
  dsimp only
  rw [e, f64Add_half (by rw [Int.abs_eq_natAbs] at hv; omega), floor_half]
  split
  · rename_i h
    have : v < 0 := by exact_mod_cast h
    omega
  · rename_i h
    have : 0 ≤ v := by exact_mod_cast not_lt.1 h
    omega

theorem f64_nonneg {x : ℚ} (hx : 0 ≤ x) : 0 ≤ f64 x := by
  have h := (f64_bounds hx).1
  have : (0 : ℚ) ≤ (1 - uro) * x := mul_nonneg (by unfold uro; norm_num) hx
  linarith

/-- `fixedPoint` rounds to nearest up to the float64 error -/
theorem fixedPoint_err {v s : ℚ} (hs : 0 ≤ s) :
    |(fixedPoint v s : ℚ) - s * v| ≤ 1 / 2 + 3 * uro * (s * |v| + 1) := by
  have hx : 0 ≤ s * |v| := mul_nonneg hs (abs_nonneg v)
  have h0 : 0 ≤ f64 (s * |v|) + 1 / 2 := by have := f64_nonneg hx; linarith
  have b1 := f64_bounds hx
  have b2 := f64_bounds h0
  have f1 := Int.floor_le (f64 (f64 (s * |v|) + 1 / 2))
  have f2 := Int.lt_floor_add_one (f64 (f64 (s * |v|) + 1 / 2))
  have key : abs (((⌊f64 (f64 (s * |v|) + 1 / 2)⌋ : ℤ) : ℚ) - s * |v|) ≤ 1 / 2 + 3 * uro * (s * |v| + 1) := by
    have u0 : (0 : ℚ) < uro := by unfold uro; norm_num
    have u1 : uro ≤ 1 := by unfold uro; norm_num
    have t1 : uro * f64 (s * |v|) ≤ uro * ((1 + uro) * (s * |v|)) := mul_le_mul_of_nonneg_left b1.2 u0.le
    have t2 : uro * uro * (s * |v|) ≤ uro * (s * |v|) := by
      rw [mul_assoc]; exact mul_le_of_le_one_left (by positivity) u1
    have t3 : 0 ≤ uro * (s * |v|) := by positivity
    rw [abs_le]
    constructor <;> nlinarith [b1.1, b1.2, b2.1, b2.2]
  unfold fixedPoint f64Add
  dsimp only
  split
  · rename_i h
    rw [abs_of_neg h] at key ⊢
    rw [← abs_neg]
    push_cast
    convert key using 2
    ring
  · rename_i h
    rw [abs_of_nonneg (not_lt.1 h)] at key ⊢
    exact key

theorem fixedPoint_zero (s : ℚ) : fixedPoint 0 s = 0 := by
  have := f64Add_half (m := 0) (by norm_num)
  have e := floor_half 0
  simp only [Nat.cast_zero] at this e
  unfold fixedPoint
  rw [abs_zero, mul_zero, this, e]
  simp

/-- `scaleUpExact` is the residue of the fixed-point integer, at most `q` -/
theorem scaleUpExact_spec {v s : ℚ} (hs : 0 ≤ s) {q : UInt64} (hq : 0 < q.toNat) :
    (scaleUpExact v s q).toNat ≤ q.toNat ∧ ((scaleUpExact v s q).toNat : ZMod q.toNat) = fixedPoint v s := by
  have e : (if v < 0 then -s * v else s * v) = s * |v| := by
    split
    · rename_i h; rw [abs_of_neg h]; ring
    · rename_i h; rw [abs_of_nonneg (not_lt.1 h)]
  have hx : 0 ≤ s * |v| := mul_nonneg hs (abs_nonneg v)
  have h0 : 0 ≤ f64 (f64 (s * |v|) + 1 / 2) := f64_nonneg (by have := f64_nonneg hx; linarith)
  obtain ⟨m, hm⟩ := Int.eq_ofNat_of_zero_le (Int.floor_nonneg.2 h0)
  unfold scaleUpExact fixedPoint f64Add
  dsimp only
  rw [e, hm]
  have h1 : (UInt64.ofNat (m % q.toNat)).toNat = m % q.toNat :=
    UInt64.toNat_ofNat_of_lt' (lt_of_lt_of_le (Nat.mod_lt _ hq) (UInt64.toNat_lt q).le)
  have hm' : m % q.toNat < q.toNat := Nat.mod_lt _ hq
  have hc : ((m % q.toNat : ℕ) : ZMod q.toNat) = m := by simp
  rw [Int.toNat_natCast]
  split
  · rw [UInt64.toNat_sub_of_le _ _ (UInt64.le_iff_toNat_le.2 (by rw [h1]; exact hm'.le)), h1]
    refine ⟨by omega, ?_⟩
    rw [Nat.cast_sub hm'.le, hc, ZMod.natCast_self]
    push_cast
    ring
  · rw [h1]
    exact ⟨hm'.le, by rw [hc]; push_cast; rfl⟩

/-- the constants of `MultByConst` -/
theorem constPairMont_spec {n : ℕ} {r : Ring} (hr : r.Valid n) {u : ℕ} (hu : u < r.subs.length) {re im s : ℚ} (hs : 0 ≤ s) :
    GaussPair (r.sub u) n (constPairMont r re im s u) (fixedPoint re s) (fixedPoint im s) := by
  have h4 := hr.four_le
  have V := hr.subAt hu
  have hp := V.prime.pos
  obtain ⟨a1, a2⟩ : (if re ≠ 0 then scaleUpExact re s (r.sub u).q else 0).toNat ≤ (r.sub u).q.toNat ∧
      ((if re ≠ 0 then scaleUpExact re s (r.sub u).q else 0).toNat : ZMod (r.sub u).q.toNat) = fixedPoint re s := by
    split
    · exact scaleUpExact_spec hs hp
    · rename_i h
      rw [not_not.1 h, fixedPoint_zero]
      simp
  unfold constPairMont constPair
  dsimp only
  generalize (if re ≠ 0 then scaleUpExact re s (r.sub u).q else 0) = w at a1 a2 ⊢
  split
  · exact gaussPair_mform V (by omega) a2 (scaleUpExact_spec hs hp).2 (by have := V.lt; omega)
  · rename_i h
    rw [not_not.1 h, fixedPoint_zero]
    exact gaussPair_same V a2

/-- the constants of `AddConst` -/
theorem constPair_spec {n : ℕ} {s : SubRing} (hs : s.Valid n) (hn : 1 ≤ n) {re im sc : ℚ} (hsc : 0 ≤ sc) :
    ((constPair s re im sc).1.toNat ≤ s.q.toNat ∧ (constPair s re im sc).2.toNat ≤ s.q.toNat) ∧
    ((constPair s re im sc).1.toNat : ZMod s.q.toNat) = fixedPoint re sc + fixedPoint im sc * s.psi ^ 2 ^ (n - 1) ∧
    ((constPair s re im sc).2.toNat : ZMod s.q.toNat) = fixedPoint re sc - fixedPoint im sc * s.psi ^ 2 ^ (n - 1) := by
  have hp := hs.prime.pos
  have hlt := hs.lt
  obtain ⟨a1, a2⟩ : (if re ≠ 0 then scaleUpExact re sc s.q else 0).toNat ≤ s.q.toNat ∧
      ((if re ≠ 0 then scaleUpExact re sc s.q else 0).toNat : ZMod s.q.toNat) = fixedPoint re sc := by
    split
    · exact scaleUpExact_spec hsc hp
    · rename_i h
      rw [not_not.1 h, fixedPoint_zero]
      simp
  unfold constPair
  dsimp only
  generalize (if re ≠ 0 then scaleUpExact re sc s.q else 0) = w at a1 a2 ⊢
  split
  · obtain ⟨p1, p2⟩ := hs.psi_half hn
    obtain ⟨m1, m2⟩ := mred_any hs.arith p1.le (scaleUpExact im sc s.q)
    have hR : (2 : ZMod s.q.toNat) ^ 64 * rinv s.q.toNat = 1 := mul_rinv hs.arith.odd
    have m3 : ((mred (scaleUpExact im sc s.q) (s.nttPsi.at 1) s.q s.mred).toNat : ZMod s.q.toNat)
        = fixedPoint im sc * s.psi ^ 2 ^ (n - 1) := by
      rw [m2, p2, (scaleUpExact_spec hsc hp).2]
      linear_combination (fixedPoint im sc * s.psi ^ 2 ^ (n - 1)) * hR
    generalize mred (scaleUpExact im sc s.q) (s.nttPsi.at 1) s.q s.mred = z at m1 m3 ⊢
    have e1 : (w + z).toNat = w.toNat + z.toNat := by rw [UInt64.toNat_add, Nat.mod_eq_of_lt (by omega)]
    have e2 : (s.q - z).toNat = s.q.toNat - z.toNat := UInt64.toNat_sub_of_le _ _ (UInt64.le_iff_toNat_le.2 m1.le)
    have e3 : (w + (s.q - z)).toNat = w.toNat + (s.q.toNat - z.toNat) := by
      rw [UInt64.toNat_add, e2, Nat.mod_eq_of_lt (by omega)]
    dsimp only
    refine ⟨⟨?_, ?_⟩, ?_, ?_⟩
    · rw [toNat_cred]; split <;> omega
    · rw [toNat_cred]; split <;> omega
    · rw [cast_cred rfl, e1]
      push_cast
      rw [a2, m3]
    · rw [cast_cred rfl, e3]
      push_cast [Nat.cast_sub m1.le]
      rw [a2, m3, ZMod.natCast_self]
      ring
  · rename_i h
    rw [not_not.1 h, fixedPoint_zero]
    refine ⟨⟨a1, a1⟩, ?_, ?_⟩ <;> dsimp only <;> rw [a2] <;> push_cast <;> ring

theorem ofNtt_add_gauss {q : ℕ} [Fact q.Prime] {n : ℕ} {psi : ZMod q} (hp : PsiOK psi n) (a b : ℤ) (v : ℕ → ZMod q) :
    ofNtt psi n (fun k => if k < 2 ^ (n - 1) then v k + (a + b * psi ^ 2 ^ (n - 1)) else v k + (a - b * psi ^ 2 ^ (n - 1)))
      = ofNtt psi n v + gauss n q a b := by
  apply ext_eval hp
  intro k hk
  rw [map_add, evalAt_ofNtt, evalAt_ofNtt, evalAt_gauss]
  split <;> rfl

/-- one polynomial of `AddConst`: reduced if the operand is, entries at most `q` if the operand's are -/
theorem addPair_elt {n : ℕ} {r : Ring} (hr : r.Valid n) {level : ℕ} (hl : level < r.subs.length) {A : ℕ → ℕ}
    (hA : A = r.qs ∨ A = fun u => r.qs u + 1) {re im sc : ℚ} (hsc : 0 ≤ sc) {p0 p1 : Rows} {x}
    (h0 : EltIs n r level A true p0 x) (h1 : level < p1.length) :
    EltWritten n r level A true p1 (writeLvl level (fun i =>
      halves r.n (fun x => addScalarVec x (constPair (r.sub i) re im sc).1 (r.sub i).q)
        (fun x => addScalarVec x (constPair (r.sub i) re im sc).2 (r.sub i).q) (p0.row i)) p1)
      (fun u => x u + gauss n (r.qs u) (fixedPoint re sc) (fixedPoint im sc)) := by
  have h4 := hr.four_le
  rw [hr.deg]
  refine (writeLvl_is (A := A) (v := fun u k => if k < 2 ^ (n - 1)
      then zval (r.sub u).q.toNat (p0.row u) k +
        ((fixedPoint re sc : ZMod (r.sub u).q.toNat) + (fixedPoint im sc : ZMod (r.sub u).q.toNat) * (r.sub u).psi ^ 2 ^ (n - 1))
      else zval (r.sub u).q.toNat (p0.row u) k +
        ((fixedPoint re sc : ZMod (r.sub u).q.toNat) - (fixedPoint im sc : ZMod (r.sub u).q.toNat) * (r.sub u).psi ^ 2 ^ (n - 1)))
    h1 fun u hu => ?_).eltWritten hr fun u hu => ?_
  · have hx := (h0.polyIs hr).row u hu
    have V := hr.subAt (show u < r.subs.length by omega)
    have hlt := V.lt
    rw [hr.deg] at hx ⊢
    obtain ⟨⟨b1, b2⟩, c1, c2⟩ := constPair_spec V (show 1 ≤ n by omega) (re := re) (im := im) hsc
    have key : ∀ (c : UInt64) (γ : ZMod (r.sub u).q.toNat), c.toNat ≤ (r.sub u).q.toNat → (c.toNat : ZMod (r.sub u).q.toNat) = γ →
        ∀ w : UInt64, w.toNat < A u → (cred (w + c) (r.sub u).q).toNat < A u ∧
          ((cred (w + c) (r.sub u).q).toNat : ZMod (r.sub u).q.toNat) = (w.toNat : ZMod (r.sub u).q.toNat) + γ := by
      intro c γ hc hγ w hw
      have hw' : w.toNat ≤ (r.sub u).q.toNat := by
        rcases hA with rfl | rfl
        · unfold Ring.qs at hw; omega
        · dsimp only [Ring.qs] at hw; omega
      have e : (w + c).toNat = w.toNat + c.toNat := by rw [UInt64.toNat_add, Nat.mod_eq_of_lt (by omega)]
      refine ⟨?_, by rw [cast_cred rfl, e, Nat.cast_add, hγ]⟩
      rw [toNat_cred, e]
      rcases hA with rfl | rfl
      · unfold Ring.qs at hw ⊢; split <;> omega
      · dsimp only [Ring.qs] at hw ⊢; split <;> omega
    exact RowIs.halves (F := fun y : ZMod (r.sub u).q.toNat => y + _) (G := fun y : ZMod (r.sub u).q.toNat => y + _)
      (by omega) hx (key _ _ b1 c1) (key _ _ b2 c2)
  · have := (hr.subAt (show u < r.subs.length by omega)).fact
    rw [← h0.eltOf hr hu]
    simp only [Ring.eltOf, if_true]
    exact ofNtt_add_gauss ((hr.subAt (show u < r.subs.length by omega)).psiOK (by omega)) _ _ _

/-! ### Integers are recognised -/

/-- numbers with at most 53 significant bits are representable -/
theorem f64_exact {x : ℚ} {m : ℤ} {k : ℤ} (hx : x = m * (2 : ℚ) ^ k) (hk : Int.log 2 |x| - 52 ≤ k) : f64 x = x := by
  unfold f64
  split
  · rename_i h; exact h.symm
  · obtain ⟨d, hd⟩ : ∃ d : ℕ, k = Int.log 2 |x| - 52 + d := ⟨(k - (Int.log 2 |x| - 52)).toNat, by omega⟩
    have h2 : (2 : ℚ) ^ (Int.log 2 |x| - 52) ≠ 0 := zpow_ne_zero _ (by norm_num)
    have e : x / 2 ^ (Int.log 2 |x| - 52) = ((m * 2 ^ d : ℤ) : ℚ) := by
      rw [div_eq_iff h2]
      conv_lhs => rw [hx]
      rw [hd, zpow_add₀ (by norm_num), zpow_natCast]; push_cast; ring
    dsimp only
    rw [e]
    have : roundEven ((m * 2 ^ d : ℤ) : ℚ) = m * 2 ^ d := by
      unfold roundEven
      dsimp only
      rw [Int.floor_intCast, sub_self, if_pos (by norm_num)]
    rw [this, ← e, div_mul_cancel₀ _ h2]

theorem f64_int {z : ℤ} (hz : |z| ≤ 2 ^ 52) : f64 (z : ℚ) = z := by
  rcases eq_or_ne z 0 with rfl | h0
  · simp [f64]
  refine f64_exact (m := z) (k := 0) (by simp) ?_
  have hx : 0 < |(z : ℚ)| := abs_pos.2 (by exact_mod_cast h0)
  have : Int.log 2 |(z : ℚ)| ≤ 52 := by
    apply log_le_of_le hx
    calc |(z : ℚ)| = ((|z| : ℤ) : ℚ) := by push_cast; rfl
      _ ≤ ((2 ^ 52 : ℤ) : ℚ) := by exact_mod_cast hz
      _ < _ := by norm_num
  omega

theorem f64_eq_zero {x : ℚ} : f64 x = 0 ↔ x = 0 := by
  constructor
  · intro h
    have := f64_err x
    rw [h, zero_sub, abs_neg] at this
    by_contra h0
    have := abs_pos.2 h0
    have : uro < 1 := by unfold uro; norm_num
    nlinarith
  · rintro rfl; simp [f64]

/-- `hasFraction` on numbers of absolute value at most `2^52` -/
theorem hasFraction_iff {x : ℚ} (hx : |x| ≤ 2 ^ 52) : hasFraction x = true ↔ ∀ z : ℤ, x ≠ z := by
  obtain ⟨h1, h2⟩ := abs_le.1 hx
  obtain ⟨t, ht, hb, hz⟩ : ∃ t : ℤ, f64ToInt64 x = t ∧ |t| ≤ 2 ^ 52 ∧ ((∃ z : ℤ, x = z) → x = t) := by
    unfold f64ToInt64
    dsimp only
    split
    · have a : ⌊x⌋ ≤ 2 ^ 52 := by
        have := Int.floor_le x
        have : (⌊x⌋ : ℚ) ≤ 2 ^ 52 := by linarith
        exact_mod_cast this
      have b : (0 : ℤ) ≤ ⌊x⌋ := Int.floor_nonneg.2 ‹_›
      refine ⟨⌊x⌋, if_pos (by omega), by rw [abs_of_nonneg b]; exact a, ?_⟩
      rintro ⟨z, rfl⟩
      simp
    · have a : -2 ^ 52 ≤ ⌈x⌉ := by
        have := Int.le_ceil x
        have : (-2 ^ 52 : ℚ) ≤ ⌈x⌉ := by linarith
        exact_mod_cast this
      have b : ⌈x⌉ ≤ 0 := Int.ceil_le.2 (by push_cast; linarith)
      refine ⟨⌈x⌉, if_pos (by omega), by rw [abs_of_nonpos b]; omega, ?_⟩
      rintro ⟨z, rfl⟩
      simp
  unfold hasFraction
  rw [ht, f64_int hb, decide_eq_true_iff, Ne, f64_eq_zero]
  constructor
  · intro h z hz'
    exact h (sub_eq_zero.2 (hz ⟨z, hz'⟩))
  · intro h h'
    exact h t (sub_eq_zero.1 h')

/-! ### Gaussian integers -/

theorem interfaceMod_spec (x : GInt) {q : UInt64} (hq0 : 0 < q.toNat) (hq : q.toNat < 2 ^ 63) :
    ((interfaceMod x q).toNat : ZMod q.toNat) = x.val ∧ (interfaceMod x q).toNat < 2 ^ 63 := by
  cases x with
  | u64 x =>
    simp only [interfaceMod, GInt.val]
    rw [UInt64.toNat_mod]
    refine ⟨by simp, lt_trans (Nat.mod_lt _ hq0) hq⟩
  | i64 x =>
    simp only [interfaceMod, GInt.val]
    have hqi : q.toInt64.toInt = q.toNat := by
      rw [← Int64.toInt_toBitVec, UInt64.toBitVec_toInt64, BitVec.toInt_eq_toNat_of_lt]
      · rfl
      · show 2 * q.toNat < 2 ^ 64
        omega
    have nn : ∀ y : Int64, 0 ≤ y.toInt → (y.toUInt64.toNat : ℤ) = y.toInt := fun y hy => by
      have h0 : (0 : Int64) ≤ y := Int64.le_iff_toInt_le.2 hy
      rw [Int64.toNat_toUInt64_of_le h0, Int64.cast_toNatClampNeg _ h0]
    have l1 := x.toInt_lt
    have l2 := x.le_toInt
    split
    · rename_i h
      have h0 : 0 < x.toInt := Int64.lt_iff_toInt_lt.1 h
      have e := nn x h0.le
      refine ⟨?_, by omega⟩
      rw [← Int.cast_natCast, e]
    · split
      · rename_i h
        have h0 : x.toInt < 0 := Int64.lt_iff_toInt_lt.1 h
        have t1 : (x % q.toInt64).toInt = x.toInt.tmod q.toNat := by rw [Int64.toInt_mod, hqi]
        have t2 := Int.lt_tmod_of_pos x.toInt (show (0 : ℤ) < q.toNat by omega)
        have t3 : x.toInt.tmod q.toNat ≤ 0 := by
          have := Int.tmod_nonneg (q.toNat : ℤ) (show 0 ≤ -x.toInt by omega)
          rw [Int.neg_tmod] at this
          omega
        have t4 : (q.toInt64 + x % q.toInt64).toInt = q.toNat + x.toInt.tmod q.toNat := by
          rw [Int64.toInt_add, hqi, t1, Int.bmod_eq_of_le] <;> omega
        have e := nn (q.toInt64 + x % q.toInt64) (by omega)
        refine ⟨?_, by omega⟩
        rw [← Int.cast_natCast, e, t4]
        have : x.toInt.tmod q.toNat = x.toInt - q.toNat * x.toInt.tdiv q.toNat := by
          have := Int.tmod_add_mul_tdiv x.toInt q.toNat; omega
        rw [this]
        push_cast
        rw [ZMod.natCast_self]
        ring
      · rename_i h1 h2
        have : x.toInt = 0 := by
          have a := fun h => h1 (Int64.lt_iff_toInt_lt.2 h)
          have b := fun h => h2 (Int64.lt_iff_toInt_lt.2 h)
          simp at a b
          omega
        rw [this]
        simp
  | big x =>
    simp only [interfaceMod, GInt.val]
    have h0 := Int.emod_nonneg x (show (q.toNat : ℤ) ≠ 0 by omega)
    have h1 := Int.emod_lt_of_pos x (show (0 : ℤ) < q.toNat by omega)
    rw [UInt64.toNat_ofNat_of_lt' (by show _ < 2 ^ 64; omega)]
    refine ⟨?_, by omega⟩
    have : (((x % (q.toNat : ℤ)).toNat : ℕ) : ZMod q.toNat) = ((x % (q.toNat : ℤ) : ℤ) : ZMod q.toNat) := by
      rw [← Int.cast_natCast, Int.toNat_of_nonneg h0]
    rw [this]
    exact (ZMod.intCast_eq_intCast_iff _ _ _).2 (Int.mod_modEq _ _)

theorem gaussPair_spec {n : ℕ} {r : Ring} (hr : r.Valid n) {u : ℕ} (hu : u < r.subs.length) (re im : GInt) :
    GaussPair (r.sub u) n (gaussPair r re im u) re.val im.val := by
  have h4 := hr.four_le
  have V := hr.subAt hu
  have hp := V.prime.pos
  obtain ⟨a1, a2⟩ := interfaceMod_spec re hp V.lt
  obtain ⟨b1, b2⟩ := interfaceMod_spec im hp V.lt
  have hq := V.lt
  have m := gaussPair_mform V (by omega) a1 b1 (by omega)
  unfold gaussPair
  dsimp only
  rw [if_pos (show r.type ≠ .conjugateInvariant by rw [hr.type]; decide)]
  by_cases h : interfaceMod im (r.sub u).q = 0
  · have b0 : (im.val : ZMod (r.sub u).q.toNat) = 0 := by rw [← b1, h]; simp
    have w1 := word_mform V.arith (interfaceMod re (r.sub u).q)
    have w2 := word_mform V.arith (cred (interfaceMod re (r.sub u).q + ((r.sub u).q - 0)) (r.sub u).q)
    have e : (interfaceMod re (r.sub u).q + ((r.sub u).q - 0)).toNat = (interfaceMod re (r.sub u).q).toNat + (r.sub u).q.toNat := by
      rw [UInt64.sub_zero, UInt64.toNat_add, Nat.mod_eq_of_lt (by omega)]
    rw [h, if_neg (by simp), if_neg (by simp)]
    refine ⟨w1.1.le, w2.1.le, ?_, ?_⟩
    · dsimp only
      rw [w1.2, a1, b0, zero_mul, add_zero]
    · dsimp only
      rw [w2.2, cast_cred rfl, e, Nat.cast_add, a1, b0, ZMod.natCast_self, zero_mul, add_zero, sub_zero]
  · rw [if_pos h, if_pos h]
    exact m

end FastKsw
