import Verif.Lemmas.FSwitch
import Verif.Lemmas.KeyRel
import Verif.Props.RingOps
import Verif.Props.Automorphism
import Verif.Model.KeyGen
import Mathlib.Data.Nat.ChineseRemainder

/-!
# Key generation
-/

namespace FastKsw

open Finset Props

/-! ## Integer vectors behind NTT rows -/

section vec
variable {n : ℕ} {r : Ring} (hr : r.Valid n) {u : ℕ} (hu : u < r.subs.length)
include hr hu

theorem ofNtt_nttVec (X : ℕ → ℤ) : ofNtt (r.sub u).psi n (r.nttVec n X u) = intR (2 ^ n) (r.qs u) X := by
  have h4 := hr.four_le
  exact ofNtt_evals (hr.subAt hu) (by omega) _

theorem intR_of_nttVec {X Y : ℕ → ℤ} (h : ∀ k < 2 ^ n, r.nttVec n X u k = r.nttVec n Y u k) :
    intR (2 ^ n) (r.qs u) X = intR (2 ^ n) (r.qs u) Y := by
  rw [← ofNtt_nttVec hr hu, ← ofNtt_nttVec hr hu]
  exact ofNtt_congr h

theorem nttVec_of_intR {X Y : ℕ → ℤ} (h : intR (2 ^ n) (r.qs u) X = intR (2 ^ n) (r.qs u) Y) {k : ℕ}
    (hk : k < 2 ^ n) : r.nttVec n X u k = r.nttVec n Y u k := by
  have h4 := hr.four_le
  have := (hr.subAt hu).fact
  rw [← ofNtt_nttVec hr hu, ← ofNtt_nttVec hr hu] at h
  exact ofNtt_injective ((hr.subAt hu).psiOK (by omega)) h k hk

theorem nttVec_mul (X Y : ℕ → ℤ) {k : ℕ} (hk : k < 2 ^ n) :
    r.nttVec n (negConv (2 ^ n) X Y) u k = r.nttVec n X u k * r.nttVec n Y u k := by
  have h4 := hr.four_le
  exact evals_negConv (hr.subAt hu) (by omega) X Y hk

end vec

theorem nttVec_add {n : ℕ} {r : Ring} (X Y : ℕ → ℤ) (u k : ℕ) :
    r.nttVec n (fun k => X k + Y k) u k = r.nttVec n X u k + r.nttVec n Y u k := by
  unfold Ring.nttVec Ring.intVec evals
  rw [← sum_add_distrib]
  exact sum_congr rfl (fun j _ => by push_cast; ring)

theorem nttVec_sub {n : ℕ} {r : Ring} (X Y : ℕ → ℤ) (u k : ℕ) :
    r.nttVec n (fun k => X k - Y k) u k = r.nttVec n X u k - r.nttVec n Y u k := by
  unfold Ring.nttVec Ring.intVec evals
  rw [← sum_sub_distrib]
  exact sum_congr rfl (fun j _ => by push_cast; ring)

theorem nttVec_smul {n : ℕ} {r : Ring} (c : ℤ) (X : ℕ → ℤ) (u k : ℕ) :
    r.nttVec n (fun k => c * X k) u k = c * r.nttVec n X u k := by
  unfold Ring.nttVec Ring.intVec evals
  rw [mul_sum]
  exact sum_congr rfl (fun j _ => by push_cast; ring)

/-- residues modulo all primes of `Q` and `P` come from one integer -/
theorem exists_crt {n : ℕ} {rQ rP : Ring} (hQ : rQ.Valid n) (hP : rP.Valid n) (hd : rQ.Disjoint rP)
    (x : ∀ u, ZMod (rQ.sub u).q.toNat) (y : ∀ u, ZMod (rP.sub u).q.toNat) :
    ∃ z : ℤ, (∀ u < rQ.subs.length, (z : ZMod (rQ.sub u).q.toNat) = x u) ∧
      ∀ u < rP.subs.length, (z : ZMod (rP.sub u).q.toNat) = y u := by
  set L := rQ.subs.length
  let s : ℕ → ℕ := fun u => if u < L then (rQ.sub u).q.toNat else (rP.sub (u - L)).q.toNat
  let yv : ℕ → ℕ := fun u => (y u).val
  let a : ℕ → ℕ := fun u => if u < L then (x u).val else yv (u - L)
  have hp : ∀ u ∈ range (L + rP.subs.length), (s u).Prime := by
    intro u hu
    have := mem_range.1 hu
    simp only [s]
    split
    · rename_i h; exact (hQ.subAt h).prime
    · exact (hP.subAt (by omega)).prime
  have hpp : Set.Pairwise (range (L + rP.subs.length) : Set ℕ) (Function.onFun Nat.Coprime s) := by
    intro u hu w hw huw
    have h1 := hp u hu
    have h2 := hp w hw
    have hu' := mem_range.1 hu
    have hw' := mem_range.1 hw
    rw [Function.onFun, Nat.coprime_primes h1 h2]
    intro he
    simp only [s] at he
    split at he <;> split at he
    · rename_i c1 c2; exact huw (hQ.q_inj c1 c2 he)
    · rename_i c1 c2; exact hd u c1 (w - L) (by omega) (UInt64.toNat_inj.1 he)
    · rename_i c1 c2; exact hd w c2 (u - L) (by omega) (UInt64.toNat_inj.1 he.symm)
    · rename_i c1 c2
      have := hP.q_inj (i := u - L) (j := w - L) (by omega) (by omega) he
      omega
  obtain ⟨z, hz⟩ := Nat.chineseRemainderOfFinset a s (range (L + rP.subs.length))
    (fun i hi => (hp i hi).ne_zero) hpp
  refine ⟨z, fun u hu => ?_, fun u hu => ?_⟩
  · have := hz u (mem_range.2 (by omega))
    simp only [s, a, if_pos hu] at this
    have hf := (hQ.subAt hu).fact
    rw [Int.cast_natCast, (ZMod.natCast_eq_natCast_iff _ _ _).2 this, ZMod.natCast_val, ZMod.cast_id]
  · have := hz (L + u) (mem_range.2 (by omega))
    simp only [s, a, if_neg (show ¬ L + u < L by omega), Nat.add_sub_cancel_left] at this
    have hf := (hP.subAt hu).fact
    rw [Int.cast_natCast, (ZMod.natCast_eq_natCast_iff _ _ _).2 this]
    simp only [yv]
    rw [ZMod.natCast_val, ZMod.cast_id]

/-- every pair of rows of values over `Q` and `P` holds an integer vector -/
theorem exists_lift {n : ℕ} {rQ rP : Ring} (hQ : rQ.Valid n) (hP : rP.Valid n) (hd : rQ.Disjoint rP)
    (v : ∀ u, ℕ → ZMod (rQ.sub u).q.toNat) (w : ∀ u, ℕ → ZMod (rP.sub u).q.toNat) :
    ∃ X : ℕ → ℤ, (∀ u < rQ.subs.length, ∀ k < 2 ^ n, rQ.nttVec n X u k = v u k) ∧
      ∀ u < rP.subs.length, ∀ k < 2 ^ n, rP.nttVec n X u k = w u k := by
  have h4 := hQ.four_le
  choose X hX using fun k => exists_crt hQ hP hd (fun u => coeffsOf (rQ.sub u).psi n (v u) k)
    (fun u => coeffsOf (rP.sub u).psi n (w u) k)
  refine ⟨X, fun u hu k hk => ?_, fun u hu k hk => ?_⟩
  · rw [← evals_coeffsOf (hQ.subAt hu) (by omega) (v u) k hk]
    exact evals_congr _ _ (fun j _ => (hX j).1 u hu) k
  · rw [← evals_coeffsOf (hP.subAt hu) (by omega) (w u) k hk]
    exact evals_congr _ _ (fun j _ => (hX j).2 u hu) k

theorem IsMont.exists {n : ℕ} {rQ rP : Ring} (hQ : rQ.Valid n) (hP : rP.Valid n) (hd : rQ.Disjoint rP)
    {lQ lP : ℕ} (hlQ : lQ < rQ.subs.length) (hlP : lP < rP.subs.length) {x : PolyQP}
    {v : ∀ u, ℕ → ZMod (rQ.sub u).q.toNat} {w : ∀ u, ℕ → ZMod (rP.sub u).q.toNat}
    (hq : PolyIs rQ lQ rQ.qs x.q v) (hp : PolyIs rP lP rP.qs x.p w) :
    ∃ X, x.IsMont n rQ rP lQ lP X := by
  obtain ⟨X, h1, h2⟩ := exists_lift hQ hP hd (fun u k => v u k * rinv _) (fun u k => w u k * rinv _)
  refine ⟨X, hq.congr (fun u hu k hk => ?_), hp.congr (fun u hu k hk => ?_)⟩
  · rw [hQ.deg] at hk
    rw [h1 u (by omega) k hk, mul_assoc, rinv_mul (hQ.subAt (show u < _ by omega)).arith.odd, mul_one]
  · rw [hP.deg] at hk
    rw [h2 u (by omega) k hk, mul_assoc, rinv_mul (hP.subAt (show u < _ by omega)).arith.odd, mul_one]

/-! ## Small-norm basis extension -/

theorem extendWord_is {q p c : UInt64} {S : ℤ} (hodd : q.toNat % 2 = 1) (hc : c.toNat ≤ q.toNat)
    (hcs : (c.toNat : ZMod q.toNat) = (S : ZMod q.toNat)) (hS : 2 * |S| < q.toNat) (hp : |S| ≤ p.toNat) :
    (extendWord q p c).toNat ≤ p.toNat ∧ ((extendWord q p c).toNat : ZMod p.toNat) = (S : ZMod p.toNat) := by
  have hhalf : (q >>> 1).toNat = q.toNat / 2 := by
    rw [UInt64.toNat_shiftRight]
    show q.toNat >>> 1 = _
    rw [Nat.shiftRight_eq_div_pow, pow_one]
  have hdvd : (q.toNat : ℤ) ∣ (c.toNat : ℤ) - S := by
    rw [← Int.cast_natCast, ZMod.intCast_eq_intCast_iff_dvd_sub] at hcs
    rw [← dvd_neg, neg_sub]; exact hcs
  have hab := abs_lt.1 (show |S| < (q.toNat : ℤ) by have := abs_nonneg S; omega)
  have hnn := abs_nonneg S
  have habs : |S| = S ∨ |S| = -S := abs_choice S
  obtain ⟨m, hm⟩ := hdvd
  have hm2 : m = 0 ∨ m = 1 := by
    have h1 : (q.toNat : ℤ) * m < q.toNat * 2 := by omega
    have h2 : (q.toNat : ℤ) * (-1) < q.toNat * m := by omega
    have h3 := lt_of_mul_lt_mul_left h1 (by omega)
    have h4 := lt_of_mul_lt_mul_left h2 (by omega)
    omega
  unfold extendWord
  by_cases h : c > q >>> 1
  · have hg : q.toNat / 2 < c.toNat := by rw [← hhalf]; exact UInt64.lt_iff_toNat_lt.1 h
    simp only [if_pos h, UInt64.mul_zero, UInt64.zero_or, UInt64.zero_xor, UInt64.mul_one]
    have e1 : (q - c).toNat = q.toNat - c.toNat := UInt64.toNat_sub_of_le _ _ (UInt64.le_iff_toNat_le.2 hc)
    have e2 : ((q.toNat - c.toNat : ℕ) : ℤ) = -S := by
      rcases hm2 with rfl | rfl
      · rw [mul_zero] at hm
        omega
      · rw [mul_one] at hm
        omega
    have hle : (q - c).toNat ≤ p.toNat := by rw [e1]; omega
    rw [UInt64.toNat_sub_of_le _ _ (UInt64.le_iff_toNat_le.2 hle)]
    refine ⟨by omega, ?_⟩
    rw [Nat.cast_sub hle, ZMod.natCast_self, zero_sub, e1, ← Int.cast_natCast, e2]
    simp
  · have hg : c.toNat ≤ q.toNat / 2 := by
      rw [← hhalf]; exact Nat.le_of_not_lt (fun h' => h (UInt64.lt_iff_toNat_lt.2 h'))
    simp only [if_neg h, UInt64.mul_one, UInt64.xor_self, UInt64.mul_zero, UInt64.or_zero]
    have e2 : (c.toNat : ℤ) = S := by
      rcases hm2 with rfl | rfl
      · rw [mul_zero] at hm
        omega
      · rw [mul_one] at hm
        omega
    refine ⟨by omega, ?_⟩
    rw [← e2, Int.cast_natCast]

/-- a sampled small polynomial: rows `0 … level` hold the residues of the integers `S`; a zero may be
written as `q` -/
structure Sampled (r : Ring) (level : ℕ) (x : Rows) (S : ℕ → ℤ) : Prop where
  is : PolyIs r level (fun u => r.qs u + 1) x (r.intVec S)
  small : ∀ k < r.n, 2 * |S k| < r.qs 0

theorem extendBasisSmallNorm_is {n : ℕ} {rQ rP : Ring} (hQ : rQ.Valid n) (hP : rP.Valid n) {lQ lP : ℕ}
    {x out : Rows} {S : ℕ → ℤ} (hx : Sampled rQ lQ x S) (hS : ∀ k < 2 ^ n, ∀ u ≤ lP, |S k| ≤ rP.qs u)
    (ho : lP < out.length) :
    PolyIs rP lP (fun u => rP.qs u + 1) (extendBasisSmallNorm rQ rP lP x out) (rP.intVec S) := by
  have h0 := List.length_pos_iff.2 hQ.ne_nil
  refine (writeLvl_is (A := fun u => rP.qs u + 1) (v := rP.intVec S) ho (fun u hu => ?_)).is
  have r0 := hx.is.row 0 (by omega)
  have key : ∀ k < 2 ^ n, (extendWord (rQ.sub 0).q (rP.sub u).q ((x.row 0).at k)).toNat ≤ rP.qs u ∧
      ((extendWord (rQ.sub 0).q (rP.sub u).q ((x.row 0).at k)).toNat : ZMod (rP.qs u)) = (S k : ZMod (rP.qs u)) := by
    intro k hk
    rw [hQ.deg] at r0
    have h1 := r0.lt k hk
    exact extendWord_is (hQ.subAt h0).odd (by unfold Ring.qs at h1; omega) (r0.val k hk)
      (hx.small k (by rw [hQ.deg]; exact hk)) (hS k hk u hu)
  rw [hQ.deg, hP.deg]
  refine ⟨by simp, fun k hk => ?_, fun k hk => ?_⟩
  · rw [at_map_range _ _ hk]
    have := (key k hk).1
    omega
  · rw [zval, at_map_range _ _ hk]
    exact (key k hk).2

/-! ## Transforming small polynomials -/

section small
variable {n : ℕ} {r : Ring} (hr : r.Valid n) (sr : r.Small)
include hr sr

theorem nttLazyLvl_is {level : ℕ} (hl : level < r.subs.length) {p p' : Rows} {X : ℕ → ℤ}
    (h : PolyIs r level (fun u => r.qs u + 1) p (r.intVec X)) (h' : level < p'.length) :
    PolyWritten r level (fun u => 6 * r.qs u) p' (r.nttLazyLvl level p p') (r.nttVec n X) := by
  have h4 := hr.four_le
  refine writeLvl_is h' (fun i hi => ?_)
  have V := hr.subAt (show i < r.subs.length by omega)
  have hlt := sr _ (Ring.sub_mem (show i < r.subs.length by omega))
  have h1 := h.row i hi
  have := V.arith.one_lt
  rw [hr.deg] at h1 ⊢
  refine (nttLazy_is V (by omega) hlt (B := 4 * (r.sub i).q.toNat) le_rfl (by omega) (h1.mono ?_)).mono ?_
  · unfold Ring.qs; omega
  · unfold Ring.qs; omega

theorem nttLvl_is' {level : ℕ} (hl : level < r.subs.length) {p p' : Rows} {X : ℕ → ℤ}
    (h : PolyIs r level (fun u => r.qs u + 1) p (r.intVec X)) (h' : level < p'.length) :
    PolyWritten r level r.qs p' (r.nttLvl level p p') (r.nttVec n X) := by
  have h4 := hr.four_le
  refine writeLvl_is h' (fun i hi => ?_)
  have V := hr.subAt (show i < r.subs.length by omega)
  have hlt := sr _ (Ring.sub_mem (show i < r.subs.length by omega))
  have h1 := h.row i hi
  rw [hr.deg] at h1 ⊢
  exact ntt_is V (by omega) hlt (by unfold Ring.qs; omega) h1

end small

/-! ## One digit of a switching key -/

theorem keyPBig_eq {n : ℕ} {r : Ring} (hr : r.Valid n) {l : ℕ} (hl : l < r.subs.length) :
    keyPBig r l = (r.prodQ l : ℤ) := by
  have hp := List.length_pos_iff.2 hr.ne_nil
  unfold keyPBig
  split
  · exact modulusBigint_prodQ hr (by omega)
  · have : ∀ m, (List.range m).foldl (fun m i => m * ((r.sub (i + 1)).q.toNat : ℤ)) ((r.sub 0).q.toNat : ℤ)
        = (r.prodQ m : ℤ) := by
      intro m
      induction m with
      | zero => simp [Ring.prodQ]
      | succ m ih =>
        rw [List.range_succ, List.foldl_append, ih]
        simp only [List.foldl_cons, List.foldl_nil]
        unfold Ring.prodQ
        rw [prod_range_succ _ (m + 1)]
        push_cast
        rfl
    exact this l

/-- the loop that adds `poolQ` to the rows of block `i` -/
theorem blockAdd_is {n : ℕ} {r : Ring} (hr : r.Valid n) {level alpha i : ℕ} (ha : 0 < alpha)
    (hl : level < r.subs.length) {b y : Rows} {v w : ∀ u, ℕ → ZMod (r.sub u).q.toNat}
    (hb : PolyIs r level r.qs b v) (hy : PolyIs r level r.qs y w) :
    PolyIs r level r.qs ((List.range alpha).foldl (fun bQ j =>
      let index := i * alpha + j
      if index ≥ level + 1 then bQ
      else bQ.set index ((List.range r.n).map fun w =>
        cred ((bQ.row index).at w + (y.row index).at w) (r.sub index).q)) b)
      (fun u k => v u k + if u / alpha = i then w u k else 0) := by
  set f := fun (bQ : Rows) (j : ℕ) =>
      let index := i * alpha + j
      if index ≥ level + 1 then bQ
      else bQ.set index ((List.range r.n).map fun w =>
        cred ((bQ.row index).at w + (y.row index).at w) (r.sub index).q) with hf
  have key : ∀ m, ((List.range m).foldl f b).length = b.length ∧ ∀ u ≤ level,
      ((List.range m).foldl f b).row u = if i * alpha ≤ u ∧ u < i * alpha + m then
        (List.range r.n).map (fun w => cred ((b.row u).at w + (y.row u).at w) (r.sub u).q) else b.row u := by
    intro m
    induction m with
    | zero => exact ⟨rfl, fun u _ => by rw [if_neg (by omega)]; rfl⟩
    | succ m ih =>
      rw [List.range_succ, List.foldl_append]
      simp only [List.foldl_cons, List.foldl_nil]
      obtain ⟨i1, i2⟩ := ih
      have e : ∀ t, f t m = if i * alpha + m ≥ level + 1 then t else t.set (i * alpha + m)
        ((List.range r.n).map fun w =>
          cred ((t.row (i * alpha + m)).at w + (y.row (i * alpha + m)).at w) (r.sub (i * alpha + m)).q) :=
        fun t => rfl
      rw [e]
      split
      · refine ⟨i1, fun u hu => ?_⟩
        rw [i2 u hu]
        exact if_congr (by omega) rfl rfl
      · rename_i h
        have hlen : i * alpha + m < ((List.range m).foldl f b).length := by rw [i1]; have := hb.lvl; omega
        refine ⟨by rw [List.length_set, i1], fun u hu => ?_⟩
        rw [row_set _ _ hlen]
        split
        · rename_i he
          subst he
          rw [if_pos (by omega), i2 _ hu, if_neg (by omega)]
        · rw [i2 u hu]
          exact if_congr (by omega) rfl rfl
  obtain ⟨k1, k2⟩ := key alpha
  refine ⟨by rw [k1]; exact hb.lvl, fun u hu => ?_⟩
  rw [k2 u hu]
  have hdiv : (u / alpha = i) ↔ (i * alpha ≤ u ∧ u < i * alpha + alpha) := by
    rw [Nat.div_eq_iff ha]
    constructor <;> intro h <;> omega
  have h1 := hb.row u hu
  have h2 := hy.row u hu
  have A := hr.arithLvl hl u hu
  by_cases c : i * alpha ≤ u ∧ u < i * alpha + alpha
  · simp only [if_pos c, if_pos (hdiv.2 c)]
    refine ⟨by simp, fun k hk => ?_, fun k hk => ?_⟩
    · rw [at_map_range _ _ hk]
      exact (word_add A _ _ (h1.lt k hk) (h2.lt k hk)).1
    · rw [zval, at_map_range _ _ hk, (word_add A _ _ (h1.lt k hk) (h2.lt k hk)).2, ← h1.val k hk, ← h2.val k hk]
      rfl
  · simp only [if_neg c, if_neg (fun h => c (hdiv.1 h)), add_zero]
    exact h1

/-- what is needed of the rings to generate keys -/
structure KeyRings (n : ℕ) (rQ rP : Ring) (lQ lP : ℕ) : Prop where
  hQ : rQ.Valid n
  sQ : rQ.Small
  hP : rP.Valid n
  sP : rP.Small
  hd : rQ.Disjoint rP
  lQ : lQ < rQ.subs.length
  lP : lP < rP.subs.length

/-- the values of a small error `E`, a mask, and so on: one digit of `genSwitchingKey` -/
theorem genSwitchingDigit_is {n : ℕ} {rQ rP : Ring} {lQ lP : ℕ} (K : KeyRings n rQ rP lQ lP) {poolQ : Rows}
    {skOut : PolyQP} {sIn sOut A E : ℕ → ℤ} {t : KeyTape} {i : ℕ}
    (hp : PolyIs rQ lQ rQ.qs poolQ (fun u k => rQ.nttVec n sIn u k * 2 ^ 64 * (rP.prodQ lP : ℤ)))
    (ho : skOut.IsMont n rQ rP lQ lP sOut) (hA : t.a.IsMont n rQ rP lQ lP A)
    (hE : Sampled rQ lQ t.e E) (hE2 : ∀ k < 2 ^ n, ∀ u ≤ lP, |E k| ≤ rP.qs u) :
    ∃ B, (genSwitchingDigit rQ rP lQ lP poolQ skOut i t).1.IsMont n rQ rP lQ lP B ∧
      (∀ u ≤ lQ, intR (2 ^ n) (rQ.qs u) B + intR (2 ^ n) (rQ.qs u) A * intR (2 ^ n) (rQ.qs u) sOut
        = intR (2 ^ n) (rQ.qs u) E + if u / (lP + 1) = i then (rP.prodQ lP : Rq (2 ^ n) (rQ.qs u))
              * intR (2 ^ n) (rQ.qs u) sIn else 0) ∧
      ∀ u ≤ lP, intR (2 ^ n) (rP.qs u) B + intR (2 ^ n) (rP.qs u) A * intR (2 ^ n) (rP.qs u) sOut
        = intR (2 ^ n) (rP.qs u) E := by
  have eP := extendBasisSmallNorm_is K.hQ K.hP hE hE2
    (out := newPoly rP.n (lP + 1)) (by simp [newPoly])
  have bQ := nttLazyLvl_is K.hQ K.sQ K.lQ hE.is hE.is.lvl
  have bP := nttLazyLvl_is K.hP K.sP K.lP eP eP.lvl
  have mQ := C10_mform (K.hQ.arithLvl K.lQ) bQ.is bQ.is.lvl
  have mP := C10_mform (K.hP.arithLvl K.lP) bP.is bP.is.lvl
  have cQ := blockAdd_is (i := i) K.hQ (Nat.succ_pos lP) K.lQ mQ.is hp
  have bound : ∀ {r : Ring}, r.Valid n → ∀ {l : ℕ}, l < r.subs.length → ∀ u ≤ l,
      r.qs u * r.qs u ≤ r.qs u * 2 ^ 64 := by
    intro r hr l hl u hu
    have := (hr.arithLvl hl u hu).lt
    exact Nat.mul_le_mul_left _ (by unfold Ring.qs; omega)
  have dQ := (C10_mulCoeffsMontgomeryAndSub (K.hQ.arithLvl K.lQ) hA.q ho.q (bound K.hQ K.lQ) cQ).is
  have dP := (C10_mulCoeffsMontgomeryAndSub (K.hP.arithLvl K.lP) hA.p ho.p (bound K.hP K.lP) mP.is).is
  obtain ⟨B, hB⟩ := IsMont.exists K.hQ K.hP K.hd K.lQ K.lP
    (x := (genSwitchingDigit rQ rP lQ lP poolQ skOut i t).1) dQ dP
  have can : ∀ {r : Ring}, r.Valid n → ∀ {u : ℕ}, u < r.subs.length → ∀ {a b : ZMod (r.sub u).q.toNat},
      a * 2 ^ 64 = b * 2 ^ 64 → a = b := by
    intro r hr u hu a b h
    have := congrArg (· * rinv (r.sub u).q.toNat) h
    simp only [mul_assoc, mul_rinv (hr.subAt hu).arith.odd, mul_one] at this
    exact this
  refine ⟨B, hB, fun u hu => ?_, fun u hu => ?_⟩
  · have hul : u < rQ.subs.length := by have := K.lQ; omega
    have key : ∀ k < 2 ^ n, rQ.nttVec n B u k = rQ.nttVec n E u k + (if u / (lP + 1) = i then
        (rP.prodQ lP : ℤ) * rQ.nttVec n sIn u k else 0) - rQ.nttVec n A u k * rQ.nttVec n sOut u k := by
      intro k hk
      apply can K.hQ hul
      rw [← K.hQ.deg] at hk
      have h1 := (hB.q.row u hu).val k hk
      have h2 := (dQ.row u hu).val k hk
      have h3 := h1.symm.trans h2
      have hr := mul_rinv (K.hQ.subAt hul).arith.odd
      rw [h3]
      split
      · linear_combination (- rQ.nttVec n A u k * rQ.nttVec n sOut u k * 2 ^ 64) * hr
      · linear_combination (- rQ.nttVec n A u k * rQ.nttVec n sOut u k * 2 ^ 64) * hr
    rw [intR_mul, intR_add]
    split
    · rename_i c
      simp only [if_pos c] at key
      rw [intR_natMul, intR_add]
      refine intR_of_nttVec K.hQ hul (fun k hk => ?_)
      rw [nttVec_add, nttVec_add, nttVec_smul, nttVec_mul K.hQ hul _ _ hk, key k hk]
      push_cast
      ring
    · rename_i c
      simp only [if_neg c] at key
      rw [add_zero]
      refine intR_of_nttVec K.hQ hul (fun k hk => ?_)
      rw [nttVec_add, nttVec_mul K.hQ hul _ _ hk, key k hk]
      ring
  · have hul : u < rP.subs.length := by have := K.lP; omega
    rw [intR_mul, intR_add]
    refine intR_of_nttVec K.hP hul (fun k hk => ?_)
    rw [nttVec_add, nttVec_mul K.hP hul _ _ hk]
    apply can K.hP hul
    rw [← K.hP.deg] at hk
    have h1 := (hB.p.row u hu).val k hk
    have h2 := (dP.row u hu).val k hk
    have h3 := h1.symm.trans h2
    have hr := mul_rinv (K.hP.subAt hul).arith.odd
    linear_combination h3 + (- rP.nttVec n A u k * rP.nttVec n sOut u k * 2 ^ 64) * hr

/-- `genSwitchingKey` -/
theorem genSwitchingKeyCore_is {n : ℕ} {rQ rP : Ring} {lQ lP : ℕ} (K : KeyRings n rQ rP lQ lP)
    (hq : lQ < 100) (hp : lP < 100)
    {skIn : Rows} {skOut : PolyQP} {sIn sOut : ℕ → ℤ} {E : ℕ → ℕ → ℤ} {tape : ℕ → KeyTape}
    (hi : PolyIs rQ lQ rQ.qs skIn (fun u k => rQ.nttVec n sIn u k * 2 ^ 64))
    (ho : skOut.IsMont n rQ rP lQ lP sOut)
    (hA : ∀ i, i * (lP + 1) ≤ lQ → ∃ v w, PolyIs rQ lQ rQ.qs (tape i).a.q v ∧ PolyIs rP lP rP.qs (tape i).a.p w)
    (hE : ∀ i, i * (lP + 1) ≤ lQ → Sampled rQ lQ (tape i).e (E i))
    (hE2 : ∀ i, i * (lP + 1) ≤ lQ → ∀ k < 2 ^ n, ∀ u ≤ lP, |E i k| ≤ rP.qs u) :
    IsSwitchKey n rQ rP lQ lP (genSwitchingKeyCore rQ rP lQ lP skIn skOut tape) sIn sOut E := by
  have hpool := (C10_mulScalarBigint (K.hQ.arithLvl K.lQ) hi (keyPBig rP lP)
    (p2 := newPoly rQ.n rQ.subs.length) (by simp [newPoly]; exact K.lQ)).is
  rw [keyPBig_eq K.hP K.lP] at hpool
  have key : ∀ i, ∃ B A, i * (lP + 1) ≤ lQ →
      ((genSwitchingKeyCore rQ rP lQ lP skIn skOut tape).getD i default).1.IsMont n rQ rP lQ lP B ∧
      ((genSwitchingKeyCore rQ rP lQ lP skIn skOut tape).getD i default).2.IsMont n rQ rP lQ lP A ∧
      (∀ u ≤ lQ, intR (2 ^ n) (rQ.qs u) B + intR (2 ^ n) (rQ.qs u) A * intR (2 ^ n) (rQ.qs u) sOut
        = intR (2 ^ n) (rQ.qs u) (E i) + if u / (lP + 1) = i then (rP.prodQ lP : Rq (2 ^ n) (rQ.qs u))
              * intR (2 ^ n) (rQ.qs u) sIn else 0) ∧
      ∀ u ≤ lP, intR (2 ^ n) (rP.qs u) B + intR (2 ^ n) (rP.qs u) A * intR (2 ^ n) (rP.qs u) sOut
        = intR (2 ^ n) (rP.qs u) (E i) := by
    intro i
    by_cases c : i * (lP + 1) ≤ lQ
    · obtain ⟨v, w, h1, h2⟩ := hA i c
      obtain ⟨A, hA'⟩ := IsMont.exists K.hQ K.hP K.hd K.lQ K.lP (x := (tape i).a) h1 h2
      obtain ⟨B, hB, hBQ, hBP⟩ := genSwitchingDigit_is (i := i) K hpool ho hA' (hE i c) (hE2 i c)
      have e : (genSwitchingKeyCore rQ rP lQ lP skIn skOut tape).getD i default
          = genSwitchingDigit rQ rP lQ lP (rQ.mulScalarBigintLvl lQ (keyPBig rP lP) skIn
              (newPoly rQ.n rQ.subs.length)) skOut i (tape i) := by
        unfold genSwitchingKeyCore
        rw [getD_map_range']
        rw [ceilDivF_small (by omega) (by omega) (by omega)]
        exact (ceil_block (by omega)).2 (by omega)
      rw [keyPBig_eq K.hP K.lP] at e
      exact ⟨B, A, fun _ => by rw [e]; exact ⟨hB, hA', hBQ, hBP⟩⟩
    · exact ⟨0, 0, fun h => absurd h c⟩
  choose B A h using key
  exact ⟨B, A, fun i hi => ⟨(h i hi).1, (h i hi).2.1⟩, fun i hi => (h i hi).2.2.1, fun i hi => (h i hi).2.2.2⟩

/-! ## Automorphisms of integer vectors -/

theorem intR_autInt {N q g : ℕ} (hN : 0 < N) (hg : g % 2 = 1) (S : ℕ → ℤ) :
    intR N q (autInt N g S) = aut N q hg (intR N q S) := by
  unfold intR
  rw [aut_toR, toR]
  have e : ∀ k, AdjoinRoot.of (Polynomial.X ^ N + 1 : Polynomial (ZMod q)) ((autInt N g S k : ℤ) : ZMod q) * AdjoinRoot.root (Polynomial.X ^ N + 1 : Polynomial (ZMod q)) ^ k
      = ∑ j ∈ range N, (if g * j % (2 * N) = k then AdjoinRoot.of (Polynomial.X ^ N + 1 : Polynomial (ZMod q)) (S j : ZMod q) * AdjoinRoot.root (Polynomial.X ^ N + 1 : Polynomial (ZMod q)) ^ k
        else if g * j % (2 * N) = k + N then -(AdjoinRoot.of (Polynomial.X ^ N + 1 : Polynomial (ZMod q)) (S j : ZMod q) * AdjoinRoot.root (Polynomial.X ^ N + 1 : Polynomial (ZMod q)) ^ k) else 0) := by
    intro k
    unfold autInt
    rw [Int.cast_sum, map_sum, sum_mul]
    refine sum_congr rfl (fun j _ => ?_)
    split
    · rfl
    · split
      · push_cast; rw [map_neg, neg_mul]
      · simp
  rw [sum_congr rfl (fun k _ => e k), sum_comm]
  refine sum_congr rfl (fun j _ => ?_)
  have hm : g * j % (2 * N) < 2 * N := Nat.mod_lt _ (by omega)
  rw [root_pow_mod (g * j)]
  generalize g * j % (2 * N) = m at *
  by_cases c : m < N
  · rw [sum_eq_single_of_mem m (mem_range.2 c)]
    · rw [if_pos rfl]
    · intro k hk hne
      have := mem_range.1 hk
      rw [if_neg (by omega), if_neg (by omega)]
  · rw [sum_eq_single_of_mem (m - N) (mem_range.2 (by omega))]
    · rw [if_neg (by omega), if_pos (by omega)]
      conv_rhs => rw [show m = N + (m - N) by omega, pow_add, root_pow]
      ring
    · intro k hk hne
      have := mem_range.1 hk
      rw [if_neg (by omega), if_neg (by omega)]

/-- what `PermuteNTT` does to the transform of an integer vector -/
theorem nttVec_autInt {n : ℕ} {r : Ring} (hr : r.Valid n) {u : ℕ} (hu : u < r.subs.length) {g : ℕ}
    (hg : g % 2 = 1) (σ : ℕ → ℕ) (hσ : ∀ i < 2 ^ n, σ i < 2 ^ n ∧
      2 * revBits n (σ i) + 1 = g * (2 * revBits n i + 1) % 2 ^ (n + 1)) (S : ℕ → ℤ) {k : ℕ} (hk : k < 2 ^ n) :
    r.nttVec n (autInt (2 ^ n) g S) u k = r.nttVec n S u (σ k) := by
  have h4 := hr.four_le
  have V := hr.subAt hu
  have := V.fact
  have h1 := ofNtt_permute (V.psiOK (by omega)) hg σ hσ (r.nttVec n S u)
  rw [ofNtt_nttVec hr hu] at h1
  have h2 : intR (2 ^ n) (r.qs u) (autInt (2 ^ n) g S) = aut (2 ^ n) (r.qs u) hg (intR (2 ^ n) (r.qs u) S) :=
    intR_autInt (by positivity) hg S
  rw [← ofNtt_nttVec hr hu] at h2
  exact ofNtt_injective (V.psiOK (by omega)) (h2.trans h1.symm) k hk

theorem permuteMont_is {n : ℕ} {rQ r : Ring} (hQ : rQ.Valid n) (hr : r.Valid n) {l : ℕ} (hl : l < r.subs.length)
    {x out : Rows} {S : ℕ → ℤ} (hx : PolyIs r l r.qs x (fun u k => r.nttVec n S u k * 2 ^ 64))
    (ho : l < out.length) {g : UInt64} (hg : g.toNat % 2 = 1) :
    PolyIs r l r.qs (rQ.permuteNTTWithIndexLvl l x (rQ.permuteNTTIndex g) out)
      (fun u k => r.nttVec n (autInt (2 ^ n) g.toNat S) u k * 2 ^ 64) := by
  have hn := valid_n_lt hQ
  have h4 := hQ.four_le
  have hidx := fun i (hi : i < 2 ^ n) =>
    permuteNTTIndex_at (r := rQ) (by omega) (by omega) hQ.deg hQ.root g hg hi
  refine (writeLvl_is (A := r.qs) (v := fun u k => r.nttVec n (autInt (2 ^ n) g.toNat S) u k * 2 ^ 64) ho
    (fun u hu => ?_)).is
  have h1 := hx.row u hu
  rw [hQ.deg, hr.deg] at *
  refine (permuteNTTRow_is (fun j hj => (hidx j hj).1) h1).congr (fun k hk => ?_)
  rw [nttVec_autInt hr (by omega) hg (fun i => ((rQ.permuteNTTIndex g).at i).toNat) hidx S hk]

end FastKsw
