import Verif.Lemmas.FSwitch
import Verif.Lemmas.KeyRel
import Verif.Props.Scaling

/-!
# C26, C27, C29: lazy accumulation and the fast key-switch
-/

namespace FastKsw.Props

open Finset

/-! ## C29 -/

/-- **C29.** The accumulation loop of both key-switchers, with a reduction every `margin/2` terms and a
last one when the number of terms is not a multiple of it, ends with the reduced residues of
`∑_i x_i y_i 2^-64`, from any content of the accumulator, for any number of terms.  The `margin` is
the one computed in floating point from the moduli.  One factor is reduced, the other below `D`;
`D ≤ 6q` holds for outputs of the lazy transform. -/
theorem C29_accumulate {n : ℕ} {r : Ring} (hr : r.Valid n) (sr : r.Small) {level : ℕ}
    (hl : level < r.subs.length) (beta : ℕ) (hb : 0 < beta) (x y : ℕ → Rows) (D : ℕ → ℕ)
    (hD : ∀ t ≤ level, D t ≤ 6 * r.qs t ∨ D t + 2 * r.qs t + 2 ^ 15 ≤ 2 ^ 64)
    (v w : ℕ → ∀ t, ℕ → ZMod (r.sub t).q.toNat)
    (hx : ∀ i < beta, PolyIs r level r.qs (x i) (v i)) (hy : ∀ i < beta, PolyIs r level D (y i) (w i))
    (acc : Rows) (hacc : level < acc.length) :
    PolyWritten r level r.qs acc
      (r.accEnd level (overflowMargin r.moduli level >>> 1) beta ((List.range beta).foldl
        (fun a i => r.accStep level (overflowMargin r.moduli level >>> 1) i (x i) (y i) a) acc))
      (fun t k => ∑ i ∈ range beta, v i t k * w i t k * rinv _) := by
  obtain ⟨Q, hm, hQ⟩ := overflowMargin_ok hr sr hl
  refine accLoop_is (hr.arithLvl hl) hm hQ (D := D) (fun t ht => ?_) hacc beta hb (fun i hi =>
    ⟨r.qs, D, hx i hi, hy i hi, fun t _ => by rw [mul_comm]⟩)
  have := hQ t ht
  rcases hD t ht with h' | h'
  · left; omega
  · right; exact h'

/-- **C29, intermediate words.** After each step the accumulator is below `2^64` as an integer: every
word is below `q + (i mod m + 1)(q + Dq/2^64) ≤ 2^64` and congruent to the partial sum, so no addition
has wrapped. -/
theorem C29_partial_sums {n : ℕ} {r : Ring} (hr : r.Valid n) (sr : r.Small) {level : ℕ}
    (hl : level < r.subs.length) (beta : ℕ) (x y : ℕ → Rows) (D : ℕ → ℕ)
    (hD : ∀ t ≤ level, D t ≤ 6 * r.qs t ∨ D t + 2 * r.qs t + 2 ^ 15 ≤ 2 ^ 64)
    (v w : ℕ → ∀ t, ℕ → ZMod (r.sub t).q.toNat)
    (hx : ∀ i ≤ beta, PolyIs r level r.qs (x i) (v i)) (hy : ∀ i ≤ beta, PolyIs r level D (y i) (w i))
    (acc : Rows) (hacc : level < acc.length) :
    ∃ C : ℕ → ℕ, (∀ t ≤ level, C t ≤ 2 ^ 64 ∧ C t ≤ r.qs t + (overflowMargin r.moduli level >>> 1)
        * (r.qs t + D t * r.qs t / 2 ^ 64)) ∧
      PolyIs r level C ((List.range (beta + 1)).foldl
        (fun a i => r.accStep level (overflowMargin r.moduli level >>> 1) i (x i) (y i) a) acc)
        (fun t k => ∑ i ∈ range (beta + 1), v i t k * w i t k * rinv _) := by
  obtain ⟨Q, hm, hQ⟩ := overflowMargin_ok hr sr hl
  have hD' : ∀ t ≤ level, DigitOK Q (r.qs t) (D t) := fun t ht => by
    have := hQ t ht
    rcases hD t ht with h' | h'
    · left; omega
    · right; exact h'
  set m := overflowMargin r.moduli level >>> 1 with hmd
  have key : ∀ b, b ≤ beta → PolyIs r level (fun j => accBound m (r.qs j) (D j) (b + 1))
      ((List.range (b + 1)).foldl (fun a i => r.accStep level m i (x i) (y i) a) acc)
      (fun j k => ∑ i ∈ range (b + 1), v i j k * w i j k * rinv _) := by
    intro b
    induction b with
    | zero =>
      intro _
      have := (accStep_is (hr.arithLvl hl) hm hQ hD' (i := 0) (t := fun _ _ => 0) hacc
        ⟨r.qs, D, hx 0 (by omega), hy 0 (by omega), fun t _ => by rw [mul_comm]⟩
        (fun h => absurd rfl h) (fun _ _ _ _ _ => rfl)).is
      refine (this.congr (fun j _ k _ => ?_))
      simp
    | succ b ih =>
      intro hb
      have h1 := ih (by omega)
      rw [List.range_succ, List.foldl_append, List.foldl_cons, List.foldl_nil]
      have := (accStep_is (hr.arithLvl hl) hm hQ hD' (i := b + 1) h1.lvl
        ⟨r.qs, D, hx (b + 1) (by omega), hy (b + 1) (by omega), fun t _ => by rw [mul_comm]⟩
        (fun _ => h1) (fun h => absurd h (by omega))).is
      refine this.congr (fun j _ k _ => ?_)
      rw [sum_range_succ _ (b + 1)]
  refine ⟨_, fun t ht => ?_, key beta le_rfl⟩
  have hno := acc_no_overflow hm (hQ t ht) (hD' t ht)
  have hlt : (beta + 1) % m < m := Nat.mod_lt _ hm.pos
  have : (beta + 1) % m * prodBound (r.qs t) (D t) ≤ m * prodBound (r.qs t) (D t) :=
    Nat.mul_le_mul_right _ hlt.le
  unfold accBound
  exact ⟨by omega, by unfold prodBound at *; omega⟩

/-! ## C26 -/

/-- the objects built by `NewParametersFromLiteral`, for literals within the limits of the NTT and of
the basis extension -/
theorem C26_params {fuel logN : ℕ} {q p t : List UInt64} {h : ℕ} {sigma : UInt64} {gamma : ℕ}
    {fp : FParams} (hf : newFParams fuel logN q p t h sigma gamma = some fp)
    (hq : ∀ x ∈ q, x.toNat < 2 ^ 61) (hp : ∀ x ∈ p, x.toNat < 2 ^ 61) (ht : ∀ x ∈ t, x.toNat < 2 ^ 61)
    (hp32 : p.length ≤ 32) (ht32 : t.length ≤ 32) (hg : 0 < gamma) (hg32 : gamma ≤ 32) :
    fp.OK fuel logN ∧ fp.ringQ.moduli = q ∧ fp.ringP.moduli = p ∧ fp.ringT.moduli = t ∧
      fp.ringR.moduli = p ++ q ∧ fp.gamma = gamma := by
  unfold newFParams at hf
  split at hf
  · cases hf
  rename_i rl hrl
  split at hf
  · cases hf
  rename_i rT hT
  split at hf
  · cases hf
  rename_i rR hR
  split at hf
  · cases hf
  rename_i rP hrP
  cases hf
  unfold newParameters at hrl
  split at hrl
  · cases hrl
  rename_i hs
  split at hrl
  · cases hrl
  split at hrl
  · cases hrl
  rename_i rQ hQ
  unfold checkSizeParams maxLogN minLogN maxModuliCount at hs
  have hlogN : logN ≤ 17 ∧ q.length ≤ 100 := by
    split at hs
    · cases hs
    split at hs
    · cases hs
    split at hs
    · cases hs
    omega
  split at hrl
  · split at hrl
    · cases hrl
    rename_i rP' hP
    cases hrl
    simp only [Option.some.injEq] at hrP
    subst hrP
    change newRing fuel (2 ^ logN) q = .ok rQ at hQ
    change newRing fuel (2 ^ logN) p = .ok rP' at hP
    obtain ⟨q1, q2, q3⟩ := newRing_valid' rfl (show logN < 62 by omega) hq hQ
    obtain ⟨p1, p2, p3⟩ := newRing_valid' rfl (show logN < 62 by omega) hp hP
    obtain ⟨t1, t2, t3⟩ := newRing_valid' rfl (show logN < 62 by omega) ht hT
    obtain ⟨r1, r2, r3⟩ := newRing_valid' rfl (show logN < 62 by omega)
      (fun x hx => (List.mem_append.1 hx).elim (hp x) (hq x)) hR
    have lq : rQ.subs.length = q.length := by rw [← q3]; simp [Ring.moduli]
    have lp : rP'.subs.length = p.length := by rw [← p3]; simp [Ring.moduli]
    have lt : rT.subs.length = t.length := by rw [← t3]; simp [Ring.moduli]
    refine ⟨⟨by omega, q1, p1, r1, t1, q2, p2, r2, t2, by simp only [q3]; exact hQ, by simp only [r3]; exact hR,
      by simp only [r3, p3, q3], hg, hg32, by simp only [lp]; exact hp32, by simp only [lt]; exact ht32,
      by simp only [lq]; omega⟩, q3, p3, t3, r3, rfl⟩
  · cases hrl
    cases hrP

variable {fuel n : ℕ} {p : FParams} {ksw : FKeySwitcher} {kg : FKeyGenerator}

/-- the two constructors do not panic and build what they should -/
theorem C26_constructors (h : p.OK fuel n) :
    (∃ ksw, newFKeySwitcher fuel p = some ksw ∧ ksw.OK n p) ∧
    ∃ kg, newFKeyGenerator fuel p = some kg ∧ kg.OK n p :=
  ⟨newFKeySwitcher_ok h, newFKeyGenerator_ok h⟩

theorem ksw_ok (h : p.OK fuel n) (hk : newFKeySwitcher fuel p = some ksw) : ksw.OK n p := by
  obtain ⟨k, h1, h2⟩ := newFKeySwitcher_ok h
  rw [hk] at h1
  cases h1
  exact h2

theorem kg_ok (h : p.OK fuel n) (hk : newFKeyGenerator fuel p = some kg) : kg.OK n p := by
  obtain ⟨k, h1, h2⟩ := newFKeyGenerator_ok h
  rw [hk] at h1
  cases h1
  exact h2

/-- **C26.** `externalProduct` before the division by `P`: if digit `i` holds the integer polynomial
`A_i` in ring `T` and key block `(i,j)` the integer polynomial `B_ij`, and no coefficient of
`∑_i A_i B_ij` leaves the window `2|S| ≤ T - 2^-41 T - 1`, then for every prime of `Q` up to the level
and every prime of `P`, lying in block `j` of `R = P‖Q`, the result is exactly `∑_i A_i B_ij` in
`Z_r[X]/(X^N+1)`, reduced.  The `2^-41 T` is the error of the floating-point quotient estimation. -/
theorem C26_externalProductQP (h : p.OK fuel n) (hk : newFKeySwitcher fuel p = some ksw) {levelQ : ℕ}
    (hl : levelQ < p.ringQ.subs.length) {D : ℕ → ℕ}
    (hD : ∀ t ≤ p.levelT, D t ≤ 6 * p.ringT.qs t ∨ D t + 2 * p.ringT.qs t + 2 ^ 15 ≤ 2 ^ 64)
    {dig : List Rows} {bg : FSwitchingKey} {A : ℕ → ℕ → ℤ} {B : ℕ → ℕ → ℕ → ℤ}
    {beta : ℕ} (hb : beta = (levelQ + p.alpha) / p.alpha)
    (hA : ∀ i < beta, PolyIs p.ringT p.levelT D (dig.getD i []) (p.ringT.nttVec n (A i)))
    (hB : ∀ i < beta, ∀ j, j * p.gamma < levelQ + p.alpha + 1 →
      PolyIs p.ringT p.levelT p.ringT.qs (bg.at i j) (fun t k => p.ringT.nttVec n (B i j) t k * 2 ^ 64))
    (hS : ∀ j, j * p.gamma < levelQ + p.alpha + 1 → ∀ k < 2 ^ n,
      FitsT (p.ringT.prodQ p.levelT) (convSum (2 ^ n) beta A (fun i => B i j) k)) :
    (∀ u ≤ levelQ, ((ksw.externalProductQP levelQ dig bg).q.row u).length = 2 ^ n ∧
      (∀ k < 2 ^ n, (((ksw.externalProductQP levelQ dig bg).q.row u).at k).toNat < p.ringQ.qs u) ∧
      rowR (2 ^ n) (p.ringQ.qs u) ((ksw.externalProductQP levelQ dig bg).q.row u)
        = ∑ i ∈ range beta, intR (2 ^ n) (p.ringQ.qs u) (A i)
            * intR (2 ^ n) (p.ringQ.qs u) (B i ((u + p.alpha) / p.gamma))) ∧
    ∀ u < p.alpha, ((ksw.externalProductQP levelQ dig bg).p.row u).length = 2 ^ n ∧
      (∀ k < 2 ^ n, (((ksw.externalProductQP levelQ dig bg).p.row u).at k).toNat < p.ringP.qs u) ∧
      rowR (2 ^ n) (p.ringP.qs u) ((ksw.externalProductQP levelQ dig bg).p.row u)
        = ∑ i ∈ range beta, intR (2 ^ n) (p.ringP.qs u) (A i)
            * intR (2 ^ n) (p.ringP.qs u) (B i (u / p.gamma)) := by
  have hal : p.alpha = p.ringP.subs.length := rfl
  have ha := h.lenP
  have ha2 := h.alpha32
  have hq := h.q100
  have hb' : beta = ceilDivF (levelQ + 1) p.alpha := by
    rw [hb, ceilDivF_small (by omega) (by omega) (by omega)]
    congr 1; omega
  obtain ⟨e1, e2⟩ := externalProductQP_is h (ksw_ok h hk) hl hD hb' hA hB hS
  constructor
  · intro u hu
    have h1 := e1.row u hu
    rw [h.hQ.deg] at h1
    refine ⟨h1.len, h1.lt, ?_⟩
    rw [← intR_convSum]
    exact toR_congr h1.val
  · intro u hu
    have h1 := e2.row u (by omega)
    rw [h.hP.deg] at h1
    refine ⟨h1.len, h1.lt, ?_⟩
    rw [← intR_convSum]
    exact toR_congr h1.val

/-- **C26, key blocks.** The blocks that the key generator makes of a key polynomial over `P‖Q` hold,
in ring `T`, integers congruent to it modulo every prime of the block and within `2^-42` of
`[0, R_j)`. -/
theorem C26_keyBlocks (h : p.OK fuel n) (hg : newFKeyGenerator fuel p = some kg) {x : ℕ → PolyQP}
    {X : ℕ → ℕ → ℤ} {i : ℕ} (hx : (x i).IsMont n p.ringQ p.ringP p.maxLevel (p.alpha - 1) (X i)) (hi : i < p.beta) {j : ℕ}
    (hj : j * p.gamma < p.ringR.subs.length) :
    ∃ Z : ℕ → ℤ, BlockRep p.ringR p.gamma p.ringR.subs.length j (p.ringR.intVec (X i)) Z ∧
      PolyIs p.ringT p.levelT p.ringT.qs
        (FSwitchingKey.at ((List.range p.beta).map fun i => kg.polyQPToPolyTs (p.plain (x i))) i j)
        (fun t k => p.ringT.nttVec n Z t k * 2 ^ 64) :=
  convertKey_is h (kg_ok h hg) hx hi hj

/-- **C26, digits.** Digit `j` that `SwitchKey` makes of a polynomial over `Q` holds, in ring `T`,
integers congruent to it modulo every prime of block `j` up to the level and within `2^-42` of
`[0, Q_j)`; its words are below the bound that the accumulation needs. -/
theorem C26_digits (h : p.OK fuel n) (hk : newFKeySwitcher fuel p = some ksw) {levelQ : ℕ}
    (hl : levelQ < p.ringQ.subs.length)
    (hov : p.alpha ≤ 16 ∨ ∀ t ≤ p.levelT, 10 * p.ringT.qs t + 2 ^ 15 ≤ 2 ^ 64)
    {a : Rows} {v : ∀ u, ℕ → ZMod (p.ringQ.sub u).q.toNat} (ha : PolyIs p.ringQ levelQ p.ringQ.qs a v)
    {j : ℕ} (hj : j * p.alpha < levelQ + 1) :
    ∃ (Z : ℕ → ℤ) (D : ℕ → ℕ), BlockRep p.ringQ p.alpha (levelQ + 1) j v Z ∧
      (∀ t ≤ p.levelT, D t ≤ 6 * p.ringT.qs t ∨ D t + 2 * p.ringT.qs t + 2 ^ 15 ≤ 2 ^ 64) ∧
      PolyIs p.ringT p.levelT D (ksw.digit levelQ a j) (p.ringT.nttVec n Z) := by
  obtain ⟨Z, h1, h2⟩ := digit_is h (ksw_ok h hk) hl hov ha hj
  refine ⟨Z, _, h1, fun t ht => ?_, h2⟩
  have hT := h.lenT
  have hlT : p.levelT < p.ringT.subs.length := by unfold FParams.levelT; omega
  have hlt := h.sT _ (Ring.sub_mem (show t < p.ringT.subs.length by omega))
  unfold Ring.qs at *
  split
  · by_cases hc : 2 ^ 61 + 2 * (p.ringT.sub t).q.toNat ≤ 6 * (p.ringT.sub t).q.toNat
    · left; omega
    · right; omega
  · have := (hov.resolve_left (by assumption)) t ht
    right; omega

/-! ## C27 -/

/-- **C27.** `SwitchKey` with a key from `sIn` to `sOut`: with `A_i` the digits of `a`, `e_i` the errors
of the key and `P` the product of the special primes, the results satisfy, modulo every prime up to the
level, `c0 + c1 sOut = a sIn + E` where `P E = ∑_i A_i e_i - Z0 - Z1 sOut` over the integers and the
rounding terms `Z0, Z1` lie within `2^-42` of `[0, P)`.  Rows above the level are not touched.  `p.Fits`
is the condition on the size of `T`; it does not depend on the level. -/
theorem C27_switchKey (h : p.OK fuel n) (hF : p.Fits)
    (hov : p.alpha ≤ 16 ∨ ∀ t ≤ p.levelT, 10 * p.ringT.qs t + 2 ^ 15 ≤ 2 ^ 64)
    (hk : newFKeySwitcher fuel p = some ksw) (hg : newFKeyGenerator fuel p = some kg) {levelQ : ℕ}
    (hl : levelQ < p.ringQ.subs.length) {key : SwitchingKey} {sIn sOut : ℕ → ℤ} {e : ℕ → ℕ → ℤ}
    (hkey : IsSwitchKey n p.ringQ p.ringP p.maxLevel (p.alpha - 1) key sIn sOut e)
    {a : Rows} {v : ∀ u, ℕ → ZMod (p.ringQ.sub u).q.toNat} (ha : PolyIs p.ringQ levelQ p.ringQ.qs a v)
    {c0 c1 : Rows} (hc0 : levelQ < c0.length) (hc1 : levelQ < c1.length) :
    ∃ d0 d1, ksw.switchKey levelQ false a (kg.convertKey key).1 (kg.convertKey key).2 c0 c1 = some (d0, d1) ∧
      d0.length = c0.length ∧ d1.length = c1.length ∧
      (∀ u > levelQ, d0.row u = c0.row u ∧ d1.row u = c1.row u) ∧
      ∃ (A : ℕ → ℕ → ℤ) (Z0 Z1 E : ℕ → ℤ),
        (∀ i < (levelQ + p.alpha) / p.alpha, BlockRep p.ringQ p.alpha (levelQ + 1) i v (A i)) ∧
        (∀ k < 2 ^ n, NearRep (p.ringP.prodQ (p.alpha - 1)) (Z0 k)) ∧
        (∀ k < 2 ^ n, NearRep (p.ringP.prodQ (p.alpha - 1)) (Z1 k)) ∧
        (∀ k < 2 ^ n, (p.ringP.prodQ (p.alpha - 1) : ℤ) * E k
          = convSum (2 ^ n) ((levelQ + p.alpha) / p.alpha) A e k - Z0 k - negConv (2 ^ n) Z1 sOut k) ∧
        ∀ u ≤ levelQ, (d0.row u).length = 2 ^ n ∧ (d1.row u).length = 2 ^ n ∧
          (∀ k < 2 ^ n, ((d0.row u).at k).toNat < p.ringQ.qs u ∧ ((d1.row u).at k).toNat < p.ringQ.qs u) ∧
          rowR (2 ^ n) (p.ringQ.qs u) (d0.row u)
            + rowR (2 ^ n) (p.ringQ.qs u) (d1.row u) * intR (2 ^ n) (p.ringQ.qs u) sOut
          = rowR (2 ^ n) (p.ringQ.qs u) (a.row u) * intR (2 ^ n) (p.ringQ.qs u) sIn
            + intR (2 ^ n) (p.ringQ.qs u) E := by
  have hal : p.alpha = p.ringP.subs.length := rfl
  have hlenP := h.lenP
  have ha2 := h.alpha32
  have hq := h.q100
  have hkw := ksw_ok h hk
  have hkg := kg_ok h hg
  set beta := (levelQ + p.alpha) / p.alpha with hbd
  have hb' : beta = ceilDivF (levelQ + 1) p.alpha := by
    rw [hbd, ceilDivF_small (by omega) (by omega) (by omega)]
    congr 1; omega
  have hbl : ∀ i, i < beta ↔ i * p.alpha < levelQ + 1 := fun i => by
    rw [hb', ceilDivF_small (by omega) (by omega) (by omega)]
    exact ceil_block (by omega)
  have hbb : beta ≤ p.beta := by
    unfold FParams.beta
    rw [hb', if_pos (by omega), ceilDivF_small (by omega) (by omega) (by omega),
      ceilDivF_small (by omega) (by omega) (by omega)]
    exact Nat.div_le_div_right (by omega)
  -- digits
  have hdig : ∀ i, ∃ (Z : ℕ → ℤ), i < beta → BlockRep p.ringQ p.alpha (levelQ + 1) i v Z ∧
      PolyIs p.ringT p.levelT (fun t => max (6 * p.ringT.qs t) (if p.alpha ≤ 16 then 2 ^ 61 + 2 * p.ringT.qs t
          else 8 * p.ringT.qs t)) (ksw.digit levelQ a i) (p.ringT.nttVec n Z) := by
    intro i
    by_cases hi : i < beta
    · obtain ⟨Z, hZ⟩ := digit_is h hkw hl hov ha ((hbl i).1 hi)
      exact ⟨Z, fun _ => hZ⟩
    · exact ⟨fun _ => 0, fun h' => absurd h' hi⟩
  choose A hA using hdig
  have hD : ∀ t ≤ p.levelT, max (6 * p.ringT.qs t) (if p.alpha ≤ 16 then 2 ^ 61 + 2 * p.ringT.qs t
      else 8 * p.ringT.qs t) ≤ 6 * p.ringT.qs t ∨ max (6 * p.ringT.qs t) (if p.alpha ≤ 16 then
      2 ^ 61 + 2 * p.ringT.qs t else 8 * p.ringT.qs t) + 2 * p.ringT.qs t + 2 ^ 15 ≤ 2 ^ 64 := by
    intro t ht
    have hT := h.lenT
    have hlT : p.levelT < p.ringT.subs.length := by unfold FParams.levelT; omega
    have hlt := h.sT _ (Ring.sub_mem (show t < p.ringT.subs.length by omega))
    unfold Ring.qs at *
    split
    · by_cases hc : 2 ^ 61 + 2 * (p.ringT.sub t).q.toNat ≤ 6 * (p.ringT.sub t).q.toNat
      · left; omega
      · right; omega
    · have := (hov.resolve_left (by assumption)) t ht
      right; omega
  obtain ⟨B, A', hmont, relQ, relP⟩ := hkey.ex
  have haa : p.alpha - 1 + 1 = p.alpha := by omega
  have hml := h.cntQ
  have hbk : ∀ i, i < p.beta → i * (p.alpha - 1 + 1) ≤ p.maxLevel := fun i hi => by
    unfold FParams.beta at hi
    rw [if_pos (by omega), ceilDivF_small (by omega) (by omega) (by omega), ceil_block (by omega)] at hi
    rw [haa]; omega
  have hgetD : ∀ i < beta, ((List.range (ceilDivF (levelQ + 1) p.alpha)).map (ksw.digit levelQ a)).getD i []
      = ksw.digit levelQ a i := fun i hi => getD_map_range' _ _ _ (by rw [← hb']; exact hi)
  have hA1 : ∀ i < beta, PolyIs p.ringT p.levelT (fun t => max (6 * p.ringT.qs t) (if p.alpha ≤ 16 then
      2 ^ 61 + 2 * p.ringT.qs t else 8 * p.ringT.qs t))
      (((List.range (ceilDivF (levelQ + 1) p.alpha)).map (ksw.digit levelQ a)).getD i [])
      (p.ringT.nttVec n (A i)) := fun i hi => by rw [hgetD i hi]; exact (hA i hi).2
  have hA2 : ∀ i < beta, ∀ k < 2 ^ n, NearRep (p.ringQ.blockQ p.alpha (levelQ + 1) i) (A i k) :=
    fun i hi k hk' => (hA i hi).1.near k (by rw [h.hQ.deg]; exact hk')
  obtain ⟨Z0, Y0, z0, y0, w0⟩ := externalProduct_is h hF hkw hkg hl hD hb' hA1 hA2
    (x := fun i => (key.getD i default).1) (X := B) (fun i hi => (hmont i (hbk i hi)).1) hc0
  obtain ⟨Z1, Y1, z1, y1, w1⟩ := externalProduct_is h hF hkw hkg hl hD hb' hA1 hA2
    (x := fun i => (key.getD i default).2) (X := A') (fun i hi => (hmont i (hbk i hi)).2) hc1
  have hconv : kg.convertKey key = ((List.range p.beta).map fun i =>
      kg.polyQPToPolyTs (p.plain (key.getD i default).1), (List.range p.beta).map fun i =>
      kg.polyQPToPolyTs (p.plain (key.getD i default).2)) := by
    unfold FKeyGenerator.convertKey
    simp only [hkg.params]
    rfl
  have hcond : ∀ u ≤ levelQ, u / p.alpha < beta := by
    intro u hu
    rw [hbl]
    have := Nat.div_mul_le_self u p.alpha
    omega
  obtain ⟨E, hE1, hE2⟩ := keyswitch_relation h.hQ h.hP h.disjoint hl (lP := p.alpha - 1) (by omega)
    (alpha := p.alpha) (by omega) hcond
    (fun i hi u hu => by simpa only [haa] using relQ i (hbk i (by omega)) u (by omega))
    (fun i hi => relP i (hbk i (by omega))) (fun i hi => (hA i hi).1) z0 z1 y0 y1
  refine ⟨_, _, ?_, w0.len, w1.len, fun u hu => ⟨w0.above u hu, w1.above u hu⟩, A, Z0, Z1, E,
    fun i hi => (hA i hi).1, fun k hk' => z0.near k (by rw [h.hP.deg]; exact hk'),
    fun k hk' => z1.near k (by rw [h.hP.deg]; exact hk'), hE1, fun u hu => ?_⟩
  · unfold FKeySwitcher.switchKey
    simp only [hkw.params, hconv]
    rfl
  · have r0 := w0.is.row u hu
    have r1 := w1.is.row u hu
    have ra := ha.row u hu
    rw [h.hQ.deg] at r0 r1 ra
    refine ⟨r0.len, r1.len, fun k hk' => ⟨r0.lt k hk', r1.lt k hk'⟩, ?_⟩
    have e0 : rowR (2 ^ n) (p.ringQ.qs u) _ = intR (2 ^ n) (p.ringQ.qs u) Y0 := toR_congr r0.val
    have e1 : rowR (2 ^ n) (p.ringQ.qs u) _ = intR (2 ^ n) (p.ringQ.qs u) Y1 := toR_congr r1.val
    have ea : rowR (2 ^ n) (p.ringQ.qs u) (a.row u) = toR (2 ^ n) (p.ringQ.qs u) (v u) := toR_congr ra.val
    rw [e0, e1, ea]
    exact hE2 u hu

end FastKsw.Props
