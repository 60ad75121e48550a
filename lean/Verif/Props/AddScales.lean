import Verif.Props.Constants
import Verif.Props.FusedMul

/-!
# C82: addition and subtraction of ciphertexts of different scales

`evaluateInPlace` multiplies the operand of smaller scale by the integer part of the ratio of the scales.
-/

namespace FastKsw.Props

open FastKsw Finset

/-- the factor of an operand of scale `s` when the other operand has scale `t` -/
def upFactor (s t : ℚ) : ℤ := if s < t ∧ 1 < ⌊f64Div t s⌋ then ⌊f64Div t s⌋ else 1

theorem upFactor_eq {s t : ℚ} (h : s < t) (h' : 1 < ⌊f64Div t s⌋) : upFactor s t = ⌊f64Div t s⌋ := if_pos ⟨h, h'⟩

theorem upFactor_one {s t : ℚ} (h : ¬ (s < t ∧ 1 < ⌊f64Div t s⌋)) : upFactor s t = 1 := if_neg h

/-- an integral ratio is recognised -/
theorem upFactor_int {s t : ℚ} (hs : 0 < s) {k : ℕ} (hk : 0 < k) (hk' : k < 2 ^ 51) (h : t = s * k) : upFactor s t = k := by
  have e : f64Div t s = (k : ℤ) := by
    rw [f64Div, h, mul_div_cancel_left₀ _ hs.ne']
    exact_mod_cast f64_int (z := k) (by rw [abs_of_nonneg (by positivity)]; exact_mod_cast (by omega : k ≤ 2 ^ 52))
  by_cases h1 : k = 1
  · subst h1
    rw [upFactor_one]
    · rfl
    · rw [e, Int.floor_intCast]; simp
  · rw [upFactor, e, Int.floor_intCast, if_pos]
    refine ⟨?_, by omega⟩
    have : (1 : ℚ) < k := by exact_mod_cast (by omega : 1 < k)
    rw [h]
    nlinarith

/-- scales in an integral ratio -/
theorem upFactor_pair {s t : ℚ} {a b : ℕ} (ha : 0 < a) (hb : 0 < b) (hab : s * a = t * b) (hab' : a = 1 ∨ b = 1)
    (ba : a < 2 ^ 51) (bb : b < 2 ^ 51) (hs : 0 < s) : upFactor s t = a ∧ upFactor t s = b ∧ max s t = s * a := by
  rcases hab' with rfl | rfl
  · have h1 : 0 < t := by
      have : (0 : ℚ) < b := by exact_mod_cast hb
      rw [Nat.cast_one, mul_one] at hab
      by_contra hc
      nlinarith
    have hb1 : (1 : ℚ) ≤ b := by exact_mod_cast hb
    rw [Nat.cast_one, mul_one] at hab
    have hle : t ≤ s := by rw [hab]; nlinarith
    refine ⟨?_, upFactor_int h1 hb bb hab, by rw [Nat.cast_one, mul_one, max_eq_left hle]⟩
    rw [upFactor_one fun h => absurd h.1 (not_lt.2 hle)]
    rfl
  · have ha1 : (1 : ℚ) ≤ a := by exact_mod_cast ha
    rw [Nat.cast_one, mul_one] at hab
    have hle : s ≤ t := by rw [← hab]; nlinarith
    refine ⟨upFactor_int hs ha ba hab.symm, ?_, by rw [max_eq_right hle, hab]⟩
    rw [upFactor_one fun h => absurd h.1 (not_lt.2 hle)]
    rfl

section
variable {n : ℕ} {ev : Evaluator} (hr : ev.ringQ.Valid n) {level : ℕ} {A : ℕ → ℕ} {H g : Heap} {op0 op1 out c dst : Ref}
  {d d0 d1 dd dp l l0 l1 lo lp : ℕ} {x y : ℕ → ∀ u, Rq (2 ^ n) (ev.ringQ.qs u)}
include hr

/-- `MultByConst` by an integer, without its scale, into a receiver of any level and any sufficient degree -/
theorem multRows_is (hc : CtIs n ev.ringQ l A d (g c) x) (ho : CtShape dd lo (g dst)) (hd : d ≤ dd) (h1 : level ≤ l)
    (h2 : level ≤ lo) (hl : l < ev.ringQ.subs.length) {k : ℤ} (hk : |k| < 2 ^ 51) :
    ∃ g', ev.multByConstRows g c (.float k) dst = some g' ∧ (∀ b ≠ dst, g' b = g b) ∧
      (g' dst).scale = (g dst).scale ∧ CtShape dd lo (g' dst) ∧
      ∀ i ≤ d, EltIs n ev.ringQ level ev.ringQ.qs true (g'.rows dst i) (fun u => (k : Rq (2 ^ n) (ev.ringQ.qs u)) * x i u) := by
  have bk : |(k : ℚ)| ≤ 2 ^ 52 := by
    have : ((|k| : ℤ) : ℚ) ≤ ((2 ^ 52 : ℤ) : ℚ) := by exact_mod_cast (by omega : |k| ≤ 2 ^ 52)
    push_cast at this
    exact this
  obtain ⟨sc, e, hsc, hint⟩ := getConstAndScale_spec hr (min l lo) (.float k)
  have : sc = 1 := (hint bk (by simp [Constant.parts])).1 ⟨k, 0, by simp [Constant.parts]⟩
  subst this
  change getConstAndScale ev.ringQ (min l lo) (.float k) = ((k : ℚ), 0, 1) at e
  have W : ∀ i ≤ d, EltWritten n ev.ringQ (min l lo) ev.ringQ.qs true ((g dst).rows i)
      (ev.ringQ.mulPairLvl (min l lo) (constPairMont ev.ringQ (k : ℚ) 0 1) (g.rows c i) (g.rows dst i))
      (fun u => gauss n (ev.ringQ.qs u) (fixedPoint k 1) (fixedPoint 0 1) * x i u) := fun i hi =>
    mulPairLvl_elt hr (by omega) (fun u hu => constPairMont_spec hr (by omega) zero_le_one)
      ((hc.elt i hi).below (by omega)) (by
        have := ho.size i (by omega)
        show min l lo < ((g dst).rows i).length
        omega)
  have L := overComponents_is0 (out := dst)
      (F := fun i h => ev.ringQ.mulPairLvl (min l lo) (constPairMont ev.ringQ (k : ℚ) 0 1) (h.rows c i) (h.rows dst i))
      (fun u h h' hh => by rw [hh, hh]) (d + 1) g
  have hlen := ho.len
  unfold Evaluator.multByConstRows
  dsimp only
  rw [hc.shape.level, ho.level, e, hc.shape.len, ho.len, if_neg (by omega)]
  refine ⟨_, rfl, L.frame, L.scale, L.shape ho fun u hu hd => ?_, fun i hi => ?_⟩
  · exact (W u (by omega)).len.trans (ho.size u (by omega))
  · have := L.row i (by omega) (by omega)
    rw [Nat.zero_add] at this
    rw [Heap.rows, this]
    refine ((W i hi).is.below (by omega)).congr fun u _ => ?_
    have f0 := fixedPoint_int (v := 0) (by norm_num)
    rw [Int.cast_zero] at f0
    rw [fixedPoint_int hk, f0]
    simp [gauss]

theorem matchScales_is (hA : ∀ u, ev.ringQ.qs u ≤ A u)
    (h0 : CtIs n ev.ringQ l0 A d0 (g op0) x) (h1 : CtIs n ev.ringQ l1 A d1 (g op1) y) (ho : CtShape (max d0 d1) level (g out))
    (hp : CtShape dp lp (g ev.ctxpool)) (p0 : op0 ≠ ev.ctxpool) (p1 : op1 ≠ ev.ctxpool) (p2 : out ≠ ev.ctxpool)
    (hd0 : d0 ≤ dp) (hd1 : d1 ≤ dp) (k0 : level ≤ l0) (k1 : level ≤ l1) (kp : level ≤ lp)
    (hl0 : l0 < ev.ringQ.subs.length) (hl1 : l1 < ev.ringQ.subs.length)
    (u0 : upFactor (g op0).scale (g op1).scale < 2 ^ 51) (u1 : upFactor (g op1).scale (g op0).scale < 2 ^ 51) :
    ∃ g' t0 t1, ev.matchScales g op0 op1 out = some (g', t0, t1) ∧ (∀ b, b ≠ out ∧ b ≠ ev.ctxpool → g' b = g b) ∧
      CtShape (max d0 d1) level (g' out) ∧ (g' op0).degree = d0 ∧ (g' op1).degree = d1 ∧
      (∀ i ≤ d0, EltIs n ev.ringQ level A true (g'.rows t0 i)
        (fun u => (upFactor (g op0).scale (g op1).scale : Rq (2 ^ n) (ev.ringQ.qs u)) * x i u)) ∧
      (∀ i ≤ d1, EltIs n ev.ringQ level A true (g'.rows t1 i)
        (fun u => (upFactor (g op1).scale (g op0).scale : Rq (2 ^ n) (ev.ringQ.qs u)) * y i u)) := by
  have dg : ∀ {c : Ref} {d l : ℕ} {z} {g' : Heap}, CtIs n ev.ringQ l A d (g c) z → c ≠ ev.ctxpool →
      (∀ b ≠ ev.ctxpool, g' b = g b) → (g' c).degree = d := fun h hc hf => by rw [hf _ hc]; exact h.shape.degree
  have one : ∀ {c : Ref} {d l : ℕ} {z : ℕ → ∀ u, Rq (2 ^ n) (ev.ringQ.qs u)} {g' : Heap} {K : ℤ}, K = 1 → g' c = g c →
      CtIs n ev.ringQ l A d (g c) z → level ≤ l → ∀ i ≤ d, EltIs n ev.ringQ level A true (g'.rows c i)
        (fun u => (K : Rq (2 ^ n) (ev.ringQ.qs u)) * z i u) := by
    intro c d l z g' K hK hf h hl i hi
    rw [Heap.rows, hf]
    refine ((h.elt i hi).below hl).congr fun u _ => ?_
    rw [hK, Int.cast_one, one_mul]
  -- the operand of smaller scale goes to the pool
  have pool : ∀ {c : Ref} {d l : ℕ} {z : ℕ → ∀ u, Rq (2 ^ n) (ev.ringQ.qs u)} {K : ℤ}, CtIs n ev.ringQ l A d (g c) z →
      d ≤ dp → level ≤ l → l < ev.ringQ.subs.length → 1 < K → K < 2 ^ 51 →
      ∃ g', ev.multByConstRows g c (.float K) ev.ctxpool = some g' ∧ (∀ b ≠ ev.ctxpool, g' b = g b) ∧
        ∀ i ≤ d, EltIs n ev.ringQ level A true (g'.rows ev.ctxpool i) (fun u => (K : Rq (2 ^ n) (ev.ringQ.qs u)) * z i u) := by
    intro c d l z K h hd hl hs hK hK'
    obtain ⟨g', a1, a2, -, -, a5⟩ := multRows_is hr h hp hd hl kp hs (k := K) (by rw [abs_of_pos (by omega)]; exact hK')
    exact ⟨g', a1, a2, fun i hi => (a5 i hi).mono fun u _ => hA u⟩
  -- the operand of smaller scale is the receiver
  have self : ∀ {d l : ℕ} {z : ℕ → ∀ u, Rq (2 ^ n) (ev.ringQ.qs u)} {K : ℤ} (t : ℚ), CtIs n ev.ringQ l A d (g out) z →
      level ≤ l → l < ev.ringQ.subs.length → 1 < K → K < 2 ^ 51 →
      ∃ g', ev.multByConstRows g out (.float K) out = some g' ∧ (∀ b ≠ out, (g'.setScale out t) b = g b) ∧
        CtShape (max d0 d1) level ((g'.setScale out t) out) ∧ ((g'.setScale out t) out).degree = d ∧
        ∀ i ≤ d, EltIs n ev.ringQ level A true ((g'.setScale out t).rows out i)
          (fun u => (K : Rq (2 ^ n) (ev.ringQ.qs u)) * z i u) := by
    intro d l z K t h hl hs hK hK'
    have hd : d = max d0 d1 := by have := h.shape.len; have := ho.len; omega
    obtain ⟨g', a1, a2, a3, a4, a5⟩ := multRows_is hr h ho hd.le hl le_rfl hs (k := K)
      (by rw [abs_of_pos (by omega)]; exact hK')
    have e : ∀ i, (g'.setScale out t).rows out i = g'.rows out i := fun i => by
      rw [Heap.rows, Heap.setScale_self]; rfl
    refine ⟨g', a1, fun b hb => (Heap.setScale_ne _ _ _ _ hb).trans (a2 b hb), ?_, ?_, fun i hi => ?_⟩
    · rw [Heap.setScale_self]; exact a4.scale t
    · rw [Heap.degree_setScale, a4.degree, hd]
    · rw [e]; exact (a5 i hi).mono fun u _ => hA u
  have sym : ∀ {s t : ℚ}, s < t → upFactor t s = 1 := fun h => upFactor_one fun h' => lt_asymm h h'.1
  have b1 : ∀ s t : ℚ, (decide (s > t) && decide (⌊f64Div s t⌋ > 1)) = true ↔ t < s ∧ 1 < ⌊f64Div s t⌋ := by
    intro s t; simp
  unfold Evaluator.matchScales
  dsimp only
  by_cases c1 : (g op1).scale < (g op0).scale ∧ 1 < ⌊f64Div (g op0).scale (g op1).scale⌋
  · -- the second operand is scaled up
    have c2 : ¬ ((g op0).scale < (g op1).scale ∧ 1 < ⌊f64Div (g op1).scale (g op0).scale⌋) := fun h => lt_asymm c1.1 h.1
    have K0 := sym c1.1
    have K1 := upFactor_eq c1.1 c1.2
    rw [K1] at u1 ⊢
    simp only [b1, c1, c2, and_self, if_true, if_false]
    obtain ⟨g', a1, a2, a3⟩ := pool h1 hd1 k1 hl1 c1.2 u1
    have fin : (∀ b, b ≠ out ∧ b ≠ ev.ctxpool → g' b = g b) ∧ CtShape (max d0 d1) level (g' out) ∧
        (g' op0).degree = d0 ∧ (g' op1).degree = d1 ∧ ∀ i ≤ d0, EltIs n ev.ringQ level A true (g'.rows op0 i)
        (fun u => (upFactor (g op0).scale (g op1).scale : Rq (2 ^ n) (ev.ringQ.qs u)) * x i u) :=
      ⟨fun b hb => a2 b hb.2, by rw [a2 _ p2]; exact ho, dg h0 p0 a2, dg h1 p1 a2, one K0 (a2 _ p0) h0 k0⟩
    by_cases e0 : out = op0
    · rw [if_pos e0, a1, Option.map_some]
      exact ⟨_, _, _, rfl, fin.1, fin.2.1, fin.2.2.1, fin.2.2.2.1, fin.2.2.2.2, a3⟩
    · rw [if_neg e0]
      by_cases e1 : out = op1
      · subst e1
        obtain ⟨g', a1, a2, a3, a4, a5⟩ := self (g op0).scale h1 k1 hl1 c1.2 u1
        rw [if_pos rfl, a1, Option.map_some]
        exact ⟨_, _, _, rfl, fun b hb => a2 b hb.1, a3, by rw [a2 _ (Ne.symm e0)]; exact h0.shape.degree, a4,
          one K0 (a2 _ (Ne.symm e0)) h0 k0, a5⟩
      · rw [if_neg e1, a1, Option.map_some]
        exact ⟨_, _, _, rfl, fin.1, fin.2.1, fin.2.2.1, fin.2.2.2.1, fin.2.2.2.2, a3⟩
  · by_cases c2 : (g op0).scale < (g op1).scale ∧ 1 < ⌊f64Div (g op1).scale (g op0).scale⌋
    · -- the first operand is scaled up
      have K1 := sym c2.1
      have K0 := upFactor_eq c2.1 c2.2
      rw [K0] at u0 ⊢
      simp only [b1, c1, c2, and_self, if_true, if_false]
      obtain ⟨g', a1, a2, a3⟩ := pool h0 hd0 k0 hl0 c2.2 u0
      have fin : (∀ b, b ≠ out ∧ b ≠ ev.ctxpool → g' b = g b) ∧ CtShape (max d0 d1) level (g' out) ∧
          (g' op0).degree = d0 ∧ (g' op1).degree = d1 ∧ ∀ i ≤ d1, EltIs n ev.ringQ level A true (g'.rows op1 i)
          (fun u => (upFactor (g op1).scale (g op0).scale : Rq (2 ^ n) (ev.ringQ.qs u)) * y i u) :=
        ⟨fun b hb => a2 b hb.2, by rw [a2 _ p2]; exact ho, dg h0 p0 a2, dg h1 p1 a2, one K1 (a2 _ p1) h1 k1⟩
      by_cases e0 : out = op0
      · subst e0
        have e1 : op1 ≠ out := fun h => by rw [h] at c2; exact lt_irrefl _ c2.1
        obtain ⟨g', a1, a2, a3, a4, a5⟩ := self (g op1).scale h0 k0 hl0 c2.2 u0
        rw [if_pos rfl, a1, Option.map_some]
        exact ⟨_, _, _, rfl, fun b hb => a2 b hb.1, a3, a4, by rw [a2 _ e1]; exact h1.shape.degree, a5,
          one K1 (a2 _ e1) h1 k1⟩
      · rw [if_neg e0, a1, Option.map_some]
        simp only [ite_self]
        exact ⟨_, _, _, rfl, fin.1, fin.2.1, fin.2.2.1, fin.2.2.2.1, a3, fin.2.2.2.2⟩
    · simp only [b1, c1, c2, if_false, ite_self]
      exact ⟨g, op0, op1, rfl, fun _ _ => rfl, ho, h0.shape.degree, h1.shape.degree,
        one (upFactor_one c2) rfl h0 k0, one (upFactor_one c1) rfl h1 k1⟩

/-- `evaluateInPlace` -/
theorem evaluate_scaled {f : ℕ → Rows → Rows → Rows → Rows} {op} (hf : BinOp n ev.ringQ level A f op)
    (hA : ∀ u, ev.ringQ.qs u ≤ A u)
    (h0 : CtIs n ev.ringQ l0 A d0 (H op0) x) (h1 : CtIs n ev.ringQ l1 A d1 (H op1) y) (ho : CtShape dd lo (H out))
    (hp : CtShape dp lp (H ev.ctxpool)) (p0 : op0 ≠ ev.ctxpool) (p1 : op1 ≠ ev.ctxpool) (p2 : out ≠ ev.ctxpool)
    (hdd : max d0 d1 ≤ dd) (hdp : max d0 d1 ≤ dp) (hlev : level = min (min l0 l1) lo) (kp : level ≤ lp)
    (hl0 : l0 < ev.ringQ.subs.length) (hl1 : l1 < ev.ringQ.subs.length)
    (u0 : upFactor (H op0).scale (H op1).scale < 2 ^ 51) (u1 : upFactor (H op1).scale (H op0).scale < 2 ^ 51) :
    let K0 := upFactor (H op0).scale (H op1).scale
    let K1 := upFactor (H op1).scale (H op0).scale
    ∃ H', ev.evaluateInPlace H op0 op1 out f = some H' ∧ (∀ b, b ≠ out ∧ b ≠ ev.ctxpool → H' b = H b) ∧
      (H' out).scale = max (H op0).scale (H op1).scale ∧
      CtIs n ev.ringQ level A (max d0 d1) (H' out) (fun i => if i ≤ min d0 d1 then
        op (fun u => (K0 : Rq (2 ^ n) (ev.ringQ.qs u)) * x i u) (fun u => (K1 : Rq (2 ^ n) (ev.ringQ.qs u)) * y i u)
        else if i ≤ d0 then fun u => (K0 : Rq (2 ^ n) (ev.ringQ.qs u)) * x i u
        else fun u => (K1 : Rq (2 ^ n) (ev.ringQ.qs u)) * y i u) := by
  obtain ⟨g, e, fr, So, s0, s1, q0, q1⟩ := evaluate_prep (ev := ev) f h0 h1 ho hdd hlev
  obtain ⟨g', t0, t1, m1, m2, m3, m4, m5, m6, m7⟩ := matchScales_is hr hA q0 q1 So (by rw [fr _ p2.symm]; exact hp) p0 p1 p2
    (by omega) (by omega) (by split <;> omega) (by split <;> omega) kp (by split <;> omega) (by split <;> omega)
    (by rw [s0, s1]; exact u0) (by rw [s0, s1]; exact u1)
  rw [s0, s1] at m6 m7
  obtain ⟨a1, a2, a3⟩ := evaluateTail_is hr hf (s := max (H op0).scale (H op1).scale) (out := out) m6 m7 m4 m5 m3
  rw [e, m1, Option.map_some]
  exact ⟨_, rfl, fun b hb => (a1 b hb.1).trans ((m2 b hb).trans (fr b hb.1)), a2, a3⟩

/-- **C82 (`Add`).** Operands of any degrees up to that of the pool of the evaluator (2), with words at
most `q`; the receiver may be an operand.  The operand of smaller scale is multiplied by the integer part of the
ratio of the scales.  Only the receiver and the pool change. -/
theorem C82_add (hA : A = ev.ringQ.qs ∨ A = fun u => ev.ringQ.qs u + 1)
    (h0 : CtIs n ev.ringQ l0 A d0 (H op0) x) (h1 : CtIs n ev.ringQ l1 A d1 (H op1) y) (ho : CtShape dd lo (H out))
    (hp : CtShape dp lp (H ev.ctxpool)) (p0 : op0 ≠ ev.ctxpool) (p1 : op1 ≠ ev.ctxpool) (p2 : out ≠ ev.ctxpool)
    (hd : d0 + d1 ≠ 0)
    (hdd : max d0 d1 ≤ dd) (hdp : max d0 d1 ≤ dp) (hlev : level = min (min l0 l1) lo) (kp : level ≤ lp)
    (hl0 : l0 < ev.ringQ.subs.length) (hl1 : l1 < ev.ringQ.subs.length)
    (u0 : upFactor (H op0).scale (H op1).scale < 2 ^ 51) (u1 : upFactor (H op1).scale (H op0).scale < 2 ^ 51) :
    ∃ H', ev.add H op0 op1 out = some H' ∧ (∀ b, b ≠ out ∧ b ≠ ev.ctxpool → H' b = H b) ∧
      (H' out).scale = max (H op0).scale (H op1).scale ∧
      CtIs n ev.ringQ level A (max d0 d1) (H' out) (fun i u =>
        (upFactor (H op0).scale (H op1).scale : Rq (2 ^ n) (ev.ringQ.qs u)) * pad d0 x i u +
        (upFactor (H op1).scale (H op0).scale : Rq (2 ^ n) (ev.ringQ.qs u)) * pad d1 y i u) := by
  have hl : level < ev.ringQ.subs.length := by omega
  have hf : BinOp n ev.ringQ level A ev.ringQ.addLvl (fun x y u => x u + y u) := by
    intro p1 p2 p3 x y h1 h2 h3
    rcases hA with rfl | rfl
    · exact addLvl_elt hr hl h1 h2 (fun u _ => by omega) h3
    · exact addLvl_weak hr hl h1 h2 h3
  have hA' : ∀ u, ev.ringQ.qs u ≤ A u := fun u => by rcases hA with rfl | rfl <;> simp
  obtain ⟨H', a1, a2, a3, a4⟩ := evaluate_scaled hr hf hA' h0 h1 ho hp p0 p1 p2 hdd hdp hlev kp hl0 hl1 u0 u1
  refine ⟨H', by rw [Evaluator.add, if_pos (check_ok h0.shape h1.shape ho hd hdd)]; exact a1, a2, a3, a4.shape, fun i hi =>
    (a4.elt i hi).congr fun u _ => ?_⟩
  by_cases k1 : i ≤ min d0 d1
  · rw [if_pos k1, pad_of_le (by omega), pad_of_le (by omega)]
  · rw [if_neg k1]
    by_cases k2 : i ≤ d0
    · rw [if_pos k2, pad_of_le k2, pad_of_lt (by omega), mul_zero, add_zero]
    · rw [if_neg k2, pad_of_lt (by omega), pad_of_le (by omega), mul_zero, zero_add]

/-- **C82 (`Sub`).** -/
theorem C82_sub (h0 : CtIs n ev.ringQ l0 (fun u => ev.ringQ.qs u + 1) d0 (H op0) x)
    (h1 : CtIs n ev.ringQ l1 (fun u => ev.ringQ.qs u + 1) d1 (H op1) y) (ho : CtShape dd lo (H out))
    (hp : CtShape dp lp (H ev.ctxpool)) (p0 : op0 ≠ ev.ctxpool) (p1 : op1 ≠ ev.ctxpool) (p2 : out ≠ ev.ctxpool)
    (hd : d0 + d1 ≠ 0)
    (hdd : max d0 d1 ≤ dd) (hdp : max d0 d1 ≤ dp) (hlev : level = min (min l0 l1) lo) (kp : level ≤ lp)
    (hl0 : l0 < ev.ringQ.subs.length) (hl1 : l1 < ev.ringQ.subs.length)
    (u0 : upFactor (H op0).scale (H op1).scale < 2 ^ 51) (u1 : upFactor (H op1).scale (H op0).scale < 2 ^ 51) :
    ∃ H', ev.sub H op0 op1 out = some H' ∧ (∀ b, b ≠ out ∧ b ≠ ev.ctxpool → H' b = H b) ∧
      (H' out).scale = max (H op0).scale (H op1).scale ∧
      CtIs n ev.ringQ level (fun u => ev.ringQ.qs u + 1) (max d0 d1) (H' out) (fun i u =>
        (upFactor (H op0).scale (H op1).scale : Rq (2 ^ n) (ev.ringQ.qs u)) * pad d0 x i u -
        (upFactor (H op1).scale (H op0).scale : Rq (2 ^ n) (ev.ringQ.qs u)) * pad d1 y i u) := by
  have hl : level < ev.ringQ.subs.length := by omega
  have hf : BinOp n ev.ringQ level (fun u => ev.ringQ.qs u + 1) ev.ringQ.subLvl (fun x y u => x u - y u) :=
    fun p1 p2 p3 x y h1 h2 h3 => subLvl_weak hr hl h1 h2 h3
  obtain ⟨H', a1, a2, a3, a4⟩ := evaluate_scaled hr hf (fun u => by omega) h0 h1 ho hp p0 p1 p2 hdd hdp hlev kp hl0 hl1 u0 u1
  obtain ⟨H'', b1, b2, b3, b4⟩ := sub_of_evaluate hr (F := fun b => b ≠ out ∧ b ≠ ev.ctxpool) (l0 := l0) (l1 := l1) h0.shape h1.shape ho hd hdd
    hlev hl (fun _ h => h.1) (by tauto) (by tauto) a1 a2 a3 a4
  refine ⟨H'', b1, b2, b3, b4.shape, fun i hi => (b4.elt i hi).congr fun u _ => ?_⟩
  unfold pad
  split <;> split <;> simp

/-- **C82 (decryption of `Add`).** If the operands decrypt to `m0` and `m1`, the sum decrypts to the sum of the
multiples. -/
theorem C82_add_enc {s m0 m1 : ∀ u, Rq (2 ^ n) (ev.ringQ.qs u)} (hA : A = ev.ringQ.qs ∨ A = fun u => ev.ringQ.qs u + 1)
    (h0 : CtEnc n ev.ringQ l0 A d0 (H op0) s m0) (h1 : CtEnc n ev.ringQ l1 A d1 (H op1) s m1) (ho : CtShape dd lo (H out))
    (hp : CtShape dp lp (H ev.ctxpool)) (p0 : op0 ≠ ev.ctxpool) (p1 : op1 ≠ ev.ctxpool) (p2 : out ≠ ev.ctxpool)
    (hd : d0 + d1 ≠ 0)
    (hdd : max d0 d1 ≤ dd) (hdp : max d0 d1 ≤ dp) (hlev : level = min (min l0 l1) lo) (kp : level ≤ lp)
    (hl0 : l0 < ev.ringQ.subs.length) (hl1 : l1 < ev.ringQ.subs.length)
    (u0 : upFactor (H op0).scale (H op1).scale < 2 ^ 51) (u1 : upFactor (H op1).scale (H op0).scale < 2 ^ 51) :
    ∃ H', ev.add H op0 op1 out = some H' ∧ (∀ b, b ≠ out ∧ b ≠ ev.ctxpool → H' b = H b) ∧
      (H' out).scale = max (H op0).scale (H op1).scale ∧
      CtEnc n ev.ringQ level A (max d0 d1) (H' out) s (fun u =>
        (upFactor (H op0).scale (H op1).scale : Rq (2 ^ n) (ev.ringQ.qs u)) * m0 u +
        (upFactor (H op1).scale (H op0).scale : Rq (2 ^ n) (ev.ringQ.qs u)) * m1 u) := by
  obtain ⟨x, hx, ex⟩ := h0
  obtain ⟨y, hy, ey⟩ := h1
  obtain ⟨H', a1, a2, a3, a4⟩ := C82_add hr hA hx hy ho hp p0 p1 p2 hd hdd hdp hlev kp hl0 hl1 u0 u1
  refine ⟨H', a1, a2, a3, _, a4, fun u hu => ?_⟩
  simp only [add_mul, sum_add_distrib, mul_assoc, ← mul_sum]
  rw [sum_pad (by omega), sum_pad (by omega), ex u (by omega), ey u (by omega)]

/-- **C82 (decryption of `Sub`).** -/
theorem C82_sub_enc {s m0 m1 : ∀ u, Rq (2 ^ n) (ev.ringQ.qs u)}
    (h0 : CtEnc n ev.ringQ l0 (fun u => ev.ringQ.qs u + 1) d0 (H op0) s m0)
    (h1 : CtEnc n ev.ringQ l1 (fun u => ev.ringQ.qs u + 1) d1 (H op1) s m1) (ho : CtShape dd lo (H out))
    (hp : CtShape dp lp (H ev.ctxpool)) (p0 : op0 ≠ ev.ctxpool) (p1 : op1 ≠ ev.ctxpool) (p2 : out ≠ ev.ctxpool)
    (hd : d0 + d1 ≠ 0)
    (hdd : max d0 d1 ≤ dd) (hdp : max d0 d1 ≤ dp) (hlev : level = min (min l0 l1) lo) (kp : level ≤ lp)
    (hl0 : l0 < ev.ringQ.subs.length) (hl1 : l1 < ev.ringQ.subs.length)
    (u0 : upFactor (H op0).scale (H op1).scale < 2 ^ 51) (u1 : upFactor (H op1).scale (H op0).scale < 2 ^ 51) :
    ∃ H', ev.sub H op0 op1 out = some H' ∧ (∀ b, b ≠ out ∧ b ≠ ev.ctxpool → H' b = H b) ∧
      (H' out).scale = max (H op0).scale (H op1).scale ∧
      CtEnc n ev.ringQ level (fun u => ev.ringQ.qs u + 1) (max d0 d1) (H' out) s (fun u =>
        (upFactor (H op0).scale (H op1).scale : Rq (2 ^ n) (ev.ringQ.qs u)) * m0 u -
        (upFactor (H op1).scale (H op0).scale : Rq (2 ^ n) (ev.ringQ.qs u)) * m1 u) := by
  obtain ⟨x, hx, ex⟩ := h0
  obtain ⟨y, hy, ey⟩ := h1
  obtain ⟨H', a1, a2, a3, a4⟩ := C82_sub hr hx hy ho hp p0 p1 p2 hd hdd hdp hlev kp hl0 hl1 u0 u1
  refine ⟨H', a1, a2, a3, _, a4, fun u hu => ?_⟩
  simp only [sub_mul, sum_sub_distrib, mul_assoc, ← mul_sum]
  rw [sum_pad (by omega), sum_pad (by omega), ex u (by omega), ey u (by omega)]

omit hr in
/-- **C82 (panic).** An operand of degree above that of the pool, and of the smaller scale, makes `Add` panic, unless
it is the receiver. -/
theorem C82_add_panics (h0 : CtIs n ev.ringQ l0 A d0 (H op0) x) (h1 : CtIs n ev.ringQ l1 A d1 (H op1) y)
    (ho : CtShape dd lo (H out)) (hp : CtShape dp lp (H ev.ctxpool)) (p2 : out ≠ ev.ctxpool) (hdd : max d0 d1 ≤ dd)
    (hd0 : dp < d0) (e0 : out ≠ op0) (hs : upFactor (H op0).scale (H op1).scale ≠ 1) :
    ev.add H op0 op1 out = none := by
  obtain ⟨g, e, fr, So, s0, s1, q0, q1⟩ := evaluate_prep (ev := ev) ev.ringQ.addLvl h0 h1 ho hdd rfl
  have c2 : (g op0).scale < (g op1).scale ∧ 1 < ⌊f64Div (g op1).scale (g op0).scale⌋ := by
    rw [s0, s1]
    by_contra hc
    exact hs (upFactor_one hc)
  have hpg : (g ev.ctxpool).value.length = dp + 1 := by rw [fr _ p2.symm]; exact hp.len
  have hcg : (g op0).value.length = d0 + 1 := q0.shape.len
  have none' : ∀ K, ev.multByConstRows g op0 K ev.ctxpool = none := by
    intro K
    unfold Evaluator.multByConstRows
    dsimp only
    rw [if_pos (by omega)]
  have : ev.matchScales g op0 op1 out = none := by
    unfold Evaluator.matchScales
    have b1 : ∀ s t : ℚ, (decide (s > t) && decide (⌊f64Div s t⌋ > 1)) = true ↔ t < s ∧ 1 < ⌊f64Div s t⌋ := by
      intro s t; simp
    simp only [e0, b1, c2, and_self, if_true, if_false, none', Option.map_none, ite_self,
      decide_true, Bool.and_self]
  unfold Evaluator.add
  rw [e, this]
  simp

/-- **C82 (message of the sum).** If the larger scale is an integral multiple of the smaller, below `2^51`, the sum
decrypts to the sum of the encoded values at the larger scale: operands `s0 v0` and `s1 v1` for integral polynomials. -/
theorem C82_add_exact_partial {s m0 m1 : ∀ u, Rq (2 ^ n) (ev.ringQ.qs u)} (hA : A = ev.ringQ.qs ∨ A = fun u => ev.ringQ.qs u + 1)
    (h0 : CtEnc n ev.ringQ l0 A d0 (H op0) s m0) (h1 : CtEnc n ev.ringQ l1 A d1 (H op1) s m1) (ho : CtShape dd lo (H out))
    (hp : CtShape dp lp (H ev.ctxpool)) (p0 : op0 ≠ ev.ctxpool) (p1 : op1 ≠ ev.ctxpool) (p2 : out ≠ ev.ctxpool)
    (hd : d0 + d1 ≠ 0)
    (hdd : max d0 d1 ≤ dd) (hdp : max d0 d1 ≤ dp) (hlev : level = min (min l0 l1) lo) (kp : level ≤ lp)
    (hl0 : l0 < ev.ringQ.subs.length) (hl1 : l1 < ev.ringQ.subs.length)
    {a b : ℕ} (ha : 0 < a) (hb : 0 < b) (hab : (H op0).scale * a = (H op1).scale * b) (hab' : a = 1 ∨ b = 1)
    (ba : a < 2 ^ 51) (bb : b < 2 ^ 51) (hs : 0 < (H op0).scale) :
    ∃ H', ev.add H op0 op1 out = some H' ∧ (H' out).scale = (H op0).scale * a ∧
      CtEnc n ev.ringQ level A (max d0 d1) (H' out) s (fun u => (a : Rq (2 ^ n) (ev.ringQ.qs u)) * m0 u + b * m1 u) := by
  obtain ⟨e0, e1, e2⟩ := upFactor_pair ha hb hab hab' ba bb hs
  obtain ⟨H', a1, -, a3, a4⟩ := C82_add_enc hr hA h0 h1 ho hp p0 p1 p2 hd hdd hdp hlev kp hl0 hl1
    (by rw [e0]; exact_mod_cast ba) (by rw [e1]; exact_mod_cast bb)
  rw [e0, e1] at a4
  exact ⟨H', a1, a3.trans e2, by simpa using a4⟩

/-- **C82 (message of the difference).** If the larger scale is an integral multiple of the smaller, below `2^51`, the
difference decrypts to the difference of the encoded values at the larger scale: operands `s0 v0` and `s1 v1` for integral polynomials. -/
theorem C82_sub_exact_partial {s m0 m1 : ∀ u, Rq (2 ^ n) (ev.ringQ.qs u)}
    (h0 : CtEnc n ev.ringQ l0 (fun u => ev.ringQ.qs u + 1) d0 (H op0) s m0) (h1 : CtEnc n ev.ringQ l1 (fun u => ev.ringQ.qs u + 1) d1 (H op1) s m1) (ho : CtShape dd lo (H out))
    (hp : CtShape dp lp (H ev.ctxpool)) (p0 : op0 ≠ ev.ctxpool) (p1 : op1 ≠ ev.ctxpool) (p2 : out ≠ ev.ctxpool)
    (hd : d0 + d1 ≠ 0)
    (hdd : max d0 d1 ≤ dd) (hdp : max d0 d1 ≤ dp) (hlev : level = min (min l0 l1) lo) (kp : level ≤ lp)
    (hl0 : l0 < ev.ringQ.subs.length) (hl1 : l1 < ev.ringQ.subs.length)
    {a b : ℕ} (ha : 0 < a) (hb : 0 < b) (hab : (H op0).scale * a = (H op1).scale * b) (hab' : a = 1 ∨ b = 1)
    (ba : a < 2 ^ 51) (bb : b < 2 ^ 51) (hs : 0 < (H op0).scale) :
    ∃ H', ev.sub H op0 op1 out = some H' ∧ (H' out).scale = (H op0).scale * a ∧
      CtEnc n ev.ringQ level (fun u => ev.ringQ.qs u + 1) (max d0 d1) (H' out) s (fun u => (a : Rq (2 ^ n) (ev.ringQ.qs u)) * m0 u - b * m1 u) := by
  obtain ⟨e0, e1, e2⟩ := upFactor_pair ha hb hab hab' ba bb hs
  obtain ⟨H', a1, -, a3, a4⟩ := C82_sub_enc hr h0 h1 ho hp p0 p1 p2 hd hdd hdp hlev kp hl0 hl1
    (by rw [e0]; exact_mod_cast ba) (by rw [e1]; exact_mod_cast bb)
  rw [e0, e1] at a4
  exact ⟨H', a1, a3.trans e2, by simpa using a4⟩

end

/-- **C82 (violated).** The zero ciphertext at scale 3 plus a ciphertext that decrypts to 4 at scale 2 decrypts to 4 at
scale 3: the value falls from 2 to 4/3.  At scale 3 it should decrypt to 6. -/
theorem C82_violated : ∃ (ev : Evaluator) (H H' : Heap), ev.ringQ.Valid 4 ∧
    (H 1).scale = 2 ∧ (∀ s, CtEnc 4 ev.ringQ 2 ev.ringQ.qs 1 (H 1) s (fun _ => 4)) ∧
    (H 0).scale = 3 ∧ (∀ s, CtEnc 4 ev.ringQ 2 ev.ringQ.qs 1 (H 0) s (fun _ => 0)) ∧
    ev.add H 0 1 2 = some H' ∧
    (H' 2).scale = 3 ∧ (∀ s, CtEnc 4 ev.ringQ 2 ev.ringQ.qs 1 (H' 2) s (fun _ => 4)) ∧
    ∀ s A, ¬ CtEnc 4 ev.ringQ 2 A 1 (H' 2) s (fun _ => 6) := by
  obtain ⟨rQ, rP, sk, tape, K, -, -, l3, -, hq, q0, -, -⟩ := exampleRings
  have hlt : ∀ c : UInt64, c.toNat ≤ 96 → ∀ u ≤ 2, c.toNat < rQ.qs u := fun c hc u hu => lt_of_le_of_lt hc (hq u hu)
  let ev := newEvaluator rQ rP none (fun _ => none) 7
  let H : Heap := fun a => if a = 0 then constCt 3 [0, 0] else if a = 7 then constCt 1 [0, 0, 0] else constCt 2 [4, 0]
  have hQ : ev.ringQ.Valid 4 := K.rings.hQ
  have c0 : ∀ s, CtEnc 4 ev.ringQ 2 ev.ringQ.qs 1 (H 0) s (fun _ => 0) := fun s => by
    have := constCt_enc hQ (show 2 < rQ.subs.length by omega) 3 (a := 0) (b := 0) (fun c hc => hlt c (by revert c; decide)) s
    simp only [UInt64.toNat_zero, Nat.cast_zero, zero_mul, add_zero] at this
    exact this
  have c1 : ∀ s, CtEnc 4 ev.ringQ 2 ev.ringQ.qs 1 (constCt 2 [4, 0]) s (fun _ => 4) := fun s => by
    have := constCt_enc hQ (show 2 < rQ.subs.length by omega) 2 (a := 4) (b := 0) (fun c hc => hlt c (by revert c; decide)) s
    have e : UInt64.toNat 4 = 4 := rfl
    rw [e] at this
    simp only [UInt64.toNat_zero, Nat.cast_zero, zero_mul, add_zero, Nat.cast_ofNat] at this
    exact this
  have sh1 : CtShape 1 2 (H 2) := by obtain ⟨x, hx, -⟩ := c1 0; exact hx.shape
  have sh7 : CtShape 2 2 (H 7) := (constCt_is hQ (show 2 < rQ.subs.length by omega) 1 (cs := [0, 0, 0]) (by simp)
    (fun c hc => hlt c (by revert c; decide))).shape
  have k0 : upFactor (H 0).scale (H 1).scale = 1 := by show upFactor 3 2 = 1; decide +kernel
  have k1 : upFactor (H 1).scale (H 0).scale = 1 := by show upFactor 2 3 = 1; decide +kernel
  have key := fun s => C82_add_enc (ev := ev) (H := H) (op0 := 0) (op1 := 1) (out := 2) (level := 2) (lp := 2) (dp := 2)
    hQ (Or.inl rfl) (c0 s) (c1 s) sh1 sh7 (show (0 : ℕ) ≠ 7 by decide) (show (1 : ℕ) ≠ 7 by decide)
    (show (2 : ℕ) ≠ 7 by decide) (by decide) (by decide) (by decide) (by decide) (by decide)
    (show 2 < rQ.subs.length by omega) (show 2 < rQ.subs.length by omega) (by rw [k0]; decide) (by rw [k1]; decide)
  obtain ⟨H', a1, -, a3, -⟩ := key 0
  have res : ∀ s, CtEnc 4 ev.ringQ 2 ev.ringQ.qs 1 (H' 2) s (fun _ => 4) := fun s => by
    obtain ⟨H'', b1, -, -, b4⟩ := key s
    obtain rfl : H' = H'' := Option.some.inj (a1.symm.trans b1)
    rw [k0, k1] at b4
    simpa using b4
  refine ⟨ev, H, H', hQ, rfl, c1, rfl, c0, a1, a3.trans (by show max (3 : ℚ) 2 = 3; norm_num), res, fun s A hA => ?_⟩
  have e := CtEnc.unique hA (res s) (u := 0) (by omega)
  have := natCast_rq_inj hQ (show 0 < rQ.subs.length by omega) (a := 6) (b := 4) (by exact_mod_cast e)
  rw [show ev.ringQ.qs 0 = 97 from q0] at this
  revert this
  decide

/-- a ciphertext at scale 6 minus one at scale 2, into the second: 5 - 3·4 -/
example : ∃ (ev : Evaluator) (H H' : Heap), ev.ringQ.Valid 4 ∧ (H 0).scale = 6 ∧ (H 1).scale = 2 ∧
    ev.sub H 0 1 1 = some H' ∧ (H' 1).scale = 6 ∧
    CtEnc 4 ev.ringQ 2 (fun u => ev.ringQ.qs u + 1) 1 (H' 1) 0 (fun _ => 5 - 3 * 4) := by
  obtain ⟨rQ, rP, sk, tape, K, -, -, l3, -, hq, q0, -, -⟩ := exampleRings
  have hlt : ∀ c : UInt64, c.toNat ≤ 96 → ∀ u ≤ 2, c.toNat < rQ.qs u := fun c hc u hu => lt_of_le_of_lt hc (hq u hu)
  let ev := newEvaluator rQ rP none (fun _ => none) 7
  let H : Heap := fun a => if a = 0 then constCt 6 [5, 3] else if a = 7 then constCt 1 [0, 0, 0] else constCt 2 [4, 1]
  have hQ : ev.ringQ.Valid 4 := K.rings.hQ
  have c0 := (constCt_enc hQ (show 2 < rQ.subs.length by omega) 6 (a := 5) (b := 3) (fun c hc => hlt c (by revert c; decide)) 0).mono
    (B := fun u => ev.ringQ.qs u + 1) fun u _ => Nat.le_succ _
  have c1 := (constCt_enc hQ (show 2 < rQ.subs.length by omega) 2 (a := 4) (b := 1) (fun c hc => hlt c (by revert c; decide)) 0).mono
    (B := fun u => ev.ringQ.qs u + 1) fun u _ => Nat.le_succ _
  have sh1 : CtShape 1 2 (H 1) := by obtain ⟨x, hx, -⟩ := c1; exact hx.shape
  have sh7 : CtShape 2 2 (H 7) := (constCt_is hQ (show 2 < rQ.subs.length by omega) 1 (cs := [0, 0, 0]) (by simp)
    (fun c hc => hlt c (by revert c; decide))).shape
  obtain ⟨H', a1, a2, a3⟩ := C82_sub_exact_partial (ev := ev) (H := H) (op0 := 0) (op1 := 1) (out := 1) (level := 2) (lp := 2)
    (dp := 2) hQ c0 c1 sh1 sh7 (show (0 : ℕ) ≠ 7 by decide) (show (1 : ℕ) ≠ 7 by decide)
    (show (1 : ℕ) ≠ 7 by decide) (by decide) (by decide) (by decide) (by decide) (by decide)
    (show 2 < rQ.subs.length by omega) (show 2 < rQ.subs.length by omega) (a := 1) (b := 3) (by decide) (by decide)
    (by show (6 : ℚ) * (1 : ℕ) = 2 * (3 : ℕ); norm_num) (Or.inl rfl) (by decide) (by decide) (by show (0 : ℚ) < 6; norm_num)
  refine ⟨ev, H, H', hQ, rfl, rfl, a1, a2.trans (by show (6 : ℚ) * (1 : ℕ) = 6; norm_num), ?_⟩
  have e5 : UInt64.toNat 5 = 5 := rfl
  have e4 : UInt64.toNat 4 = 4 := rfl
  simpa [e5, e4] using a3

end FastKsw.Props
