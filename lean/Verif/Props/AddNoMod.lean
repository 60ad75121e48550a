import Verif.Lemmas.AddNoModCt
import Verif.Lemmas.ConstCt
import Verif.Props.NewVariants

/-!
# C120: addition and subtraction without modular reduction

`AddNoMod` adds words, `SubNoMod` computes `x + q - y`; `Reduce` makes the words canonical afterwards.
-/

namespace FastKsw.Props

open FastKsw Finset

section
variable {n : ℕ} {ev : Evaluator} (hr : ev.ringQ.Valid n) {level : ℕ} {A B : ℕ → ℕ} {H : Heap} {op0 op1 out : Ref}
  {d0 d1 dd l0 l1 lo dp lp : ℕ} {x y : ℕ → ∀ u, Rq (2 ^ n) (ev.ringQ.qs u)}
include hr

theorem addNoMod_op (hl : level < ev.ringQ.subs.length) (hAB : ∀ u ≤ level, A u + B u ≤ 2 ^ 64) :
    BinOp3 n ev.ringQ level A B (fun u => A u + B u) ev.ringQ.addNoModLvl (fun x y u => x u + y u) :=
  fun _ _ _ _ _ h1 h2 h3 => (C10_addNoMod (h1.polyIs hr) (h2.polyIs hr) hAB h3).eltWritten hr fun u hu => by
    rw [eltOf_add hr hl hu, h1.eltOf hr hu, h2.eltOf hr hu]

theorem subNoMod_op (hl : level < ev.ringQ.subs.length) (hA : ∀ u ≤ level, A u + ev.ringQ.qs u ≤ 2 ^ 64) :
    BinOp3 n ev.ringQ level A (fun u => ev.ringQ.qs u + 1) (fun u => A u + ev.ringQ.qs u) ev.ringQ.subNoModLvl
      (fun x y u => x u - y u) :=
  fun _ _ _ _ _ h1 h2 h3 => (C10_subNoMod (h1.polyIs hr) (h2.polyIs hr) hA h3).eltWritten hr fun u hu => by
    rw [eltOf_sub hr hl hu, h1.eltOf hr hu, h2.eltOf hr hu]

/-- **C120 (`AddNoMod`).** Operands of any degrees and levels with words below `A` and `B`, the sum of the bounds at most
2^64; the receiver may be an operand and the operands may coincide; the scales are less than a factor 2 apart.  No
panic, only the receiver changes, and it holds the sum, with words below `A + B`. -/
theorem C120_add (h0 : CtIs n ev.ringQ l0 A d0 (H op0) x) (h1 : CtIs n ev.ringQ l1 B d1 (H op1) y)
    (ho : CtShape dd lo (H out)) (hd : d0 + d1 ≠ 0) (hdd : max d0 d1 ≤ dd)
    (hlev : level = min (min l0 l1) lo) (hl : level < ev.ringQ.subs.length)
    (hAB : ∀ u ≤ level, A u + B u ≤ 2 ^ 64) (hs : SameScale (H op0).scale (H op1).scale) :
    ∃ H', ev.addNoMod H op0 op1 out = some H' ∧ (∀ b ≠ out, H' b = H b) ∧
      (H' out).scale = max (H op0).scale (H op1).scale ∧
      CtIs n ev.ringQ level (fun u => A u + B u) (max d0 d1) (H' out) (fun i u => pad d0 x i u + pad d1 y i u) := by
  obtain ⟨H', a1, a2, a3, a4, -⟩ := evaluate_is3 hr (addNoMod_op hr hl hAB) (fun u _ => Nat.le_add_right _ _)
    (fun u _ => Nat.le_add_left _ _) h0 h1 ho hdd hlev hs
  refine ⟨H', by rw [Evaluator.addNoMod, if_pos (check_ok h0.shape h1.shape ho hd hdd)]; exact a1, a2, a3, a4.shape,
    fun i hi => (a4.elt i hi).congr fun u _ => ?_⟩
  by_cases k1 : i ≤ min d0 d1
  · rw [if_pos k1, pad_of_le (by omega), pad_of_le (by omega)]
  · rw [if_neg k1]
    by_cases k2 : i ≤ d0
    · rw [if_pos k2, pad_of_le k2, pad_of_lt (by omega), add_zero]
    · rw [if_neg k2, pad_of_lt (by omega), pad_of_le (by omega), zero_add]

/-- `SubNoMod` after `evaluateInPlace` -/
theorem subNoMod_of_evaluate {F : Ref → Prop} {sc : ℚ} {H' : Heap}
    (h0 : CtShape d0 l0 (H op0)) (h1 : CtShape d1 l1 (H op1)) (ho : CtShape dd lo (H out)) (hd : d0 + d1 ≠ 0)
    (hdd : max d0 d1 ≤ dd) (hlev : level = min (min l0 l1) lo) (hl : level < ev.ringQ.subs.length)
    (hF : ∀ b, F b → b ≠ out) (f0 : F op0 ∨ op0 = out) (f1 : F op1 ∨ op1 = out)
    (hA : ∀ u ≤ level, 0 < A u)
    (a1 : ev.evaluateInPlace H op0 op1 out ev.ringQ.subNoModLvl = some H') (a2 : ∀ b, F b → H' b = H b)
    (a3 : (H' out).scale = sc)
    (a4 : CtIs n ev.ringQ level (fun u => A u + ev.ringQ.qs u) (max d0 d1) (H' out)
      (fun i => if i ≤ min d0 d1 then fun u => x i u - y i u else if i ≤ d0 then x i else y i))
    (a5 : ∀ i, d0 < i → i ≤ d1 → EltIs n ev.ringQ level (fun u => ev.ringQ.qs u + 1) true ((H' out).rows i) (y i)) :
    ∃ H', ev.subNoMod H op0 op1 out = some H' ∧ (∀ b, F b → H' b = H b) ∧ (H' out).scale = sc ∧
      CtIs n ev.ringQ level (fun u => A u + ev.ringQ.qs u) (max d0 d1) (H' out) (fun i u => pad d0 x i u - pad d1 y i u) := by
  have hlen := a4.shape.len
  have sh : ∀ (b : Ref) (d l : ℕ), CtShape d l (H b) → (F b ∨ b = out) → d ≤ max d0 d1 → level ≤ l →
      (H' b).degree = d ∧ level ≤ (H' b).level := by
    intro b d l hb hf h1 h2
    by_cases e : b = out
    · subst e
      have := hb.len
      have := ho.len
      rw [a4.shape.degree, a4.shape.level]
      omega
    · rw [a2 b (hf.resolve_right e), hb.degree, hb.level]
      exact ⟨rfl, h2⟩
  obtain ⟨e0, e1⟩ := sh op0 d0 l0 h0 f0 (by omega) (by omega)
  obtain ⟨e2, e3⟩ := sh op1 d1 l1 h1 f1 (by omega) (by omega)
  unfold Evaluator.subNoMod
  rw [if_pos (check_ok h0 h1 ho hd hdd), a1, Option.map_some]
  dsimp only
  rw [e0, e2, a4.shape.level, min_eq_right (by omega)]
  by_cases k : d0 < d1
  · rw [if_pos k]
    have L := overComponents_is (out := out) (o := d0 + 1) (F := fun i h =>
        ev.ringQ.negLvl level (h.rows out (d0 + 1 + i)) (h.rows out (d0 + 1 + i)))
      (fun u h h' hh => by rw [hh]) (d1 - d0) H'
    have W : ∀ u, d0 + 1 + u ≤ max d0 d1 → EltWritten n ev.ringQ level (fun u => ev.ringQ.qs u + 1) true
        ((H' out).rows (d0 + 1 + u)) (ev.ringQ.negLvl level (H'.rows out (d0 + 1 + u)) (H'.rows out (d0 + 1 + u)))
        (fun v => -y (d0 + 1 + u) v) := fun u hu => by
      have := a5 (d0 + 1 + u) (by omega) (by omega)
      exact negLvl_elt hr hl this this.lvl
    refine ⟨_, rfl, fun b hb => (L.frame b (hF b hb)).trans (a2 b hb), L.scale.trans a3,
      L.shape a4.shape fun u _ hu => (W u hu).len.trans (a4.shape.size _ hu), fun i hi => ?_⟩
    by_cases k1 : i ≤ d0
    · rw [L.other i (by omega)]
      refine (a4.elt i hi).congr fun u _ => ?_
      rw [if_pos (by omega), pad_of_le k1, pad_of_le (by omega)]
    · obtain ⟨u, rfl⟩ : ∃ u, i = d0 + 1 + u := ⟨i - (d0 + 1), by omega⟩
      rw [L.row u (by omega) (by omega)]
      refine ((W u hi).is.mono fun v hv => by have := hA v hv; omega).congr fun v _ => ?_
      rw [pad_of_lt (by omega), pad_of_le (by omega), zero_sub]
  · rw [if_neg k]
    refine ⟨H', rfl, a2, a3, a4.shape, fun i hi => (a4.elt i hi).congr fun u _ => ?_⟩
    by_cases k1 : i ≤ min d0 d1
    · rw [if_pos k1, pad_of_le (by omega), pad_of_le (by omega)]
    · rw [if_neg k1, if_pos (by omega), pad_of_le (by omega), pad_of_lt (by omega), sub_zero]

/-- **C120 (`SubNoMod`, canonical subtrahend).** The subtrahend has words at most `q`; the words of the result are below
`A + q`. -/
theorem C120_sub_partial (h0 : CtIs n ev.ringQ l0 A d0 (H op0) x)
    (h1 : CtIs n ev.ringQ l1 (fun u => ev.ringQ.qs u + 1) d1 (H op1) y)
    (ho : CtShape dd lo (H out)) (hd : d0 + d1 ≠ 0) (hdd : max d0 d1 ≤ dd)
    (hlev : level = min (min l0 l1) lo) (hl : level < ev.ringQ.subs.length)
    (hA : ∀ u ≤ level, 0 < A u ∧ A u + ev.ringQ.qs u ≤ 2 ^ 64) (hs : SameScale (H op0).scale (H op1).scale) :
    ∃ H', ev.subNoMod H op0 op1 out = some H' ∧ (∀ b ≠ out, H' b = H b) ∧
      (H' out).scale = max (H op0).scale (H op1).scale ∧
      CtIs n ev.ringQ level (fun u => A u + ev.ringQ.qs u) (max d0 d1) (H' out)
        (fun i u => pad d0 x i u - pad d1 y i u) := by
  obtain ⟨H', a1, a2, a3, a4, a5⟩ := evaluate_is3 hr (subNoMod_op hr hl fun u hu => (hA u hu).2) (fun u _ => Nat.le_add_right _ _)
    (fun u hu => by have := (hA u hu).1; omega) h0 h1 ho hdd hlev hs
  exact subNoMod_of_evaluate hr (F := fun b => b ≠ out) h0.shape h1.shape ho hd hdd hlev hl (fun _ h => h) (ne_or_eq _ _)
    (ne_or_eq _ _) (fun u hu => (hA u hu).1) a1 a2 a3 a4 a5

/-- `evaluateInPlace` for any scales, one bound on the words of both operands -/
theorem evaluate_scaled3 {C : ℕ → ℕ} {f : ℕ → Rows → Rows → Rows → Rows} {op} (hf : BinOp3 n ev.ringQ level A A C f op)
    (hA : ∀ u, ev.ringQ.qs u ≤ A u) (hAC : ∀ u ≤ level, A u ≤ C u)
    (h0 : CtIs n ev.ringQ l0 A d0 (H op0) x) (h1 : CtIs n ev.ringQ l1 A d1 (H op1) y) (ho : CtShape dd lo (H out))
    (hp : CtShape dp lp (H ev.ctxpool)) (p0 : op0 ≠ ev.ctxpool) (p1 : op1 ≠ ev.ctxpool) (p2 : out ≠ ev.ctxpool)
    (hdd : max d0 d1 ≤ dd) (hdp : max d0 d1 ≤ dp) (hlev : level = min (min l0 l1) lo) (kp : level ≤ lp)
    (hl0 : l0 < ev.ringQ.subs.length) (hl1 : l1 < ev.ringQ.subs.length)
    (u0 : upFactor (H op0).scale (H op1).scale < 2 ^ 51) (u1 : upFactor (H op1).scale (H op0).scale < 2 ^ 51) :
    let K0 := upFactor (H op0).scale (H op1).scale
    let K1 := upFactor (H op1).scale (H op0).scale
    ∃ H', ev.evaluateInPlace H op0 op1 out f = some H' ∧ (∀ b, b ≠ out ∧ b ≠ ev.ctxpool → H' b = H b) ∧
      (H' out).scale = max (H op0).scale (H op1).scale ∧
      CtIs n ev.ringQ level C (max d0 d1) (H' out) (fun i => if i ≤ min d0 d1 then
        op (fun u => (K0 : Rq (2 ^ n) (ev.ringQ.qs u)) * x i u) (fun u => (K1 : Rq (2 ^ n) (ev.ringQ.qs u)) * y i u)
        else if i ≤ d0 then fun u => (K0 : Rq (2 ^ n) (ev.ringQ.qs u)) * x i u
        else fun u => (K1 : Rq (2 ^ n) (ev.ringQ.qs u)) * y i u) ∧
      ∀ i, d0 < i → i ≤ d1 → EltIs n ev.ringQ level A true ((H' out).rows i)
        (fun u => (K1 : Rq (2 ^ n) (ev.ringQ.qs u)) * y i u) := by
  obtain ⟨g, e, fr, So, s0, s1, q0, q1⟩ := evaluate_prep (ev := ev) f h0 h1 ho hdd hlev
  obtain ⟨g', t0, t1, m1, m2, m3, m4, m5, m6, m7⟩ := matchScales_is hr hA q0 q1 So (by rw [fr _ p2.symm]; exact hp) p0 p1 p2
    (by omega) (by omega) (by split <;> omega) (by split <;> omega) kp (by split <;> omega) (by split <;> omega)
    (by rw [s0, s1]; exact u0) (by rw [s0, s1]; exact u1)
  rw [s0, s1] at m6 m7
  obtain ⟨a1, a2, a3, a4⟩ := evaluateTail_is3 hr hf hAC hAC (s := max (H op0).scale (H op1).scale) (out := out) m6 m7 m4 m5 m3
  rw [e, m1, Option.map_some]
  exact ⟨_, rfl, fun b hb => (a1 b hb.1).trans ((m2 b hb).trans (fr b hb.1)), a2, a3, a4⟩

/-- **C120 (`AddNoMod`, any scales).** The operand of smaller scale is multiplied by the integer part of the ratio of the
scales.  Only the receiver and the pool change. -/
theorem C120_add_scaled (hA : ∀ u, ev.ringQ.qs u ≤ A u) (hA' : ∀ u ≤ level, A u + A u ≤ 2 ^ 64)
    (h0 : CtIs n ev.ringQ l0 A d0 (H op0) x) (h1 : CtIs n ev.ringQ l1 A d1 (H op1) y) (ho : CtShape dd lo (H out))
    (hp : CtShape dp lp (H ev.ctxpool)) (p0 : op0 ≠ ev.ctxpool) (p1 : op1 ≠ ev.ctxpool) (p2 : out ≠ ev.ctxpool)
    (hd : d0 + d1 ≠ 0)
    (hdd : max d0 d1 ≤ dd) (hdp : max d0 d1 ≤ dp) (hlev : level = min (min l0 l1) lo) (kp : level ≤ lp)
    (hl0 : l0 < ev.ringQ.subs.length) (hl1 : l1 < ev.ringQ.subs.length)
    (u0 : upFactor (H op0).scale (H op1).scale < 2 ^ 51) (u1 : upFactor (H op1).scale (H op0).scale < 2 ^ 51) :
    ∃ H', ev.addNoMod H op0 op1 out = some H' ∧ (∀ b, b ≠ out ∧ b ≠ ev.ctxpool → H' b = H b) ∧
      (H' out).scale = max (H op0).scale (H op1).scale ∧
      CtIs n ev.ringQ level (fun u => A u + A u) (max d0 d1) (H' out) (fun i u =>
        (upFactor (H op0).scale (H op1).scale : Rq (2 ^ n) (ev.ringQ.qs u)) * pad d0 x i u +
        (upFactor (H op1).scale (H op0).scale : Rq (2 ^ n) (ev.ringQ.qs u)) * pad d1 y i u) := by
  have hl : level < ev.ringQ.subs.length := by omega
  obtain ⟨H', a1, a2, a3, a4, -⟩ := evaluate_scaled3 hr (addNoMod_op hr hl hA') hA (fun u _ => Nat.le_add_left _ _)
    h0 h1 ho hp p0 p1 p2 hdd hdp hlev kp hl0 hl1 u0 u1
  refine ⟨H', by rw [Evaluator.addNoMod, if_pos (check_ok h0.shape h1.shape ho hd hdd)]; exact a1, a2, a3, a4.shape,
    fun i hi => (a4.elt i hi).congr fun u _ => ?_⟩
  by_cases k1 : i ≤ min d0 d1
  · rw [if_pos k1, pad_of_le (by omega), pad_of_le (by omega)]
  · rw [if_neg k1]
    by_cases k2 : i ≤ d0
    · rw [if_pos k2, pad_of_le k2, pad_of_lt (by omega), mul_zero, add_zero]
    · rw [if_neg k2, pad_of_lt (by omega), pad_of_le (by omega), mul_zero, zero_add]

/-- **C120 (`SubNoMod`, any scales, words at most `q`).** -/
theorem C120_sub_scaled_partial (h0 : CtIs n ev.ringQ l0 (fun u => ev.ringQ.qs u + 1) d0 (H op0) x)
    (h1 : CtIs n ev.ringQ l1 (fun u => ev.ringQ.qs u + 1) d1 (H op1) y) (ho : CtShape dd lo (H out))
    (hp : CtShape dp lp (H ev.ctxpool)) (p0 : op0 ≠ ev.ctxpool) (p1 : op1 ≠ ev.ctxpool) (p2 : out ≠ ev.ctxpool)
    (hd : d0 + d1 ≠ 0)
    (hdd : max d0 d1 ≤ dd) (hdp : max d0 d1 ≤ dp) (hlev : level = min (min l0 l1) lo) (kp : level ≤ lp)
    (hl0 : l0 < ev.ringQ.subs.length) (hl1 : l1 < ev.ringQ.subs.length)
    (u0 : upFactor (H op0).scale (H op1).scale < 2 ^ 51) (u1 : upFactor (H op1).scale (H op0).scale < 2 ^ 51) :
    ∃ H', ev.subNoMod H op0 op1 out = some H' ∧ (∀ b, b ≠ out ∧ b ≠ ev.ctxpool → H' b = H b) ∧
      (H' out).scale = max (H op0).scale (H op1).scale ∧
      CtIs n ev.ringQ level (fun u => ev.ringQ.qs u + 1 + ev.ringQ.qs u) (max d0 d1) (H' out) (fun i u =>
        (upFactor (H op0).scale (H op1).scale : Rq (2 ^ n) (ev.ringQ.qs u)) * pad d0 x i u -
        (upFactor (H op1).scale (H op0).scale : Rq (2 ^ n) (ev.ringQ.qs u)) * pad d1 y i u) := by
  have hl : level < ev.ringQ.subs.length := by omega
  have hf := subNoMod_op (A := fun u => ev.ringQ.qs u + 1) hr hl fun u hu => by
    have := (hr.subAt (show u < ev.ringQ.subs.length by omega)).arith.lt
    show ev.ringQ.qs u + 1 + ev.ringQ.qs u ≤ 2 ^ 64
    unfold Ring.qs
    omega
  obtain ⟨H', a1, a2, a3, a4, a5⟩ := evaluate_scaled3 hr hf (fun u => by omega) (fun u _ => by omega)
    h0 h1 ho hp p0 p1 p2 hdd hdp hlev kp hl0 hl1 u0 u1
  obtain ⟨H'', b1, b2, b3, b4⟩ := subNoMod_of_evaluate hr (F := fun b => b ≠ out ∧ b ≠ ev.ctxpool) (l0 := l0) (l1 := l1)
    (A := fun u => ev.ringQ.qs u + 1) h0.shape h1.shape ho hd hdd
    hlev hl (fun _ h => h.1) (by tauto) (by tauto) (fun u _ => by omega) a1 a2 a3 a4 a5
  refine ⟨H'', b1, b2, b3, b4.shape, fun i hi => (b4.elt i hi).congr fun u _ => ?_⟩
  unfold pad
  split <;> split <;> simp

/-- **C120 (`AddNoMod`, decryption).** -/
theorem C120_add_enc {s m0 m1 : ∀ u, Rq (2 ^ n) (ev.ringQ.qs u)}
    (h0 : CtEnc n ev.ringQ l0 A d0 (H op0) s m0) (h1 : CtEnc n ev.ringQ l1 B d1 (H op1) s m1)
    (ho : CtShape dd lo (H out)) (hd : d0 + d1 ≠ 0) (hdd : max d0 d1 ≤ dd)
    (hlev : level = min (min l0 l1) lo) (hl : level < ev.ringQ.subs.length)
    (hAB : ∀ u ≤ level, A u + B u ≤ 2 ^ 64) (hs : SameScale (H op0).scale (H op1).scale) :
    ∃ H', ev.addNoMod H op0 op1 out = some H' ∧ (∀ b ≠ out, H' b = H b) ∧
      (H' out).scale = max (H op0).scale (H op1).scale ∧
      CtEnc n ev.ringQ level (fun u => A u + B u) (max d0 d1) (H' out) s (fun u => m0 u + m1 u) := by
  obtain ⟨x, hx, ex⟩ := h0
  obtain ⟨y, hy, ey⟩ := h1
  obtain ⟨H', a1, a2, a3, a4⟩ := C120_add hr hx hy ho hd hdd hlev hl hAB hs
  refine ⟨H', a1, a2, a3, _, a4, fun u hu => ?_⟩
  simp only [add_mul, sum_add_distrib]
  rw [sum_pad (by omega), sum_pad (by omega), ex u (by omega), ey u (by omega)]

/-- **C120 (`SubNoMod`, decryption).** -/
theorem C120_sub_enc_partial {s m0 m1 : ∀ u, Rq (2 ^ n) (ev.ringQ.qs u)}
    (h0 : CtEnc n ev.ringQ l0 A d0 (H op0) s m0)
    (h1 : CtEnc n ev.ringQ l1 (fun u => ev.ringQ.qs u + 1) d1 (H op1) s m1)
    (ho : CtShape dd lo (H out)) (hd : d0 + d1 ≠ 0) (hdd : max d0 d1 ≤ dd)
    (hlev : level = min (min l0 l1) lo) (hl : level < ev.ringQ.subs.length)
    (hA : ∀ u ≤ level, 0 < A u ∧ A u + ev.ringQ.qs u ≤ 2 ^ 64) (hs : SameScale (H op0).scale (H op1).scale) :
    ∃ H', ev.subNoMod H op0 op1 out = some H' ∧ (∀ b ≠ out, H' b = H b) ∧
      (H' out).scale = max (H op0).scale (H op1).scale ∧
      CtEnc n ev.ringQ level (fun u => A u + ev.ringQ.qs u) (max d0 d1) (H' out) s (fun u => m0 u - m1 u) := by
  obtain ⟨x, hx, ex⟩ := h0
  obtain ⟨y, hy, ey⟩ := h1
  obtain ⟨H', a1, a2, a3, a4⟩ := C120_sub_partial hr hx hy ho hd hdd hlev hl hA hs
  refine ⟨H', a1, a2, a3, _, a4, fun u hu => ?_⟩
  simp only [sub_mul, sum_sub_distrib]
  rw [sum_pad (by omega), sum_pad (by omega), ex u (by omega), ey u (by omega)]

/-- **C120 (`AddNoModNew`).** `new` is a reference not in use. -/
theorem C120_addNew {new : Ref} (h0 : CtIs n ev.ringQ l0 A d0 (H op0) x) (h1 : CtIs n ev.ringQ l1 B d1 (H op1) y)
    (hd : d0 + d1 ≠ 0) (n0 : op0 ≠ new) (n1 : op1 ≠ new) (hl : min l0 l1 < ev.ringQ.subs.length)
    (hAB : ∀ u ≤ min l0 l1, A u + B u ≤ 2 ^ 64) (hs : SameScale (H op0).scale (H op1).scale) :
    ∃ H', ev.addNoModNew H op0 op1 new = some H' ∧ (∀ b ≠ new, H' b = H b) ∧
      (H' new).scale = max (H op0).scale (H op1).scale ∧
      CtIs n ev.ringQ (min l0 l1) (fun u => A u + B u) (max d0 d1) (H' new)
        (fun i u => pad d0 x i u + pad d1 y i u) := by
  obtain ⟨f1, f2⟩ := newBinary_spec (ev := ev) (new := new) h0.shape h1.shape
  have e0 := f2 op0 n0
  have e1 := f2 op1 n1
  obtain ⟨H', a1, a2, a3, a4⟩ := C120_add (H := ev.newBinary H op0 op1 new) (op0 := op0) (op1 := op1) hr
    (by rw [e0]; exact h0) (by rw [e1]; exact h1) f1 hd le_rfl (min_self _).symm hl hAB (by rw [e0, e1]; exact hs)
  rw [e0, e1] at a3
  exact ⟨H', a1, fun b hb => (a2 b hb).trans (f2 b hb), a3, a4⟩

/-- **C120 (`SubNoModNew`).** -/
theorem C120_subNew_partial {new : Ref} (h0 : CtIs n ev.ringQ l0 A d0 (H op0) x)
    (h1 : CtIs n ev.ringQ l1 (fun u => ev.ringQ.qs u + 1) d1 (H op1) y)
    (hd : d0 + d1 ≠ 0) (n0 : op0 ≠ new) (n1 : op1 ≠ new) (hl : min l0 l1 < ev.ringQ.subs.length)
    (hA : ∀ u ≤ min l0 l1, 0 < A u ∧ A u + ev.ringQ.qs u ≤ 2 ^ 64) (hs : SameScale (H op0).scale (H op1).scale) :
    ∃ H', ev.subNoModNew H op0 op1 new = some H' ∧ (∀ b ≠ new, H' b = H b) ∧
      (H' new).scale = max (H op0).scale (H op1).scale ∧
      CtIs n ev.ringQ (min l0 l1) (fun u => A u + ev.ringQ.qs u) (max d0 d1) (H' new)
        (fun i u => pad d0 x i u - pad d1 y i u) := by
  obtain ⟨f1, f2⟩ := newBinary_spec (ev := ev) (new := new) h0.shape h1.shape
  have e0 := f2 op0 n0
  have e1 := f2 op1 n1
  obtain ⟨H', a1, a2, a3, a4⟩ := C120_sub_partial (H := ev.newBinary H op0 op1 new) (op0 := op0) (op1 := op1) hr
    (by rw [e0]; exact h0) (by rw [e1]; exact h1) f1 hd le_rfl (min_self _).symm hl hA (by rw [e0, e1]; exact hs)
  rw [e0, e1] at a3
  exact ⟨H', a1, fun b hb => (a2 b hb).trans (f2 b hb), a3, a4⟩

/-- `AddNoMod` of the operands `ops`, one after the other, into `acc` -/
def accumulate (ev : Evaluator) (acc : Ref) : List Ref → Heap → Option Heap
  | [], H => some H
  | op :: ops, H => (ev.addNoMod H acc op acc).bind (accumulate ev acc ops)

/-- accumulation, the words of the accumulator below `j q` -/
theorem accumulate_is {acc : Ref} {d l : ℕ} {s : ∀ u, Rq (2 ^ n) (ev.ringQ.qs u)} {sc : ℚ} (hd : d ≠ 0)
    (hl : l < ev.ringQ.subs.length) (ops : List (Ref × ∀ u, Rq (2 ^ n) (ev.ringQ.qs u))) :
    ∀ (j : ℕ) (H : Heap) (m : ∀ u, Rq (2 ^ n) (ev.ringQ.qs u)),
      (∀ u ≤ l, (j + ops.length) * ev.ringQ.qs u ≤ 2 ^ 64) →
      CtEnc n ev.ringQ l (fun u => j * ev.ringQ.qs u) d (H acc) s m → (H acc).scale = sc →
      (∀ o ∈ ops, o.1 ≠ acc ∧ (H o.1).scale = sc ∧ ∃ lo ≥ l, CtEnc n ev.ringQ lo ev.ringQ.qs d (H o.1) s o.2) →
      ∃ H', accumulate ev acc (ops.map Prod.fst) H = some H' ∧ (∀ b ≠ acc, H' b = H b) ∧ (H' acc).scale = sc ∧
        CtEnc n ev.ringQ l (fun u => (j + ops.length) * ev.ringQ.qs u) d (H' acc) s (fun u => m u + (ops.map fun o => o.2 u).sum) := by
  induction ops with
  | nil =>
    intro j H m _ h hsc _
    exact ⟨H, rfl, fun _ _ => rfl, hsc, by simpa using h⟩
  | cons o ops ih =>
    intro j H m hb h hsc ho
    obtain ⟨o1, o2, lo, o3, o4⟩ := ho o (by simp)
    obtain ⟨H1, a1, a2, a3, a4⟩ := C120_add_enc (out := acc) hr h o4 h.choose_spec.1.shape (by omega) (by omega)
      (level := l) (by omega) hl (fun u hu => by
        have := hb u hu
        rw [List.length_cons] at this
        nlinarith [Nat.zero_le (ops.length * ev.ringQ.qs u)]) (by rw [hsc, o2]; exact sameScale_self _)
    rw [hsc, o2, max_self] at a3
    rw [max_self] at a4
    obtain ⟨H', b1, b2, b3, b4⟩ := ih (j + 1) H1 _ (fun u hu => by
        have := hb u hu
        rw [List.length_cons] at this
        rwa [show j + 1 + ops.length = j + (ops.length + 1) by omega])
      (by simpa only [Nat.succ_mul] using a4) a3 fun o' ho' => by
        obtain ⟨c1, c2, c3⟩ := ho o' (by simp [ho'])
        rw [a2 _ c1]
        exact ⟨c1, c2, c3⟩
    refine ⟨H', by rw [List.map_cons, accumulate, a1]; exact b1, fun b hb => (b2 b hb).trans (a2 b hb), b3, ?_⟩
    have e : j + 1 + ops.length = j + (o :: ops).length := by rw [List.length_cons]; omega
    rw [e] at b4
    simpa only [List.map_cons, List.sum_cons, add_assoc] using b4

/-- **C120 (accumulation).** A reduced ciphertext to which any number of reduced ciphertexts of its degree and scale are
added without reduction, then `Reduce`: canonical words, and the decryption of the sum, as long as the number of terms
times the modulus is at most 2^64. -/
theorem C120_accumulate {acc : Ref} {d l : ℕ} {s : ∀ u, Rq (2 ^ n) (ev.ringQ.qs u)} (hd : d ≠ 0)
    (hl : l < ev.ringQ.subs.length) (ops : List (Ref × ∀ u, Rq (2 ^ n) (ev.ringQ.qs u)))
    (hb : ∀ u ≤ l, (ops.length + 1) * ev.ringQ.qs u ≤ 2 ^ 64) {m : ∀ u, Rq (2 ^ n) (ev.ringQ.qs u)}
    (h : CtEnc n ev.ringQ l ev.ringQ.qs d (H acc) s m)
    (ho : ∀ o ∈ ops, o.1 ≠ acc ∧ (H o.1).scale = (H acc).scale ∧
      ∃ lo ≥ l, CtEnc n ev.ringQ lo ev.ringQ.qs d (H o.1) s o.2) :
    ∃ H1 H2, accumulate ev acc (ops.map Prod.fst) H = some H1 ∧ ev.reduce H1 acc acc = .ok H2 ∧
      (∀ b ≠ acc, H2 b = H b) ∧ (H2 acc).scale = (H acc).scale ∧
      CtEnc n ev.ringQ l ev.ringQ.qs d (H2 acc) s (fun u => m u + (ops.map fun o => o.2 u).sum) := by
  obtain ⟨H1, a1, a2, a3, a4⟩ := accumulate_is hr hd hl ops 1 H m (fun u hu => by rw [Nat.add_comm]; exact hb u hu)
    (by simpa using h) rfl ho
  obtain ⟨H2, b1, b2, b3, b4⟩ := C79_reduce hr a4 a4.choose_spec.1.shape le_rfl hl
  exact ⟨H1, H2, a1, b1, fun b hb => (b2 b hb).trans (a2 b hb), b3.trans a3, b4⟩

/-- the word `k` of an element in NTT form is its evaluation at a root -/
theorem elt_inj {u : ℕ} (hu : u < ev.ringQ.subs.length) (p p1 p2 : Rows) :
    (ev.ringQ.elt n true p u = ev.ringQ.elt n true p1 u + ev.ringQ.elt n true p2 u ↔
      ∀ k < 2 ^ n, zval (ev.ringQ.qs u) (p.row u) k = zval (ev.ringQ.qs u) (p1.row u) k + zval (ev.ringQ.qs u) (p2.row u) k) ∧
    (ev.ringQ.elt n true p u = ev.ringQ.elt n true p1 u - ev.ringQ.elt n true p2 u ↔
      ∀ k < 2 ^ n, zval (ev.ringQ.qs u) (p.row u) k = zval (ev.ringQ.qs u) (p1.row u) k - zval (ev.ringQ.qs u) (p2.row u) k) := by
  have h4 := hr.four_le
  have := (hr.subAt hu).fact
  have hp := (hr.subAt hu).psiOK (by omega)
  have ev1 : ∀ (p : Rows) {k : ℕ} (hk : k < 2 ^ n), evalAt hp hk (ev.ringQ.elt n true p u) = zval (ev.ringQ.qs u) (p.row u) k := by
    intro p k hk
    simp only [Ring.elt, if_true, nttR]
    exact evalAt_ofNtt _ _ _
  constructor
  · constructor
    · intro h k hk
      have := congrArg (evalAt hp hk) h
      rwa [map_add, ev1, ev1, ev1] at this
    · intro h
      rw [Ring.elt_eq, Ring.elt_eq, Ring.elt_eq, ← eltOf_add hr hu le_rfl]
      exact Ring.eltOf_congr h
  · constructor
    · intro h k hk
      have := congrArg (evalAt hp hk) h
      rwa [map_sub, ev1, ev1, ev1] at this
    · intro h
      rw [Ring.elt_eq, Ring.elt_eq, Ring.elt_eq, ← eltOf_sub hr hu le_rfl]
      exact Ring.eltOf_congr h

omit hr in
/-- the components of the receiver when it is none of the operands, and these have equal degree -/
theorem evaluate_rows (f : ℕ → Rows → Rows → Rows → Rows) {d : ℕ}
    (h0 : CtIs n ev.ringQ l0 A d (H op0) x) (h1 : CtIs n ev.ringQ l1 A d (H op1) y) (ho : CtShape dd lo (H out))
    (hd : d ≤ dd) (hlev : level = min (min l0 l1) lo) (hs : SameScale (H op0).scale (H op1).scale)
    (o0 : op0 ≠ out) (o1 : op1 ≠ out) :
    ∃ H', ev.evaluateInPlace H op0 op1 out f = some H' ∧ (∀ b ≠ out, H' b = H b) ∧ (H' out).value.length = d + 1 ∧
      ∀ i ≤ d, ∃ p : Rows, p.length = level + 1 ∧ (H' out).rows i = f level ((H op0).rows i) ((H op1).rows i) p := by
  obtain ⟨g, e, fr, So, s0, s1, q0, q1⟩ := evaluate_prep (ev := ev) f h0 h1 ho (by omega) hlev
  rw [max_self, min_self] at e
  rw [max_self] at So
  rw [e, matchScales_same (by rw [s0, s1]; exact hs), Option.map_some]
  have L := overComponents_is0 (out := out)
    (F := fun i h => f level (h.rows op0 i) (h.rows op1 i) (h.rows out i))
    (fun u h h' hh => by rw [hh, hh, hh]) (d + 1) g
  refine ⟨_, rfl, ?_⟩
  unfold evaluateTail
  dsimp only at L ⊢
  generalize overComponents (fun i h => h.setRows out i (f level (h.rows op0 i) (h.rows op1 i) (h.rows out i)))
    (d + 1) g = g1 at L
  have dg : ∀ b, ((g1.setScale out (max (H op0).scale (H op1).scale)) b).degree = (g b).degree := fun b => by
    rw [Heap.degree_setScale]
    by_cases hb : b = out
    · subst hb; unfold Ct.degree; rw [L.len]
    · rw [L.frame b hb]
  have hlen := So.len
  rw [dg, dg, q0.shape.degree, q1.shape.degree, if_neg (by omega), if_neg (by omega)]
  refine ⟨fun b hb => ?_, ?_, fun i hi => ⟨(g out).rows i, So.size i hi, ?_⟩⟩
  · rw [Heap.setScale_ne _ _ _ _ hb, L.frame b hb, fr b hb]
  · rw [Heap.setScale_self]; exact L.len.trans So.len
  · have := L.row i (by omega) (by omega)
    rw [Nat.zero_add] at this
    rw [Heap.setScale_self]
    show (g1 out).rows i = _
    rw [this]
    unfold Heap.rows
    rw [fr op0 o0, fr op1 o1]

/-- 2^64 is no multiple of a modulus -/
theorem two64_ne {u : ℕ} (hu : u < ev.ringQ.subs.length) : (((2 ^ 64 : ℕ) : ℕ) : ZMod (ev.ringQ.qs u)) ≠ 0 := by
  have := (hr.subAt hu).fact
  have h := rinv_mul (hr.subAt hu).arith.odd
  intro h0
  rw [Nat.cast_pow, Nat.cast_ofNat] at h0
  unfold Ring.qs at h0
  rw [h0, mul_zero] at h
  exact zero_ne_one h

/-- **C120 (`AddNoMod`, exactly when it is right).** Words of any size, receiver none of the operands: a component holds the
sum modulo a prime if and only if no pair of its words there wraps around. -/
theorem C120_add_iff {d : ℕ} (h0 : CtIs n ev.ringQ l0 anyWord d (H op0) x) (h1 : CtIs n ev.ringQ l1 anyWord d (H op1) y)
    (ho : CtShape dd lo (H out)) (hd : d ≠ 0) (hdd : d ≤ dd) (hlev : level = min (min l0 l1) lo)
    (hl : level < ev.ringQ.subs.length) (hs : SameScale (H op0).scale (H op1).scale) (o0 : op0 ≠ out) (o1 : op1 ≠ out) :
    ∃ H', ev.addNoMod H op0 op1 out = some H' ∧ (∀ b ≠ out, H' b = H b) ∧ ∀ i ≤ d, ∀ u ≤ level,
      (ev.ringQ.elt n true ((H' out).rows i) u = x i u + y i u ↔ ∀ k < 2 ^ n,
        ((((H op0).rows i).row u).at k).toNat + ((((H op1).rows i).row u).at k).toNat < 2 ^ 64) := by
  obtain ⟨H', a1, a2, -, a4⟩ := evaluate_rows ev.ringQ.addNoModLvl h0 h1 ho hdd hlev hs o0 o1
  refine ⟨H', by rw [Evaluator.addNoMod, if_pos (check_ok h0.shape h1.shape ho (by omega) (by omega))]; exact a1, a2,
    fun i hi u hu => ?_⟩
  obtain ⟨p, hp, e⟩ := a4 i hi
  have hu' : u < ev.ringQ.subs.length := by omega
  have x0 := (h0.elt i hi).len u (by omega)
  have y0 := (h1.elt i hi).len u (by omega)
  rw [← (h0.elt i hi).val u (by omega), ← (h1.elt i hi).val u (by omega), (elt_inj hr hu' _ _ _).1, e, Ring.addNoModLvl,
    row_writeLvl hu (by omega)]
  refine forall₂_congr fun k hk => ?_
  have ea : Row.at (addVecNoMod (((H op0).rows i).row u) (((H op1).rows i).row u)) k = (((H op0).rows i).row u).at k +
      (((H op1).rows i).row u).at k := Row.at_zipWith _ _ _ (by omega) (by omega)
  unfold zval
  rw [ea]
  generalize Row.at (((H op0).rows i).row u) k = a
  generalize Row.at (((H op1).rows i).row u) k = b
  have ha := a.toNat_lt
  have hb := b.toNat_lt
  rw [UInt64.toNat_add]
  constructor
  · intro h
    by_contra hc
    have e2 : (a.toNat + b.toNat) % 2 ^ 64 + 2 ^ 64 = a.toNat + b.toNat := by omega
    have e3 := congrArg (Nat.cast (R := ZMod (ev.ringQ.qs u))) e2
    rw [Nat.cast_add, h, Nat.cast_add] at e3
    exact two64_ne hr hu' (left_eq_add.1 e3.symm)
  · intro h
    rw [Nat.mod_eq_of_lt h, Nat.cast_add]

/-- **C120 (`SubNoMod`, exactly when it is right).** A component holds the difference modulo a prime if and only if no
`x + q - y` is negative or too large. -/
theorem C120_sub_iff {d : ℕ} (h0 : CtIs n ev.ringQ l0 anyWord d (H op0) x) (h1 : CtIs n ev.ringQ l1 anyWord d (H op1) y)
    (ho : CtShape dd lo (H out)) (hd : d ≠ 0) (hdd : d ≤ dd) (hlev : level = min (min l0 l1) lo)
    (hl : level < ev.ringQ.subs.length) (hs : SameScale (H op0).scale (H op1).scale) (o0 : op0 ≠ out) (o1 : op1 ≠ out) :
    ∃ H', ev.subNoMod H op0 op1 out = some H' ∧ (∀ b ≠ out, H' b = H b) ∧ ∀ i ≤ d, ∀ u ≤ level,
      (ev.ringQ.elt n true ((H' out).rows i) u = x i u - y i u ↔ ∀ k < 2 ^ n,
        ((((H op1).rows i).row u).at k).toNat ≤ ((((H op0).rows i).row u).at k).toNat + ev.ringQ.qs u ∧
        ((((H op0).rows i).row u).at k).toNat + ev.ringQ.qs u < 2 ^ 64 + ((((H op1).rows i).row u).at k).toNat) := by
  obtain ⟨H', a1, a2, a3, a4⟩ := evaluate_rows ev.ringQ.subNoModLvl h0 h1 ho hdd hlev hs o0 o1
  refine ⟨H', ?_, a2, fun i hi u hu => ?_⟩
  · rw [Evaluator.subNoMod, if_pos (check_ok h0.shape h1.shape ho (by omega) (by omega)), a1, Option.map_some]
    dsimp only
    rw [a2 op0 o0, a2 op1 o1, h0.shape.degree, h1.shape.degree, if_neg (by omega)]
  obtain ⟨p, hp, e⟩ := a4 i hi
  have hu' : u < ev.ringQ.subs.length := by omega
  have x0 := (h0.elt i hi).len u (by omega)
  have y0 := (h1.elt i hi).len u (by omega)
  rw [← (h0.elt i hi).val u (by omega), ← (h1.elt i hi).val u (by omega), (elt_inj hr hu' _ _ _).2, e, Ring.subNoModLvl,
    row_writeLvl hu (by omega)]
  refine forall₂_congr fun k hk => ?_
  have ea : Row.at (subVecNomod (((H op0).rows i).row u) (((H op1).rows i).row u) (ev.ringQ.sub u).q) k =
      (((H op0).rows i).row u).at k + (ev.ringQ.sub u).q - (((H op1).rows i).row u).at k :=
    Row.at_zipWith _ _ _ (by omega) (by omega)
  unfold zval
  rw [ea]
  generalize Row.at (((H op0).rows i).row u) k = a
  generalize Row.at (((H op1).rows i).row u) k = b
  have ha := a.toNat_lt
  have hb := b.toNat_lt
  have hq : ev.ringQ.qs u < 2 ^ 63 := by have := (hr.subAt hu').arith.lt; unfold Ring.qs; omega
  have ez : ((ev.ringQ.qs u : ℕ) : ZMod (ev.ringQ.qs u)) = 0 := ZMod.natCast_self _
  have e0 : (a + (ev.ringQ.sub u).q - b).toNat = (2 ^ 64 - b.toNat + (a.toNat + ev.ringQ.qs u) % 2 ^ 64) % 2 ^ 64 := by
    rw [UInt64.toNat_sub, UInt64.toNat_add]
  have h64 := two64_ne hr hu'
  rw [e0]
  generalize ev.ringQ.qs u = q at *
  generalize hw : (2 ^ 64 - b.toNat + (a.toNat + q) % 2 ^ 64) % 2 ^ 64 = w
  constructor
  · intro h
    have h' : ((w + b.toNat : ℕ) : ZMod q) = ((a.toNat + q : ℕ) : ZMod q) := by
      rw [Nat.cast_add, Nat.cast_add, h, ez]; ring
    by_contra hc
    have : w + b.toNat = a.toNat + q + 2 ^ 64 ∨ w + b.toNat + 2 ^ 64 = a.toNat + q := by omega
    rcases this with e2 | e2
    · rw [e2, Nat.cast_add _ (2 ^ 64)] at h'
      exact h64 (add_eq_left.1 h')
    · rw [← e2, Nat.cast_add _ (2 ^ 64)] at h'
      exact h64 (left_eq_add.1 h')
  · intro h
    have : w + b.toNat = a.toNat + q := by omega
    have h' := congrArg (Nat.cast (R := ZMod q)) this
    rw [Nat.cast_add, Nat.cast_add, ez, add_zero] at h'
    rw [← h']; ring

end

/-- **C120 (`SubNoMod` of an unreduced ciphertext is wrong).** The sum of a reduced ciphertext with itself by `AddNoMod`,
subtracted by `SubNoMod` from a reduced ciphertext: the words wrap around and the result is not the difference, so
`Reduce` cannot repair it. -/
theorem C120_sub_wrong : ∃ (ev : Evaluator) (H H1 H2 : Heap) (x y : ℕ → ∀ u, Rq (2 ^ 4) (ev.ringQ.qs u)),
    ev.ringQ.Valid 4 ∧ CtIs 4 ev.ringQ 2 ev.ringQ.qs 1 (H 0) x ∧ CtIs 4 ev.ringQ 2 ev.ringQ.qs 1 (H 1) y ∧
    ev.addNoMod H 1 1 2 = some H1 ∧
    CtIs 4 ev.ringQ 2 (fun u => ev.ringQ.qs u + ev.ringQ.qs u) 1 (H1 2) (fun i u => y i u + y i u) ∧
    ev.subNoMod H1 0 2 3 = some H2 ∧
    ev.ringQ.elt 4 true ((H2 3).rows 0) 0 ≠ x 0 0 - (y 0 0 + y 0 0) := by
  obtain ⟨fp, ksw, kg, s, tape, h1, h, hF, ha, lQ, hk, hg, hQ, hP, hsam, hsk, ht⟩ := exampleKeys
  have q0 := sub_of_moduli hQ 0 97 rfl
  have q1 := sub_of_moduli hQ 1 193 rfl
  have q2 := sub_of_moduli hQ 2 641 rfl
  have hq : ∀ u ≤ 2, 96 < fp.ringQ.qs u := by
    intro u hu
    unfold Ring.qs
    interval_cases u
    · rw [q0]; decide
    · rw [q1]; decide
    · rw [q2]; decide
  have hq0 : fp.ringQ.qs 0 = 97 := by unfold Ring.qs; rw [q0]; rfl
  set ev := newEvaluator fp.ringQ fp.ringP none (fun _ => none) 7 with hev
  have hr : ev.ringQ.Valid 4 := h.hQ
  let H : Heap := fun a => if a = 1 then constCt 1 [96, 96] else constCt 1 [0, 0]
  have h3 : 2 < fp.ringQ.subs.length := by omega
  have c0 : CtIs 4 ev.ringQ 2 ev.ringQ.qs 1 (H 0) _ := constCt_is hr h3 1 (cs := [0, 0]) (by decide) fun c hc u hu => by
    have := hq u hu
    simp only [List.mem_cons, List.not_mem_nil, or_false, or_self] at hc
    subst hc
    exact lt_of_le_of_lt (by decide) this
  have c1 : CtIs 4 ev.ringQ 2 ev.ringQ.qs 1 (H 1) _ := constCt_is hr h3 1 (cs := [96, 96]) (by decide) fun c hc u hu => by
    simp only [List.mem_cons, List.not_mem_nil, or_false, or_self] at hc
    subst hc
    exact hq u hu
  have hlt : ∀ u ≤ 2, ev.ringQ.qs u + ev.ringQ.qs u ≤ 2 ^ 64 := fun u hu => by
    have := (hr.subAt (show u < ev.ringQ.subs.length from lt_of_le_of_lt hu h3)).arith.lt
    unfold Ring.qs
    omega
  have c2 : CtShape 1 2 (H 2) := c0.shape
  obtain ⟨H1, a1, a2, a3, a4⟩ := C120_add (ev := ev) (H := H) (level := 2) (op0 := 1) (op1 := 1) (out := 2) hr c1 c1 c2 (by omega)
    (by omega) (by omega) h3 hlt (sameScale_self _)
  obtain ⟨H1', b1, -, -, b4⟩ := evaluate_rows (ev := ev) (H := H) (level := 2) (op0 := 1) (op1 := 1) (out := 2)
    ev.ringQ.addNoModLvl c1 c1 c2 (by omega) (by omega) (sameScale_self _) (by decide) (by decide)
  obtain rfl : H1' = H1 := by
    rw [Evaluator.addNoMod, if_pos (check_ok c1.shape c1.shape c2 (by omega) (by omega)), b1] at a1
    exact Option.some.inj a1
  have a4' : CtIs 4 ev.ringQ 2 (fun u => ev.ringQ.qs u + ev.ringQ.qs u) 1 (H1' 2) _ := ⟨a4.shape, fun i hi =>
    (a4.elt i hi).congr fun u _ => by rw [pad_of_le hi]⟩
  obtain ⟨H2, d1, d2, d3⟩ := C120_sub_iff (ev := ev) (H := H1') (level := 2) (op0 := 0) (op1 := 2) (out := 3) (l0 := 2) (l1 := 2)
    (dd := 1) (lo := 2) (d := 1) hr
    (by rw [a2 0 (by decide)]; exact c0.mono fun u hu => by have := hlt u hu; show _ ≤ 2 ^ 64; omega)
    (a4'.mono fun u hu => hlt u hu) (by rw [a2 3 (by decide)]; exact c0.shape) (by omega) (by omega) (by omega) h3
    (by rw [a2 0 (by decide), a3]; exact sameScale_self _) (by decide) (by decide)
  refine ⟨ev, H, H1', H2, _, _, hr, c0, c1, a1, a4', d1, fun hc => ?_⟩
  have w := ((d3 0 (by omega) 0 (by omega)).1 hc 0 (by norm_num)).1
  obtain ⟨p, hp, e⟩ := b4 0 (by omega)
  rw [e, Ring.addNoModLvl, row_writeLvl (by omega) (by omega), a2 0 (by decide)] at w
  have e1 : Row.at (addVecNoMod (((H 1).rows 0).row 0) (((H 1).rows 0).row 0)) 0 = 192 := by decide
  have e2 : Row.at (((H 0).rows 0).row 0) 0 = 0 := by decide
  rw [e1, e2] at w
  have : ev.ringQ.qs 0 = 97 := hq0
  rw [this] at w
  exact absurd w (by decide)

/-- three ciphertexts of the example ring accumulated without reduction -/
example : ∃ (ev : Evaluator) (H H1 H2 : Heap) (m : ∀ u, Rq (2 ^ 4) (ev.ringQ.qs u)),
    ev.ringQ.Valid 4 ∧ accumulate ev 0 [1, 2] H = some H1 ∧ ev.reduce H1 0 0 = .ok H2 ∧
    CtEnc 4 ev.ringQ 2 ev.ringQ.qs 1 (H2 0) (fun _ => 1) m := by
  obtain ⟨fp, ksw, kg, s, tape, h1, h, hF, ha, lQ, hk, hg, hQ, hP, hsam, hsk, ht⟩ := exampleKeys
  have q0 := sub_of_moduli hQ 0 97 rfl
  have q1 := sub_of_moduli hQ 1 193 rfl
  have q2 := sub_of_moduli hQ 2 641 rfl
  have hq : ∀ u ≤ 2, 96 < fp.ringQ.qs u ∧ fp.ringQ.qs u ≤ 641 := by
    intro u hu
    unfold Ring.qs
    interval_cases u
    · rw [q0]; decide
    · rw [q1]; decide
    · rw [q2]; decide
  set ev := newEvaluator fp.ringQ fp.ringP none (fun _ => none) 7 with hev
  have hr : ev.ringQ.Valid 4 := h.hQ
  have h3 : 2 < fp.ringQ.subs.length := by omega
  have c1 : CtIs 4 ev.ringQ 2 ev.ringQ.qs 1 (constCt 1 [96, 5]) _ :=
    constCt_is hr h3 1 (cs := [96, 5]) (by decide) fun c hc u hu => by
      simp only [List.mem_cons, List.not_mem_nil, or_false] at hc
      have := (hq u hu).1
      rcases hc with rfl | rfl
      · exact this
      · exact lt_trans (by decide) this
  have hc : CtEnc 4 ev.ringQ 2 ev.ringQ.qs 1 (constCt 1 [96, 5]) (fun _ => 1) _ := ⟨_, c1, fun _ _ => rfl⟩
  obtain ⟨H1, H2, a1, a2, -, -, a5⟩ := C120_accumulate (ev := ev) (H := fun _ => constCt 1 [96, 5]) (acc := 0) hr one_ne_zero h3
    [(1, _), (2, _)] (fun u hu => by
      have := (hq u hu).2
      show 3 * fp.ringQ.qs u ≤ 2 ^ 64
      omega) hc fun o ho => by
      simp only [List.mem_cons, List.not_mem_nil, or_false] at ho
      rcases ho with rfl | rfl
      · exact ⟨(by decide : (1 : ℕ) ≠ 0), rfl, 2, le_rfl, hc⟩
      · exact ⟨(by decide : (2 : ℕ) ≠ 0), rfl, 2, le_rfl, hc⟩
  exact ⟨ev, _, H1, H2, _, hr, a1, a2, a5⟩

end FastKsw.Props
