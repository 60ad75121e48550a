import Verif.Lemmas.AddCt
import Verif.Props.FEvaluator

/-!
# C34: addition and subtraction of ciphertexts

A component a ciphertext lacks counts as zero (`pad`).  Entries equal to the modulus are allowed, because `NegLvl`, used
by `Neg` and `Sub`, turns 0 into `q`.
-/

namespace FastKsw.Props

open FastKsw Finset

/-- components above the degree count as zero -/
noncomputable def pad {n : ℕ} {r : Ring} (d : ℕ) (x : ℕ → ∀ u, Rq (2 ^ n) (r.qs u)) (i : ℕ) : ∀ u, Rq (2 ^ n) (r.qs u) :=
  if i ≤ d then x i else fun _ => 0

theorem pad_of_le {n : ℕ} {r : Ring} {d i : ℕ} {x : ℕ → ∀ u, Rq (2 ^ n) (r.qs u)} (h : i ≤ d) : pad d x i = x i := if_pos h

theorem pad_of_lt {n : ℕ} {r : Ring} {d i : ℕ} {x : ℕ → ∀ u, Rq (2 ^ n) (r.qs u)} (h : d < i) (u : ℕ) : pad d x i u = 0 := by
  unfold pad; rw [if_neg (by omega)]

theorem sum_pad {n : ℕ} {r : Ring} {d D : ℕ} {x : ℕ → ∀ u, Rq (2 ^ n) (r.qs u)} (h : d ≤ D) (s : ∀ u, Rq (2 ^ n) (r.qs u))
    (u : ℕ) : ∑ i ∈ range (D + 1), pad d x i u * s u ^ i = ∑ i ∈ range (d + 1), x i u * s u ^ i := by
  rw [← sum_subset (range_subset_range.2 (show d + 1 ≤ D + 1 by omega))]
  · exact sum_congr rfl fun i hi => by rw [pad_of_le (by have := mem_range.1 hi; omega)]
  · intro i _ hi
    rw [pad_of_lt (by by_contra h; exact hi (mem_range.2 (by omega))), zero_mul]

theorem sameScale_self (s : ℚ) : SameScale s s := ⟨fun h => lt_irrefl _ h.1, fun h => lt_irrefl _ h.1⟩

section
variable {n : ℕ} {ev : Evaluator} (hr : ev.ringQ.Valid n) {level : ℕ} {A : ℕ → ℕ} {H : Heap} {op0 op1 out : Ref}
  {d0 d1 dd l0 l1 lo : ℕ} {x y : ℕ → ∀ u, Rq (2 ^ n) (ev.ringQ.qs u)}
include hr

omit hr in
theorem check_ok (h0 : CtShape d0 l0 (H op0)) (h1 : CtShape d1 l1 (H op1)) (ho : CtShape dd lo (H out)) (hd : d0 + d1 ≠ 0)
    (hdd : max d0 d1 ≤ dd) : checkBinary H op0 op1 out (max (H op0).degree (H op1).degree) = true := by
  simp only [checkBinary, h0.degree, h1.degree, ho.degree, h0.all, h1.all, Bool.and_true, Bool.and_eq_true,
    decide_eq_true_eq]
  exact ⟨hd, hdd⟩

/-- **C34 (`Add`).** Operands of any degrees (not both plaintexts) and levels, into any receiver of sufficient
degree, which may be an operand; the operands may coincide.  The scales are equal, or at least not a factor 2 apart.
No panic; only the receiver changes; its level is the minimum of the three, its degree the maximum and its scale the
larger one; it holds the component-wise sum.  The result is reduced if the operands are, and has entries at most `q`
if the operands have. -/
theorem C34_add (hA : A = ev.ringQ.qs ∨ A = fun u => ev.ringQ.qs u + 1) (h0 : CtIs n ev.ringQ l0 A d0 (H op0) x)
    (h1 : CtIs n ev.ringQ l1 A d1 (H op1) y) (ho : CtShape dd lo (H out)) (hd : d0 + d1 ≠ 0) (hdd : max d0 d1 ≤ dd)
    (hlev : level = min (min l0 l1) lo) (hl : level < ev.ringQ.subs.length)
    (hs : SameScale (H op0).scale (H op1).scale) :
    ∃ H', ev.add H op0 op1 out = some H' ∧ (∀ b ≠ out, H' b = H b) ∧
      (H' out).scale = max (H op0).scale (H op1).scale ∧
      CtIs n ev.ringQ level A (max d0 d1) (H' out) (fun i u => pad d0 x i u + pad d1 y i u) := by
  have hf : BinOp n ev.ringQ level A ev.ringQ.addLvl (fun x y u => x u + y u) := by
    intro p1 p2 p3 x y h1 h2 h3
    rcases hA with rfl | rfl
    · exact addLvl_elt hr hl h1 h2 (fun u _ => by omega) h3
    · exact addLvl_weak hr hl h1 h2 h3
  obtain ⟨H', a1, a2, a3, a4⟩ := evaluate_is hr hf h0 h1 ho hdd hlev hs
  refine ⟨H', by rw [Evaluator.add, if_pos (check_ok h0.shape h1.shape ho hd hdd)]; exact a1, a2, a3, a4.shape, fun i hi =>
    (a4.elt i hi).congr fun u _ => ?_⟩
  by_cases k1 : i ≤ min d0 d1
  · rw [if_pos k1, pad_of_le (by omega), pad_of_le (by omega)]
  · rw [if_neg k1]
    by_cases k2 : i ≤ d0
    · rw [if_pos k2, pad_of_le k2, pad_of_lt (by omega), add_zero]
    · rw [if_neg k2, pad_of_lt (by omega), pad_of_le (by omega), zero_add]

/-- `Sub` after `evaluateInPlace` -/
theorem sub_of_evaluate {F : Ref → Prop} {sc : ℚ} {H' : Heap}
    (h0 : CtShape d0 l0 (H op0)) (h1 : CtShape d1 l1 (H op1)) (ho : CtShape dd lo (H out)) (hd : d0 + d1 ≠ 0)
    (hdd : max d0 d1 ≤ dd) (hlev : level = min (min l0 l1) lo) (hl : level < ev.ringQ.subs.length)
    (hF : ∀ b, F b → b ≠ out) (f0 : F op0 ∨ op0 = out) (f1 : F op1 ∨ op1 = out)
    (a1 : ev.evaluateInPlace H op0 op1 out ev.ringQ.subLvl = some H') (a2 : ∀ b, F b → H' b = H b)
    (a3 : (H' out).scale = sc)
    (a4 : CtIs n ev.ringQ level (fun u => ev.ringQ.qs u + 1) (max d0 d1) (H' out)
      (fun i => if i ≤ min d0 d1 then fun u => x i u - y i u else if i ≤ d0 then x i else y i)) :
    ∃ H', ev.sub H op0 op1 out = some H' ∧ (∀ b, F b → H' b = H b) ∧ (H' out).scale = sc ∧
      CtIs n ev.ringQ level (fun u => ev.ringQ.qs u + 1) (max d0 d1) (H' out) (fun i u => pad d0 x i u - pad d1 y i u) := by
  have hlen := a4.shape.len
  have sh : ∀ (b : Ref) (d l : ℕ), CtShape d l (H b) → (F b ∨ b = out) → d ≤ max d0 d1 → level ≤ l →
      (H' b).degree = d ∧ level ≤ (H' b).level := by
    intro b d l hb hf h1 h2
    by_cases e : b = out
    · subst e
      have := hb.len
      have := ho.len
      rw [a4.shape.degree, a4.shape.level]
      omega
    · rw [a2 b (hf.resolve_right e), hb.degree, hb.level]
      exact ⟨rfl, h2⟩
  obtain ⟨e0, e1⟩ := sh op0 d0 l0 h0 f0 (by omega) (by omega)
  obtain ⟨e2, e3⟩ := sh op1 d1 l1 h1 f1 (by omega) (by omega)
  unfold Evaluator.sub
  rw [if_pos (check_ok h0 h1 ho hd hdd), a1, Option.map_some]
  dsimp only
  rw [e0, e2, a4.shape.level, min_eq_right (by omega)]
  by_cases k : d0 < d1
  · rw [if_pos k]
    have L := overComponents_is (out := out) (o := d0 + 1) (F := fun i h =>
        ev.ringQ.negLvl level (h.rows out (d0 + 1 + i)) (h.rows out (d0 + 1 + i)))
      (fun u h h' hh => by rw [hh]) (d1 - d0) H'
    have W : ∀ u, d0 + 1 + u ≤ max d0 d1 → EltWritten n ev.ringQ level (fun u => ev.ringQ.qs u + 1) true
        ((H' out).rows (d0 + 1 + u)) (ev.ringQ.negLvl level (H'.rows out (d0 + 1 + u)) (H'.rows out (d0 + 1 + u)))
        (fun v => -y (d0 + 1 + u) v) := fun u hu => by
      have := a4.elt (d0 + 1 + u) hu
      rw [if_neg (by omega), if_neg (by omega)] at this
      exact negLvl_elt hr hl this this.lvl
    refine ⟨_, rfl, fun b hb => (L.frame b (hF b hb)).trans (a2 b hb), L.scale.trans a3,
      L.shape a4.shape fun u _ hu => (W u hu).len.trans (a4.shape.size _ hu), fun i hi => ?_⟩
    by_cases k1 : i ≤ d0
    · rw [L.other i (by omega)]
      refine (a4.elt i hi).congr fun u _ => ?_
      rw [if_pos (by omega), pad_of_le k1, pad_of_le (by omega)]
    · obtain ⟨u, rfl⟩ : ∃ u, i = d0 + 1 + u := ⟨i - (d0 + 1), by omega⟩
      rw [L.row u (by omega) (by omega)]
      refine (W u hi).is.congr fun v _ => ?_
      rw [pad_of_lt (by omega), pad_of_le (by omega), zero_sub]
  · rw [if_neg k]
    refine ⟨H', rfl, a2, a3, a4.shape, fun i hi => (a4.elt i hi).congr fun u _ => ?_⟩
    by_cases k1 : i ≤ min d0 d1
    · rw [if_pos k1, pad_of_le (by omega), pad_of_le (by omega)]
    · rw [if_neg k1, if_pos (by omega), pad_of_le (by omega), pad_of_lt (by omega), sub_zero]

/-- **C34 (`Sub`).** The same for the difference; entries of the result are at most `q`. -/
theorem C34_sub (h0 : CtIs n ev.ringQ l0 (fun u => ev.ringQ.qs u + 1) d0 (H op0) x)
    (h1 : CtIs n ev.ringQ l1 (fun u => ev.ringQ.qs u + 1) d1 (H op1) y) (ho : CtShape dd lo (H out)) (hd : d0 + d1 ≠ 0)
    (hdd : max d0 d1 ≤ dd) (hlev : level = min (min l0 l1) lo) (hl : level < ev.ringQ.subs.length)
    (hs : SameScale (H op0).scale (H op1).scale) :
    ∃ H', ev.sub H op0 op1 out = some H' ∧ (∀ b ≠ out, H' b = H b) ∧
      (H' out).scale = max (H op0).scale (H op1).scale ∧
      CtIs n ev.ringQ level (fun u => ev.ringQ.qs u + 1) (max d0 d1) (H' out) (fun i u => pad d0 x i u - pad d1 y i u) := by
  have hf : BinOp n ev.ringQ level (fun u => ev.ringQ.qs u + 1) ev.ringQ.subLvl (fun x y u => x u - y u) :=
    fun p1 p2 p3 x y h1 h2 h3 => subLvl_weak hr hl h1 h2 h3
  obtain ⟨H', a1, a2, a3, a4⟩ := evaluate_is hr hf h0 h1 ho hdd hlev hs
  exact sub_of_evaluate hr (F := fun b => b ≠ out) h0.shape h1.shape ho hd hdd hlev hl (fun _ h => h) (ne_or_eq _ _)
    (ne_or_eq _ _) a1 a2 a3 a4

/-- **C34 (`Add`, decryption).** If the operands decrypt to `m0` and `m1` under `s`, the receiver decrypts to
`m0 + m1`. -/
theorem C34_add_enc {s m0 m1 : ∀ u, Rq (2 ^ n) (ev.ringQ.qs u)} (hA : A = ev.ringQ.qs ∨ A = fun u => ev.ringQ.qs u + 1)
    (h0 : CtEnc n ev.ringQ l0 A d0 (H op0) s m0) (h1 : CtEnc n ev.ringQ l1 A d1 (H op1) s m1)
    (ho : CtShape dd lo (H out)) (hd : d0 + d1 ≠ 0) (hdd : max d0 d1 ≤ dd)
    (hlev : level = min (min l0 l1) lo) (hl : level < ev.ringQ.subs.length)
    (hs : SameScale (H op0).scale (H op1).scale) :
    ∃ H', ev.add H op0 op1 out = some H' ∧
      CtEnc n ev.ringQ level A (max d0 d1) (H' out) s (fun u => m0 u + m1 u) := by
  obtain ⟨x, hx, ex⟩ := h0
  obtain ⟨y, hy, ey⟩ := h1
  obtain ⟨H', a1, -, -, a4⟩ := C34_add hr hA hx hy ho hd hdd hlev hl hs
  refine ⟨H', a1, _, a4, fun u hu => ?_⟩
  simp only [add_mul, sum_add_distrib]
  rw [sum_pad (by omega), sum_pad (by omega), ex u (by omega), ey u (by omega)]

/-- **C34 (`Sub`, decryption).** -/
theorem C34_sub_enc {s m0 m1 : ∀ u, Rq (2 ^ n) (ev.ringQ.qs u)}
    (h0 : CtEnc n ev.ringQ l0 (fun u => ev.ringQ.qs u + 1) d0 (H op0) s m0)
    (h1 : CtEnc n ev.ringQ l1 (fun u => ev.ringQ.qs u + 1) d1 (H op1) s m1)
    (ho : CtShape dd lo (H out)) (hd : d0 + d1 ≠ 0) (hdd : max d0 d1 ≤ dd)
    (hlev : level = min (min l0 l1) lo) (hl : level < ev.ringQ.subs.length)
    (hs : SameScale (H op0).scale (H op1).scale) :
    ∃ H', ev.sub H op0 op1 out = some H' ∧
      CtEnc n ev.ringQ level (fun u => ev.ringQ.qs u + 1) (max d0 d1) (H' out) s (fun u => m0 u - m1 u) := by
  obtain ⟨x, hx, ex⟩ := h0
  obtain ⟨y, hy, ey⟩ := h1
  obtain ⟨H', a1, -, -, a4⟩ := C34_sub hr hx hy ho hd hdd hlev hl hs
  refine ⟨H', a1, _, a4, fun u hu => ?_⟩
  simp only [sub_mul, sum_sub_distrib]
  rw [sum_pad (by omega), sum_pad (by omega), ex u (by omega), ey u (by omega)]

omit hr in
/-- the fresh receiver of the `New` variants -/
theorem newBinary_spec {new : Ref} (h0 : CtShape d0 l0 (H op0)) (h1 : CtShape d1 l1 (H op1)) :
    CtShape (max d0 d1) (min l0 l1) (ev.newBinary H op0 op1 new new) ∧
      ∀ b ≠ new, ev.newBinary H op0 op1 new b = H b := by
  refine ⟨?_, fun b hb => Heap.set_ne _ _ _ _ hb⟩
  rw [Evaluator.newBinary, Heap.set_self, h0.degree, h1.degree, h0.level, h1.level]
  exact newCiphertext_shape _ _ _ _

/-- **C34 (`AddNew`).** `new` is a reference not in use. -/
theorem C34_addNew {new : Ref} (hA : A = ev.ringQ.qs ∨ A = fun u => ev.ringQ.qs u + 1)
    (h0 : CtIs n ev.ringQ l0 A d0 (H op0) x) (h1 : CtIs n ev.ringQ l1 A d1 (H op1) y) (hd : d0 + d1 ≠ 0)
    (n0 : op0 ≠ new) (n1 : op1 ≠ new) (hl : min l0 l1 < ev.ringQ.subs.length)
    (hs : SameScale (H op0).scale (H op1).scale) :
    ∃ H', ev.addNew H op0 op1 new = some H' ∧ (∀ b ≠ new, H' b = H b) ∧
      (H' new).scale = max (H op0).scale (H op1).scale ∧
      CtIs n ev.ringQ (min l0 l1) A (max d0 d1) (H' new) (fun i u => pad d0 x i u + pad d1 y i u) := by
  obtain ⟨f1, f2⟩ := newBinary_spec (ev := ev) (new := new) h0.shape h1.shape
  have e0 := f2 op0 n0
  have e1 := f2 op1 n1
  obtain ⟨H', a1, a2, a3, a4⟩ := C34_add (H := ev.newBinary H op0 op1 new) (op0 := op0) (op1 := op1) hr hA
    (by rw [e0]; exact h0) (by rw [e1]; exact h1) f1 hd le_rfl (min_self _).symm hl (by rw [e0, e1]; exact hs)
  rw [e0, e1] at a3
  exact ⟨H', a1, fun b hb => (a2 b hb).trans (f2 b hb), a3, a4⟩

/-- **C34 (`SubNew`).** -/
theorem C34_subNew {new : Ref} (h0 : CtIs n ev.ringQ l0 (fun u => ev.ringQ.qs u + 1) d0 (H op0) x)
    (h1 : CtIs n ev.ringQ l1 (fun u => ev.ringQ.qs u + 1) d1 (H op1) y) (hd : d0 + d1 ≠ 0)
    (n0 : op0 ≠ new) (n1 : op1 ≠ new) (hl : min l0 l1 < ev.ringQ.subs.length)
    (hs : SameScale (H op0).scale (H op1).scale) :
    ∃ H', ev.subNew H op0 op1 new = some H' ∧ (∀ b ≠ new, H' b = H b) ∧
      (H' new).scale = max (H op0).scale (H op1).scale ∧
      CtIs n ev.ringQ (min l0 l1) (fun u => ev.ringQ.qs u + 1) (max d0 d1) (H' new)
        (fun i u => pad d0 x i u - pad d1 y i u) := by
  obtain ⟨f1, f2⟩ := newBinary_spec (ev := ev) (new := new) h0.shape h1.shape
  have e0 := f2 op0 n0
  have e1 := f2 op1 n1
  obtain ⟨H', a1, a2, a3, a4⟩ := C34_sub (H := ev.newBinary H op0 op1 new) (op0 := op0) (op1 := op1) hr
    (by rw [e0]; exact h0) (by rw [e1]; exact h1) f1 hd le_rfl (min_self _).symm hl (by rw [e0, e1]; exact hs)
  rw [e0, e1] at a3
  exact ⟨H', a1, fun b hb => (a2 b hb).trans (f2 b hb), a3, a4⟩

/-- **C34 (`Neg`).** -/
theorem C34_neg (h0 : CtIs n ev.ringQ l0 (fun u => ev.ringQ.qs u + 1) d0 (H op0) x) (ho : CtShape d0 lo (H out))
    (hlev : lo ≤ l0) (hl : lo < ev.ringQ.subs.length) :
    ∃ H', ev.neg H op0 out = some H' ∧ (∀ b ≠ out, H' b = H b) ∧ (H' out).scale = (H op0).scale ∧
      CtIs n ev.ringQ lo (fun u => ev.ringQ.qs u + 1) d0 (H' out) (fun i u => -x i u) := by
  unfold Evaluator.neg
  dsimp only
  rw [h0.shape.degree, ho.degree, if_neg (by simp), h0.shape.level, ho.level, min_eq_right hlev, h0.shape.len]
  have L := overComponents_is0 (out := out) (F := fun i h => ev.ringQ.negLvl lo (h.rows op0 i) (h.rows out i))
      (fun u h h' hh => by rw [hh, hh]) (d0 + 1) H
  have W : ∀ i ≤ d0, EltWritten n ev.ringQ lo (fun u => ev.ringQ.qs u + 1) true ((H out).rows i)
      (ev.ringQ.negLvl lo (H.rows op0 i) (H.rows out i)) (fun v => -x i v) := fun i hi =>
    negLvl_elt hr hl ((h0.elt i hi).below hlev) (by have := ho.size i hi; show lo < ((H out).rows i).length; omega)
  refine ⟨_, rfl, fun b hb => (Heap.setScale_ne _ _ _ _ hb).trans (L.frame b hb), ?_, ?_⟩
  · rw [Heap.setScale_self]
  · rw [Heap.setScale_self]
    exact (L.ctIs ho W).scale _

end

/-- a plaintext, two rows: entries `3` -/
def examplePt : Ct := ⟨[⟨List.replicate 2 (List.replicate 16 3), true⟩], 2 ^ 20⟩

theorem examplePt_is {r : Ring} (hq : ∀ u ≤ 1, 3 < r.qs u) :
    CtIs 4 r 1 r.qs 0 examplePt (fun i u => r.elt 4 true (examplePt.rows i) u) := by
  refine ⟨⟨rfl, by decide, by decide⟩, fun i hi => elt_self ?_ ?_ fun u hu k hk => ?_⟩
  · revert i; decide
  · intro u hu
    revert u i; decide
  · have : ∀ i ≤ 0, ∀ u ≤ 1, ∀ k < 16, (((examplePt.rows i).row u).at k).toNat ≤ 3 := by decide
    exact lt_of_le_of_lt (this i hi u hu k hk) (hq u hu)

/-- a plaintext at level 1 minus a ciphertext at level 2, into the ciphertext -/
example : ∃ (ev : Evaluator) (H H' : Heap) (x y : ℕ → ∀ u, Rq (2 ^ 4) (ev.ringQ.qs u)),
    H 0 = exampleCt ∧ H 1 = examplePt ∧ ev.ringQ.Valid 4 ∧ ev.sub H 1 0 0 = some H' ∧
    CtIs 4 ev.ringQ 1 (fun u => ev.ringQ.qs u + 1) 1 (H' 0) (fun i u => pad 0 x i u - pad 1 y i u) := by
  obtain ⟨fp, ksw, kg, s, tape, h1, h, hF, ha, lQ, hk, hg, hQ, hP, hsam, hsk, ht⟩ := exampleKeys
  have q0 := sub_of_moduli hQ 0 97 rfl
  have q1 := sub_of_moduli hQ 1 193 rfl
  have q2 := sub_of_moduli hQ 2 641 rfl
  have hq : ∀ u ≤ 2, 7 < fp.ringQ.qs u := by
    intro u hu
    unfold Ring.qs
    interval_cases u
    · rw [q0]; decide
    · rw [q1]; decide
    · rw [q2]; decide
  let H : Heap := fun a => if a = 0 then exampleCt else examplePt
  have c0 : CtIs 4 fp.ringQ 2 (fun u => fp.ringQ.qs u + 1) 1 (H 0) _ :=
    (exampleCt_is hq).mono fun u _ => by omega
  have c1 : CtIs 4 fp.ringQ 1 (fun u => fp.ringQ.qs u + 1) 0 (H 1) _ :=
    (examplePt_is fun u hu => by have := hq u (by omega); omega).mono fun u _ => by omega
  obtain ⟨H', a1, -, -, a4⟩ := C34_sub (ev := newEvaluator fp.ringQ fp.ringP none (fun _ => none) 7) (H := H) (level := 1)
    (op0 := 1) (op1 := 0) (out := 0) h.hQ c1 c0 c0.shape (by omega) (by omega) (by omega)
    (show 1 < fp.ringQ.subs.length by omega) (sameScale_self _)
  exact ⟨_, H, H', _, _, rfl, rfl, h.hQ, a1, a4⟩

end FastKsw.Props
