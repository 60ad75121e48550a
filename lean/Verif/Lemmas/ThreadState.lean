import Verif.Model.ThreadKeySwitch
import Verif.Lemmas.ThreadEncrypt

/-!
# What the cells that a call uses hold, step by step
-/

namespace FastKsw

variable {σ : Type}

/-! ## Polynomials that agree up to a level -/

section
variable {L level : ℕ} {a b x x' y y' : Rows}

/-- writing rows up to `level` keeps agreement up to `L` -/
theorem SameUpTo.wr {f g : ℕ → Row} (h : SameUpTo L a b) (hf : ∀ i ≤ level, i ≤ L → f i = g i) :
    SameUpTo L (writeLvl level f a) (writeLvl level g b) := by
  refine ⟨by rw [length_writeLvl, length_writeLvl, h.1], fun i hi => ?_⟩
  by_cases hl : i < a.length
  · rw [row_writeLvl' hl, row_writeLvl' (h.1 ▸ hl), h.2 i hi]
    split
    · exact hf i (by assumption) hi
    · rfl
  · rw [row_len (by rw [length_writeLvl]; omega), row_len (by rw [length_writeLvl, ← h.1]; omega)]

theorem SameUpTo.trans {c : Rows} (h : SameUpTo L a b) (h' : SameUpTo L b c) : SameUpTo L a c :=
  ⟨h.1.trans h'.1, fun i hi => (h.2 i hi).trans (h'.2 i hi)⟩

theorem SameUpTo.symm (h : SameUpTo L a b) : SameUpTo L b a := ⟨h.1.symm, fun i hi => (h.2 i hi).symm⟩

/-- agreement on all rows is equality -/
theorem SameUpTo.eq (h : SameUpTo L a b) (hL : a.length ≤ L) : a = b := by
  refine List.ext_getElem h.1 fun i h1 h2 => ?_
  rw [getElem_eq_row h1, getElem_eq_row h2, h.2 i (by omega)]

variable (r : Ring)

theorem SameUpTo.mulConst (hx : SameUpTo level x x') (hy : SameUpTo level y y') (h : SameUpTo L a b) :
    SameUpTo L (r.mulCoeffsMontgomeryConstantLvl level x y a) (r.mulCoeffsMontgomeryConstantLvl level x' y' b) :=
  h.wr fun i hi _ => by rw [hx.2 i hi, hy.2 i hi]

theorem SameUpTo.mulConstFresh (hx : SameUpTo level x x') (hy : SameUpTo level y y') (h : a.length = b.length) :
    SameUpTo level (r.mulCoeffsMontgomeryConstantLvl level x y a) (r.mulCoeffsMontgomeryConstantLvl level x' y' b) :=
  SameUpTo.over h fun i hi => by rw [hx.2 i hi, hy.2 i hi]

theorem SameUpTo.mulConstAdd (hx : SameUpTo level x x') (hy : SameUpTo level y y') (h : SameUpTo L a b) :
    SameUpTo L (r.mulCoeffsMontgomeryConstantAndAddNoModLvl level x y a)
      (r.mulCoeffsMontgomeryConstantAndAddNoModLvl level x' y' b) :=
  h.wr fun i hi hi' => by rw [hx.2 i hi, hy.2 i hi, h.2 i hi']

theorem SameUpTo.reduce (h : SameUpTo L a b) : SameUpTo L (r.reduceLvl level a a) (r.reduceLvl level b b) :=
  h.wr fun i _ hi => by rw [h.2 i hi]

theorem SameUpTo.invNttLazy (h : SameUpTo L a b) : SameUpTo L (r.invNttLazyLvl level a a) (r.invNttLazyLvl level b b) :=
  h.wr fun i _ hi => by rw [h.2 i hi]

theorem SameUpTo.nttLazy (h : SameUpTo L a b) : SameUpTo L (r.nttLazyLvl level a a) (r.nttLazyLvl level b b) :=
  h.wr fun i _ hi => by rw [h.2 i hi]

theorem SameUpTo.nttFresh (hx : SameUpTo level x x') (h : a.length = b.length) :
    SameUpTo level (r.nttLvl level x a) (r.nttLvl level x' b) :=
  SameUpTo.over h fun i hi => by rw [hx.2 i hi]

theorem SameUpTo.invNttFresh (hx : SameUpTo level x x') (h : a.length = b.length) :
    SameUpTo level (r.invNttLvl level x a) (r.invNttLvl level x' b) :=
  SameUpTo.over h fun i hi => by rw [hx.2 i hi]

theorem SameUpTo.invNttLazyFresh (hx : SameUpTo level x x') (h : a.length = b.length) :
    SameUpTo level (r.invNttLazyLvl level x a) (r.invNttLazyLvl level x' b) :=
  SameUpTo.over h fun i hi => by rw [hx.2 i hi]

theorem SameUpTo.set (h : SameUpTo L a b) (u : ℕ) (z : Row) : SameUpTo L (a.set u z) (b.set u z) := by
  refine ⟨by rw [List.length_set, List.length_set, h.1], fun i hi => ?_⟩
  by_cases hu : i = u
  · subst hu
    by_cases hl : i < a.length
    · simp [Rows.row, List.getD, hl, h.1 ▸ hl]
    · rw [row_len (by rw [List.length_set]; omega), row_len (by rw [List.length_set, ← h.1]; omega)]
  · rw [row_set_ne _ _ hu, row_set_ne _ _ hu, h.2 i hi]

/-- `ModUpQtoP` -/
theorem SameUpTo.modUpQP (be : BasisExtender) {levelQ : ℕ} (h1 : SameUpTo levelQ x x') (h3 : a.length = b.length) :
    SameUpTo level (be.modUpQtoP levelQ level x a) (be.modUpQtoP levelQ level x' b) := by
  have : be.modUpQtoP levelQ level x a = be.modUpQtoP levelQ level x' a := by
    unfold BasisExtender.modUpQtoP modUpExact
    refine writeLvl_congr_lt fun j _ _ => ?_
    rw [h1.2 0 (Nat.zero_le _)]
    exact List.map_congr_left fun x _ => modUpCoeff_congr (fun i hi => by rw [h1.2 i (by omega)]) ..
  rw [this]
  unfold BasisExtender.modUpQtoP modUpExact
  exact SameUpTo.fresh _ h3

end

/-! ## Operations that go row by row -/

section
variable {level out : ℕ} (r : Ring) (a b : ℕ)

theorem rw_mulConst : RowWise (σ := σ) level out fun s => r.mulCoeffsMontgomeryConstantLvl level (s.rows a) (s.rows b) (s.rows out) :=
  ⟨fun _ _ => _, fun _ => rfl, fun s y i h => by simp only [Store.row_setRows h]⟩

theorem rw_mulConstAdd :
    RowWise (σ := σ) level out fun s => r.mulCoeffsMontgomeryConstantAndAddNoModLvl level (s.rows a) (s.rows b) (s.rows out) :=
  ⟨fun _ _ => _, fun _ => rfl, fun s y i h => by simp only [Store.row_setRows h]⟩

theorem rw_invNttLazy : RowWise (σ := σ) level out fun s => r.invNttLazyLvl level (s.rows a) (s.rows out) :=
  ⟨fun _ _ => _, fun _ => rfl, fun s y i h => by simp only [Store.row_setRows h]⟩

theorem rw_addConst (x : Rows) : RowWise (σ := σ) level out fun s => r.addLvl level (s.rows a) x (s.rows out) :=
  ⟨fun _ _ => _, fun _ => rfl, fun s y i h => by simp only [Store.row_setRows h]⟩

theorem rw_subConst (x : Rows) : RowWise (σ := σ) level out fun s => r.subLvl level (s.rows a) x (s.rows out) :=
  ⟨fun _ _ => _, fun _ => rfl, fun s y i h => by simp only [Store.row_setRows h]⟩

theorem rw_modUpQP (be : BasisExtender) (levelQ : ℕ) (h : a ≠ out) :
    RowWise (σ := σ) level out fun s => be.modUpQtoP levelQ level (s.rows a) (s.rows out) :=
  ⟨fun _ _ => _, fun _ => rfl, fun s y i _ => by simp only [Store.rows_setRows_ne _ _ h]⟩

theorem rw_row (h : a ≠ out) (u : ℕ) : RowWise (σ := σ) level out fun s => writeLvl level (fun _ => (s.rows a).row u) (s.rows out) :=
  ⟨fun s _ => (s.rows a).row u, fun _ => rfl, fun s y i _ => by simp only [Store.rows_setRows_ne _ _ h]⟩

end

/-! ## States -/

variable {ι : Type}

/-- the memory `s` of a call that began in `s0`: the cells of the call, `adr k`, hold `val k` up to a level, and nothing else has
changed, nor any flag, nor any length -/
structure St (adr lvl : ι → ℕ) (s0 s : Store σ) (val : ι → Rows) : Prop where
  same : ∀ k, SameUpTo (lvl k) (s.rows (adr k)) (val k)
  frame : ∀ a, (∀ k, a ≠ adr k) → s a = s0 a
  flags : ∀ a, (s.poly a).isNTT = (s0.poly a).isNTT
  len : ∀ k, (s.rows (adr k)).length = (s0.rows (adr k)).length

section
variable {adr lvl : ι → ℕ} {s0 s : Store σ} {val : ι → Rows}

theorem St.start (adr lvl : ι → ℕ) (s : Store σ) : St adr lvl s s fun k => s.rows (adr k) :=
  ⟨fun _ => SameUpTo.refl _ _, fun _ _ => rfl, fun _ => rfl, fun _ => rfl⟩

theorem St.vlen (h : St adr lvl s0 s val) (k : ι) : (val k).length = (s0.rows (adr k)).length := (h.same k).1.symm.trans (h.len k)

theorem St.rows (h : St adr lvl s0 s val) {a : ℕ} (ha : ∀ k, a ≠ adr k) : s.rows a = s0.rows a := by
  unfold Store.rows Store.poly
  rw [h.frame a ha]

/-- the rows of a cell are replaced -/
theorem St.set [DecidableEq ι] (hinj : Function.Injective adr) (h : St adr lvl s0 s val) (k : ι) {x y : Rows} (hy : SameUpTo (lvl k) x y)
    (hl : x.length = (s.rows (adr k)).length) : St adr lvl s0 (s.setRows (adr k) x) (Function.update val k y) := by
  refine ⟨fun j => ?_, fun a ha => ?_, fun a => ?_, fun j => ?_⟩
  · by_cases hj : j = k
    · subst hj
      rw [Store.rows_setRows_self, Function.update_self]
      exact hy
    · rw [Store.rows_setRows_ne _ _ fun e => hj (hinj e), Function.update_of_ne hj]
      exact h.same j
  · rw [Store.setRows_ne _ _ (ha k)]
    exact h.frame a ha
  · rw [Store.isNTT_setRows]
    exact h.flags a
  · by_cases hj : j = k
    · subst hj
      rw [Store.rows_setRows_self, hl]
      exact h.len j
    · rw [Store.rows_setRows_ne _ _ fun e => hj (hinj e)]
      exact h.len j

/-- a function of package `ring` writes a cell -/
theorem St.call [DecidableEq ι] (hinj : Function.Injective adr) (h : St adr lvl s0 s val) {l : ℕ} (k : ι) {op : Store σ → Rows}
    (hop : RowWise l (adr k) op) {y : Rows} (hy : SameUpTo (lvl k) (op s) y) :
    St adr lvl s0 (after (ringCall l (adr k) op) s) (Function.update val k y) := by
  rw [after_ringCall _ hop]
  exact h.set hinj k hy hop.length

/-- what is known up to a level is known up to a lower one, and may be expressed otherwise -/
theorem St.relax (h : St adr lvl s0 s val) {lvl' : ι → ℕ} {val' : ι → Rows} (hl : ∀ k, lvl' k ≤ lvl k)
    (hv : ∀ k, SameUpTo (lvl' k) (val k) (val' k)) : St adr lvl' s0 s val' :=
  ⟨fun k => ((h.same k).mono (hl k)).trans (hv k), h.frame, h.flags, h.len⟩

end

theorem after_seq {α β : Type} (p : Proc σ α) (q : Proc σ β) (s : Store σ) : after (p >>= fun _ => q) s = after q (after p s) := after_bind ..

theorem after_ret {α : Type} (a : α) (s : Store σ) : after (Thread.ret a : Proc σ α) s = s := rfl

theorem after_if {α : Type} (c : Prop) [Decidable c] (p q : Proc σ α) (s : Store σ) :
    after (if c then p else q) s = if c then after p s else after q s := by
  split <;> rfl

theorem after_forEach_append (f : ℕ → Proc σ Unit) (l l' : List ℕ) (s : Store σ) :
    after (forEach f (l ++ l')) s = after (forEach f l') (after (forEach f l) s) := by
  induction l generalizing s with
  | nil => rfl
  | cons i is ih =>
    show after (f i >>= fun _ => forEach f (is ++ l')) s = after (forEach f l') (after (f i >>= fun _ => forEach f is) s)
    rw [after_seq, after_seq, ih]

theorem after_forEach_one (f : ℕ → Proc σ Unit) (i : ℕ) (s : Store σ) : after (forEach f [i]) s = after (f i) s := after_seq ..

/-- a loop `for i := 0; i < n; i++` -/
theorem forEach_range {β : Type} {f : ℕ → Proc σ Unit} {g : β → ℕ → β} {P : ℕ → Store σ → β → Prop} {n : ℕ}
    (hstep : ∀ i < n, ∀ s b, P i s b → P (i + 1) (after (f i) s) (g b i)) {s : Store σ} {b : β} (h : P 0 s b) :
    P n (after (forEach f (List.range n)) s) ((List.range n).foldl g b) := by
  induction n with
  | zero => exact h
  | succ n ih =>
    rw [List.range_succ, after_forEach_append, List.foldl_append, after_forEach_one]
    exact hstep n (Nat.lt_succ_self n) _ _ (ih fun i hi => hstep i (hi.trans (Nat.lt_succ_self n)))

/-- the same when only the memory matters -/
theorem forEach_range' {f : ℕ → Proc σ Unit} {P : ℕ → Store σ → Prop} {n : ℕ} (hstep : ∀ i < n, ∀ s, P i s → P (i + 1) (after (f i) s))
    {s : Store σ} (h : P 0 s) : P n (after (forEach f (List.range n)) s) :=
  forEach_range (β := Unit) (g := fun _ _ => ()) (P := fun i s _ => P i s) (fun i hi s _ => hstep i hi s) (b := ()) h

theorem after_copyRow (out u src v : ℕ) (s : Store σ) :
    after (copyRow out u src v) s = s.setRows out ((s.rows out).set u ((s.rows src).row v)) := rfl

/-! ## Division by `P` -/

theorem rw_div (be : BasisExtender) (levelP : ℕ) {level out : ℕ} (a b : ℕ) :
    RowWise (σ := σ) level out fun s => writeLvl level (fun i =>
      subVecAndMulScalarMontgomeryTwoQiVec ((s.rows a).row i) ((s.rows b).row i)
        ((be.ringQ.sub i).q - (be.modDownPtoQ.row levelP).at i) (be.ringQ.sub i).q (be.ringQ.sub i).mred) (s.rows out) :=
  ⟨fun _ _ => _, fun _ => rfl, fun s y i h => by simp only [Store.row_setRows h]⟩

section
variable [DecidableEq ι] {adr lvl : ι → ℕ} (hinj : Function.Injective adr) {s0 s : Store σ} {val : ι → Rows}
include hinj

theorem St.modDown (be : BasisExtender) {levelQ levelP : ℕ} {kb kq kp ko : ι} (h : St adr lvl s0 s val) (hbq : kq ≠ kb)
    (hbp : kp ≠ kb) (hbo : ko ≠ kb) (lb : lvl kb = levelQ) (lq : levelQ ≤ lvl kq) (lp : levelP ≤ lvl kp)
    (hlen : (s0.rows (adr kb)).length = be.ringQ.subs.length) (x : ℕ) :
    ∃ val', St adr lvl s0 (after (be.modDownCall ⟨adr kb, x⟩ levelQ levelP (adr kq) (adr kp) (adr ko)) s) val' ∧
      (∀ k, k ≠ kb → k ≠ ko → val' k = val k) ∧ val' ko = be.modDownQPtoQ levelQ levelP (val kq) (val kp) (val ko) := by
  unfold BasisExtender.modDownCall BasisExtender.divCall
  rw [after_seq]
  have g1 := h.call hinj kb (rw_modUp be levelP (a := adr kp) fun e => hbp (hinj e)) (y := _)
    (by rw [lb]; exact SameUpTo.modUp be ((h.same kp).mono lp) (b' := newPoly be.ringQ.n be.ringQ.subs.length)
          (by rw [h.len kb, hlen, newPoly, List.length_replicate]))
  dsimp only at g1 ⊢
  set s1 := after (ringCall levelQ (adr kb) _) s with hs1
  have i1 := g1.same kb
  rw [Function.update_self, lb] at i1
  have i2 := g1.same kq
  rw [Function.update_of_ne hbq] at i2
  have i3 := g1.same ko
  rw [Function.update_of_ne hbo] at i3
  refine ⟨_, g1.call hinj ko (rw_div be levelP (adr kb) (adr kq)) (y := be.modDownQPtoQ levelQ levelP (val kq) (val kp) (val ko))
    (i3.wr fun i hi _ => by rw [i1.2 i hi, i2.2 i (hi.trans lq)]), fun k a b => by simp [a, b], by simp⟩

theorem St.modDownNTT (be : BasisExtender) {levelQ levelP : ℕ} {kb kc kq kp ko : ι} (h : St adr lvl s0 s val) (hbq : kq ≠ kb)
    (hbo : ko ≠ kb) (hcb : kc ≠ kb) (hcq : kq ≠ kc) (hco : ko ≠ kc) (lb : lvl kb = levelQ) (lc : lvl kc = levelP) (lq : levelQ ≤ lvl kq)
    (lp : levelP ≤ lvl kp) (hlen : (s0.rows (adr kb)).length = be.ringQ.subs.length)
    (hlenP : (s0.rows (adr kc)).length = be.ringP.subs.length) :
    ∃ val', St adr lvl s0 (after (be.modDownNTTCall ⟨adr kb, adr kc⟩ levelQ levelP (adr kq) (adr kp) (adr ko)) s) val' ∧
      (∀ k, k ≠ kb → k ≠ kc → k ≠ ko → val' k = val k) ∧ val' ko = be.modDownQPtoQNTT levelQ levelP (val kq) (val kp) (val ko) := by
  unfold BasisExtender.modDownNTTCall BasisExtender.divCall
  simp only [after_seq]
  have g0 := h.call hinj kc (rw_invNttLazy (level := levelP) be.ringP (adr kp)) (y := _)
    (by rw [lc]; exact SameUpTo.invNttLazyFresh be.ringP ((h.same kp).mono lp) (b := newPoly be.ringP.n be.ringP.subs.length)
          (by rw [h.len kc, hlenP, newPoly, List.length_replicate]))
  set s1 := after (ringCall levelP (adr kc) _) s with hs1
  have i0 := g0.same kc
  rw [Function.update_self, lc] at i0
  have g1 := g0.call hinj kb (rw_modUp be levelP (a := adr kc) fun e => hcb (hinj e)) (y := _)
    (by rw [lb]; exact SameUpTo.modUp be i0 (b' := newPoly be.ringQ.n be.ringQ.subs.length)
          (by rw [g0.len kb, hlen, newPoly, List.length_replicate]))
  set s2 := after (ringCall levelQ (adr kb) _) s1 with hs2
  have i1 := g1.same kb
  rw [Function.update_self] at i1
  have g2 := g1.call hinj kb (rw_nttLazy be.ringQ (adr kb)) (y := _) (i1.nttLazy (level := levelQ) be.ringQ)
  set s3 := after (ringCall levelQ (adr kb) _) s2 with hs3
  have i1 := g2.same kb
  rw [Function.update_self, lb] at i1
  have i2 := g2.same kq
  rw [Function.update_of_ne hbq, Function.update_of_ne hbq, Function.update_of_ne hcq] at i2
  have i3 := g2.same ko
  rw [Function.update_of_ne hbo, Function.update_of_ne hbo, Function.update_of_ne hco] at i3
  refine ⟨_, g2.call hinj ko (rw_div be levelP (adr kb) (adr kq)) (y := be.modDownQPtoQNTT levelQ levelP (val kq) (val kp) (val ko))
    (i3.wr fun i hi _ => by rw [i1.2 i hi, i2.2 i (hi.trans lq)]), fun k a b c => by simp [a, b, c], by simp⟩

end

end FastKsw
