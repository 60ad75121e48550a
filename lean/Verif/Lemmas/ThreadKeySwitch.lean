import Verif.Lemmas.ThreadState
import Verif.Lemmas.Margin

/-!
# Runs of `rlwe.KeySwitcher` in memory
-/

namespace FastKsw

variable {σ : Type}

/-! ## Digits -/

section
variable {levelQ levelP alpha beta : ℕ} {x x' : Rows} {y y' : PolyQP} (d : Decomposer)

/-- the rows of a block are rows up to the level -/
theorem block_le (ha : 0 < alpha) (hb : beta * alpha ≤ levelQ) {i : ℕ} (hi : i < (decompLvl levelQ alpha beta + 2).toNat) :
    beta * alpha + i ≤ levelQ := by
  unfold decompLvl at hi
  split at hi
  · rename_i h
    have h1 : ((alpha * (beta + 1) : ℕ) : ℤ) = alpha * (beta + 1) := by push_cast; ring
    rw [← h1] at h
    have h2 : alpha * (beta + 1) = beta * alpha + alpha := by ring
    rw [h2] at h
    omega
  · rename_i h
    have h1 : ((alpha * (beta + 1) : ℕ) : ℤ) = alpha * (beta + 1) := by push_cast; ring
    rw [← h1] at h
    have h2 : alpha * (beta + 1) = beta * alpha + alpha := by ring
    rw [h2] at h
    have h3 : levelQ % alpha = levelQ - beta * alpha := by
      have : levelQ = (levelQ - beta * alpha) + alpha * beta := by rw [Nat.mul_comm alpha]; omega
      conv_lhs => rw [this]
      rw [Nat.add_mul_mod_self_left]
      exact Nat.mod_eq_of_lt (by omega)
    omega

theorem split_same (ha : 0 < alpha) (hb : beta * alpha ≤ levelQ) (h : SameUpTo levelQ x x') (hq : y.q.length = y'.q.length)
    (hp : y.p.length = y'.p.length) :
    SameUpTo levelQ (d.decomposeAndSplit levelQ levelP alpha beta x y).q (d.decomposeAndSplit levelQ levelP alpha beta x' y').q ∧
      SameUpTo levelP (d.decomposeAndSplit levelQ levelP alpha beta x y).p (d.decomposeAndSplit levelQ levelP alpha beta x' y').p := by
  unfold Decomposer.decomposeAndSplit
  dsimp only
  split
  · rw [h.2 _ hb]
    exact ⟨SameUpTo.fresh _ hq, SameUpTo.fresh _ hp⟩
  · dsimp only
    rw [h.2 0 (Nat.zero_le _)]
    have key : ∀ (z j : ℕ) (s : SubRing),
        modUpCoeff (decompLvl levelQ alpha beta + 2).toNat (fun i => (x.row (beta * alpha + i)).at z)
          (fun i => (d.ringQ.sub (beta * alpha + i)).q) (fun i => (d.ringQ.sub (beta * alpha + i)).mred)
          (((d.modUpParams.getD (alpha - 2) []).getD beta []).getD (decompLvl levelQ alpha beta).toNat default) j s.q s.mred =
        modUpCoeff (decompLvl levelQ alpha beta + 2).toNat (fun i => (x'.row (beta * alpha + i)).at z)
          (fun i => (d.ringQ.sub (beta * alpha + i)).q) (fun i => (d.ringQ.sub (beta * alpha + i)).mred)
          (((d.modUpParams.getD (alpha - 2) []).getD beta []).getD (decompLvl levelQ alpha beta).toNat default) j s.q s.mred :=
      fun z j s => modUpCoeff_congr (fun i hi => by rw [h.2 _ (block_le ha hb hi)]) ..
    exact ⟨SameUpTo.over hq fun i _ => List.map_congr_left fun z _ => key ..,
      SameUpTo.over hp fun i _ => List.map_congr_left fun z _ => key ..⟩

variable {a : ℕ} {out : QPAddr}

theorem rw_splitQ (h : a ≠ out.q) : RowWise (σ := σ) levelQ out.q fun s =>
    (d.decomposeAndSplit levelQ levelP alpha beta (s.rows a) (s.qp out)).q := by
  refine ⟨fun s i => ((d.decomposeAndSplit levelQ levelP alpha beta (s.rows a) ⟨List.replicate (i + 1) [], []⟩).q).row i, fun s => ?_,
    fun s y i _ => by simp only [Store.rows_setRows_ne _ _ h]⟩
  unfold Decomposer.decomposeAndSplit
  dsimp only
  split
  · exact writeLvl_congr_lt fun i hi _ => by
      rw [row_writeLvl' (by simp), if_pos hi]
  · exact writeLvl_congr_lt fun i hi _ => by
      rw [row_writeLvl' (by simp), if_pos hi]

theorem rw_splitP (h : a ≠ out.p) : RowWise (σ := σ) levelP out.p fun s =>
    (d.decomposeAndSplit levelQ levelP alpha beta (s.rows a) (s.qp out)).p := by
  refine ⟨fun s i => ((d.decomposeAndSplit levelQ levelP alpha beta (s.rows a) ⟨[], List.replicate (i + 1) []⟩).p).row i, fun s => ?_,
    fun s y i _ => by simp only [Store.rows_setRows_ne _ _ h]⟩
  unfold Decomposer.decomposeAndSplit
  dsimp only
  split
  · exact writeLvl_congr_lt fun i hi _ => by
      rw [row_writeLvl' (by simp), if_pos hi]
  · exact writeLvl_congr_lt fun i hi _ => by
      rw [row_writeLvl' (by simp), if_pos hi]

theorem rw_digitQ (p : ℕ → Prop) [DecidablePred p] : RowWise (σ := σ) levelQ out.q fun s => writeLvl levelQ (fun x =>
    if p x then (s.rows a).row x else (d.ringQ.sub x).nttLazy d.ringQ.n ((s.rows out.q).row x)) (s.rows out.q) :=
  ⟨fun s x => if p x then (s.rows a).row x else (d.ringQ.sub x).nttLazy d.ringQ.n ((s.rows out.q).row x), fun _ => rfl,
    fun s y i h => by simp only [Store.row_setRows h]⟩

end

section
variable {ι : Type} [DecidableEq ι] {adr lvl : ι → ℕ} (hinj : Function.Injective adr) {levelQ levelP : ℕ} {s0 s : Store σ} {val : ι → Rows}
include hinj

/-- a digit -/
theorem St.digit (d : Decomposer) {kq kp : ι} {alpha beta f1 f2 : ℕ} {F : Rows × Rows} (ha : 0 < alpha) (hb : beta * alpha ≤ levelQ)
    (hf1 : f1 ≠ adr kq ∧ f1 ≠ adr kp) (hf2 : f2 ≠ adr kq ∧ f2 ≠ adr kp) (hqpk : kq ≠ kp) (lq : lvl kq = levelQ) (lp : lvl kp = levelP) (h : St adr lvl s0 s val)
    (h1 : SameUpTo levelQ (s.rows f1) F.1) (h2 : SameUpTo levelQ (s.rows f2) F.2) {y : PolyQP}
    (hq : y.q.length = (s0.rows (adr kq)).length) (hp : y.p.length = (s0.rows (adr kp)).length) :
    St adr lvl s0 (after (d.digitCall levelQ levelP alpha beta f1 f2 ⟨adr kq, adr kp⟩) s)
      (Function.update (Function.update val kq (d.decomposeSingleNTT levelQ levelP alpha beta F.1 F.2 y).q) kp
        (d.decomposeSingleNTT levelQ levelP alpha beta F.1 F.2 y).p) := by
  have hqp : adr kq ≠ adr kp := fun e => hqpk (hinj e)
  unfold Decomposer.digitCall Decomposer.splitCall
  simp only [after_seq]
  have i1 := split_same (levelP := levelP) d (y := s.qp ⟨adr kq, adr kp⟩) (y' := y) ha hb h2 ((h.len kq).trans hq.symm)
    ((h.len kp).trans hp.symm)
  have g1 := h.call hinj kq (rw_splitQ (levelP := levelP) (alpha := alpha) (beta := beta) d (a := f2) (out := ⟨adr kq, adr kp⟩) hf2.1) (by rw [lq]; exact i1.1)
  have e1 := after_ringCall (σ := σ) s (rw_splitQ (levelQ := levelQ) (levelP := levelP) (alpha := alpha) (beta := beta) d (a := f2) (out := ⟨adr kq, adr kp⟩) hf2.1)
  dsimp only at g1 e1 ⊢
  set s1 := after (ringCall levelQ (adr kq) _) s with hs1
  have r1 : ∀ b, b ≠ adr kq → s1.rows b = s.rows b := fun b hb => by rw [e1, Store.rows_setRows_ne _ _ hb]
  have i2 := split_same (levelP := levelP) d (x := s1.rows f2) (y := s1.qp ⟨adr kq, adr kp⟩) (y' := y) ha hb (by rw [r1 _ hf2.1]; exact h2)
    ((g1.len kq).trans hq.symm) ((g1.len kp).trans hp.symm)
  have g2 := g1.call hinj kp (rw_splitP (levelQ := levelQ) (alpha := alpha) (beta := beta) d (a := f2) (out := ⟨adr kq, adr kp⟩) hf2.2) (by rw [lp]; exact i2.2)
  have e2 := after_ringCall (σ := σ) s1 (rw_splitP (levelQ := levelQ) (levelP := levelP) (alpha := alpha) (beta := beta) d (a := f2) (out := ⟨adr kq, adr kp⟩) hf2.2)
  dsimp only at g2 e2 ⊢
  set s2 := after (ringCall levelP (adr kp) _) s1 with hs2
  have r2 : ∀ b, b ≠ adr kp → s2.rows b = s1.rows b := fun b hb => by rw [e2, Store.rows_setRows_ne _ _ hb]
  have k1 : SameUpTo levelQ (s2.rows (adr kq)) (d.decomposeAndSplit levelQ levelP alpha beta F.2 y).q := by
    have := g2.same kq
    rw [Function.update_of_ne hqpk, Function.update_self, lq] at this
    exact this
  have g3 := g2.call hinj kq (rw_digitQ (levelQ := levelQ) d (a := f1) (out := ⟨adr kq, adr kp⟩)
    fun x => beta * (levelP + 1) ≤ x ∧ x < beta * (levelP + 1) + 1)
    (y := (d.decomposeSingleNTT levelQ levelP alpha beta F.1 F.2 y).q) (by
      rw [lq]
      refine k1.wr fun i hi _ => ?_
      rw [k1.2 i hi, r2 _ hf1.2, r1 _ hf1.1, h1.2 i hi])
  dsimp only at g3
  set s3 := after (ringCall levelQ (adr kq) _) s2 with hs3
  have k2 : SameUpTo levelP (s3.rows (adr kp)) (d.decomposeAndSplit levelQ levelP alpha beta F.2 y).p := by
    have := g3.same kp
    rw [Function.update_of_ne hqpk.symm, Function.update_self, lp] at this
    exact this
  have g4 := g3.call hinj kp (rw_nttLazy d.ringP (adr kp)) (y := (d.decomposeSingleNTT levelQ levelP alpha beta F.1 F.2 y).p)
    (by rw [lp]; exact k2.nttLazy d.ringP)
  refine g4.relax (fun _ => le_rfl) fun k => ?_
  by_cases n1 : k = kp
  · subst n1
    simp only [Function.update_self]
    exact SameUpTo.refl _ _
  · by_cases n2 : k = kq
    · subst n2
      simp only [Function.update_self, Function.update_of_ne n1]
      exact SameUpTo.refl _ _
    · simp only [Function.update_of_ne n1, Function.update_of_ne n2]
      exact SameUpTo.refl _ _

end

/-! ## The cells of a key switch -/

/-- the cells that a key switch writes: the digit, the other form of the input, the outputs, and the buffers of the basis extender -/
inductive KsC where
  | c2q | c2p | inv | c0q | c0p | c1q | c1p | beq | bep
  deriving DecidableEq

/-- up to which level they matter; the rows of the outputs up to `L` -/
def ksLvl (levelQ levelP L : ℕ) : KsC → ℕ
  | .c2q => levelQ
  | .c2p => levelP
  | .inv => levelQ
  | .c0q => L
  | .c0p => levelP
  | .c1q => L
  | .c1p => levelP
  | .beq => levelQ
  | .bep => levelP

section
variable {adr : KsC → ℕ} (hinj : Function.Injective adr) {levelQ levelP L : ℕ} {s0 s : Store σ} {val : KsC → Rows}
include hinj

/-- `ReduceLvl` of the components modulo `Q` of both accumulators -/
theorem St.reduceQ (r : Ring) (h : St adr (ksLvl levelQ levelP L) s0 s val) :
    St adr (ksLvl levelQ levelP L) s0 (after (r.reduceBoth levelQ (adr .c0q) (adr .c1q)) s)
      (Function.update (Function.update val .c0q (r.reduceLvl levelQ (val .c0q) (val .c0q))) .c1q (r.reduceLvl levelQ (val .c1q) (val .c1q))) := by
  unfold Ring.reduceBoth
  rw [after_seq]
  have g1 := h.call hinj .c0q (rw_reduce (level := levelQ) r (adr .c0q)) ((h.same .c0q).reduce r)
  refine g1.call hinj .c1q (rw_reduce r (adr .c1q)) ?_
  have := (g1.same .c1q).reduce (level := levelQ) r
  simpa using this

theorem St.reduceP (r : Ring) (h : St adr (ksLvl levelQ levelP L) s0 s val) :
    St adr (ksLvl levelQ levelP L) s0 (after (r.reduceBoth levelP (adr .c0p) (adr .c1p)) s)
      (Function.update (Function.update val .c0p (r.reduceLvl levelP (val .c0p) (val .c0p))) .c1p (r.reduceLvl levelP (val .c1p) (val .c1p))) := by
  unfold Ring.reduceBoth
  rw [after_seq]
  have g1 := h.call hinj .c0p (rw_reduce (level := levelP) r (adr .c0p)) ((h.same .c0p).reduce r)
  refine g1.call hinj .c1p (rw_reduce r (adr .c1p)) ?_
  have := (g1.same .c1p).reduce (level := levelP) r
  simpa using this

/-- the accumulators hold `A`: those modulo `P` only from the first product on -/
structure Acc (adr : KsC → ℕ) (levelQ levelP L : ℕ) (s0 s : Store σ) (val : KsC → Rows) (i : ℕ) (A : PolyQP × PolyQP) : Prop where
  st : St adr (ksLvl levelQ levelP L) s0 s val
  q0 : val .c0q = A.1.q
  q1 : val .c1q = A.2.q
  p0 : i ≠ 0 → val .c0p = A.1.p
  p1 : i ≠ 0 → val .c1p = A.2.p
  len0 : A.1.p.length = (s0.rows (adr .c0p)).length
  len1 : A.2.p.length = (s0.rows (adr .c1p)).length

omit hinj in
theorem length_accStep (r : Ring) (level m i : ℕ) (x y acc : Rows) : (r.accStep level m i x y acc).length = acc.length := by
  unfold Ring.accStep
  dsimp only
  split <;> split <;> simp only [Ring.reduceLvl, Ring.mulCoeffsMontgomeryConstantLvl, Ring.mulCoeffsMontgomeryConstantAndAddNoModLvl, length_writeLvl]

omit hinj in
theorem length_accEnd (r : Ring) (level m beta : ℕ) (acc : Rows) : (r.accEnd level m beta acc).length = acc.length := by
  unfold Ring.accEnd
  split <;> simp only [Ring.reduceLvl, length_writeLvl]

/-- the products of one round -/
theorem Acc.products (ks : KeySwitcher) {i : ℕ} {A : PolyQP × PolyQP} (h : Acc adr levelQ levelP L s0 s val i A)
    {key : QPAddr × QPAddr} (hk : ∀ a ∈ [key.1.q, key.1.p, key.2.q, key.2.p], ∀ k, a ≠ adr k) {c2 : QPAddr} {D : PolyQP}
    (hc2 : ∀ s', (∀ a, a ≠ adr .c0q → a ≠ adr .c0p → a ≠ adr .c1q → a ≠ adr .c1p → s' a = s a) →
      SameUpTo levelQ (Store.rows s' c2.q) D.q ∧ SameUpTo levelP (Store.rows s' c2.p) D.p) :
    ∃ val', St adr (ksLvl levelQ levelP L) s0 (after (ks.productsCall levelQ levelP i key c2 ⟨adr .c0q, adr .c0p⟩ ⟨adr .c1q, adr .c1p⟩) s) val' ∧
      (∀ k, k ≠ .c0q → k ≠ .c0p → k ≠ .c1q → k ≠ .c1p → val' k = val k) ∧
      val' .c0q = (if i = 0 then ks.ringQ.mulCoeffsMontgomeryConstantLvl levelQ (s0.rows key.1.q) D.q A.1.q
        else ks.ringQ.mulCoeffsMontgomeryConstantAndAddNoModLvl levelQ (s0.rows key.1.q) D.q A.1.q) ∧
      val' .c0p = (if i = 0 then ks.ringP.mulCoeffsMontgomeryConstantLvl levelP (s0.rows key.1.p) D.p A.1.p
        else ks.ringP.mulCoeffsMontgomeryConstantAndAddNoModLvl levelP (s0.rows key.1.p) D.p A.1.p) ∧
      val' .c1q = (if i = 0 then ks.ringQ.mulCoeffsMontgomeryConstantLvl levelQ (s0.rows key.2.q) D.q A.2.q
        else ks.ringQ.mulCoeffsMontgomeryConstantAndAddNoModLvl levelQ (s0.rows key.2.q) D.q A.2.q) ∧
      val' .c1p = (if i = 0 then ks.ringP.mulCoeffsMontgomeryConstantLvl levelP (s0.rows key.2.p) D.p A.2.p
        else ks.ringP.mulCoeffsMontgomeryConstantAndAddNoModLvl levelP (s0.rows key.2.p) D.p A.2.p) := by
  have k1 := hk key.1.q (by simp)
  have k2 := hk key.1.p (by simp)
  have k3 := hk key.2.q (by simp)
  have k4 := hk key.2.p (by simp)
  have hr : ∀ {s' : Store σ} {v}, St adr (ksLvl levelQ levelP L) s0 s' v → ∀ {a : ℕ}, (∀ k, a ≠ adr k) → ∀ l, SameUpTo l (s'.rows a) (s0.rows a) :=
    fun g a ha l => by rw [g.rows ha]; exact SameUpTo.refl _ _
  by_cases hi : i = 0
  · subst hi
    simp only [KeySwitcher.productsCall, if_true, KeySwitcher.mulQPCall, after_seq]
    have n1 := after_ringCall (σ := σ) s (rw_mulConst (level := levelQ) (out := adr .c0q) ks.ringQ key.1.q c2.q)
    have d1 := hc2 s fun _ _ _ _ _ => rfl
    have g1 := h.st.call hinj .c0q (rw_mulConst (level := levelQ) ks.ringQ key.1.q c2.q) (y := _)
      ((SameUpTo.mulConst ks.ringQ (hr h.st k1 _) d1.1 (h.st.same .c0q)))
    set s1 := after (ringCall levelQ (adr .c0q) _) s with hs1
    have f1 : ∀ a, a ≠ adr .c0q → s1 a = s a := fun a ha => by rw [n1]; exact Store.setRows_ne _ _ ha
    have n2 := after_ringCall (σ := σ) s1 (rw_mulConst (level := levelP) (out := adr .c0p) ks.ringP key.1.p c2.p)
    have d2 := hc2 s1 fun a h1 _ _ _ => f1 a h1
    have g2 := g1.call hinj .c0p (rw_mulConst (level := levelP) ks.ringP key.1.p c2.p) (y := _)
      ((SameUpTo.mulConstFresh ks.ringP (hr g1 k2 _) d2.2 (b := A.1.p) ((g1.len .c0p).trans h.len0.symm)))
    set s2 := after (ringCall levelP (adr .c0p) _) s1 with hs2
    have f2 : ∀ a, a ≠ adr .c0p → s2 a = s1 a := fun a ha => by rw [n2]; exact Store.setRows_ne _ _ ha
    have n3 := after_ringCall (σ := σ) s2 (rw_mulConst (level := levelQ) (out := adr .c1q) ks.ringQ key.2.q c2.q)
    have d3 := hc2 s2 fun a h1 h2 _ _ => (f2 a h2).trans (f1 a h1)
    have g3 := g2.call hinj .c1q (rw_mulConst (level := levelQ) ks.ringQ key.2.q c2.q) (y := _)
      ((SameUpTo.mulConst ks.ringQ (hr g2 k3 _) d3.1 (g2.same .c1q)))
    set s3 := after (ringCall levelQ (adr .c1q) _) s2 with hs3
    have f3 : ∀ a, a ≠ adr .c1q → s3 a = s2 a := fun a ha => by rw [n3]; exact Store.setRows_ne _ _ ha
    have d4 := hc2 s3 fun a h1 h2 h3 _ => ((f3 a h3).trans (f2 a h2)).trans (f1 a h1)
    have g4 := g3.call hinj .c1p (rw_mulConst (level := levelP) ks.ringP key.2.p c2.p) (y := _)
      ((SameUpTo.mulConstFresh ks.ringP (hr g3 k4 _) d4.2 (b := A.2.p) ((g3.len .c1p).trans h.len1.symm)))
    refine ⟨_, g4, fun k a b c d => by simp [a, b, c, d], ?_, ?_, ?_, ?_⟩
    · simp [h.q0]
    · simp [ksLvl]
    · simp [h.q1]
    · simp [ksLvl]
  · simp only [KeySwitcher.productsCall, if_neg hi, KeySwitcher.mulAddQPCall, after_seq]
    have n1 := after_ringCall (σ := σ) s (rw_mulConstAdd (level := levelQ) (out := adr .c0q) ks.ringQ key.1.q c2.q)
    have d1 := hc2 s fun _ _ _ _ _ => rfl
    have g1 := h.st.call hinj .c0q (rw_mulConstAdd (level := levelQ) ks.ringQ key.1.q c2.q) (y := _)
      ((SameUpTo.mulConstAdd ks.ringQ (hr h.st k1 _) d1.1 (h.st.same .c0q)))
    set s1 := after (ringCall levelQ (adr .c0q) _) s with hs1
    have f1 : ∀ a, a ≠ adr .c0q → s1 a = s a := fun a ha => by rw [n1]; exact Store.setRows_ne _ _ ha
    have n2 := after_ringCall (σ := σ) s1 (rw_mulConstAdd (level := levelP) (out := adr .c0p) ks.ringP key.1.p c2.p)
    have d2 := hc2 s1 fun a h1 _ _ _ => f1 a h1
    have g2 := g1.call hinj .c0p (rw_mulConstAdd (level := levelP) ks.ringP key.1.p c2.p) (y := _)
      ((SameUpTo.mulConstAdd ks.ringP (hr g1 k2 _) d2.2 (g1.same .c0p)))
    set s2 := after (ringCall levelP (adr .c0p) _) s1 with hs2
    have f2 : ∀ a, a ≠ adr .c0p → s2 a = s1 a := fun a ha => by rw [n2]; exact Store.setRows_ne _ _ ha
    have n3 := after_ringCall (σ := σ) s2 (rw_mulConstAdd (level := levelQ) (out := adr .c1q) ks.ringQ key.2.q c2.q)
    have d3 := hc2 s2 fun a h1 h2 _ _ => (f2 a h2).trans (f1 a h1)
    have g3 := g2.call hinj .c1q (rw_mulConstAdd (level := levelQ) ks.ringQ key.2.q c2.q) (y := _)
      ((SameUpTo.mulConstAdd ks.ringQ (hr g2 k3 _) d3.1 (g2.same .c1q)))
    set s3 := after (ringCall levelQ (adr .c1q) _) s2 with hs3
    have f3 : ∀ a, a ≠ adr .c1q → s3 a = s2 a := fun a ha => by rw [n3]; exact Store.setRows_ne _ _ ha
    have d4 := hc2 s3 fun a h1 h2 h3 _ => ((f3 a h3).trans (f2 a h2)).trans (f1 a h1)
    have g4 := g3.call hinj .c1p (rw_mulConstAdd (level := levelP) ks.ringP key.2.p c2.p) (y := _)
      ((SameUpTo.mulConstAdd ks.ringP (hr g3 k4 _) d4.2 (g3.same .c1p)))
    refine ⟨_, g4, fun k a b c d => by simp [a, b, c, d], ?_, ?_, ?_, ?_⟩
    · simp [h.q0]
    · simp [h.p0 hi]
    · simp [h.q1]
    · simp [h.p1 hi]

/-- one round -/
theorem Acc.round (ks : KeySwitcher) {i mQ mP : ℕ} {A : PolyQP × PolyQP} (h : Acc adr levelQ levelP L s0 s val i A)
    {key : QPAddr × QPAddr} (hk : ∀ a ∈ [key.1.q, key.1.p, key.2.q, key.2.p], ∀ k, a ≠ adr k) {c2 : QPAddr} {D : PolyQP}
    (hc2 : ∀ s', (∀ a, a ≠ adr .c0q → a ≠ adr .c0p → a ≠ adr .c1q → a ≠ adr .c1p → s' a = s a) →
      SameUpTo levelQ (Store.rows s' c2.q) D.q ∧ SameUpTo levelP (Store.rows s' c2.p) D.p) :
    ∃ val', (∀ k, k ≠ .c0q → k ≠ .c0p → k ≠ .c1q → k ≠ .c1p → val' k = val k) ∧ Acc adr levelQ levelP L s0
      (after (ks.roundCall levelQ levelP mQ mP i key c2 ⟨adr .c0q, adr .c0p⟩ ⟨adr .c1q, adr .c1p⟩) s) val' (i + 1)
      (ks.accStep levelQ levelP mQ mP i (s0.qp key.1) D A.1, ks.accStep levelQ levelP mQ mP i (s0.qp key.2) D A.2) := by
  obtain ⟨v1, g1, o1, a1, a2, a3, a4⟩ := h.products hinj ks hk hc2
  unfold KeySwitcher.roundCall
  rw [after_seq, after_seq]
  set s1 := after (ks.productsCall levelQ levelP i key c2 ⟨adr .c0q, adr .c0p⟩ ⟨adr .c1q, adr .c1p⟩) s with hs1
  have e2 : ∃ v2, St adr (ksLvl levelQ levelP L) s0 (after (doIf (i % mQ = mQ - 1) (ks.ringQ.reduceBoth levelQ (adr .c0q) (adr .c1q))) s1) v2 ∧
      (∀ k, k ≠ .c0q → k ≠ .c1q → v2 k = v1 k) ∧
      v2 .c0q = (if i % mQ = mQ - 1 then ks.ringQ.reduceLvl levelQ (v1 .c0q) (v1 .c0q) else v1 .c0q) ∧
      v2 .c1q = (if i % mQ = mQ - 1 then ks.ringQ.reduceLvl levelQ (v1 .c1q) (v1 .c1q) else v1 .c1q) := by
    unfold doIf
    split
    · exact ⟨_, g1.reduceQ hinj ks.ringQ, fun k a b => by simp [a, b], by simp, by simp⟩
    · exact ⟨v1, g1, fun _ _ _ => rfl, rfl, rfl⟩
  obtain ⟨v2, g2, o2, b1, b2⟩ := e2
  set s2 := after (doIf (i % mQ = mQ - 1) (ks.ringQ.reduceBoth levelQ (adr .c0q) (adr .c1q))) s1 with hs2
  have e3 : ∃ v3, St adr (ksLvl levelQ levelP L) s0 (after (doIf (i % mP = mP - 1) (ks.ringP.reduceBoth levelP (adr .c0p) (adr .c1p))) s2) v3 ∧
      (∀ k, k ≠ .c0p → k ≠ .c1p → v3 k = v2 k) ∧
      v3 .c0p = (if i % mP = mP - 1 then ks.ringP.reduceLvl levelP (v2 .c0p) (v2 .c0p) else v2 .c0p) ∧
      v3 .c1p = (if i % mP = mP - 1 then ks.ringP.reduceLvl levelP (v2 .c1p) (v2 .c1p) else v2 .c1p) := by
    unfold doIf
    split
    · exact ⟨_, g2.reduceP hinj ks.ringP, fun k a b => by simp [a, b], by simp, by simp⟩
    · exact ⟨v2, g2, fun _ _ _ => rfl, rfl, rfl⟩
  obtain ⟨v3, g3, o3, c1, c2'⟩ := e3
  refine ⟨v3, fun k a b c d => ?_, g3, ?_, ?_, fun _ => ?_, fun _ => ?_, ?_, ?_⟩
  · rw [o3 k b d, o2 k a c, o1 k a b c d]
  · rw [o3 _ (by simp) (by simp), b1, a1]
    rfl
  · rw [o3 _ (by simp) (by simp), b2, a3]
    rfl
  · rw [c1, o2 _ (by simp) (by simp), a2]
    rfl
  · rw [c2', o2 _ (by simp) (by simp), a4]
    rfl
  · exact (length_accStep ..).trans h.len0
  · exact (length_accStep ..).trans h.len1

/-- the reductions after the loop -/
theorem Acc.finish (ks : KeySwitcher) {i mQ mP : ℕ} {A : PolyQP × PolyQP} (h : Acc adr levelQ levelP L s0 s val i A) (hi : i ≠ 0) :
    ∃ val', (∀ k, k ≠ .c0q → k ≠ .c0p → k ≠ .c1q → k ≠ .c1p → val' k = val k) ∧ Acc adr levelQ levelP L s0
      (after (ks.endCall levelQ levelP mQ mP i ⟨adr .c0q, adr .c0p⟩ ⟨adr .c1q, adr .c1p⟩) s) val' i
      (ks.accEnd levelQ levelP mQ mP i A.1, ks.accEnd levelQ levelP mQ mP i A.2) := by
  unfold KeySwitcher.endCall
  rw [after_seq]
  have e2 : ∃ v2, St adr (ksLvl levelQ levelP L) s0 (after (doIf (i % mQ ≠ 0) (ks.ringQ.reduceBoth levelQ (adr .c0q) (adr .c1q))) s) v2 ∧
      (∀ k, k ≠ .c0q → k ≠ .c1q → v2 k = val k) ∧
      v2 .c0q = (if i % mQ ≠ 0 then ks.ringQ.reduceLvl levelQ (val .c0q) (val .c0q) else val .c0q) ∧
      v2 .c1q = (if i % mQ ≠ 0 then ks.ringQ.reduceLvl levelQ (val .c1q) (val .c1q) else val .c1q) := by
    unfold doIf
    split
    · exact ⟨_, h.st.reduceQ hinj ks.ringQ, fun k a b => by simp [a, b], by simp, by simp⟩
    · exact ⟨val, h.st, fun _ _ _ => rfl, rfl, rfl⟩
  obtain ⟨v2, g2, o2, b1, b2⟩ := e2
  set s2 := after (doIf (i % mQ ≠ 0) (ks.ringQ.reduceBoth levelQ (adr .c0q) (adr .c1q))) s with hs2
  have e3 : ∃ v3, St adr (ksLvl levelQ levelP L) s0 (after (doIf (i % mP ≠ 0) (ks.ringP.reduceBoth levelP (adr .c0p) (adr .c1p))) s2) v3 ∧
      (∀ k, k ≠ .c0p → k ≠ .c1p → v3 k = v2 k) ∧
      v3 .c0p = (if i % mP ≠ 0 then ks.ringP.reduceLvl levelP (v2 .c0p) (v2 .c0p) else v2 .c0p) ∧
      v3 .c1p = (if i % mP ≠ 0 then ks.ringP.reduceLvl levelP (v2 .c1p) (v2 .c1p) else v2 .c1p) := by
    unfold doIf
    split
    · exact ⟨_, g2.reduceP hinj ks.ringP, fun k a b => by simp [a, b], by simp, by simp⟩
    · exact ⟨v2, g2, fun _ _ _ => rfl, rfl, rfl⟩
  obtain ⟨v3, g3, o3, c1, c2'⟩ := e3
  refine ⟨v3, fun k a b c d => ?_, g3, ?_, ?_, fun _ => ?_, fun _ => ?_, ?_, ?_⟩
  · rw [o3 k b d, o2 k a c]
  · rw [o3 _ (by simp) (by simp), b1, h.q0]
    rfl
  · rw [o3 _ (by simp) (by simp), b2, h.q1]
    rfl
  · rw [c1, o2 _ (by simp) (by simp), h.p0 hi]
    rfl
  · rw [c2', o2 _ (by simp) (by simp), h.p1 hi]
    rfl
  · exact (length_accEnd ..).trans h.len0
  · exact (length_accEnd ..).trans h.len1

end

/-! ## A key switch -/

/-- the cells written by a key switch that leaves its results in `c0` and `c1` -/
def ksAdr (K : KsMem) (c0 c1 : QPAddr) : KsC → ℕ
  | .c2q => (K.poolAt 0).q
  | .c2p => (K.poolAt 0).p
  | .inv => K.poolInvNTT
  | .c0q => c0.q
  | .c0p => c0.p
  | .c1q => c1.q
  | .c1p => c1.p
  | .beq => K.be.q
  | .bep => K.be.p

/-- the polynomials of a key -/
def keyCells (evk : KeyRef) : List ℕ := evk.flatMap fun x => [x.1.q, x.1.p, x.2.q, x.2.p]

/-- `len(evakey.Value[0][0].P.Coeffs)` -/
def keyLen (s : Store σ) (evk : KeyRef) : ℕ := (s.rows (evk.getD 0 default).1.p).length

/-- a key switcher can be used: its basis extender is between its rings, and its buffers have as many rows as these -/
structure KsMem.Ready (K : KsMem) (s : Store σ) : Prop where
  beQ : K.ks.be.ringQ = K.ks.ringQ
  beP : K.ks.be.ringP = K.ks.ringP
  pool : ∀ x ∈ K.pool ++ K.poolDecompQP, (s.rows x.q).length = K.ks.ringQ.subs.length ∧ (s.rows x.p).length = K.ks.ringP.subs.length
  six : K.pool.length = 6
  inv : (s.rows K.poolInvNTT).length = K.ks.ringQ.subs.length
  q : (s.rows K.be.q).length = K.ks.ringQ.subs.length
  p : (s.rows K.be.p).length = K.ks.ringP.subs.length

/-- the key has a row modulo `P` and enough digits -/
structure KeyFits (s : Store σ) (levelQ : ℕ) (evk : KeyRef) : Prop where
  pos : 0 < keyLen s evk
  le : keyLen s evk ≤ 2 ^ 20
  lvl : levelQ + 1 ≤ 2 ^ 20
  digits : (levelQ + keyLen s evk) / keyLen s evk ≤ evk.length

theorem getD_lt' {α : Type*} {l : List α} {i : ℕ} (hi : i < l.length) {d : α} : l.getD i d = l[i] := by
  simp [List.getD_eq_getElem?_getD, hi]

theorem KsMem.Ready.poolAt {K : KsMem} {s : Store σ} (h : K.Ready s) {i : ℕ} (hi : i < 6) :
    (s.rows (K.poolAt i).q).length = K.ks.ringQ.subs.length ∧ (s.rows (K.poolAt i).p).length = K.ks.ringP.subs.length := by
  refine h.pool _ (List.mem_append_left _ ?_)
  have : i < K.pool.length := by rw [h.six]; exact hi
  unfold KsMem.poolAt
  rw [getD_lt' this]
  exact List.getElem_mem _

theorem key_getD (s : Store σ) {evk : KeyRef} {i : ℕ} (hi : i < evk.length) :
    (s.key evk).getD i default = (s.qp (evk.getD i default).1, s.qp (evk.getD i default).2) := by
  unfold Store.key
  rw [getD_lt' (by simpa using hi), getD_lt' hi, List.getElem_map]

theorem keyCells_getD {evk : KeyRef} {i : ℕ} (hi : i < evk.length) {a : ℕ}
    (ha : a ∈ [(evk.getD i default).1.q, (evk.getD i default).1.p, (evk.getD i default).2.q, (evk.getD i default).2.p]) : a ∈ keyCells evk := by
  refine List.mem_flatMap.2 ⟨evk.getD i default, ?_, ha⟩
  rw [getD_lt' hi]
  exact List.getElem_mem _

section
variable {s : Store σ} {levelQ : ℕ} {evk : KeyRef}

theorem KeyFits.beta (h : KeyFits s levelQ evk) :
    ceilDivF (levelQ + 1) (keyLen s evk) = (levelQ + keyLen s evk) / keyLen s evk := by
  have := h.pos
  have := h.le
  have := h.lvl
  rw [ceilDivF_eq h.pos (by omega) (by omega)]
  congr 1
  omega

theorem KeyFits.beta_pos (h : KeyFits s levelQ evk) : 0 < (levelQ + keyLen s evk) / keyLen s evk :=
  Nat.div_pos (by omega) h.pos

theorem KeyFits.block (h : KeyFits s levelQ evk) {i : ℕ} (hi : i < (levelQ + keyLen s evk) / keyLen s evk) :
    i * keyLen s evk ≤ levelQ := by
  have := (Nat.lt_div_iff_mul_lt h.pos).1 hi
  have hc : i * keyLen s evk = keyLen s evk * i := Nat.mul_comm ..
  omega

theorem KeyFits.alpha (h : KeyFits s levelQ evk) : (s.key evk).alpha = keyLen s evk := by
  unfold SwitchingKey.alpha keyLen
  rw [key_getD s (h.beta_pos.trans_le h.digits)]
  rfl

end

section
variable {K : KsMem} {s : Store σ} {levelQ cx : ℕ} {evk : KeyRef} {c0 c1 : QPAddr}

theorem keyAlpha_run (evk : KeyRef) (s : Store σ) : (keyAlpha evk).run s = (keyLen s evk, s) := rfl

/-- the other form of the input -/
theorem run_forms : (K.formsCall levelQ cx).run s = ((s.poly cx).isNTT,
    s.setRows K.poolInvNTT (if (s.poly cx).isNTT then K.ks.ringQ.invNttLvl levelQ (s.rows cx) (s.rows K.poolInvNTT)
      else K.ks.ringQ.nttLvl levelQ (s.rows cx) (s.rows K.poolInvNTT))) := by
  unfold KsMem.formsCall
  rw [run_bind', run_rd]
  dsimp only
  split
  · rw [run_bind', run_ringCall (rw_invNtt _ _)]
    rfl
  · rw [run_bind', run_ringCall (rw_ntt _ _)]
    rfl

/-- `SwitchKeysInPlaceNoModDown`: whatever the buffers hold, the accumulators are those of the functional model -/
theorem run_noModDown (hinj : Function.Injective (ksAdr K c0 c1)) (hcx : ∀ k, cx ≠ ksAdr K c0 c1 k)
    (hkey : ∀ a ∈ keyCells evk, ∀ k, a ≠ ksAdr K c0 c1 k) (hK : K.Ready s) (hf : KeyFits s levelQ evk) (L : ℕ) {y0 y1 : Rows}
    (h0 : y0.length = (s.rows c0.p).length) (h1 : y1.length = (s.rows c1.p).length) :
    ∃ val, St (ksAdr K c0 c1) (ksLvl levelQ (keyLen s evk - 1) L) s (after (K.switchKeysNoModDown levelQ cx evk c0 c1) s) val ∧
      (⟨val .c0q, val .c0p⟩, ⟨val .c1q, val .c1p⟩) =
        K.ks.switchKeysNoModDown levelQ (s.poly cx).isNTT (s.rows cx) (s.key evk) ⟨s.rows c0.q, y0⟩ ⟨s.rows c1.q, y1⟩ := by
  have hal := hf.alpha
  unfold KsMem.switchKeysNoModDown KeySwitcher.switchKeysNoModDown
  dsimp only
  rw [after_bind, run_forms]
  unfold after
  rw [run_forms]
  unfold KsMem.forms
  set s1 : Store σ := s.setRows K.poolInvNTT (if (s.poly cx).isNTT then K.ks.ringQ.invNttLvl levelQ (s.rows cx) (s.rows K.poolInvNTT)
      else K.ks.ringQ.nttLvl levelQ (s.rows cx) (s.rows K.poolInvNTT)) with hs1
  set F := K.ks.bothForms levelQ (s.poly cx).isNTT (s.rows cx) with hF
  set f := (if (s.poly cx).isNTT then (cx, K.poolInvNTT) else (K.poolInvNTT, cx)) with hfdef
  have hlen : (s.rows K.poolInvNTT).length = (newPoly K.ks.ringQ.n K.ks.ringQ.subs.length).length := by
    rw [hK.inv, newPoly, List.length_replicate]
  have g0 := St.start (ksAdr K c0 c1) (ksLvl levelQ (keyLen s evk - 1) L) s
  obtain ⟨V, g1, hVF⟩ : ∃ V, St (ksAdr K c0 c1) (ksLvl levelQ (keyLen s evk - 1) L) s s1
      (Function.update (fun k => s.rows (ksAdr K c0 c1 k)) .inv V) ∧
      ∀ s' : Store σ, SameUpTo levelQ (s'.rows K.poolInvNTT) V → s'.rows cx = s.rows cx →
        SameUpTo levelQ (s'.rows f.1) F.1 ∧ SameUpTo levelQ (s'.rows f.2) F.2 := by
    unfold KeySwitcher.bothForms at hF
    by_cases hb : (s.poly cx).isNTT
    · rw [if_pos hb] at hs1 hF hfdef
      refine ⟨F.2, g0.set hinj .inv ?_ ?_, fun s' h h' => ?_⟩
      · rw [hF, if_pos hb]
        exact SameUpTo.invNttFresh _ (SameUpTo.refl _ _) hlen
      · rw [if_pos hb]
        exact length_writeLvl ..
      · rw [hfdef]
        refine ⟨?_, h⟩
        rw [h', hF]
        exact SameUpTo.refl _ _
    · rw [if_neg hb] at hs1 hF hfdef
      refine ⟨F.1, g0.set hinj .inv ?_ ?_, fun s' h h' => ?_⟩
      · rw [hF, if_neg hb]
        exact SameUpTo.nttFresh _ (SameUpTo.refl _ _) hlen
      · rw [if_neg hb]
        exact length_writeLvl ..
      · rw [hfdef]
        refine ⟨h, ?_⟩
        rw [h', hF]
        exact SameUpTo.refl _ _
  have hfc : ∀ a, a = f.1 ∨ a = f.2 → a ≠ ksAdr K c0 c1 .c2q ∧ a ≠ ksAdr K c0 c1 .c2p := by
    have e1 : K.poolInvNTT ≠ ksAdr K c0 c1 .c2q := fun e => by simpa using hinj (a₁ := .inv) e
    have e2 : K.poolInvNTT ≠ ksAdr K c0 c1 .c2p := fun e => by simpa using hinj (a₁ := .inv) e
    intro a ha
    rw [hfdef] at ha
    split at ha <;> rcases ha with rfl | rfl <;> first | exact ⟨hcx _, hcx _⟩ | exact ⟨e1, e2⟩
  have hkl : keyLen s1 evk = keyLen s evk := by
    unfold keyLen
    rw [g1.rows (hkey _ (keyCells_getD (i := 0) (hf.beta_pos.trans_le hf.digits) (by simp)))]
  show ∃ val, St _ _ s (after (keyAlpha evk >>= _) s1) val ∧ _
  rw [after_bind, keyAlpha_run, hkl, hal]
  show ∃ val, St _ _ s (after _ s1) val ∧ _
  dsimp only
  have hpos := hf.pos
  have hsub : keyLen s evk - 1 + 1 = keyLen s evk := by omega
  rw [hsub, hf.beta, after_seq]
  set beta := (levelQ + keyLen s evk) / keyLen s evk with hbeta
  set mQ := overflowMargin K.ks.ringQ.moduli levelQ >>> 1
  set mP := overflowMargin K.ks.ringP.moduli (keyLen s evk - 1) >>> 1
  have hp0 := hK.poolAt (i := 0) (by omega)
  have hz : K.ks.newPolyQP.q.length = K.ks.ringQ.subs.length ∧ K.ks.newPolyQP.p.length = K.ks.ringP.subs.length :=
    ⟨List.length_replicate, List.length_replicate⟩
  have loop := forEach_range (σ := σ) (n := beta)
    (f := fun i => do
      K.ks.dec.digitCall levelQ (keyLen s evk - 1) (keyLen s evk) i f.1 f.2 (K.poolAt 0)
      K.ks.roundCall levelQ (keyLen s evk - 1) mQ mP i (evk.getD i default) (K.poolAt 0) c0 c1)
    (g := fun (st : PolyQP × PolyQP) i =>
      let c2 := K.ks.dec.decomposeSingleNTT levelQ (keyLen s evk - 1) (keyLen s evk) i F.1 F.2 K.ks.newPolyQP
      (K.ks.accStep levelQ (keyLen s evk - 1) mQ mP i ((s.key evk).getD i default).1 c2 st.1,
       K.ks.accStep levelQ (keyLen s evk - 1) mQ mP i ((s.key evk).getD i default).2 c2 st.2))
    (P := fun i s' A => ∃ val, Acc (ksAdr K c0 c1) levelQ (keyLen s evk - 1) L s s' val i A ∧ val .inv = V)
    (s := s1) (b := (⟨s.rows c0.q, y0⟩, ⟨s.rows c1.q, y1⟩)) ?_ ?_
  · obtain ⟨val, hA, -⟩ := loop
    obtain ⟨v', -, hA'⟩ := hA.finish (mQ := mQ) (mP := mP) hinj K.ks (Nat.pos_iff_ne_zero.1 hf.beta_pos)
    refine ⟨v', hA'.st, ?_⟩
    rw [hA'.q0, hA'.q1, hA'.p0 (Nat.pos_iff_ne_zero.1 hf.beta_pos), hA'.p1 (Nat.pos_iff_ne_zero.1 hf.beta_pos)]
  · rintro i hi s' A ⟨val, hA, hV⟩
    rw [after_seq]
    have hil := hi.trans_le hf.digits
    have hfs := hVF s' (by have := hA.st.same .inv; rwa [hV] at this) (hA.st.rows hcx)
    have hd := hA.st.digit hinj K.ks.dec hpos (hf.block hi) (hfc f.1 (Or.inl rfl)) (hfc f.2 (Or.inr rfl)) (by simp) rfl rfl hfs.1 hfs.2
      (y := K.ks.newPolyQP) (hz.1.trans hp0.1.symm) (hz.2.trans hp0.2.symm)
    set D := K.ks.dec.decomposeSingleNTT levelQ (keyLen s evk - 1) (keyLen s evk) i F.1 F.2 K.ks.newPolyQP with hD
    set s2 := after (K.ks.dec.digitCall levelQ (keyLen s evk - 1) (keyLen s evk) i f.1 f.2 (K.poolAt 0)) s' with hs2
    have hA2 : Acc (ksAdr K c0 c1) levelQ (keyLen s evk - 1) L s s2 (Function.update (Function.update val .c2q D.q) .c2p D.p) i A :=
      ⟨hd, by simp [hA.q0], by simp [hA.q1], fun hne => by simp [hA.p0 hne], fun hne => by simp [hA.p1 hne], hA.len0, hA.len1⟩
    obtain ⟨v', o', hA'⟩ := hA2.round (mQ := mQ) (mP := mP) hinj K.ks (key := evk.getD i default) (c2 := K.poolAt 0) (D := D)
      (fun a ha => hkey a (keyCells_getD hil ha)) (fun s3 h3 => by
        have e1 : s3.rows (ksAdr K c0 c1 .c2q) = s2.rows (ksAdr K c0 c1 .c2q) := by
          unfold Store.rows Store.poly
          rw [h3 _ (fun e => by simpa using hinj e) (fun e => by simpa using hinj e) (fun e => by simpa using hinj e) (fun e => by simpa using hinj e)]
        have e2 : s3.rows (ksAdr K c0 c1 .c2p) = s2.rows (ksAdr K c0 c1 .c2p) := by
          unfold Store.rows Store.poly
          rw [h3 _ (fun e => by simpa using hinj e) (fun e => by simpa using hinj e) (fun e => by simpa using hinj e) (fun e => by simpa using hinj e)]
        have d1 := hd.same .c2q
        have d2 := hd.same .c2p
        change SameUpTo _ (s2.rows _) _ at d1
        change SameUpTo _ (s2.rows _) _ at d2
        rw [← e1] at d1
        rw [← e2] at d2
        exact ⟨by simpa [ksLvl, ksAdr] using d1, by simpa [ksLvl, ksAdr] using d2⟩)
    refine ⟨v', ?_, ?_⟩
    · dsimp only
      rw [key_getD s hil]
      exact hA'
    · rw [o' .inv (by simp) (by simp) (by simp) (by simp)]
      simp [hV]
  · refine ⟨_, ⟨g1, ?_, ?_, fun h => absurd rfl h, fun h => absurd rfl h, h0, h1⟩, ?_⟩
    · simp [ksAdr]
    · simp [ksAdr]
    · simp

/-- `SwitchKeysInPlace`: whatever the buffers hold, the outputs are those of the functional model -/
theorem run_switchKeys {p0 p1 : ℕ} (hinj : Function.Injective (ksAdr K ⟨p0, (K.poolAt 1).p⟩ ⟨p1, (K.poolAt 2).p⟩))
    (hcx : ∀ k, cx ≠ ksAdr K ⟨p0, (K.poolAt 1).p⟩ ⟨p1, (K.poolAt 2).p⟩ k)
    (hkey : ∀ a ∈ keyCells evk, ∀ k, a ≠ ksAdr K ⟨p0, (K.poolAt 1).p⟩ ⟨p1, (K.poolAt 2).p⟩ k) (hK : K.Ready s) (hf : KeyFits s levelQ evk)
    {L : ℕ} (hL : levelQ ≤ L) :
    ∃ val, St (ksAdr K ⟨p0, (K.poolAt 1).p⟩ ⟨p1, (K.poolAt 2).p⟩) (ksLvl levelQ (keyLen s evk - 1) L) s
        (after (K.switchKeysInPlace levelQ cx evk p0 p1) s) val ∧
      (val .c0q, val .c1q) = K.ks.switchKeysInPlace levelQ (s.poly cx).isNTT (s.rows cx) (s.key evk) (s.rows p0) (s.rows p1) := by
  have hz : K.ks.newPolyQP.p.length = K.ks.ringP.subs.length := List.length_replicate
  obtain ⟨v, g, hv⟩ := run_noModDown hinj hcx hkey hK hf L (y0 := K.ks.newPolyQP.p) (y1 := K.ks.newPolyQP.p)
    (hz.trans (hK.poolAt (i := 1) (by omega)).2.symm) (hz.trans (hK.poolAt (i := 2) (by omega)).2.symm)
  have hal := hf.alpha
  unfold KsMem.switchKeysInPlace KeySwitcher.switchKeysInPlace
  dsimp only
  rw [← hv, after_seq, after_bind, hal]
  set adr := ksAdr K ⟨p0, (K.poolAt 1).p⟩ ⟨p1, (K.poolAt 2).p⟩ with hadr
  set s1 := after (K.switchKeysNoModDown levelQ cx evk ⟨p0, (K.poolAt 1).p⟩ ⟨p1, (K.poolAt 2).p⟩) s with hs1
  have hkl : keyLen s1 evk = keyLen s evk := by
    unfold keyLen
    rw [g.rows (hkey _ (keyCells_getD (i := 0) (hf.beta_pos.trans_le hf.digits) (by simp)))]
  have hfl : (s1.poly cx).isNTT = (s.poly cx).isNTT := g.flags cx
  have e1 : after (keyAlpha evk) s1 = s1 := rfl
  have hbq : (s.rows (adr .beq)).length = K.ks.be.ringQ.subs.length := by rw [hK.beQ]; exact hK.q
  have hbp : (s.rows (adr .bep)).length = K.ks.be.ringP.subs.length := by rw [hK.beP]; exact hK.p
  rw [keyAlpha_run, hkl, e1]
  dsimp only
  rw [after_rd, hfl]
  rw [after_if]
  by_cases hb : (s.poly cx).isNTT
  · rw [if_pos hb, if_pos hb, after_seq]
    obtain ⟨v1, g1, o1, r1⟩ := g.modDownNTT hinj K.ks.be (kb := .beq) (kc := .bep) (kq := .c0q) (kp := .c0p) (ko := .c0q) (levelQ := levelQ)
      (levelP := keyLen s evk - 1) (by simp) (by simp) (by simp) (by simp) (by simp) rfl rfl hL le_rfl hbq hbp
    obtain ⟨v2, g2, o2, r2⟩ := g1.modDownNTT hinj K.ks.be (kb := .beq) (kc := .bep) (kq := .c1q) (kp := .c1p) (ko := .c1q) (levelQ := levelQ)
      (levelP := keyLen s evk - 1) (by simp) (by simp) (by simp) (by simp) (by simp) rfl rfl hL le_rfl hbq hbp
    refine ⟨v2, g2, ?_⟩
    rw [o2 .c0q (by simp) (by simp) (by simp), r1, r2, o1 .c1q (by simp) (by simp) (by simp), o1 .c1p (by simp) (by simp) (by simp)]
  · rw [if_neg hb, if_neg hb]
    simp only [after_seq]
    have k1 := g.call hinj .c0q (rw_invNttLazy (level := levelQ) K.ks.ringQ (adr .c0q)) ((g.same .c0q).invNttLazy K.ks.ringQ)
    have k2 := k1.call hinj .c1q (rw_invNttLazy (level := levelQ) K.ks.ringQ (adr .c1q)) ((k1.same .c1q).invNttLazy K.ks.ringQ)
    have k3 := k2.call hinj .c0p (rw_invNttLazy (level := keyLen s evk - 1) K.ks.ringP (adr .c0p)) ((k2.same .c0p).invNttLazy K.ks.ringP)
    have k4 := k3.call hinj .c1p (rw_invNttLazy (level := keyLen s evk - 1) K.ks.ringP (adr .c1p)) ((k3.same .c1p).invNttLazy K.ks.ringP)
    obtain ⟨v1, g1, o1, r1⟩ := k4.modDown hinj K.ks.be (kb := .beq) (kq := .c0q) (kp := .c0p) (ko := .c0q) (levelQ := levelQ)
      (levelP := keyLen s evk - 1) (by simp) (by simp) (by simp) rfl hL le_rfl hbq K.be.p
    obtain ⟨v2, g2, o2, r2⟩ := g1.modDown hinj K.ks.be (kb := .beq) (kq := .c1q) (kp := .c1p) (ko := .c1q) (levelQ := levelQ)
      (levelP := keyLen s evk - 1) (by simp) (by simp) (by simp) rfl hL le_rfl hbq K.be.p
    refine ⟨v2, g2, ?_⟩
    rw [o2 .c0q (by simp) (by simp), r1, r2, o1 .c1q (by simp) (by simp), o1 .c1p (by simp) (by simp)]
    simp [Function.update]

/-- `KeyswitchHoistedNoModDown` with digits that are none of the cells written -/
theorem run_hoistedNoModDown (hinj : Function.Injective (ksAdr K c0 c1)) {dig : List QPAddr} {D : List PolyQP}
    (hdig : ∀ i < (levelQ + keyLen s evk) / keyLen s evk, ∀ k, (dig.getD i default).q ≠ ksAdr K c0 c1 k ∧ (dig.getD i default).p ≠ ksAdr K c0 c1 k)
    (hD : ∀ i < (levelQ + keyLen s evk) / keyLen s evk, SameUpTo levelQ (s.rows (dig.getD i default).q) (D.getD i default).q ∧
      SameUpTo (keyLen s evk - 1) (s.rows (dig.getD i default).p) (D.getD i default).p)
    (hkey : ∀ a ∈ keyCells evk, ∀ k, a ≠ ksAdr K c0 c1 k) (hf : KeyFits s levelQ evk) (L : ℕ) {y0 y1 : Rows}
    (h0 : y0.length = (s.rows c0.p).length) (h1 : y1.length = (s.rows c1.p).length) :
    ∃ val, St (ksAdr K c0 c1) (ksLvl levelQ (keyLen s evk - 1) L) s (after (K.hoistedNoModDown levelQ dig evk c0 c1) s) val ∧
      (⟨val .c0q, val .c0p⟩, ⟨val .c1q, val .c1p⟩) =
        K.ks.hoistedNoModDown levelQ D (s.key evk) ⟨s.rows c0.q, y0⟩ ⟨s.rows c1.q, y1⟩ := by
  have hal := hf.alpha
  unfold KsMem.hoistedNoModDown KeySwitcher.hoistedNoModDown
  dsimp only
  rw [after_bind, keyAlpha_run, hal]
  have e1 : after (keyAlpha evk) s = s := rfl
  rw [e1]
  dsimp only
  rw [hf.beta, after_seq]
  set beta := (levelQ + keyLen s evk) / keyLen s evk with hbeta
  set mQ := overflowMargin K.ks.ringQ.moduli levelQ >>> 1
  set mP := overflowMargin K.ks.ringP.moduli (keyLen s evk - 1) >>> 1
  have loop := forEach_range (σ := σ) (n := beta)
    (f := fun i => K.ks.roundCall levelQ (keyLen s evk - 1) mQ mP i (evk.getD i default) (dig.getD i default) c0 c1)
    (g := fun (st : PolyQP × PolyQP) i =>
      (K.ks.accStep levelQ (keyLen s evk - 1) mQ mP i ((s.key evk).getD i default).1 (D.getD i default) st.1,
       K.ks.accStep levelQ (keyLen s evk - 1) mQ mP i ((s.key evk).getD i default).2 (D.getD i default) st.2))
    (P := fun i s' A => ∃ val, Acc (ksAdr K c0 c1) levelQ (keyLen s evk - 1) L s s' val i A)
    (s := s) (b := (⟨s.rows c0.q, y0⟩, ⟨s.rows c1.q, y1⟩)) ?_ ?_
  · obtain ⟨val, hA⟩ := loop
    obtain ⟨v', -, hA'⟩ := hA.finish (mQ := mQ) (mP := mP) hinj K.ks (Nat.pos_iff_ne_zero.1 hf.beta_pos)
    refine ⟨v', hA'.st, ?_⟩
    rw [hA'.q0, hA'.q1, hA'.p0 (Nat.pos_iff_ne_zero.1 hf.beta_pos), hA'.p1 (Nat.pos_iff_ne_zero.1 hf.beta_pos)]
  · rintro i hi s' A ⟨val, hA⟩
    have hil := hi.trans_le hf.digits
    obtain ⟨v', -, hA'⟩ := hA.round (mQ := mQ) (mP := mP) hinj K.ks (key := evk.getD i default) (c2 := dig.getD i default) (D := D.getD i default)
      (fun a ha => hkey a (keyCells_getD hil ha)) (fun s3 h3 => by
        have e1 : s3.rows (dig.getD i default).q = s.rows (dig.getD i default).q := by
          rw [← hA.st.rows fun k => (hdig i hi k).1]
          unfold Store.rows Store.poly
          rw [h3 _ (hdig i hi _).1 (hdig i hi _).1 (hdig i hi _).1 (hdig i hi _).1]
        have e2 : s3.rows (dig.getD i default).p = s.rows (dig.getD i default).p := by
          rw [← hA.st.rows fun k => (hdig i hi k).2]
          unfold Store.rows Store.poly
          rw [h3 _ (hdig i hi _).2 (hdig i hi _).2 (hdig i hi _).2 (hdig i hi _).2]
        rw [e1, e2]
        exact hD i hi)
    refine ⟨v', ?_⟩
    rw [key_getD s hil]
    exact hA'
  · exact ⟨_, ⟨St.start .., rfl, rfl, fun h => absurd rfl h, fun h => absurd rfl h, h0, h1⟩⟩

/-- `KeyswitchHoisted` -/
theorem run_hoisted (hinj : Function.Injective (ksAdr K c0 c1)) {dig : List QPAddr} {D : List PolyQP}
    (hdig : ∀ i < (levelQ + keyLen s evk) / keyLen s evk, ∀ k, (dig.getD i default).q ≠ ksAdr K c0 c1 k ∧ (dig.getD i default).p ≠ ksAdr K c0 c1 k)
    (hD : ∀ i < (levelQ + keyLen s evk) / keyLen s evk, SameUpTo levelQ (s.rows (dig.getD i default).q) (D.getD i default).q ∧
      SameUpTo (keyLen s evk - 1) (s.rows (dig.getD i default).p) (D.getD i default).p)
    (hkey : ∀ a ∈ keyCells evk, ∀ k, a ≠ ksAdr K c0 c1 k) (hbq : (s.rows K.be.q).length = K.ks.be.ringQ.subs.length)
    (hbp : (s.rows K.be.p).length = K.ks.be.ringP.subs.length) (hf : KeyFits s levelQ evk) {L : ℕ} (hL : levelQ ≤ L) {y0 y1 : Rows}
    (h0 : y0.length = (s.rows c0.p).length) (h1 : y1.length = (s.rows c1.p).length) :
    ∃ val, St (ksAdr K c0 c1) (ksLvl levelQ (keyLen s evk - 1) L) s (after (K.hoisted levelQ dig evk c0 c1) s) val ∧
      (val .c0q, val .c1q) = K.ks.hoisted levelQ D (s.key evk) ⟨s.rows c0.q, y0⟩ ⟨s.rows c1.q, y1⟩ := by
  obtain ⟨v, g, hv⟩ := run_hoistedNoModDown hinj hdig hD hkey hf L h0 h1
  have hal := hf.alpha
  unfold KsMem.hoisted KeySwitcher.hoisted
  dsimp only
  rw [← hv, after_seq, after_bind, hal]
  set s1 := after (K.hoistedNoModDown levelQ dig evk c0 c1) s with hs1
  have hkl : keyLen s1 evk = keyLen s evk := by
    unfold keyLen
    rw [g.rows (hkey _ (keyCells_getD (i := 0) (hf.beta_pos.trans_le hf.digits) (by simp)))]
  have e1 : after (keyAlpha evk) s1 = s1 := rfl
  rw [keyAlpha_run, hkl, e1]
  dsimp only
  rw [after_seq]
  obtain ⟨v1, g1, o1, r1⟩ := g.modDownNTT hinj K.ks.be (kb := .beq) (kc := .bep) (kq := .c0q) (kp := .c0p) (ko := .c0q) (levelQ := levelQ)
    (levelP := keyLen s evk - 1) (by simp) (by simp) (by simp) (by simp) (by simp) rfl rfl hL le_rfl hbq hbp
  obtain ⟨v2, g2, o2, r2⟩ := g1.modDownNTT hinj K.ks.be (kb := .beq) (kc := .bep) (kq := .c1q) (kp := .c1p) (ko := .c1q) (levelQ := levelQ)
    (levelP := keyLen s evk - 1) (by simp) (by simp) (by simp) (by simp) (by simp) rfl rfl hL le_rfl hbq hbp
  refine ⟨v2, g2, ?_⟩
  rw [o2 .c0q (by simp) (by simp) (by simp), r1, r2, o1 .c1q (by simp) (by simp) (by simp), o1 .c1p (by simp) (by simp) (by simp)]

end

/-! ## The digits of a hoisted key switch -/

/-- the cells that `DecomposeNTT` writes -/
inductive DigC (n : ℕ) where
  | inv
  | q (i : Fin n)
  | p (i : Fin n)
  deriving DecidableEq

def digAdr (K : KsMem) (dig : List QPAddr) (n : ℕ) : DigC n → ℕ
  | .inv => K.poolInvNTT
  | .q i => (dig.getD i default).q
  | .p i => (dig.getD i default).p

def digLvl (levelQ levelP n : ℕ) : DigC n → ℕ
  | .inv => levelQ
  | .q _ => levelQ
  | .p _ => levelP

section
variable {K : KsMem} {s : Store σ} {levelQ levelP alpha cx n : ℕ} {dig : List QPAddr}

/-- `DecomposeNTT`: the digits, whatever was in their cells -/
theorem run_decomposeNTT (hn : ceilDivF (levelQ + 1) (levelP + 1) = n) (hinj : Function.Injective (digAdr K dig n))
    (hcx : ∀ k, cx ≠ digAdr K dig n k) (ha : 0 < alpha) (hblock : ∀ i < n, i * alpha ≤ levelQ)
    (hinv : (s.rows K.poolInvNTT).length = K.ks.ringQ.subs.length)
    (hlen : ∀ i < n, (s.rows (dig.getD i default).q).length = K.ks.ringQ.subs.length ∧
      (s.rows (dig.getD i default).p).length = K.ks.ringP.subs.length) :
    ∃ val, St (digAdr K dig n) (digLvl levelQ levelP n) s (after (K.decomposeNTT levelQ levelP alpha cx dig) s) val ∧
      ∀ i : Fin n, (⟨val (.q i), val (.p i)⟩ : PolyQP) =
        (K.ks.decomposeNTT levelQ levelP alpha (s.poly cx).isNTT (s.rows cx)).getD i default := by
  unfold KsMem.decomposeNTT KeySwitcher.decomposeNTT
  dsimp only
  rw [hn, after_bind, run_forms]
  unfold after
  rw [run_forms]
  unfold KsMem.forms
  set s1 : Store σ := s.setRows K.poolInvNTT (if (s.poly cx).isNTT then K.ks.ringQ.invNttLvl levelQ (s.rows cx) (s.rows K.poolInvNTT)
      else K.ks.ringQ.nttLvl levelQ (s.rows cx) (s.rows K.poolInvNTT)) with hs1
  set F := K.ks.bothForms levelQ (s.poly cx).isNTT (s.rows cx) with hF
  set f := (if (s.poly cx).isNTT then (cx, K.poolInvNTT) else (K.poolInvNTT, cx)) with hfdef
  have hlenI : (s.rows K.poolInvNTT).length = (newPoly K.ks.ringQ.n K.ks.ringQ.subs.length).length := by
    rw [hinv, newPoly, List.length_replicate]
  have g0 := St.start (digAdr K dig n) (digLvl levelQ levelP n) s
  obtain ⟨V, g1, hVF⟩ : ∃ V, St (digAdr K dig n) (digLvl levelQ levelP n) s s1
      (Function.update (fun k => s.rows (digAdr K dig n k)) .inv V) ∧
      ∀ s' : Store σ, SameUpTo levelQ (s'.rows K.poolInvNTT) V → s'.rows cx = s.rows cx →
        SameUpTo levelQ (s'.rows f.1) F.1 ∧ SameUpTo levelQ (s'.rows f.2) F.2 := by
    unfold KeySwitcher.bothForms at hF
    by_cases hb : (s.poly cx).isNTT
    · rw [if_pos hb] at hs1 hF hfdef
      refine ⟨F.2, g0.set hinj .inv ?_ ?_, fun s' h h' => ?_⟩
      · rw [hF, if_pos hb]
        exact SameUpTo.invNttFresh _ (SameUpTo.refl _ _) hlenI
      · rw [if_pos hb]
        exact length_writeLvl ..
      · rw [hfdef]
        refine ⟨?_, h⟩
        rw [h', hF]
        exact SameUpTo.refl _ _
    · rw [if_neg hb] at hs1 hF hfdef
      refine ⟨F.1, g0.set hinj .inv ?_ ?_, fun s' h h' => ?_⟩
      · rw [hF, if_neg hb]
        exact SameUpTo.nttFresh _ (SameUpTo.refl _ _) hlenI
      · rw [if_neg hb]
        exact length_writeLvl ..
      · rw [hfdef]
        refine ⟨h, ?_⟩
        rw [h', hF]
        exact SameUpTo.refl _ _
  have hfc : ∀ a, a = f.1 ∨ a = f.2 → ∀ i : Fin n, a ≠ digAdr K dig n (.q i) ∧ a ≠ digAdr K dig n (.p i) := by
    intro a ha i
    have e1 : K.poolInvNTT ≠ digAdr K dig n (.q i) := fun e => by simpa using hinj (a₁ := .inv) e
    have e2 : K.poolInvNTT ≠ digAdr K dig n (.p i) := fun e => by simpa using hinj (a₁ := .inv) e
    rw [hfdef] at ha
    split at ha <;> rcases ha with rfl | rfl <;> first | exact ⟨hcx _, hcx _⟩ | exact ⟨e1, e2⟩
  show ∃ val, St _ _ s (after (forEach _ _) s1) val ∧ _
  have loop := forEach_range' (σ := σ) (n := n)
    (f := fun i => K.ks.dec.digitCall levelQ levelP alpha i f.1 f.2 (dig.getD i default))
    (P := fun i s' => ∃ val, St (digAdr K dig n) (digLvl levelQ levelP n) s s' val ∧ val .inv = V ∧ ∀ j : Fin n, j.1 < i →
      (⟨val (.q j), val (.p j)⟩ : PolyQP) = K.ks.dec.decomposeSingleNTT levelQ levelP alpha j F.1 F.2 K.ks.newPolyQP)
    (s := s1) ?_ ?_
  · obtain ⟨val, g, -, hv⟩ := loop
    refine ⟨val, g, fun i => ?_⟩
    rw [hv i i.2, getD_lt' (by simp), List.getElem_map, List.getElem_range]
  · rintro i hi s' ⟨val, g, hV, hv⟩
    have hfs := hVF s' (by have := g.same .inv; rwa [hV] at this) (g.rows hcx)
    have hd := g.digit hinj K.ks.dec (kq := .q ⟨i, hi⟩) (kp := .p ⟨i, hi⟩) ha (hblock i hi) (hfc f.1 (Or.inl rfl) _) (hfc f.2 (Or.inr rfl) _)
      (by simp) rfl rfl hfs.1 hfs.2 (y := K.ks.newPolyQP) (List.length_replicate.trans (hlen i hi).1.symm)
      (List.length_replicate.trans (hlen i hi).2.symm)
    refine ⟨_, hd, by simp [hV], fun j hj => ?_⟩
    by_cases e : j = ⟨i, hi⟩
    · subst e
      simp [digLvl]
    · have := hv j (by have : j.1 ≠ i := fun h => e (Fin.ext h)
                       omega)
      simpa [e] using this
  · exact ⟨_, g1, by simp, fun j hj => absurd hj (Nat.not_lt_zero _)⟩

end

end FastKsw
