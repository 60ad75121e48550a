import Verif.Lemmas.ThreadKeySwitch
import Verif.Lemmas.ExternalProduct

/-!
# Runs of `frlwe.KeySwitcher` in memory
-/

namespace FastKsw

variable {σ : Type}

/-! ## Copies of rows -/

theorem foldl_set_rows (c : ℕ → Prop) [DecidablePred c] (f : ℕ → Row) (y : Rows) (n : ℕ) :
    ((List.range n).foldl (fun y i => if c i then y.set i (f i) else y) y).length = y.length ∧
    ∀ i, ((List.range n).foldl (fun y i => if c i then y.set i (f i) else y) y).row i =
      if i < n ∧ c i ∧ i < y.length then f i else y.row i := by
  induction n with
  | zero => exact ⟨rfl, fun i => by rw [if_neg (by omega)]; rfl⟩
  | succ n ih =>
    rw [List.range_succ, List.foldl_append, List.foldl_cons, List.foldl_nil]
    set z := (List.range n).foldl (fun y i => if c i then y.set i (f i) else y) y with hz
    by_cases hc : c n
    · rw [if_pos hc]
      refine ⟨by rw [List.length_set, ih.1], fun i => ?_⟩
      by_cases hi : i = n
      · subst hi
        by_cases hl : i < y.length
        · rw [row_set _ _ (by rw [ih.1]; exact hl), if_pos rfl, if_pos ⟨Nat.lt_succ_self i, hc, hl⟩]
        · rw [if_neg (fun h => hl h.2.2), row_len (by rw [List.length_set, ih.1]; omega), row_len (by omega)]
      · rw [row_set_ne _ _ hi, ih.2]
        by_cases h : i < n ∧ c i ∧ i < y.length
        · rw [if_pos h, if_pos ⟨by omega, h.2⟩]
        · rw [if_neg h, if_neg fun h' => h ⟨by omega, h'.2⟩]
    · rw [if_neg hc]
      refine ⟨ih.1, fun i => ?_⟩
      rw [ih.2]
      by_cases h : i < n ∧ c i ∧ i < y.length
      · rw [if_pos h, if_pos ⟨by omega, h.2⟩]
      · rw [if_neg h, if_neg fun h' => h ⟨by have : i ≠ n := fun e => hc (e ▸ h'.2.1)
                                             omega, h'.2⟩]

theorem foldl_set_same {c : ℕ → Prop} [DecidablePred c] (f : ℕ → Row) {y y' : Rows} {n l : ℕ} (hy : y.length = y'.length)
    (hc : ∀ i ≤ l, i < n ∧ c i) : SameUpTo l ((List.range n).foldl (fun y i => if c i then y.set i (f i) else y) y)
      ((List.range n).foldl (fun y i => if c i then y.set i (f i) else y) y') := by
  have h1 := foldl_set_rows c f y n
  have h2 := foldl_set_rows c f y' n
  refine ⟨by rw [h1.1, h2.1, hy], fun i hi => ?_⟩
  rw [h1.2, h2.2]
  by_cases hl : i < y.length
  · rw [if_pos ⟨(hc i hi).1, (hc i hi).2, hl⟩, if_pos ⟨(hc i hi).1, (hc i hi).2, hy ▸ hl⟩]
  · rw [if_neg fun h => hl h.2.2, if_neg fun h => hl (hy ▸ h.2.2), row_len (by omega), row_len (by omega)]

section
variable {ι : Type} {adr lvl : ι → ℕ} {s0 s : Store σ} {val : ι → Rows}

/-- what a cell holds may be given by the memory -/
theorem St.exact [DecidableEq ι] (h : St adr lvl s0 s val) (k : ι) : St adr lvl s0 s (Function.update val k (s.rows (adr k))) := by
  refine ⟨fun j => ?_, h.frame, h.flags, h.len⟩
  by_cases hj : j = k
  · subst hj
    rw [Function.update_self]
    exact SameUpTo.refl _ _
  · rw [Function.update_of_ne hj]
    exact h.same j

/-- one call after another -/
theorem St.comp {s1 : Store σ} {val1 : ι → Rows} {lvl1 : ι → ℕ} (h1 : St adr lvl1 s0 s1 val1) (h : St adr lvl s1 s val) : St adr lvl s0 s val :=
  ⟨h.same, fun a ha => (h.frame a ha).trans (h1.frame a ha), fun a => (h.flags a).trans (h1.flags a), fun k => (h.len k).trans (h1.len k)⟩

/-- a loop of copies -/
theorem St.copies [DecidableEq ι] (hinj : Function.Injective adr) (h : St adr lvl s0 s val) {kq : ι} {src : ℕ} (hsrc : src ≠ adr kq)
    (c : ℕ → Prop) [DecidablePred c] (v : ℕ → ℕ) (n : ℕ) :
    St adr lvl s0 (after (forEach (fun i => doIf (c i) (copyRow (adr kq) i src (v i))) (List.range n)) s)
      (Function.update val kq ((List.range n).foldl (fun y i => if c i then y.set i ((s.rows src).row (v i)) else y) (s.rows (adr kq)))) ∧
    (after (forEach (fun i => doIf (c i) (copyRow (adr kq) i src (v i))) (List.range n)) s).rows (adr kq) =
      (List.range n).foldl (fun y i => if c i then y.set i ((s.rows src).row (v i)) else y) (s.rows (adr kq)) := by
  have loop := forEach_range (σ := σ) (n := n) (f := fun i => doIf (c i) (copyRow (adr kq) i src (v i)))
    (g := fun y i => if c i then y.set i ((s.rows src).row (v i)) else y)
    (P := fun _ s' y => St adr lvl s0 s' (Function.update val kq y) ∧ s'.rows (adr kq) = y ∧ s'.rows src = s.rows src)
    (s := s) (b := s.rows (adr kq)) ?_ ⟨h.exact kq, rfl, rfl⟩
  · exact ⟨loop.1, loop.2.1⟩
  · rintro i hi s' y ⟨g1, g2, g3⟩
    unfold doIf
    split
    · rw [after_copyRow, g2, g3]
      refine ⟨?_, Store.rows_setRows_self .., by rw [Store.rows_setRows_ne _ _ hsrc, g3]⟩
      have := g1.set hinj kq (x := y.set i ((s.rows src).row (v i))) (SameUpTo.refl _ _) (by rw [List.length_set, g2])
      rwa [Function.update_idem] at this
    · exact ⟨g1, g2, g3⟩

end

/-! ## The cells of a fast key switch -/

/-- the cells that `SwitchKey` writes -/
inductive FkC (nb nl : ℕ) where
  | t1 (j : Fin nb)
  | t2 (j : Fin nl)
  | qpq | qpp | q | r | beq | c0 | c1
  deriving DecidableEq

def fkAdr (K : FKsMem) (c0 c1 nb nl : ℕ) : FkC nb nl → ℕ
  | .t1 j => K.t1 j
  | .t2 j => K.t2 j
  | .qpq => K.polyQPPool.q
  | .qpp => K.polyQPPool.p
  | .q => K.polyQPool
  | .r => K.polyRPool
  | .beq => K.be.q
  | .c0 => c0
  | .c1 => c1

/-- up to which level they matter -/
def fkLvl (levelQ levelT L lq lp nb nl : ℕ) : FkC nb nl → ℕ
  | .t1 _ => levelT
  | .t2 _ => levelT
  | .qpq => lq
  | .qpp => lp
  | .beq => levelQ
  | _ => L

/-- the buffers have the rows that `NewKeySwitcher` gives them, frlwe/keyswitch.go:43-46 and 97-107 -/
structure FKsMem.Ready (K : FKsMem) (s : Store σ) : Prop where
  t1 : ∀ a ∈ K.polyTPools1, (s.rows a).length = K.ksw.params.ringT.subs.length
  t2 : ∀ a ∈ K.polyTPools2, (s.rows a).length = K.ksw.params.ringT.subs.length
  qpq : (s.rows K.polyQPPool.q).length = K.ksw.params.ringQ.subs.length
  qpp : (s.rows K.polyQPPool.p).length = K.ksw.params.ringP.subs.length
  q : (s.rows K.polyQPool).length = K.ksw.params.ringQ.subs.length
  r : (s.rows K.polyRPool).length = K.ksw.params.ringR.subs.length
  be : (s.rows K.be.q).length = K.ksw.convQP.ringQ.subs.length
  blocks : K.polyTPools2.length = K.ksw.ringRi.length

/-- a level at which there are buffers for all digits (`nb`) and all blocks (`nl`) -/
structure FKsMem.Fits (K : FKsMem) (levelQ nb nl : ℕ) : Prop where
  alpha : 0 < K.ksw.params.alpha
  gamma : 0 < K.ksw.params.gamma
  gamma_le : K.ksw.params.gamma ≤ 2 ^ 20
  le : levelQ + K.ksw.params.alpha + 1 ≤ 2 ^ 20
  lvl : levelQ < K.ksw.params.ringQ.subs.length
  nb_eq : nb = (levelQ + K.ksw.params.alpha) / K.ksw.params.alpha
  nl_eq : nl = (levelQ + K.ksw.params.alpha + K.ksw.params.gamma) / K.ksw.params.gamma
  nb_le : nb ≤ K.polyTPools1.length
  nl_le : nl ≤ K.polyTPools2.length

section
variable {K : FKsMem} {levelQ nb nl : ℕ}

theorem FKsMem.Fits.beta (h : K.Fits levelQ nb nl) : ceilDivF (levelQ + 1) K.ksw.params.alpha = nb := by
  have := h.alpha
  have := h.le
  rw [ceilDivF_eq h.alpha (by omega) (by omega), h.nb_eq]
  congr 1
  omega

theorem FKsMem.Fits.blockLen (h : K.Fits levelQ nb nl) : ceilDivF (levelQ + K.ksw.params.alpha + 1) K.ksw.params.gamma = nl := by
  have := h.gamma
  rw [ceilDivF_eq h.gamma (by have := h.le; omega) h.gamma_le, h.nl_eq]
  congr 1
  omega

theorem FKsMem.Fits.nb_pos (h : K.Fits levelQ nb nl) : 0 < nb := by
  rw [h.nb_eq]
  exact Nat.div_pos (by omega) h.alpha

theorem FKsMem.Fits.digit (h : K.Fits levelQ nb nl) {j : ℕ} (hj : j < nb) : j * K.ksw.params.alpha < levelQ + 1 := by
  rw [h.nb_eq] at hj
  refine (ceil_block h.alpha).1 ?_
  have : levelQ + 1 + K.ksw.params.alpha - 1 = levelQ + K.ksw.params.alpha := by omega
  rwa [this]

theorem FKsMem.Fits.block (h : K.Fits levelQ nb nl) {j : ℕ} : j < nl ↔ j * K.ksw.params.gamma < levelQ + K.ksw.params.alpha + 1 := by
  rw [h.nl_eq, ← ceil_block h.gamma]
  have : levelQ + K.ksw.params.alpha + 1 + K.ksw.params.gamma - 1 = levelQ + K.ksw.params.alpha + K.ksw.params.gamma := by omega
  rw [this]

theorem FKsMem.Ready.lt1 {s : Store σ} (h : K.Ready s) {j : ℕ} (hj : j < K.polyTPools1.length) :
    (s.rows (K.t1 j)).length = K.ksw.params.ringT.subs.length := by
  unfold FKsMem.t1
  rw [getD_lt' hj]
  exact h.t1 _ (List.getElem_mem _)

theorem FKsMem.Ready.lt2 {s : Store σ} (h : K.Ready s) {j : ℕ} (hj : j < K.polyTPools2.length) :
    (s.rows (K.t2 j)).length = K.ksw.params.ringT.subs.length := by
  unfold FKsMem.t2
  rw [getD_lt' hj]
  exact h.t2 _ (List.getElem_mem _)

end

section
variable {K : FKsMem} {levelQ nb nl c0 c1 L lq lp : ℕ} {s0 s : Store σ} {val : FkC nb nl → Rows}
  (hinj : Function.Injective (fkAdr K c0 c1 nb nl)) (hK : K.Ready s0) (hf : K.Fits levelQ nb nl)
include hinj hK hf

/-- a digit in the ring `T` -/
theorem St.fdigit {a : ℕ} (ha : ∀ k, a ≠ fkAdr K c0 c1 nb nl k)
    (h : St (fkAdr K c0 c1 nb nl) (fkLvl levelQ K.ksw.params.levelT L lq lp nb nl) s0 s val) (j : Fin nb) :
    ∃ val', St (fkAdr K c0 c1 nb nl) (fkLvl levelQ K.ksw.params.levelT L lq lp nb nl) s0 (after (K.digitCall levelQ a j) s) val' ∧
      val' (.t1 j) = K.ksw.digit levelQ (s0.rows a) j ∧ ∀ k, k ≠ .t1 j → k ≠ .q → val' k = val k := by
  unfold FKsMem.digitCall FKeySwitcher.digit
  dsimp only
  rw [after_seq, after_seq]
  have hq : fkAdr K c0 c1 nb nl .q ≠ fkAdr K c0 c1 nb nl (.t1 j) := fun e => by simpa using hinj e
  obtain ⟨g1, e1⟩ := h.copies hinj (kq := .q) (ha .q) (fun i => j * K.ksw.params.alpha + i < levelQ + 1)
    (fun i => j * K.ksw.params.alpha + i) K.ksw.params.alpha
  rw [h.rows ha] at g1 e1
  set Y := (List.range K.ksw.params.alpha).foldl (fun y i => if j * K.ksw.params.alpha + i < levelQ + 1 then
    y.set i ((s0.rows a).row (j * K.ksw.params.alpha + i)) else y) (s.rows (fkAdr K c0 c1 nb nl .q)) with hY
  change St _ _ _ (after (forEach (fun i => doIf (j * K.ksw.params.alpha + i < levelQ + 1) (copyRow K.polyQPool i a
    (j * K.ksw.params.alpha + i))) _) s) _ at g1
  change (after (forEach (fun i => doIf (j * K.ksw.params.alpha + i < levelQ + 1) (copyRow K.polyQPool i a
    (j * K.ksw.params.alpha + i))) _) s).rows _ = _ at e1
  set s1 := after (forEach (fun i => doIf (j * K.ksw.params.alpha + i < levelQ + 1) (copyRow K.polyQPool i a
    (j * K.ksw.params.alpha + i))) (List.range K.ksw.params.alpha)) s with hs1
  set Y' := (List.range K.ksw.params.alpha).foldl (fun y i => if j * K.ksw.params.alpha + i < levelQ + 1 then
    y.set i ((s0.rows a).row (j * K.ksw.params.alpha + i)) else y) (newPoly K.ksw.params.ringQ.n K.ksw.params.ringQ.subs.length) with hY'
  have hd := hf.digit j.2
  have hal := hf.alpha
  have hYY : SameUpTo (blockCount K.ksw.params.alpha (levelQ + 1) j - 1) Y Y' := by
    refine foldl_set_same _ ?_ fun i hi => ?_
    · rw [h.len, newPoly, List.length_replicate]
      exact hK.q
    · rw [blockCount_eq] at hi
      omega
  have hz : (s1.rows (K.t1 j)).length = (newPoly K.ksw.params.ringT.n K.ksw.params.ringT.subs.length).length := by
    have := g1.len (.t1 j)
    rw [newPoly, List.length_replicate]
    exact this.trans (hK.lt1 (j.2.trans_le hf.nb_le))
  have hl : fkLvl levelQ K.ksw.params.levelT L lq lp nb nl (.t1 j) = K.ksw.params.levelT := rfl
  obtain ⟨T, g2, hT⟩ : ∃ T, St (fkAdr K c0 c1 nb nl) (fkLvl levelQ K.ksw.params.levelT L lq lp nb nl) s0
      (after (if K.ksw.params.alpha = 1 then
        ringCall K.ksw.params.levelT (K.t1 j) fun s => writeLvl K.ksw.params.levelT (fun _ => (s.rows K.polyQPool).row 0) (s.rows (K.t1 j))
      else ringCall K.ksw.params.levelT (K.t1 j) fun s => (K.ksw.convQjT.getD j K.ksw.convQP).modUpQtoP
        (blockCount K.ksw.params.alpha (levelQ + 1) j - 1) K.ksw.params.levelT (s.rows K.polyQPool) (s.rows (K.t1 j))) s1)
      (Function.update (Function.update val .q Y) (.t1 j) T) ∧ T = (if K.ksw.params.alpha = 1 then
        writeLvl K.ksw.params.levelT (fun _ => Y'.row 0) (newPoly K.ksw.params.ringT.n K.ksw.params.ringT.subs.length)
      else (K.ksw.convQjT.getD j K.ksw.convQP).modUpQtoP (blockCount K.ksw.params.alpha (levelQ + 1) j - 1) K.ksw.params.levelT Y'
        (newPoly K.ksw.params.ringT.n K.ksw.params.ringT.subs.length)) := by
    refine ⟨_, ?_, rfl⟩
    split
    · refine g1.call hinj (.t1 j) (rw_row (fkAdr K c0 c1 nb nl .q) hq 0) ?_
      rw [hl]
      refine SameUpTo.over hz fun i _ => ?_
      rw [e1, hYY.2 0 (Nat.zero_le _)]
    · refine g1.call hinj (.t1 j) (rw_modUpQP (fkAdr K c0 c1 nb nl .q) _ _ hq) ?_
      rw [hl]
      exact SameUpTo.modUpQP _ (by rw [e1]; exact hYY) hz
  rw [← hT]
  have i2 := g2.same (.t1 j)
  rw [Function.update_self] at i2
  refine ⟨_, g2.call hinj (.t1 j) (rw_nttLazy K.ksw.params.ringT (fkAdr K c0 c1 nb nl (.t1 j))) (i2.nttLazy K.ksw.params.ringT), ?_,
    fun k h1 h2 => ?_⟩
  · rw [Function.update_self]
  · rw [Function.update_of_ne h1, Function.update_of_ne h1, Function.update_of_ne h2]

/-- all digits -/
theorem St.fdigits {a : ℕ} (ha : ∀ k, a ≠ fkAdr K c0 c1 nb nl k)
    (h : St (fkAdr K c0 c1 nb nl) (fkLvl levelQ K.ksw.params.levelT L lq lp nb nl) s0 s val) :
    ∃ val', St (fkAdr K c0 c1 nb nl) (fkLvl levelQ K.ksw.params.levelT L lq lp nb nl) s0
        (after (forEach (K.digitCall levelQ a) (List.range nb)) s) val' ∧
      (∀ j : Fin nb, val' (.t1 j) = K.ksw.digit levelQ (s0.rows a) j) ∧ ∀ k, (∀ j, k ≠ .t1 j) → k ≠ .q → val' k = val k := by
  have loop := forEach_range' (σ := σ) (n := nb) (f := K.digitCall levelQ a)
    (P := fun i s' => ∃ val', St (fkAdr K c0 c1 nb nl) (fkLvl levelQ K.ksw.params.levelT L lq lp nb nl) s0 s' val' ∧
      (∀ j : Fin nb, j.1 < i → val' (.t1 j) = K.ksw.digit levelQ (s0.rows a) j) ∧ ∀ k, (∀ j, k ≠ .t1 j) → k ≠ .q → val' k = val k)
    (s := s) ?_ ⟨val, h, fun j hj => absurd hj (Nat.not_lt_zero _), fun _ _ _ => rfl⟩
  · obtain ⟨v, g, h1, h2⟩ := loop
    exact ⟨v, g, fun j => h1 j j.2, h2⟩
  · rintro i hi s' ⟨v, g, h1, h2⟩
    obtain ⟨v', g', h1', h2'⟩ := g.fdigit hinj hK hf ha ⟨i, hi⟩
    refine ⟨v', g', fun j hj => ?_, fun k hk hq => (h2' k (hk _) hq).trans (h2 k hk hq)⟩
    by_cases e : j = ⟨i, hi⟩
    · rw [e]
      exact h1'
    · rw [h2' _ (by simpa using e) (by simp)]
      exact h1 j (by have : j.1 ≠ i := fun h => e (Fin.ext h)
                     omega)

/-- one product -/
theorem St.fproduct (m : ℕ) {bg : FKeyRef} (i : Fin nb) (j : Fin nl) (hbg : ∀ k, bg.at i j ≠ fkAdr K c0 c1 nb nl k)
    (h : St (fkAdr K c0 c1 nb nl) (fkLvl levelQ K.ksw.params.levelT L lq lp nb nl) s0 s val) {A : Rows}
    (hA : i.1 ≠ 0 → val (.t2 j) = A) (hAl : A.length = K.ksw.params.ringT.subs.length) :
    ∃ val', St (fkAdr K c0 c1 nb nl) (fkLvl levelQ K.ksw.params.levelT L lq lp nb nl) s0 (after (K.productCall m i j bg) s) val' ∧
      val' (.t2 j) = K.ksw.params.ringT.accStep K.ksw.params.levelT m i (val (.t1 i)) (s0.rows (bg.at i j)) A ∧
      ∀ k, k ≠ .t2 j → val' k = val k := by
  unfold FKsMem.productCall Ring.accStep
  dsimp only
  rw [after_seq, after_if]
  have h1 : SameUpTo K.ksw.params.levelT (s.rows (K.t1 i)) (val (.t1 i)) := h.same (.t1 i)
  have h2 : SameUpTo K.ksw.params.levelT (s.rows (bg.at i j)) (s0.rows (bg.at i j)) := by rw [h.rows hbg]; exact SameUpTo.refl _ _
  have hl : (s.rows (K.t2 j)).length = A.length := by
    rw [hAl]
    exact (h.len (.t2 j)).trans (hK.lt2 (j.2.trans_le hf.nl_le))
  obtain ⟨v1, g1, r1, o1⟩ : ∃ v1, St (fkAdr K c0 c1 nb nl) (fkLvl levelQ K.ksw.params.levelT L lq lp nb nl) s0
      (if i.1 = 0 then after (ringCall K.ksw.params.levelT (K.t2 j) fun s => K.ksw.params.ringT.mulCoeffsMontgomeryConstantLvl K.ksw.params.levelT
          (s.rows (K.t1 i)) (s.rows (bg.at i j)) (s.rows (K.t2 j))) s
        else after (ringCall K.ksw.params.levelT (K.t2 j) fun s => K.ksw.params.ringT.mulCoeffsMontgomeryConstantAndAddNoModLvl
          K.ksw.params.levelT (s.rows (K.t1 i)) (s.rows (bg.at i j)) (s.rows (K.t2 j))) s) v1 ∧
      v1 (.t2 j) = (if i.1 = 0 then K.ksw.params.ringT.mulCoeffsMontgomeryConstantLvl K.ksw.params.levelT (val (.t1 i)) (s0.rows (bg.at i j)) A
        else K.ksw.params.ringT.mulCoeffsMontgomeryConstantAndAddNoModLvl K.ksw.params.levelT (val (.t1 i)) (s0.rows (bg.at i j)) A) ∧
      ∀ k, k ≠ .t2 j → v1 k = val k := by
    split
    · exact ⟨_, h.call hinj (.t2 j) (rw_mulConst ..) (SameUpTo.mulConstFresh _ h1 h2 hl), Function.update_self .., fun k hk => Function.update_of_ne hk ..⟩
    · rename_i hi
      have h3 : SameUpTo K.ksw.params.levelT (s.rows (K.t2 j)) A := by
        have := h.same (.t2 j)
        rw [hA hi] at this
        exact this
      exact ⟨_, h.call hinj (.t2 j) (rw_mulConstAdd ..) (SameUpTo.mulConstAdd _ h1 h2 h3), Function.update_self .., fun k hk => Function.update_of_ne hk ..⟩
  rw [← r1]
  unfold doIf
  split
  · exact ⟨_, g1.call hinj (.t2 j) (rw_reduce K.ksw.params.ringT _) ((g1.same (.t2 j)).reduce _), Function.update_self .., fun k hk => by
      rw [Function.update_of_ne hk, o1 k hk]⟩
  · exact ⟨v1, g1, rfl, o1⟩

/-- the accumulators after `i` rounds -/
def _root_.FastKsw.FKsMem.acc (K : FKsMem) (m : ℕ) (D : ℕ → Rows) (B : ℕ → ℕ → Rows) (i j : ℕ) : Rows :=
  (List.range i).foldl (fun acc i => K.ksw.params.ringT.accStep K.ksw.params.levelT m i (D i) (B i j) acc)
    (newPoly K.ksw.params.ringT.n K.ksw.params.ringT.subs.length)

omit hinj hK hf in
theorem FKsMem.acc_succ (m : ℕ) (D : ℕ → Rows) (B : ℕ → ℕ → Rows) (i j : ℕ) : K.acc m D B (i + 1) j =
    K.ksw.params.ringT.accStep K.ksw.params.levelT m i (D i) (B i j) (K.acc m D B i j) := by
  unfold FKsMem.acc
  rw [List.range_succ, List.foldl_append, List.foldl_cons, List.foldl_nil]

omit hinj hK hf in
theorem FKsMem.length_acc (m : ℕ) (D : ℕ → Rows) (B : ℕ → ℕ → Rows) (i j : ℕ) :
    (K.acc m D B i j).length = K.ksw.params.ringT.subs.length := by
  induction i with
  | zero => exact List.length_replicate
  | succ i ih =>
    rw [FKsMem.acc_succ, length_accStep, ih]

/-- one round of products -/
theorem St.fround (m : ℕ) {bg : FKeyRef} {D : ℕ → Rows} (hbg : ∀ i < nb, ∀ j < nl, ∀ k, bg.at i j ≠ fkAdr K c0 c1 nb nl k)
    (h : St (fkAdr K c0 c1 nb nl) (fkLvl levelQ K.ksw.params.levelT L lq lp nb nl) s0 s val) (hD : ∀ i : Fin nb, val (.t1 i) = D i)
    (i : Fin nb) (hA : ∀ j : Fin nl, i.1 ≠ 0 → val (.t2 j) = K.acc m D (fun i j => s0.rows (bg.at i j)) i j) :
    ∃ val', St (fkAdr K c0 c1 nb nl) (fkLvl levelQ K.ksw.params.levelT L lq lp nb nl) s0
        (after (forEach (fun j => K.productCall m i j bg) (List.range nl)) s) val' ∧
      (∀ j : Fin nl, val' (.t2 j) = K.acc m D (fun i j => s0.rows (bg.at i j)) (i + 1) j) ∧
      ∀ k, (∀ j, k ≠ .t2 j) → val' k = val k := by
  have loop := forEach_range' (σ := σ) (n := nl) (f := fun j => K.productCall m i j bg)
    (P := fun n s' => ∃ val', St (fkAdr K c0 c1 nb nl) (fkLvl levelQ K.ksw.params.levelT L lq lp nb nl) s0 s' val' ∧
      (∀ j : Fin nl, j.1 < n → val' (.t2 j) = K.acc m D (fun i j => s0.rows (bg.at i j)) (i + 1) j) ∧
      (∀ j : Fin nl, n ≤ j.1 → val' (.t2 j) = val (.t2 j)) ∧ ∀ k, (∀ j, k ≠ .t2 j) → val' k = val k)
    (s := s) ?_ ⟨val, h, fun j hj => absurd hj (Nat.not_lt_zero _), fun _ _ => rfl, fun _ _ => rfl⟩
  · obtain ⟨v, g, h1, -, h2⟩ := loop
    exact ⟨v, g, fun j => h1 j j.2, h2⟩
  · rintro n hn s' ⟨v, g, h1, h2, h3⟩
    obtain ⟨v', g', r', o'⟩ := g.fproduct hinj hK hf m i ⟨n, hn⟩ (hbg i i.2 n hn) (A := K.acc m D (fun i j => s0.rows (bg.at i j)) i n)
      (fun hi => (h2 ⟨n, hn⟩ le_rfl).trans (hA ⟨n, hn⟩ hi)) (FKsMem.length_acc ..)
    refine ⟨v', g', fun j hj => ?_, fun j hj => ?_, fun k hk => (o' k (hk _)).trans (h3 k hk)⟩
    · by_cases e : j = ⟨n, hn⟩
      · subst e
        rw [r', FKsMem.acc_succ, h3 _ (by simp), hD]
      · rw [o' _ (by simpa using e)]
        exact h1 j (by have : j.1 ≠ n := fun h => e (Fin.ext h)
                       omega)
    · have e : j ≠ ⟨n, hn⟩ := fun h => by rw [h] at hj; simp at hj
      rw [o' _ (by simpa using e)]
      exact h2 j (by omega)

/-- all products -/
theorem St.fproducts (m : ℕ) {bg : FKeyRef} {D : ℕ → Rows} (hbg : ∀ i < nb, ∀ j < nl, ∀ k, bg.at i j ≠ fkAdr K c0 c1 nb nl k)
    (h : St (fkAdr K c0 c1 nb nl) (fkLvl levelQ K.ksw.params.levelT L lq lp nb nl) s0 s val) (hD : ∀ i : Fin nb, val (.t1 i) = D i) :
    ∃ val', St (fkAdr K c0 c1 nb nl) (fkLvl levelQ K.ksw.params.levelT L lq lp nb nl) s0 (after (K.productsCall m nb nl bg) s) val' ∧
      (∀ j : Fin nl, val' (.t2 j) = K.acc m D (fun i j => s0.rows (bg.at i j)) nb j) ∧ ∀ k, (∀ j, k ≠ .t2 j) → val' k = val k := by
  have loop := forEach_range' (σ := σ) (n := nb) (f := fun i => forEach (fun j => K.productCall m i j bg) (List.range nl))
    (P := fun n s' => ∃ val', St (fkAdr K c0 c1 nb nl) (fkLvl levelQ K.ksw.params.levelT L lq lp nb nl) s0 s' val' ∧
      (∀ j : Fin nl, n ≠ 0 → val' (.t2 j) = K.acc m D (fun i j => s0.rows (bg.at i j)) n j) ∧ ∀ k, (∀ j, k ≠ .t2 j) → val' k = val k)
    (s := s) ?_ ⟨val, h, fun j hj => absurd rfl hj, fun _ _ => rfl⟩
  · obtain ⟨v, g, h1, h2⟩ := loop
    exact ⟨v, g, fun j => h1 j (Nat.pos_iff_ne_zero.1 hf.nb_pos), h2⟩
  · rintro n hn s' ⟨v, g, h1, h2⟩
    obtain ⟨v', g', r', o'⟩ := g.fround hinj hK hf m hbg (D := D) (fun i => (h2 _ (by simp)).trans (hD i)) ⟨n, hn⟩ h1
    exact ⟨v', g', fun j _ => r' j, fun k hk => (o' k hk).trans (h2 k hk)⟩

omit hK hf in
/-- an operation on every accumulator -/
theorem St.feach {op : Rows → Rows} (hop : ∀ a, RowWise (σ := σ) K.ksw.params.levelT a fun s => op (s.rows a))
    (hsame : ∀ x y, SameUpTo K.ksw.params.levelT x y → SameUpTo K.ksw.params.levelT (op x) (op y))
    (h : St (fkAdr K c0 c1 nb nl) (fkLvl levelQ K.ksw.params.levelT L lq lp nb nl) s0 s val) :
    ∃ val', St (fkAdr K c0 c1 nb nl) (fkLvl levelQ K.ksw.params.levelT L lq lp nb nl) s0
        (after (forEach (fun i => ringCall K.ksw.params.levelT (K.t2 i) fun s => op (s.rows (K.t2 i))) (List.range nl)) s) val' ∧
      (∀ j : Fin nl, val' (.t2 j) = op (val (.t2 j))) ∧ ∀ k, (∀ j, k ≠ .t2 j) → val' k = val k := by
  have loop := forEach_range' (σ := σ) (n := nl) (f := fun i => ringCall K.ksw.params.levelT (K.t2 i) fun s => op (s.rows (K.t2 i)))
    (P := fun n s' => ∃ val', St (fkAdr K c0 c1 nb nl) (fkLvl levelQ K.ksw.params.levelT L lq lp nb nl) s0 s' val' ∧
      (∀ j : Fin nl, j.1 < n → val' (.t2 j) = op (val (.t2 j))) ∧
      (∀ j : Fin nl, n ≤ j.1 → val' (.t2 j) = val (.t2 j)) ∧ ∀ k, (∀ j, k ≠ .t2 j) → val' k = val k)
    (s := s) ?_ ⟨val, h, fun j hj => absurd hj (Nat.not_lt_zero _), fun _ _ => rfl, fun _ _ => rfl⟩
  · obtain ⟨v, g, h1, -, h2⟩ := loop
    exact ⟨v, g, fun j => h1 j j.2, h2⟩
  · rintro n hn s' ⟨v, g, h1, h2, h3⟩
    have g' := g.call hinj (.t2 ⟨n, hn⟩) (hop _) (hsame _ _ (g.same (.t2 ⟨n, hn⟩)))
    refine ⟨_, g', fun j hj => ?_, fun j hj => ?_, fun k hk => (Function.update_of_ne (hk _) ..).trans (h3 k hk)⟩
    · by_cases e : j = ⟨n, hn⟩
      · subst e
        rw [Function.update_self, h2 _ le_rfl]
      · rw [Function.update_of_ne (by simpa using e)]
        exact h1 j (by have : j.1 ≠ n := fun h => e (Fin.ext h)
                       omega)
    · have e : j ≠ ⟨n, hn⟩ := fun h => by rw [h] at hj; simp at hj
      rw [Function.update_of_ne (by simpa using e)]
      exact h2 j (by omega)

omit hK hf in
/-- rows copied from `polyRPool` to `polyQPPool` -/
theorem St.fcopies (hLq : (s0.rows K.polyQPPool.q).length ≤ lq) (hLp : (s0.rows K.polyQPPool.p).length ≤ lp) (base alpha n : ℕ)
    (h : St (fkAdr K c0 c1 nb nl) (fkLvl levelQ K.ksw.params.levelT L lq lp nb nl) s0 s val) :
    ∃ val', St (fkAdr K c0 c1 nb nl) (fkLvl levelQ K.ksw.params.levelT L lq lp nb nl) s0
        (after (forEach (fun j => if base + j < alpha then copyRow K.polyQPPool.p (base + j) K.polyRPool j
          else copyRow K.polyQPPool.q (base + j - alpha) K.polyRPool j) (List.range n)) s) val' ∧
      (⟨val' .qpq, val' .qpp⟩ : PolyQP) =
        (List.range n).foldl (fun qp j => qp.setR alpha (base + j) ((s.rows K.polyRPool).row j)) (⟨val .qpq, val .qpp⟩ : PolyQP) ∧
      ∀ k, k ≠ .qpq → k ≠ .qpp → val' k = val k := by
  have hrq : K.polyRPool ≠ K.polyQPPool.q := fun e => by simpa using hinj (a₁ := .r) (a₂ := .qpq) e
  have hrp : K.polyRPool ≠ K.polyQPPool.p := fun e => by simpa using hinj (a₁ := .r) (a₂ := .qpp) e
  have loop := forEach_range (σ := σ) (n := n) (f := fun j => if base + j < alpha then copyRow K.polyQPPool.p (base + j) K.polyRPool j
      else copyRow K.polyQPPool.q (base + j - alpha) K.polyRPool j)
    (g := fun (qp : PolyQP) j => qp.setR alpha (base + j) ((s.rows K.polyRPool).row j))
    (P := fun _ s' x => ∃ v, St (fkAdr K c0 c1 nb nl) (fkLvl levelQ K.ksw.params.levelT L lq lp nb nl) s0 s' v ∧
      (⟨v .qpq, v .qpp⟩ : PolyQP) = x ∧ s'.rows K.polyRPool = s.rows K.polyRPool ∧ ∀ k, k ≠ .qpq → k ≠ .qpp → v k = val k)
    (s := s) (b := ⟨val .qpq, val .qpp⟩) ?_ ⟨val, h, rfl, rfl, fun _ _ _ => rfl⟩
  · obtain ⟨v, g, e, -, o⟩ := loop
    exact ⟨v, g, e, o⟩
  · rintro j hj s' x ⟨v, g, e, er, o⟩
    have eq : s'.rows K.polyQPPool.q = v .qpq := (g.same .qpq).eq ((g.len .qpq).trans_le hLq)
    have ep : s'.rows K.polyQPPool.p = v .qpp := (g.same .qpp).eq ((g.len .qpp).trans_le hLp)
    subst e
    unfold PolyQP.setR
    split
    · rw [after_copyRow, er, ep]
      refine ⟨_, g.set hinj .qpp (SameUpTo.refl _ _) (by rw [List.length_set]; exact (congrArg List.length ep).symm), ?_, ?_, ?_⟩
      · simp
      · rw [Store.rows_setRows_ne _ _ hrp, er]
      · exact fun k k1 k2 => (Function.update_of_ne k2 ..).trans (o k k1 k2)
    · rw [after_copyRow, er, eq]
      refine ⟨_, g.set hinj .qpq (SameUpTo.refl _ _) (by rw [List.length_set]; exact (congrArg List.length eq).symm), ?_, ?_, ?_⟩
      · simp
      · rw [Store.rows_setRows_ne _ _ hrq, er]
      · exact fun k k1 k2 => (Function.update_of_ne k1 ..).trans (o k k1 k2)

omit hf in
/-- one block moved -/
theorem St.fmove (hLq : (s0.rows K.polyQPPool.q).length ≤ lq) (hLp : (s0.rows K.polyQPPool.p).length ≤ lp) (i : Fin nl)
    (h : St (fkAdr K c0 c1 nb nl) (fkLvl levelQ K.ksw.params.levelT L lq lp nb nl) s0 s val) {A : Rows}
    (hA : val (.t2 i) = K.ksw.params.ringT.invNttLazyLvl K.ksw.params.levelT A A) :
    ∃ val', St (fkAdr K c0 c1 nb nl) (fkLvl levelQ K.ksw.params.levelT L lq lp nb nl) s0 (after (K.moveCall levelQ i) s) val' ∧
      (⟨val' .qpq, val' .qpp⟩ : PolyQP) =
        (List.range (blockCount K.ksw.params.gamma (levelQ + K.ksw.params.alpha + 1) i)).foldl (fun qp j =>
          qp.setR K.ksw.params.alpha (i * K.ksw.params.gamma + j) ((K.ksw.blockToR levelQ i A).row j)) (⟨val .qpq, val .qpp⟩ : PolyQP) ∧
      ∀ k, k ≠ .qpq → k ≠ .qpp → k ≠ .r → k ≠ .t2 i → val' k = val k := by
  unfold FKsMem.moveCall FKeySwitcher.blockToR
  dsimp only
  rw [← hA]
  simp only [after_seq]
  set lR := blockCount K.ksw.params.gamma (levelQ + K.ksw.params.alpha + 1) i - 1 with hlR
  set T := K.ksw.params.ringT.addLvl K.ksw.params.levelT (val (.t2 i)) K.ksw.halfTPolyT (val (.t2 i)) with hT
  have g1 := h.call hinj (.t2 i) (rw_addConst K.ksw.params.ringT (fkAdr K c0 c1 nb nl (.t2 i)) K.ksw.halfTPolyT) (y := T)
    ((h.same (.t2 i)).wr fun u _ hu => by rw [(h.same (.t2 i)).2 u hu])
  change St _ _ _ (after (ringCall K.ksw.params.levelT (K.t2 i) fun s => K.ksw.params.ringT.addLvl K.ksw.params.levelT (s.rows (K.t2 i))
    K.ksw.halfTPolyT (s.rows (K.t2 i))) s) _ at g1
  set s1 := after (ringCall K.ksw.params.levelT (K.t2 i) fun s => K.ksw.params.ringT.addLvl K.ksw.params.levelT (s.rows (K.t2 i))
    K.ksw.halfTPolyT (s.rows (K.t2 i))) s with hs1
  have hne : fkAdr K c0 c1 nb nl (.t2 i) ≠ fkAdr K c0 c1 nb nl .r := fun e => by simpa using hinj e
  have rw2 := rw_modUpQP (σ := σ) (level := lR) (fkAdr K c0 c1 nb nl (.t2 i)) (K.ksw.convTRi.getD i K.ksw.convQP) K.ksw.params.levelT hne
  have g2 := g1.call hinj .r rw2 (SameUpTo.refl _ _)
  have e2 := after_ringCall (σ := σ) s1 rw2
  change St _ _ _ (after (ringCall lR K.polyRPool fun s => (K.ksw.convTRi.getD i K.ksw.convQP).modUpQtoP K.ksw.params.levelT lR
    (s.rows (K.t2 i)) (s.rows K.polyRPool)) s1) _ at g2
  change after (ringCall lR K.polyRPool fun s => (K.ksw.convTRi.getD i K.ksw.convQP).modUpQtoP K.ksw.params.levelT lR
    (s.rows (K.t2 i)) (s.rows K.polyRPool)) s1 = _ at e2
  set s2 := after (ringCall lR K.polyRPool fun s => (K.ksw.convTRi.getD i K.ksw.convQP).modUpQtoP K.ksw.params.levelT lR
    (s.rows (K.t2 i)) (s.rows K.polyRPool)) s1 with hs2
  set M := (K.ksw.convTRi.getD i K.ksw.convQP).modUpQtoP K.ksw.params.levelT lR T
    (newPoly K.ksw.params.ringR.n K.ksw.params.ringR.subs.length) with hM
  have i2 : SameUpTo lR (s2.rows K.polyRPool) M := by
    have : s2.rows K.polyRPool = (K.ksw.convTRi.getD i K.ksw.convQP).modUpQtoP K.ksw.params.levelT lR (s1.rows (K.t2 i)) (s1.rows K.polyRPool) := by
      rw [e2]
      exact Store.rows_setRows_self ..
    rw [this]
    refine SameUpTo.modUpQP _ ?_ ?_
    · have := g1.same (.t2 i)
      rw [Function.update_self] at this
      exact this
    · rw [newPoly, List.length_replicate]
      exact (g1.len .r).trans hK.r
  have rw3 := rw_reduce (σ := σ) (level := lR) (out := fkAdr K c0 c1 nb nl .r) (K.ksw.ringRi.getD i K.ksw.params.ringR) (fkAdr K c0 c1 nb nl .r)
  have g3 := g2.call hinj .r rw3 (SameUpTo.refl _ _)
  have e3 := after_ringCall (σ := σ) s2 rw3
  change St _ _ _ (after (ringCall lR K.polyRPool fun s => (K.ksw.ringRi.getD i K.ksw.params.ringR).reduceLvl lR (s.rows K.polyRPool)
    (s.rows K.polyRPool)) s2) _ at g3
  change after (ringCall lR K.polyRPool fun s => (K.ksw.ringRi.getD i K.ksw.params.ringR).reduceLvl lR (s.rows K.polyRPool)
    (s.rows K.polyRPool)) s2 = _ at e3
  set s3 := after (ringCall lR K.polyRPool fun s => (K.ksw.ringRi.getD i K.ksw.params.ringR).reduceLvl lR (s.rows K.polyRPool)
    (s.rows K.polyRPool)) s2 with hs3
  have i3 : SameUpTo lR (s3.rows K.polyRPool) ((K.ksw.ringRi.getD i K.ksw.params.ringR).reduceLvl lR M M) := by
    have : s3.rows K.polyRPool = (K.ksw.ringRi.getD i K.ksw.params.ringR).reduceLvl lR (s2.rows K.polyRPool) (s2.rows K.polyRPool) := by
      rw [e3]
      exact Store.rows_setRows_self ..
    rw [this]
    exact i2.reduce _
  obtain ⟨v, g4, r4, o4⟩ := g3.fcopies hinj hLq hLp (i * K.ksw.params.gamma) K.ksw.params.alpha
    (blockCount K.ksw.params.gamma (levelQ + K.ksw.params.alpha + 1) i)
  refine ⟨v, g4, ?_, fun k k1 k2 k3 k4 => ?_⟩
  · rw [r4]
    simp only [ne_eq, reduceCtorEq, not_false_eq_true, Function.update_of_ne]
    refine foldl_congr_mem (fun x j hj => ?_) _
    rw [i3.2 j (by rw [List.mem_range] at hj; omega)]
  · rw [o4 k k1 k2, Function.update_of_ne k3, Function.update_of_ne k3, Function.update_of_ne k4]

omit hf in
/-- all blocks moved -/
theorem St.fmoves (hLq : (s0.rows K.polyQPPool.q).length ≤ lq) (hLp : (s0.rows K.polyQPPool.p).length ≤ lp) {A : ℕ → Rows}
    (h : St (fkAdr K c0 c1 nb nl) (fkLvl levelQ K.ksw.params.levelT L lq lp nb nl) s0 s val)
    (hA : ∀ i : Fin nl, val (.t2 i) = K.ksw.params.ringT.invNttLazyLvl K.ksw.params.levelT (A i) (A i)) :
    ∃ val', St (fkAdr K c0 c1 nb nl) (fkLvl levelQ K.ksw.params.levelT L lq lp nb nl) s0
        (after (forEach (K.moveCall levelQ) (List.range nl)) s) val' ∧
      (⟨val' .qpq, val' .qpp⟩ : PolyQP) = (List.range nl).foldl (fun qp i =>
        (List.range (blockCount K.ksw.params.gamma (levelQ + K.ksw.params.alpha + 1) i)).foldl (fun qp j =>
          qp.setR K.ksw.params.alpha (i * K.ksw.params.gamma + j) ((K.ksw.blockToR levelQ i (A i)).row j)) qp)
        (⟨val .qpq, val .qpp⟩ : PolyQP) ∧
      ∀ k, k ≠ .qpq → k ≠ .qpp → k ≠ .r → (∀ i, k ≠ .t2 i) → val' k = val k := by
  have loop := forEach_range (σ := σ) (n := nl) (f := K.moveCall levelQ)
    (g := fun (qp : PolyQP) i => (List.range (blockCount K.ksw.params.gamma (levelQ + K.ksw.params.alpha + 1) i)).foldl (fun qp j =>
          qp.setR K.ksw.params.alpha (i * K.ksw.params.gamma + j) ((K.ksw.blockToR levelQ i (A i)).row j)) qp)
    (P := fun n s' x => ∃ v, St (fkAdr K c0 c1 nb nl) (fkLvl levelQ K.ksw.params.levelT L lq lp nb nl) s0 s' v ∧
      (⟨v .qpq, v .qpp⟩ : PolyQP) = x ∧ (∀ i : Fin nl, n ≤ i.1 → v (.t2 i) = val (.t2 i)) ∧
      ∀ k, k ≠ .qpq → k ≠ .qpp → k ≠ .r → (∀ i, k ≠ .t2 i) → v k = val k)
    (s := s) (b := ⟨val .qpq, val .qpp⟩) ?_ ⟨val, h, rfl, fun _ _ => rfl, fun _ _ _ _ _ => rfl⟩
  · obtain ⟨v, g, e, -, o⟩ := loop
    exact ⟨v, g, e, o⟩
  · rintro n hn s' x ⟨v, g, e, e2, o⟩
    subst e
    obtain ⟨v', g', r', o'⟩ := g.fmove hinj hK hLq hLp ⟨n, hn⟩ ((e2 ⟨n, hn⟩ le_rfl).trans (hA _))
    refine ⟨v', g', r', fun i hi => ?_, fun k k1 k2 k3 k4 => (o' k k1 k2 k3 (k4 _)).trans (o k k1 k2 k3 k4)⟩
    have e : i ≠ ⟨n, hn⟩ := fun h => by rw [h] at hi; simp at hi
    rw [o' _ (by simp) (by simp) (by simp) (by simpa using e)]
    exact e2 i (by omega)

omit hinj in
theorem FKsMem.accumulate_getD (dig : List Rows) (bg : FSwitchingKey) {j : ℕ} (hj : j < nl) :
    (K.ksw.accumulate levelQ dig bg).getD j [] = K.ksw.params.ringT.accEnd K.ksw.params.levelT
      (overflowMargin K.ksw.params.ringT.moduli K.ksw.params.levelT >>> 1) nb
      (K.acc (overflowMargin K.ksw.params.ringT.moduli K.ksw.params.levelT >>> 1) (fun i => dig.getD i []) (fun i j => bg.at i j) nb j) := by
  have hjl : j < K.ksw.ringRi.length := by rw [← hK.blocks]; exact hj.trans_le hf.nl_le
  unfold FKeySwitcher.accumulate FKsMem.acc
  dsimp only
  rw [hf.beta, hf.blockLen, foldl_mapIdx, getD_mapIdx _ _ _ (by simpa using hjl), if_pos hj, getD_mapIdx _ _ _ (by simpa using hjl), if_pos hj]
  have e0 : (List.replicate K.ksw.ringRi.length (newPoly K.ksw.params.ringT.n K.ksw.params.ringT.subs.length)).getD j []
      = newPoly K.ksw.params.ringT.n K.ksw.params.ringT.subs.length := by
    simp [List.getD, hjl]
  rw [e0]

/-- `externalProduct` -/
theorem run_fexternalProduct {kc : FkC nb nl} (hkc : kc = .c0 ∨ kc = .c1) {bg : FKeyRef}
    (hbg : ∀ i < nb, ∀ j < nl, ∀ k, bg.at i j ≠ fkAdr K c0 c1 nb nl k) {D : List Rows}
    (hD : ∀ i : Fin nb, SameUpTo K.ksw.params.levelT (s0.rows (K.t1 i)) (D.getD i [])) {B : FSwitchingKey}
    (hB : ∀ i < nb, ∀ j < nl, s0.rows (bg.at i j) = B.at i j) :
    ∃ val', St (fkAdr K c0 c1 nb nl) (fkLvl levelQ K.ksw.params.levelT L levelQ (K.ksw.params.alpha - 1) nb nl) s0
        (after (K.externalProduct levelQ bg (fkAdr K c0 c1 nb nl kc)) s0) val' ∧
      val' kc = K.ksw.externalProduct levelQ D B (s0.rows (fkAdr K c0 c1 nb nl kc)) ∧
      (∀ i : Fin nb, val' (.t1 i) = D.getD i []) ∧ ∀ k, k = .c0 ∨ k = .c1 → k ≠ kc → val' k = s0.rows (fkAdr K c0 c1 nb nl k) := by
  have n1 : ∀ j, kc ≠ .t1 j := by rcases hkc with rfl | rfl <;> simp
  have n2 : ∀ j, kc ≠ .t2 j := by rcases hkc with rfl | rfl <;> simp
  have n3 : kc ≠ .qpq := by rcases hkc with rfl | rfl <;> simp
  have n4 : kc ≠ .qpp := by rcases hkc with rfl | rfl <;> simp
  have n5 : kc ≠ .r := by rcases hkc with rfl | rfl <;> simp
  have n6 : kc ≠ .beq := by rcases hkc with rfl | rfl <;> simp
  set lq := max levelQ (s0.rows K.polyQPPool.q).length with hlq
  set lp := max (K.ksw.params.alpha - 1) (s0.rows K.polyQPPool.p).length with hlp
  unfold FKsMem.externalProduct FKeySwitcher.externalProduct FKeySwitcher.externalProductQP
  dsimp only
  rw [hf.beta, hf.blockLen]
  set m := overflowMargin K.ksw.params.ringT.moduli K.ksw.params.levelT >>> 1 with hm
  simp only [after_seq]
  have g0 : St (fkAdr K c0 c1 nb nl) (fkLvl levelQ K.ksw.params.levelT L lq lp nb nl) s0 s0
      (fun k => match k with | .t1 i => D.getD i [] | k => s0.rows (fkAdr K c0 c1 nb nl k)) := by
    refine ⟨fun k => ?_, fun _ _ => rfl, fun _ => rfl, fun _ => rfl⟩
    cases k with
    | t1 i => exact hD i
    | _ => exact SameUpTo.refl _ _
  obtain ⟨v1, g1, r1, o1⟩ := g0.fproducts hinj hK hf m hbg (D := fun i => D.getD i []) fun _ => rfl
  obtain ⟨v2, g2, r2, o2⟩ : ∃ v2, St (fkAdr K c0 c1 nb nl) (fkLvl levelQ K.ksw.params.levelT L lq lp nb nl) s0
      (after (doIf (nb % m ≠ 0) (forEach (fun i => ringCall K.ksw.params.levelT (K.t2 i) fun s => K.ksw.params.ringT.reduceLvl
        K.ksw.params.levelT (s.rows (K.t2 i)) (s.rows (K.t2 i))) (List.range nl))) (after (K.productsCall m nb nl bg) s0)) v2 ∧
      (∀ j : Fin nl, v2 (.t2 j) = K.ksw.params.ringT.accEnd K.ksw.params.levelT m nb (v1 (.t2 j))) ∧ ∀ k, (∀ j, k ≠ .t2 j) → v2 k = v1 k := by
    unfold doIf Ring.accEnd
    split
    · exact g1.feach hinj (op := fun x => K.ksw.params.ringT.reduceLvl K.ksw.params.levelT x x) (fun a => rw_reduce _ a)
        fun x y hxy => hxy.reduce _
    · exact ⟨v1, g1, fun _ => rfl, fun _ _ => rfl⟩
  obtain ⟨v3, g3, r3, o3⟩ := g2.feach hinj (op := fun x => K.ksw.params.ringT.invNttLazyLvl K.ksw.params.levelT x x)
    (fun a => rw_invNttLazy _ a) fun x y hxy => hxy.invNttLazy _
  have hBB : ∀ j : Fin nl, v2 (.t2 j) = (K.ksw.accumulate levelQ D B).getD j [] := fun j => by
    rw [FKsMem.accumulate_getD hK hf _ _ j.2, r2, r1]
    congr 1
    unfold FKsMem.acc
    refine foldl_congr_mem (fun x i hi => ?_) _
    dsimp only
    rw [hB i (List.mem_range.1 hi) j j.2]
  obtain ⟨v4, g4, r4, o4⟩ := g3.fmoves hinj hK (le_max_right _ _) (le_max_right _ _) (A := fun i => (K.ksw.accumulate levelQ D B).getD i [])
    fun i => by rw [r3, hBB]
  set x0 : PolyQP := ⟨newPoly K.ksw.params.ringQ.n K.ksw.params.ringQ.subs.length, newPoly K.ksw.params.ringP.n K.ksw.params.ringP.subs.length⟩ with hx0
  have hnl0 : nl = 0 ∨ (nl - 1) * K.ksw.params.gamma < levelQ + K.ksw.params.alpha + 1 := by
    rcases Nat.eq_zero_or_pos nl with h | h
    · exact Or.inl h
    · exact Or.inr (hf.block.1 (by omega))
  have hcnt : levelQ + K.ksw.params.alpha + 1 ≤ K.ksw.params.alpha + K.ksw.params.ringQ.subs.length := by have := hf.lvl; omega
  have s1 := setR_blocks (x := ⟨v3 .qpq, v3 .qpp⟩) (alpha := K.ksw.params.alpha) (lenQ := K.ksw.params.ringQ.subs.length)
    ⟨(g3.vlen .qpp).trans hK.qpp, (g3.vlen .qpq).trans hK.qpq⟩ K.ksw.params.gamma (levelQ + K.ksw.params.alpha + 1) hf.gamma hcnt
    (fun i j => (K.ksw.blockToR levelQ i ((K.ksw.accumulate levelQ D B).getD i [])).row j) nl hnl0
  have s2 := setR_blocks (x := x0) (alpha := K.ksw.params.alpha) (lenQ := K.ksw.params.ringQ.subs.length)
    ⟨List.length_replicate, List.length_replicate⟩ K.ksw.params.gamma (levelQ + K.ksw.params.alpha + 1) hf.gamma hcnt
    (fun i j => (K.ksw.blockToR levelQ i ((K.ksw.accumulate levelQ D B).getD i [])).row j) nl hnl0
  rw [← r4] at s1
  set X := (List.range nl).foldl (fun qp i => (List.range (blockCount K.ksw.params.gamma (levelQ + K.ksw.params.alpha + 1) i)).foldl (fun qp j =>
      PolyQP.setR qp K.ksw.params.alpha (i * K.ksw.params.gamma + j) ((K.ksw.blockToR levelQ i ((K.ksw.accumulate levelQ D B).getD i [])).row j)) qp) x0
    with hX
  have hu : ∀ u < levelQ + K.ksw.params.alpha + 1, u < nl * K.ksw.params.gamma := fun u hu => by
    by_contra hc
    have : nl * K.ksw.params.gamma < levelQ + K.ksw.params.alpha + 1 := by omega
    exact absurd (hf.block.2 this) (lt_irrefl _)
  have hXq : SameUpTo levelQ (v4 .qpq) X.q := by
    refine ⟨s1.1.2.trans s2.1.2.symm, fun u hu' => ?_⟩
    have e1 := s1.2 (u + K.ksw.params.alpha) (by omega) (hu _ (by omega))
    have e2 := s2.2 (u + K.ksw.params.alpha) (by omega) (hu _ (by omega))
    unfold PolyQP.getR at e1 e2
    rw [if_neg (by omega), Nat.add_sub_cancel] at e1 e2
    exact e1.trans e2.symm
  have hal := hf.alpha
  have hXp : SameUpTo (K.ksw.params.alpha - 1) (v4 .qpp) X.p := by
    refine ⟨s1.1.1.trans s2.1.1.symm, fun u hu' => ?_⟩
    have e1 := s1.2 u (by omega) (hu _ (by omega))
    have e2 := s2.2 u (by omega) (hu _ (by omega))
    unfold PolyQP.getR at e1 e2
    rw [if_pos (by omega)] at e1 e2
    exact e1.trans e2.symm
  have g5 : St (fkAdr K c0 c1 nb nl) (fkLvl levelQ K.ksw.params.levelT L levelQ (K.ksw.params.alpha - 1) nb nl) s0 _
      (Function.update (Function.update v4 .qpq X.q) .qpp X.p) := g4.relax (fun k => by
        cases k <;> first | exact le_rfl | exact le_max_left _ _) fun k => by
      by_cases e1 : k = .qpp
      · subst e1
        rw [Function.update_self]
        exact hXp
      · rw [Function.update_of_ne e1]
        by_cases e2 : k = .qpq
        · subst e2
          rw [Function.update_self]
          exact hXq
        · rw [Function.update_of_ne e2]
          exact SameUpTo.refl _ _
  have i5 := g5.same .qpq
  have g6 := g5.call hinj .qpq (rw_subConst (level := levelQ) K.ksw.params.ringQ (fkAdr K c0 c1 nb nl .qpq) K.ksw.halfTPolyQP.q)
    (y := K.ksw.params.ringQ.subLvl levelQ X.q K.ksw.halfTPolyQP.q X.q) (by
      rw [Function.update_of_ne (by simp), Function.update_self] at i5
      exact i5.wr fun u _ hu => by rw [i5.2 u hu])
  have i6 := g6.same .qpp
  have g7 := g6.call hinj .qpp (rw_subConst (level := K.ksw.params.alpha - 1) K.ksw.params.ringP (fkAdr K c0 c1 nb nl .qpp) K.ksw.halfTPolyQP.p)
    (y := K.ksw.params.ringP.subLvl (K.ksw.params.alpha - 1) X.p K.ksw.halfTPolyQP.p X.p) (by
      rw [Function.update_of_ne (by simp), Function.update_self] at i6
      exact i6.wr fun u _ hu => by rw [i6.2 u hu])
  obtain ⟨v8, g8, o8, r8⟩ := g7.modDown hinj K.ksw.convQP (kb := .beq) (kq := .qpq) (kp := .qpp) (ko := kc) (levelQ := levelQ)
    (levelP := K.ksw.params.alpha - 1) (by simp) (by simp) n6 rfl le_rfl le_rfl hK.be K.be.p
  refine ⟨v8, g8, ?_, fun i => ?_, fun k hk hne => ?_⟩
  · rw [r8, Function.update_self, Function.update_of_ne (by simp), Function.update_self, Function.update_of_ne n4, Function.update_of_ne n3,
      Function.update_of_ne n4, Function.update_of_ne n3, o4 kc n3 n4 n5 n2, o3 kc n2, o2 kc n2, o1 kc n2]
    congr 1
    rcases hkc with rfl | rfl <;> rfl
  · rw [o8 _ (by simp) (n1 i).symm, Function.update_of_ne (by simp), Function.update_of_ne (by simp), Function.update_of_ne (by simp),
      Function.update_of_ne (by simp), o4 _ (by simp) (by simp) (by simp) (by simp), o3 _ (by simp), o2 _ (by simp), o1 _ (by simp)]
  · have m2 : ∀ j, k ≠ .t2 j := by rcases hk with rfl | rfl <;> simp
    have m3 : k ≠ .qpq := by rcases hk with rfl | rfl <;> simp
    have m4 : k ≠ .qpp := by rcases hk with rfl | rfl <;> simp
    have m5 : k ≠ .r := by rcases hk with rfl | rfl <;> simp
    have m6 : k ≠ .beq := by rcases hk with rfl | rfl <;> simp
    rw [o8 k m6 hne, Function.update_of_ne m4, Function.update_of_ne m3, Function.update_of_ne m4, Function.update_of_ne m3,
      o4 k m3 m4 m5 m2, o3 k m2, o2 k m2, o1 k m2]
    rcases hk with rfl | rfl <;> rfl

end

/-! ## `SwitchKey` -/

theorem St.lens {ι : Type} {adr lvl : ι → ℕ} {s0 s : Store σ} {val : ι → Rows} (h : St adr lvl s0 s val) (a : ℕ) :
    (s.rows a).length = (s0.rows a).length := by
  by_cases ha : ∀ k, a ≠ adr k
  · rw [h.rows ha]
  · push Not at ha
    obtain ⟨k, rfl⟩ := ha
    exact h.len k

theorem FKsMem.Ready.mono {K : FKsMem} {s s' : Store σ} (h : K.Ready s) (hl : ∀ a, (s'.rows a).length = (s.rows a).length) : K.Ready s' :=
  ⟨fun a ha => (hl a).trans (h.t1 a ha), fun a ha => (hl a).trans (h.t2 a ha), (hl _).trans h.qpq, (hl _).trans h.qpp, (hl _).trans h.q,
    (hl _).trans h.r, (hl _).trans h.be, h.blocks⟩

theorem KsMem.Ready.mono {K : KsMem} {s s' : Store σ} (h : K.Ready s) (hl : ∀ a, (s'.rows a).length = (s.rows a).length) : K.Ready s' :=
  ⟨h.beQ, h.beP, fun x hx => ⟨(hl _).trans (h.pool x hx).1, (hl _).trans (h.pool x hx).2⟩, h.six, (hl _).trans h.inv, (hl _).trans h.q,
    (hl _).trans h.p⟩

/-- the key has `nb` digits of `nl` blocks -/
def FKeyFits (bg : FKeyRef) (nb nl : ℕ) : Prop := nb ≤ bg.length ∧ ∀ i < nb, nl ≤ (bg.getD i []).length

section
variable {bg : FKeyRef} {nb nl : ℕ} (h : FKeyFits bg nb nl) {i j : ℕ} (hi : i < nb) (hj : j < nl)
include h hi hj

theorem FKeyFits.mem : bg.at i j ∈ bg.flatten := by
  have h1 := hi.trans_le h.1
  have h2 := hj.trans_le (h.2 i hi)
  unfold FKeyRef.at
  rw [getD_lt' h2]
  refine List.mem_flatten.2 ⟨_, ?_, List.getElem_mem h2⟩
  rw [getD_lt' h1]
  exact List.getElem_mem _

theorem FKeyFits.at (s : Store σ) : s.rows (bg.at i j) = (s.fkey bg).at i j := by
  have h1 := hi.trans_le h.1
  have h2 := hj.trans_le (h.2 i hi)
  rw [getD_lt' h1] at h2
  unfold FKeyRef.at FSwitchingKey.at Store.fkey
  simp [List.getD_eq_getElem?_getD, h1, h2]

end

theorem fkey_congr {bg : FKeyRef} {s s' : Store σ} (h : ∀ a ∈ bg.flatten, s'.rows a = s.rows a) : s'.fkey bg = s.fkey bg := by
  unfold Store.fkey
  refine List.map_congr_left fun l hl => List.map_congr_left fun a ha => h a (List.mem_flatten.2 ⟨l, hl, ha⟩)

section
variable {K : FKsMem} {levelQ nb nl a c0 c1 : ℕ} {s : Store σ} {bg0 bg1 : FKeyRef}

/-- a polynomial in NTT form is refused -/
theorem run_fswitchKey_panic (hn : (s.poly a).isNTT = true) : (K.switchKey levelQ a bg0 bg1 c0 c1).run s = (false, s) := by
  unfold FKsMem.switchKey
  rw [run_bind', run_rd]
  dsimp only
  rw [if_pos hn]
  rfl

theorem run_fswitchKey (hinj : Function.Injective (fkAdr K c0 c1 nb nl)) (hK : K.Ready s) (hf : K.Fits levelQ nb nl)
    (ha : ∀ k, a ≠ fkAdr K c0 c1 nb nl k) (h0 : FKeyFits bg0 nb nl) (h1 : FKeyFits bg1 nb nl)
    (hb0 : ∀ x ∈ bg0.flatten, ∀ k, x ≠ fkAdr K c0 c1 nb nl k) (hb1 : ∀ x ∈ bg1.flatten, ∀ k, x ≠ fkAdr K c0 c1 nb nl k)
    (hn : (s.poly a).isNTT = false) :
    ((K.switchKey levelQ a bg0 bg1 c0 c1).run s).1 = true ∧
    (∃ lvl val, St (fkAdr K c0 c1 nb nl) lvl s (after (K.switchKey levelQ a bg0 bg1 c0 c1) s) val) ∧
    K.ksw.switchKey levelQ false (s.rows a) (s.fkey bg0) (s.fkey bg1) (s.rows c0) (s.rows c1) =
      some ((after (K.switchKey levelQ a bg0 bg1 c0 c1) s).rows c0, (after (K.switchKey levelQ a bg0 bg1 c0 c1) s).rows c1) := by
  set L := max (s.rows c0).length (s.rows c1).length with hL
  have hnf : ¬ (s.poly a).isNTT = true := by rw [hn]; simp
  obtain ⟨v1, g1, r1, o1⟩ := (St.start (fkAdr K c0 c1 nb nl) (fkLvl levelQ K.ksw.params.levelT L 0 0 nb nl) s).fdigits hinj hK hf ha
  set s1 := after (forEach (K.digitCall levelQ a) (List.range nb)) s with hs1
  set D := (List.range nb).map (K.ksw.digit levelQ (s.rows a)) with hD
  have hDD : ∀ i : Fin nb, D.getD i [] = K.ksw.digit levelQ (s.rows a) i := fun i => by
    rw [hD, getD_lt' (by simp), List.getElem_map, List.getElem_range]
  have e0 : s1.fkey bg0 = s.fkey bg0 := fkey_congr fun x hx => g1.rows (hb0 x hx)
  have k0 : s1.rows c0 = s.rows c0 := by
    have := g1.same .c0
    rw [o1 .c0 (by simp) (by simp)] at this
    exact this.eq ((g1.lens _).trans_le (le_max_left _ _))
  have k1 : s1.rows c1 = s.rows c1 := by
    have := g1.same .c1
    rw [o1 .c1 (by simp) (by simp)] at this
    exact this.eq ((g1.lens _).trans_le (le_max_right _ _))
  obtain ⟨v2, g2, r2, d2, o2⟩ := run_fexternalProduct (L := L) hinj (hK.mono g1.lens) hf (kc := .c0) (Or.inl rfl) (bg := bg0)
    (fun i hi j hj => hb0 _ (h0.mem hi hj)) (D := D) (fun i => by
      have := g1.same (.t1 i)
      rw [r1] at this
      rw [hDD]
      exact this) (B := s.fkey bg0) (fun i hi j hj => by rw [h0.at hi hj s1, e0])
  change St _ _ _ (after (K.externalProduct levelQ bg0 c0) s1) _ at g2
  set s2 := after (K.externalProduct levelQ bg0 c0) s1 with hs2
  have g12 := g1.comp g2
  have e1 : s2.fkey bg1 = s.fkey bg1 := fkey_congr fun x hx => g12.rows (hb1 x hx)
  have m0 : s2.rows c0 = K.ksw.externalProduct levelQ D (s.fkey bg0) (s.rows c0) := by
    have := (g2.same .c0).eq ((g12.lens _).trans_le (le_max_left _ _))
    rw [r2] at this
    rw [← k0]
    exact this
  have m1 : s2.rows c1 = s.rows c1 := by
    have := (g2.same .c1).eq ((g12.lens _).trans_le (le_max_right _ _))
    rw [o2 .c1 (Or.inr rfl) (by simp)] at this
    exact Eq.trans this k1
  obtain ⟨v3, g3, r3, d3, o3⟩ := run_fexternalProduct (L := L) hinj (hK.mono g12.lens) hf (kc := .c1) (Or.inr rfl) (bg := bg1)
    (fun i hi j hj => hb1 _ (h1.mem hi hj)) (D := D) (fun i => by
      have := g2.same (.t1 i)
      rw [d2] at this
      exact this) (B := s.fkey bg1) (fun i hi j hj => by rw [h1.at hi hj s2, e1])
  change St _ _ _ (after (K.externalProduct levelQ bg1 c1) s2) _ at g3
  set s3 := after (K.externalProduct levelQ bg1 c1) s2 with hs3
  have g123 := g12.comp g3
  have n0 : s3.rows c0 = s2.rows c0 := by
    have := (g3.same .c0).eq ((g123.lens _).trans_le (le_max_left _ _))
    rw [o3 .c0 (Or.inl rfl) (by simp)] at this
    exact this
  have n1 : s3.rows c1 = K.ksw.externalProduct levelQ D (s.fkey bg1) (s.rows c1) := by
    have := (g3.same .c1).eq ((g123.lens _).trans_le (le_max_right _ _))
    rw [r3] at this
    rw [← m1]
    exact this
  have hrun : (K.switchKey levelQ a bg0 bg1 c0 c1).run s = (true, s3) := by
    unfold FKsMem.switchKey
    rw [run_bind', run_rd]
    dsimp only
    rw [if_neg hnf, hf.beta, run_bind', run_bind', run_bind']
    rfl
  have haft : after (K.switchKey levelQ a bg0 bg1 c0 c1) s = s3 := by
    unfold after
    rw [hrun]
  rw [hrun, haft]
  refine ⟨rfl, ⟨_, _, g123⟩, ?_⟩
  unfold FKeySwitcher.switchKey
  rw [if_neg (by simp), hf.beta, n0, m0, n1]

end

end FastKsw
