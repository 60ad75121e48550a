import Verif.Lemmas.Thread

/-!
# Runs of the encryptors of `Model/Thread.lean`: they give what the functional models of `Encrypt.lean` give, whatever the buffers hold
-/

namespace FastKsw

variable {σ : Type}

/-! ## Polynomials that have the same rows up to a level -/

/-- as many rows, and the same ones up to the level -/
def SameUpTo (level : ℕ) (a b : Rows) : Prop := a.length = b.length ∧ ∀ i ≤ level, a.row i = b.row i

section
variable {level : ℕ} {a a' b b' c c' : Rows}

theorem SameUpTo.refl (level : ℕ) (a : Rows) : SameUpTo level a a := ⟨rfl, fun _ _ => rfl⟩

theorem SameUpTo.mono {l' : ℕ} (h : SameUpTo level a b) (hl : l' ≤ level) : SameUpTo l' a b := ⟨h.1, fun i hi => h.2 i (hi.trans hl)⟩

theorem row_writeLvl' {l : ℕ} {f : ℕ → Row} {out : Rows} {i : ℕ} (hi : i < out.length) :
    (writeLvl l f out).row i = if i ≤ l then f i else out.row i := by
  rw [writeLvl, row_mapIdx _ _ _ hi]

theorem row_len {p : Rows} {i : ℕ} (h : p.length ≤ i) : p.row i = [] := by
  simp [Rows.row, List.getD, h]

theorem SameUpTo.writeLvl' {l : ℕ} {f g : ℕ → Row} (h : SameUpTo level a b) (hf : ∀ i ≤ level, f i = g i) :
    SameUpTo level (writeLvl l f a) (writeLvl l g b) := by
  refine ⟨by rw [length_writeLvl, length_writeLvl, h.1], fun i hi => ?_⟩
  by_cases hl : i < a.length
  · rw [row_writeLvl' hl, row_writeLvl' (h.1 ▸ hl), hf i hi, h.2 i hi]
  · rw [row_len (by rw [length_writeLvl]; omega), row_len (by rw [length_writeLvl, ← h.1]; omega)]

theorem SameUpTo.take (h : SameUpTo level a b) : a.take (level + 1) = b.take (level + 1) := by
  refine List.ext_getElem (by rw [List.length_take, List.length_take, h.1]) fun i h1 h2 => ?_
  rw [List.length_take] at h1 h2
  rw [List.getElem_take, List.getElem_take, getElem_eq_row (by omega), getElem_eq_row (by omega), h.2 i (by omega)]

variable (r : Ring)

theorem SameUpTo.mul (h1 : SameUpTo level a a') (h2 : SameUpTo level b b') (h3 : SameUpTo level c c') :
    SameUpTo level (r.mulCoeffsMontgomeryLvl level a b c) (r.mulCoeffsMontgomeryLvl level a' b' c') :=
  h3.writeLvl' fun i hi => by rw [h1.2 i hi, h2.2 i hi]

theorem SameUpTo.add (h1 : SameUpTo level a a') (h2 : SameUpTo level b b') (h3 : SameUpTo level c c') :
    SameUpTo level (r.addLvl level a b c) (r.addLvl level a' b' c') :=
  h3.writeLvl' fun i hi => by rw [h1.2 i hi, h2.2 i hi]

theorem SameUpTo.neg (h1 : SameUpTo level a a') (h3 : SameUpTo level c c') :
    SameUpTo level (r.negLvl level a c) (r.negLvl level a' c') :=
  h3.writeLvl' fun i hi => by rw [h1.2 i hi]

theorem SameUpTo.mform (h1 : SameUpTo level a a') (h3 : SameUpTo level c c') :
    SameUpTo level (r.mformLvl level a c) (r.mformLvl level a' c') :=
  h3.writeLvl' fun i hi => by rw [h1.2 i hi]

theorem SameUpTo.ntt (h1 : SameUpTo level a a') (h3 : SameUpTo level c c') :
    SameUpTo level (r.nttLvl level a c) (r.nttLvl level a' c') :=
  h3.writeLvl' fun i hi => by rw [h1.2 i hi]

theorem SameUpTo.invNtt (h1 : SameUpTo level a a') (h3 : SameUpTo level c c') :
    SameUpTo level (r.invNttLvl level a c) (r.invNttLvl level a' c') :=
  h3.writeLvl' fun i hi => by rw [h1.2 i hi]

theorem SameUpTo.const (u : ℕ → Row) (l : ℕ) (h3 : SameUpTo level c c') : SameUpTo level (writeLvl l u c) (writeLvl l u c') :=
  h3.writeLvl' fun _ _ => rfl

theorem SameUpTo.gauss (g : List (UInt64 × Bool)) (l : ℕ) (h3 : SameUpTo level c c') :
    SameUpTo level (gaussWrite r l g c) (gaussWrite r l g c') :=
  h3.writeLvl' fun _ _ => rfl

theorem SameUpTo.gaussAdd (g : List (UInt64 × Bool)) (l : ℕ) (h3 : SameUpTo level c c') :
    SameUpTo level (FastKsw.gaussAdd r l g c) (FastKsw.gaussAdd r l g c') :=
  h3.writeLvl' fun i hi => by rw [h3.2 i hi]

theorem SameUpTo.extend (rP : Ring) {levelP : ℕ} (h1 : SameUpTo level a a') (h3 : SameUpTo levelP c c') :
    SameUpTo levelP (extendBasisSmallNorm r rP levelP a c) (extendBasisSmallNorm r rP levelP a' c') :=
  h3.writeLvl' fun i hi => by rw [h1.2 0 (Nat.zero_le _)]

/-- a polynomial all of whose rows up to the level have been written is known up to the level -/
theorem SameUpTo.over {f g : ℕ → Row} (h : a.length = b.length) (hf : ∀ i ≤ level, f i = g i) :
    SameUpTo level (writeLvl level f a) (writeLvl level g b) := by
  refine ⟨by rw [length_writeLvl, length_writeLvl, h], fun i hi => ?_⟩
  by_cases hl : i < a.length
  · rw [row_writeLvl' hl, row_writeLvl' (h ▸ hl), if_pos hi, if_pos hi, hf i hi]
  · rw [row_len (by rw [length_writeLvl]; omega), row_len (by rw [length_writeLvl, ← h]; omega)]

theorem SameUpTo.fresh (u : ℕ → Row) (h : a.length = b.length) :
    SameUpTo level (writeLvl level u a) (writeLvl level u b) := SameUpTo.over h fun _ _ => rfl

theorem SameUpTo.mulFresh (h1 : SameUpTo level a a') (h2 : SameUpTo level b b') (h3 : c.length = c'.length) :
    SameUpTo level (r.mulCoeffsMontgomeryLvl level a b c) (r.mulCoeffsMontgomeryLvl level a' b' c') :=
  SameUpTo.over h3 fun i hi => by rw [h1.2 i hi, h2.2 i hi]

theorem SameUpTo.gaussFresh (g : List (UInt64 × Bool)) (h3 : c.length = c'.length) :
    SameUpTo level (gaussWrite r level g c) (gaussWrite r level g c') := SameUpTo.fresh _ h3

theorem SameUpTo.extendFresh (rP : Ring) {levelP : ℕ} (h1 : SameUpTo level a a') (h3 : c.length = c'.length) :
    SameUpTo levelP (extendBasisSmallNorm r rP levelP a c) (extendBasisSmallNorm r rP levelP a' c') :=
  SameUpTo.over h3 fun i hi => by rw [h1.2 0 (Nat.zero_le _)]

theorem foldl_congr_mem {α β : Type} {f g : β → α → β} {l : List α} (h : ∀ b, ∀ x ∈ l, f b x = g b x) (b : β) :
    l.foldl f b = l.foldl g b := by
  induction l generalizing b with
  | nil => rfl
  | cons x l ih =>
    rw [List.foldl_cons, List.foldl_cons, h b x (List.mem_cons_self ..)]
    exact ih (fun b y hy => h b y (List.mem_cons_of_mem _ hy)) _

theorem modUpCoeff_congr {n : ℕ} {c c' : ℕ → UInt64} (h : ∀ i < n, c i = c' i) (q qInv : ℕ → UInt64) (par : ModupParams) (j : ℕ)
    (pj pInv : UInt64) : modUpCoeff n c q qInv par j pj pInv = modUpCoeff n c' q qInv par j pj pInv := by
  have hy : ∀ i < n, reconY c q qInv par.qoverqiinvqi i = reconY c' q qInv par.qoverqiinvqi i := fun i hi => by
    unfold reconY
    rw [h i hi]
  unfold modUpCoeff
  dsimp only
  generalize reconY c q qInv par.qoverqiinvqi = y at hy
  generalize reconY c' q qInv par.qoverqiinvqi = y' at hy
  have h1 : reconV n y q = reconV n y' q := by
    unfold reconV
    exact congrArg _ (foldl_congr_mem (fun b x hx => by rw [hy x (List.mem_range.1 hx)]) _)
  have h2 : multSumAcc n y (par.qoverqimodp.row j) = multSumAcc n y' (par.qoverqimodp.row j) := by
    unfold multSumAcc
    exact foldl_congr_mem (fun b x hx => by rw [hy x (List.mem_range.1 hx)]) _
  unfold multSum
  rw [h1, h2]

theorem SameUpTo.modUp (be : BasisExtender) {levelP : ℕ} (h1 : SameUpTo levelP a a') (h3 : b.length = b'.length) :
    SameUpTo level (be.modUpPtoQ levelP level a b) (be.modUpPtoQ levelP level a' b') := by
  have : be.modUpPtoQ levelP level a b = be.modUpPtoQ levelP level a' b := by
    unfold BasisExtender.modUpPtoQ modUpExact
    refine writeLvl_congr_lt fun j _ _ => ?_
    rw [h1.2 0 (Nat.zero_le _)]
    exact List.map_congr_left fun x _ => modUpCoeff_congr (fun i hi => by rw [h1.2 i (by omega)]) ..
  rw [this]
  unfold BasisExtender.modUpPtoQ modUpExact
  exact SameUpTo.fresh _ h3

theorem SameUpTo.modDown (be : BasisExtender) {levelP : ℕ} (h1 : SameUpTo levelP a a') (h2 : SameUpTo level c c')
    (hb : b.length = be.ringQ.subs.length) :
    SameUpTo level (writeLvl level (fun i =>
      subVecAndMulScalarMontgomeryTwoQiVec ((be.modUpPtoQ levelP level a b).row i) (c.row i)
        ((be.ringQ.sub i).q - (be.modDownPtoQ.row levelP).at i) (be.ringQ.sub i).q (be.ringQ.sub i).mred) c)
      (be.modDownQPtoQ level levelP c' a' c') := by
  unfold BasisExtender.modDownQPtoQ
  have := SameUpTo.modUp (level := level) be h1 (b := b) (b' := newPoly be.ringQ.n be.ringQ.subs.length)
    (by rw [hb, newPoly, List.length_replicate])
  exact h2.writeLvl' fun i hi => by rw [this.2 i hi, h2.2 i hi]

end

theorem RowWise.length {level out : ℕ} {op : Store σ → Rows} (h : RowWise level out op) {s : Store σ} :
    (op s).length = (s.rows out).length := by
  obtain ⟨F, h1, _⟩ := h
  rw [h1, length_writeLvl]

/-! ## The state of an encryption -/

/-- the cells an encryption writes are different -/
structure EncSep (e : Encryptor) (c0 c1 : ℕ) : Prop where
  nodup : [e.rnd, e.poolQ, c0, c1, e.poolP0, e.poolP1, e.poolP2, e.beQ].Nodup

/-- the contents of the polynomials an encryption writes, up to the level -/
structure EncVals where
  q : Rows
  v0 : Rows
  v1 : Rows
  p0 : Rows
  p1 : Rows
  p2 : Rows

/-- During an encryption that began with memory `s0`, the polynomials have the contents `V` up to the level, the generator has the
state `x`, and the rest has not changed. -/
structure EncSt (e : Encryptor) (c0 c1 level : ℕ) (s0 s : Store σ) (V : EncVals) (x : σ) : Prop where
  q : SameUpTo level (s.rows e.poolQ) V.q
  v0 : SameUpTo level (s.rows c0) V.v0
  v1 : SameUpTo level (s.rows c1) V.v1
  p0 : SameUpTo 0 (s.rows e.poolP0) V.p0
  p1 : SameUpTo 0 (s.rows e.poolP1) V.p1
  p2 : SameUpTo 0 (s.rows e.poolP2) V.p2
  be : (s.rows e.beQ).length = e.ringQ.subs.length
  rnd : s e.rnd = .rnd x
  flag : ∀ a, (s.poly a).isNTT = (s0.poly a).isNTT
  len : ∀ a, (s.rows a).length = (s0.rows a).length
  frame : ∀ a, a ∉ [e.rnd, e.poolQ, c0, c1, e.poolP0, e.poolP1, e.poolP2, e.beQ] → s.rows a = s0.rows a

/-- what an encryption leaves: the ciphertext, the state of the generator; the rest is as before but for the contents of the
buffers -/
structure EncRes (e : Encryptor) (c0 c1 : ℕ) (s0 s : Store σ) (r : Poly × Poly) (x : σ) : Prop where
  v0 : s.poly c0 = r.1
  v1 : s.poly c1 = r.2
  rnd : s e.rnd = .rnd x
  len : ∀ a, a ≠ c0 → a ≠ c1 → (s.rows a).length = (s0.rows a).length
  frame : ∀ a, a ∉ [e.rnd, e.poolQ, c0, c1, e.poolP0, e.poolP1, e.poolP2, e.beQ] → s.poly a = s0.poly a

section
variable {e : Encryptor} {c0 c1 level : ℕ} {s0 s : Store σ} {V : EncVals} {x : σ}

/-- different cells of the list are different -/
theorem EncSep.ne (hs : EncSep e c0 c1) {i j : ℕ} (hi : i < 8) (hj : j < 8) (hij : i ≠ j) :
    [e.rnd, e.poolQ, c0, c1, e.poolP0, e.poolP1, e.poolP2, e.beQ][i]'hi ≠
      [e.rnd, e.poolQ, c0, c1, e.poolP0, e.poolP1, e.poolP2, e.beQ][j]'hj := fun h =>
  hij ((List.Nodup.getElem_inj_iff hs.nodup).1 h)

theorem EncSt.set_q (hs : EncSep e c0 c1) (h : EncSt e c0 c1 level s0 s V x) {y y' : Rows} (hy : SameUpTo level y y') (hl : y.length = (s.rows e.poolQ).length) :
    EncSt e c0 c1 level s0 (s.setRows e.poolQ y) { V with q := y' } x := by
  constructor
  · rwa [Store.rows_setRows_self]
  · rw [Store.rows_setRows_ne _ _ (show c0 ≠ e.poolQ from hs.ne (i := 2) (j := 1) (by omega) (by omega) (by omega))]; exact h.v0
  · rw [Store.rows_setRows_ne _ _ (show c1 ≠ e.poolQ from hs.ne (i := 3) (j := 1) (by omega) (by omega) (by omega))]; exact h.v1
  · rw [Store.rows_setRows_ne _ _ (show e.poolP0 ≠ e.poolQ from hs.ne (i := 4) (j := 1) (by omega) (by omega) (by omega))]; exact h.p0
  · rw [Store.rows_setRows_ne _ _ (show e.poolP1 ≠ e.poolQ from hs.ne (i := 5) (j := 1) (by omega) (by omega) (by omega))]; exact h.p1
  · rw [Store.rows_setRows_ne _ _ (show e.poolP2 ≠ e.poolQ from hs.ne (i := 6) (j := 1) (by omega) (by omega) (by omega))]; exact h.p2
  · rw [Store.rows_setRows_ne _ _ (show e.beQ ≠ e.poolQ from hs.ne (i := 7) (j := 1) (by omega) (by omega) (by omega))]; exact h.be
  · rw [Store.setRows_ne _ _ (show e.rnd ≠ e.poolQ from hs.ne (i := 0) (j := 1) (by omega) (by omega) (by omega))]; exact h.rnd
  · intro a; rw [Store.isNTT_setRows]; exact h.flag a
  · intro a
    rw [← h.len a]
    by_cases ha : a = e.poolQ
    · rw [ha, Store.rows_setRows_self, hl]
    · rw [Store.rows_setRows_ne _ _ ha]
  · intro a ha
    rw [Store.rows_setRows_ne _ _ fun e => ha (by simp [e])]
    exact h.frame a ha

theorem EncSt.set_v0 (hs : EncSep e c0 c1) (h : EncSt e c0 c1 level s0 s V x) {y y' : Rows} (hy : SameUpTo level y y') (hl : y.length = (s.rows c0).length) :
    EncSt e c0 c1 level s0 (s.setRows c0 y) { V with v0 := y' } x := by
  constructor
  · rw [Store.rows_setRows_ne _ _ (show e.poolQ ≠ c0 from hs.ne (i := 1) (j := 2) (by omega) (by omega) (by omega))]; exact h.q
  · rwa [Store.rows_setRows_self]
  · rw [Store.rows_setRows_ne _ _ (show c1 ≠ c0 from hs.ne (i := 3) (j := 2) (by omega) (by omega) (by omega))]; exact h.v1
  · rw [Store.rows_setRows_ne _ _ (show e.poolP0 ≠ c0 from hs.ne (i := 4) (j := 2) (by omega) (by omega) (by omega))]; exact h.p0
  · rw [Store.rows_setRows_ne _ _ (show e.poolP1 ≠ c0 from hs.ne (i := 5) (j := 2) (by omega) (by omega) (by omega))]; exact h.p1
  · rw [Store.rows_setRows_ne _ _ (show e.poolP2 ≠ c0 from hs.ne (i := 6) (j := 2) (by omega) (by omega) (by omega))]; exact h.p2
  · rw [Store.rows_setRows_ne _ _ (show e.beQ ≠ c0 from hs.ne (i := 7) (j := 2) (by omega) (by omega) (by omega))]; exact h.be
  · rw [Store.setRows_ne _ _ (show e.rnd ≠ c0 from hs.ne (i := 0) (j := 2) (by omega) (by omega) (by omega))]; exact h.rnd
  · intro a; rw [Store.isNTT_setRows]; exact h.flag a
  · intro a
    rw [← h.len a]
    by_cases ha : a = c0
    · rw [ha, Store.rows_setRows_self, hl]
    · rw [Store.rows_setRows_ne _ _ ha]
  · intro a ha
    rw [Store.rows_setRows_ne _ _ fun e => ha (by simp [e])]
    exact h.frame a ha

theorem EncSt.set_v1 (hs : EncSep e c0 c1) (h : EncSt e c0 c1 level s0 s V x) {y y' : Rows} (hy : SameUpTo level y y') (hl : y.length = (s.rows c1).length) :
    EncSt e c0 c1 level s0 (s.setRows c1 y) { V with v1 := y' } x := by
  constructor
  · rw [Store.rows_setRows_ne _ _ (show e.poolQ ≠ c1 from hs.ne (i := 1) (j := 3) (by omega) (by omega) (by omega))]; exact h.q
  · rw [Store.rows_setRows_ne _ _ (show c0 ≠ c1 from hs.ne (i := 2) (j := 3) (by omega) (by omega) (by omega))]; exact h.v0
  · rwa [Store.rows_setRows_self]
  · rw [Store.rows_setRows_ne _ _ (show e.poolP0 ≠ c1 from hs.ne (i := 4) (j := 3) (by omega) (by omega) (by omega))]; exact h.p0
  · rw [Store.rows_setRows_ne _ _ (show e.poolP1 ≠ c1 from hs.ne (i := 5) (j := 3) (by omega) (by omega) (by omega))]; exact h.p1
  · rw [Store.rows_setRows_ne _ _ (show e.poolP2 ≠ c1 from hs.ne (i := 6) (j := 3) (by omega) (by omega) (by omega))]; exact h.p2
  · rw [Store.rows_setRows_ne _ _ (show e.beQ ≠ c1 from hs.ne (i := 7) (j := 3) (by omega) (by omega) (by omega))]; exact h.be
  · rw [Store.setRows_ne _ _ (show e.rnd ≠ c1 from hs.ne (i := 0) (j := 3) (by omega) (by omega) (by omega))]; exact h.rnd
  · intro a; rw [Store.isNTT_setRows]; exact h.flag a
  · intro a
    rw [← h.len a]
    by_cases ha : a = c1
    · rw [ha, Store.rows_setRows_self, hl]
    · rw [Store.rows_setRows_ne _ _ ha]
  · intro a ha
    rw [Store.rows_setRows_ne _ _ fun e => ha (by simp [e])]
    exact h.frame a ha

theorem EncSt.set_p0 (hs : EncSep e c0 c1) (h : EncSt e c0 c1 level s0 s V x) {y y' : Rows} (hy : SameUpTo 0 y y') (hl : y.length = (s.rows e.poolP0).length) :
    EncSt e c0 c1 level s0 (s.setRows e.poolP0 y) { V with p0 := y' } x := by
  constructor
  · rw [Store.rows_setRows_ne _ _ (show e.poolQ ≠ e.poolP0 from hs.ne (i := 1) (j := 4) (by omega) (by omega) (by omega))]; exact h.q
  · rw [Store.rows_setRows_ne _ _ (show c0 ≠ e.poolP0 from hs.ne (i := 2) (j := 4) (by omega) (by omega) (by omega))]; exact h.v0
  · rw [Store.rows_setRows_ne _ _ (show c1 ≠ e.poolP0 from hs.ne (i := 3) (j := 4) (by omega) (by omega) (by omega))]; exact h.v1
  · rwa [Store.rows_setRows_self]
  · rw [Store.rows_setRows_ne _ _ (show e.poolP1 ≠ e.poolP0 from hs.ne (i := 5) (j := 4) (by omega) (by omega) (by omega))]; exact h.p1
  · rw [Store.rows_setRows_ne _ _ (show e.poolP2 ≠ e.poolP0 from hs.ne (i := 6) (j := 4) (by omega) (by omega) (by omega))]; exact h.p2
  · rw [Store.rows_setRows_ne _ _ (show e.beQ ≠ e.poolP0 from hs.ne (i := 7) (j := 4) (by omega) (by omega) (by omega))]; exact h.be
  · rw [Store.setRows_ne _ _ (show e.rnd ≠ e.poolP0 from hs.ne (i := 0) (j := 4) (by omega) (by omega) (by omega))]; exact h.rnd
  · intro a; rw [Store.isNTT_setRows]; exact h.flag a
  · intro a
    rw [← h.len a]
    by_cases ha : a = e.poolP0
    · rw [ha, Store.rows_setRows_self, hl]
    · rw [Store.rows_setRows_ne _ _ ha]
  · intro a ha
    rw [Store.rows_setRows_ne _ _ fun e => ha (by simp [e])]
    exact h.frame a ha

theorem EncSt.set_p1 (hs : EncSep e c0 c1) (h : EncSt e c0 c1 level s0 s V x) {y y' : Rows} (hy : SameUpTo 0 y y') (hl : y.length = (s.rows e.poolP1).length) :
    EncSt e c0 c1 level s0 (s.setRows e.poolP1 y) { V with p1 := y' } x := by
  constructor
  · rw [Store.rows_setRows_ne _ _ (show e.poolQ ≠ e.poolP1 from hs.ne (i := 1) (j := 5) (by omega) (by omega) (by omega))]; exact h.q
  · rw [Store.rows_setRows_ne _ _ (show c0 ≠ e.poolP1 from hs.ne (i := 2) (j := 5) (by omega) (by omega) (by omega))]; exact h.v0
  · rw [Store.rows_setRows_ne _ _ (show c1 ≠ e.poolP1 from hs.ne (i := 3) (j := 5) (by omega) (by omega) (by omega))]; exact h.v1
  · rw [Store.rows_setRows_ne _ _ (show e.poolP0 ≠ e.poolP1 from hs.ne (i := 4) (j := 5) (by omega) (by omega) (by omega))]; exact h.p0
  · rwa [Store.rows_setRows_self]
  · rw [Store.rows_setRows_ne _ _ (show e.poolP2 ≠ e.poolP1 from hs.ne (i := 6) (j := 5) (by omega) (by omega) (by omega))]; exact h.p2
  · rw [Store.rows_setRows_ne _ _ (show e.beQ ≠ e.poolP1 from hs.ne (i := 7) (j := 5) (by omega) (by omega) (by omega))]; exact h.be
  · rw [Store.setRows_ne _ _ (show e.rnd ≠ e.poolP1 from hs.ne (i := 0) (j := 5) (by omega) (by omega) (by omega))]; exact h.rnd
  · intro a; rw [Store.isNTT_setRows]; exact h.flag a
  · intro a
    rw [← h.len a]
    by_cases ha : a = e.poolP1
    · rw [ha, Store.rows_setRows_self, hl]
    · rw [Store.rows_setRows_ne _ _ ha]
  · intro a ha
    rw [Store.rows_setRows_ne _ _ fun e => ha (by simp [e])]
    exact h.frame a ha

theorem EncSt.set_p2 (hs : EncSep e c0 c1) (h : EncSt e c0 c1 level s0 s V x) {y y' : Rows} (hy : SameUpTo 0 y y') (hl : y.length = (s.rows e.poolP2).length) :
    EncSt e c0 c1 level s0 (s.setRows e.poolP2 y) { V with p2 := y' } x := by
  constructor
  · rw [Store.rows_setRows_ne _ _ (show e.poolQ ≠ e.poolP2 from hs.ne (i := 1) (j := 6) (by omega) (by omega) (by omega))]; exact h.q
  · rw [Store.rows_setRows_ne _ _ (show c0 ≠ e.poolP2 from hs.ne (i := 2) (j := 6) (by omega) (by omega) (by omega))]; exact h.v0
  · rw [Store.rows_setRows_ne _ _ (show c1 ≠ e.poolP2 from hs.ne (i := 3) (j := 6) (by omega) (by omega) (by omega))]; exact h.v1
  · rw [Store.rows_setRows_ne _ _ (show e.poolP0 ≠ e.poolP2 from hs.ne (i := 4) (j := 6) (by omega) (by omega) (by omega))]; exact h.p0
  · rw [Store.rows_setRows_ne _ _ (show e.poolP1 ≠ e.poolP2 from hs.ne (i := 5) (j := 6) (by omega) (by omega) (by omega))]; exact h.p1
  · rwa [Store.rows_setRows_self]
  · rw [Store.rows_setRows_ne _ _ (show e.beQ ≠ e.poolP2 from hs.ne (i := 7) (j := 6) (by omega) (by omega) (by omega))]; exact h.be
  · rw [Store.setRows_ne _ _ (show e.rnd ≠ e.poolP2 from hs.ne (i := 0) (j := 6) (by omega) (by omega) (by omega))]; exact h.rnd
  · intro a; rw [Store.isNTT_setRows]; exact h.flag a
  · intro a
    rw [← h.len a]
    by_cases ha : a = e.poolP2
    · rw [ha, Store.rows_setRows_self, hl]
    · rw [Store.rows_setRows_ne _ _ ha]
  · intro a ha
    rw [Store.rows_setRows_ne _ _ fun e => ha (by simp [e])]
    exact h.frame a ha

theorem EncSt.set_be (hs : EncSep e c0 c1) (h : EncSt e c0 c1 level s0 s V x) {y : Rows} (hy : y.length = e.ringQ.subs.length) (hl : y.length = (s.rows e.beQ).length) :
    EncSt e c0 c1 level s0 (s.setRows e.beQ y) V x := by
  constructor
  · rw [Store.rows_setRows_ne _ _ (show e.poolQ ≠ e.beQ from hs.ne (i := 1) (j := 7) (by omega) (by omega) (by omega))]; exact h.q
  · rw [Store.rows_setRows_ne _ _ (show c0 ≠ e.beQ from hs.ne (i := 2) (j := 7) (by omega) (by omega) (by omega))]; exact h.v0
  · rw [Store.rows_setRows_ne _ _ (show c1 ≠ e.beQ from hs.ne (i := 3) (j := 7) (by omega) (by omega) (by omega))]; exact h.v1
  · rw [Store.rows_setRows_ne _ _ (show e.poolP0 ≠ e.beQ from hs.ne (i := 4) (j := 7) (by omega) (by omega) (by omega))]; exact h.p0
  · rw [Store.rows_setRows_ne _ _ (show e.poolP1 ≠ e.beQ from hs.ne (i := 5) (j := 7) (by omega) (by omega) (by omega))]; exact h.p1
  · rw [Store.rows_setRows_ne _ _ (show e.poolP2 ≠ e.beQ from hs.ne (i := 6) (j := 7) (by omega) (by omega) (by omega))]; exact h.p2
  · rwa [Store.rows_setRows_self]
  · rw [Store.setRows_ne _ _ (show e.rnd ≠ e.beQ from hs.ne (i := 0) (j := 7) (by omega) (by omega) (by omega))]; exact h.rnd
  · intro a; rw [Store.isNTT_setRows]; exact h.flag a
  · intro a
    rw [← h.len a]
    by_cases ha : a = e.beQ
    · rw [ha, Store.rows_setRows_self, hl]
    · rw [Store.rows_setRows_ne _ _ ha]
  · intro a ha
    rw [Store.rows_setRows_ne _ _ fun e => ha (by simp [e])]
    exact h.frame a ha

theorem EncSt.set_rnd (hs : EncSep e c0 c1) (h : EncSt e c0 c1 level s0 s V x) (x' : σ) :
    EncSt e c0 c1 level s0 (s.set e.rnd (.rnd x')) V x' := by
  constructor
  · rw [Store.rows_set_ne _ _ (show e.poolQ ≠ e.rnd from hs.ne (i := 1) (j := 0) (by omega) (by omega) (by omega))]; exact h.q
  · rw [Store.rows_set_ne _ _ (show c0 ≠ e.rnd from hs.ne (i := 2) (j := 0) (by omega) (by omega) (by omega))]; exact h.v0
  · rw [Store.rows_set_ne _ _ (show c1 ≠ e.rnd from hs.ne (i := 3) (j := 0) (by omega) (by omega) (by omega))]; exact h.v1
  · rw [Store.rows_set_ne _ _ (show e.poolP0 ≠ e.rnd from hs.ne (i := 4) (j := 0) (by omega) (by omega) (by omega))]; exact h.p0
  · rw [Store.rows_set_ne _ _ (show e.poolP1 ≠ e.rnd from hs.ne (i := 5) (j := 0) (by omega) (by omega) (by omega))]; exact h.p1
  · rw [Store.rows_set_ne _ _ (show e.poolP2 ≠ e.rnd from hs.ne (i := 6) (j := 0) (by omega) (by omega) (by omega))]; exact h.p2
  · rw [Store.rows_set_ne _ _ (show e.beQ ≠ e.rnd from hs.ne (i := 7) (j := 0) (by omega) (by omega) (by omega))]; exact h.be
  · exact Store.set_self ..
  · intro a
    rw [← h.flag a]
    by_cases ha : a = e.rnd
    · subst ha
      unfold Store.poly
      rw [Store.set_self, h.rnd]
    · rw [Store.poly_set_ne _ _ ha]
  · intro a
    rw [← h.len a]
    by_cases ha : a = e.rnd
    · subst ha
      unfold Store.rows Store.poly
      rw [Store.set_self, h.rnd]
    · rw [Store.rows_set_ne _ _ ha]
  · intro a ha
    rw [Store.rows_set_ne _ _ fun e => ha (by simp [e])]
    exact h.frame a ha

variable {k : Unit → Proc σ Unit} {r : Poly × Poly} {x' : σ} {l : ℕ} {op : Store σ → Rows}

theorem EncSt.step_q (hs : EncSep e c0 c1) (h : EncSt e c0 c1 level s0 s V x) (hop : RowWise l e.poolQ op) {y' : Rows} (hy : SameUpTo level (op s) y')
    (hk : ∀ t, EncSt e c0 c1 level s0 t { V with q := y' } x → EncRes e c0 c1 s0 (after (k ()) t) r x') : EncRes e c0 c1 s0 (after (ringCall l e.poolQ op >>= k) s) r x' := by
  rw [after_call _ hop]
  exact hk _ (h.set_q hs hy hop.length)

theorem EncSt.step_v0 (hs : EncSep e c0 c1) (h : EncSt e c0 c1 level s0 s V x) (hop : RowWise l c0 op) {y' : Rows} (hy : SameUpTo level (op s) y')
    (hk : ∀ t, EncSt e c0 c1 level s0 t { V with v0 := y' } x → EncRes e c0 c1 s0 (after (k ()) t) r x') : EncRes e c0 c1 s0 (after (ringCall l c0 op >>= k) s) r x' := by
  rw [after_call _ hop]
  exact hk _ (h.set_v0 hs hy hop.length)

theorem EncSt.step_v1 (hs : EncSep e c0 c1) (h : EncSt e c0 c1 level s0 s V x) (hop : RowWise l c1 op) {y' : Rows} (hy : SameUpTo level (op s) y')
    (hk : ∀ t, EncSt e c0 c1 level s0 t { V with v1 := y' } x → EncRes e c0 c1 s0 (after (k ()) t) r x') : EncRes e c0 c1 s0 (after (ringCall l c1 op >>= k) s) r x' := by
  rw [after_call _ hop]
  exact hk _ (h.set_v1 hs hy hop.length)

theorem EncSt.step_p0 (hs : EncSep e c0 c1) (h : EncSt e c0 c1 level s0 s V x) (hop : RowWise l e.poolP0 op) {y' : Rows} (hy : SameUpTo 0 (op s) y')
    (hk : ∀ t, EncSt e c0 c1 level s0 t { V with p0 := y' } x → EncRes e c0 c1 s0 (after (k ()) t) r x') : EncRes e c0 c1 s0 (after (ringCall l e.poolP0 op >>= k) s) r x' := by
  rw [after_call _ hop]
  exact hk _ (h.set_p0 hs hy hop.length)

theorem EncSt.step_p1 (hs : EncSep e c0 c1) (h : EncSt e c0 c1 level s0 s V x) (hop : RowWise l e.poolP1 op) {y' : Rows} (hy : SameUpTo 0 (op s) y')
    (hk : ∀ t, EncSt e c0 c1 level s0 t { V with p1 := y' } x → EncRes e c0 c1 s0 (after (k ()) t) r x') : EncRes e c0 c1 s0 (after (ringCall l e.poolP1 op >>= k) s) r x' := by
  rw [after_call _ hop]
  exact hk _ (h.set_p1 hs hy hop.length)

theorem EncSt.step_p2 (hs : EncSep e c0 c1) (h : EncSt e c0 c1 level s0 s V x) (hop : RowWise l e.poolP2 op) {y' : Rows} (hy : SameUpTo 0 (op s) y')
    (hk : ∀ t, EncSt e c0 c1 level s0 t { V with p2 := y' } x → EncRes e c0 c1 s0 (after (k ()) t) r x') : EncRes e c0 c1 s0 (after (ringCall l e.poolP2 op >>= k) s) r x' := by
  rw [after_call _ hop]
  exact hk _ (h.set_p2 hs hy hop.length)

theorem EncSt.step_be (hs : EncSep e c0 c1) (h : EncSt e c0 c1 level s0 s V x) (hop : RowWise l e.beQ op) (hy : (op s).length = e.ringQ.subs.length)
    (hk : ∀ t, EncSt e c0 c1 level s0 t V x → EncRes e c0 c1 s0 (after (k ()) t) r x') : EncRes e c0 c1 s0 (after (ringCall l e.beQ op >>= k) s) r x' := by
  rw [after_call _ hop]
  exact hk _ (h.set_be hs hy hop.length)

theorem EncSt.readRows_v1 (hs : EncSep e c0 c1) (h : EncSt e c0 c1 level s0 s V x) (f : σ → (ℕ → Row) × σ) (l : ℕ)
    {y : Rows} (hy : ∀ z, SameUpTo level z V.v1 → SameUpTo level (writeLvl l (f x).1 z) y)
    (hk : ∀ t, EncSt e c0 c1 level s0 t { V with v1 := y } (f x).2 → EncRes e c0 c1 s0 (after (k ()) t) r x') :
    EncRes e c0 c1 s0 (after (readRows e.rnd f l c1 >>= k) s) r x' := by
  have h2 := h.set_rnd hs (f x).2
  unfold readRows
  rw [after_bind, after_sample _ h.rnd, after_ringCall _ (rw_const ..)]
  exact hk _ (h2.set_v1 hs (hy _ h2.v1) (length_writeLvl ..))

theorem EncSt.readRows_q (hs : EncSep e c0 c1) (h : EncSt e c0 c1 level s0 s V x) (f : σ → (ℕ → Row) × σ) (l : ℕ)
    {y : Rows} (hy : ∀ z, SameUpTo level z V.q → SameUpTo level (writeLvl l (f x).1 z) y)
    (hk : ∀ t, EncSt e c0 c1 level s0 t { V with q := y } (f x).2 → EncRes e c0 c1 s0 (after (k ()) t) r x') :
    EncRes e c0 c1 s0 (after (readRows e.rnd f l e.poolQ >>= k) s) r x' := by
  have h2 := h.set_rnd hs (f x).2
  unfold readRows
  rw [after_bind, after_sample _ h.rnd, after_ringCall _ (rw_const ..)]
  exact hk _ (h2.set_q hs (hy _ h2.q) (length_writeLvl ..))

theorem EncSt.readGauss_q (hs : EncSep e c0 c1) (h : EncSt e c0 c1 level s0 s V x) (R : Ring) (f : σ → List (UInt64 × Bool) × σ)
    {y : Rows} (hy : ∀ z, SameUpTo level z V.q → SameUpTo level (gaussWrite R level (f x).1 z) y)
    (hk : ∀ t, EncSt e c0 c1 level s0 t { V with q := y } (f x).2 → EncRes e c0 c1 s0 (after (k ()) t) r x') :
    EncRes e c0 c1 s0 (after (readGauss R e.rnd f level e.poolQ >>= k) s) r x' := by
  have h2 := h.set_rnd hs (f x).2
  unfold readGauss
  rw [after_bind, after_sample _ h.rnd, after_ringCall _ (rw_gauss ..)]
  exact hk _ (h2.set_q hs (hy _ h2.q) (length_writeLvl ..))

theorem EncSt.readAddGauss_v0 (hs : EncSep e c0 c1) (h : EncSt e c0 c1 level s0 s V x) (R : Ring)
    (f : σ → List (UInt64 × Bool) × σ) (l : ℕ)
    (hk : ∀ t, EncSt e c0 c1 level s0 t { V with v0 := gaussAdd R l (f x).1 V.v0 } (f x).2 → EncRes e c0 c1 s0 (after (k ()) t) r x') :
    EncRes e c0 c1 s0 (after (readAddGauss R e.rnd f l c0 >>= k) s) r x' := by
  have h2 := h.set_rnd hs (f x).2
  unfold readAddGauss
  rw [after_bind, after_sample _ h.rnd, after_ringCall _ (rw_gaussAdd ..)]
  exact hk _ (h2.set_v0 hs (h2.v0.gaussAdd ..) (length_writeLvl ..))

theorem EncSt.readAddGauss_v1 (hs : EncSep e c0 c1) (h : EncSt e c0 c1 level s0 s V x) (R : Ring)
    (f : σ → List (UInt64 × Bool) × σ) (l : ℕ)
    (hk : ∀ t, EncSt e c0 c1 level s0 t { V with v1 := gaussAdd R l (f x).1 V.v1 } (f x).2 → EncRes e c0 c1 s0 (after (k ()) t) r x') :
    EncRes e c0 c1 s0 (after (readAddGauss R e.rnd f l c1 >>= k) s) r x' := by
  have h2 := h.set_rnd hs (f x).2
  unfold readAddGauss
  rw [after_bind, after_sample _ h.rnd, after_ringCall _ (rw_gaussAdd ..)]
  exact hk _ (h2.set_v1 hs (h2.v1.gaussAdd ..) (length_writeLvl ..))

theorem EncSt.modDown_v0 (hs : EncSep e c0 c1) (h : EncSt e c0 c1 level s0 s V x)
    (hk : ∀ t, EncSt e c0 c1 level s0 t { V with v0 := (newBasisExtender e.ringQ e.ringP).modDownQPtoQ level 0 V.v0 V.p0 V.v0 } x →
      EncRes e c0 c1 s0 (after (k ()) t) r x') : EncRes e c0 c1 s0 (after (e.modDown level 0 c0 e.poolP0 >>= k) s) r x' := by
  have e1 : e.poolP0 ≠ e.beQ := hs.ne (i := 4) (j := 7) (by omega) (by omega) (by omega)
  have e2 : c0 ≠ e.beQ := hs.ne (i := 2) (j := 7) (by omega) (by omega) (by omega)
  unfold Encryptor.modDown
  dsimp only
  rw [after_bind, after_call _ (rw_modUp _ _ _ e1), after_ringCall _ (rw_modDown ..)]
  have h2 : EncSt e c0 c1 level s0 (s.setRows e.beQ
      ((newBasisExtender e.ringQ e.ringP).modUpPtoQ 0 level (s.rows e.poolP0) (s.rows e.beQ))) V x :=
    h.set_be hs (by unfold BasisExtender.modUpPtoQ modUpExact; rw [length_writeLvl, h.be])
      (by unfold BasisExtender.modUpPtoQ modUpExact; rw [length_writeLvl])
  refine hk _ (h2.set_v0 hs ?_ (length_writeLvl ..))
  rw [Store.rows_setRows_self, Store.rows_setRows_ne _ _ e2]
  exact SameUpTo.modDown _ h.p0 h.v0 h.be

theorem EncSt.modDown_v1 (hs : EncSep e c0 c1) (h : EncSt e c0 c1 level s0 s V x)
    (hk : ∀ t, EncSt e c0 c1 level s0 t { V with v1 := (newBasisExtender e.ringQ e.ringP).modDownQPtoQ level 0 V.v1 V.p1 V.v1 } x →
      EncRes e c0 c1 s0 (after (k ()) t) r x') : EncRes e c0 c1 s0 (after (e.modDown level 0 c1 e.poolP1 >>= k) s) r x' := by
  have e1 : e.poolP1 ≠ e.beQ := hs.ne (i := 5) (j := 7) (by omega) (by omega) (by omega)
  have e2 : c1 ≠ e.beQ := hs.ne (i := 3) (j := 7) (by omega) (by omega) (by omega)
  unfold Encryptor.modDown
  dsimp only
  rw [after_bind, after_call _ (rw_modUp _ _ _ e1), after_ringCall _ (rw_modDown ..)]
  have h2 : EncSt e c0 c1 level s0 (s.setRows e.beQ
      ((newBasisExtender e.ringQ e.ringP).modUpPtoQ 0 level (s.rows e.poolP1) (s.rows e.beQ))) V x :=
    h.set_be hs (by unfold BasisExtender.modUpPtoQ modUpExact; rw [length_writeLvl, h.be])
      (by unfold BasisExtender.modUpPtoQ modUpExact; rw [length_writeLvl])
  refine hk _ (h2.set_v1 hs ?_ (length_writeLvl ..))
  rw [Store.rows_setRows_self, Store.rows_setRows_ne _ _ e2]
  exact SameUpTo.modDown _ h.p1 h.v1 h.be

theorem EncSt.poly_frame (h : EncSt e c0 c1 level s0 s V x) {a : ℕ}
    (ha : a ∉ [e.rnd, e.poolQ, c0, c1, e.poolP0, e.poolP1, e.poolP2, e.beQ]) : s.poly a = s0.poly a := by
  have h1 := h.flag a
  have h2 := h.frame a ha
  unfold Store.rows at h2
  cases h3 : s.poly a
  cases h4 : s0.poly a
  rw [h3, h4] at h1 h2
  cases h1
  cases h2
  rfl

theorem poly_eta (s : Store σ) (a : ℕ) : s.poly a = ⟨s.rows a, (s.poly a).isNTT⟩ := rfl

theorem trunc_same {a b : Rows} (h : SameUpTo level a b) (f : Bool) : Poly.trunc ⟨a, f⟩ level = Poly.trunc ⟨b, f⟩ level := by
  unfold Poly.trunc
  rw [h.take]

/-- the end of the public-key functions -/
theorem EncSt.finish (hs : EncSep e c0 c1) (h : EncSt e c0 c1 level s0 s V x) :
    EncRes e c0 c1 s0 (after (do setNTT c1 (s0.poly c0).isNTT; truncateBoth c0 c1 level) s)
      (Poly.trunc ⟨V.v0, (s0.poly c0).isNTT⟩ level, Poly.trunc ⟨V.v1, (s0.poly c0).isNTT⟩ level) x := by
  have e01 : c0 ≠ c1 := hs.ne (i := 2) (j := 3) (by omega) (by omega) (by omega)
  have er0 : e.rnd ≠ c0 := hs.ne (i := 0) (j := 2) (by omega) (by omega) (by omega)
  have er1 : e.rnd ≠ c1 := hs.ne (i := 0) (j := 3) (by omega) (by omega) (by omega)
  unfold truncateBoth
  rw [after_setNTT, after_truncate, after_truncate']
  constructor
  · rw [Store.poly_set_ne _ _ e01, Store.poly_set_self, Store.poly_set_ne _ _ e01, poly_eta, h.flag]
    exact trunc_same h.v0 _
  · rw [Store.poly_set_self, Store.poly_set_ne _ _ e01.symm, Store.poly_set_self]
    exact trunc_same h.v1 _
  · rw [Store.set_ne _ _ er1, Store.set_ne _ _ er0, Store.set_ne _ _ er1, h.rnd]
  · intro a h0 h1
    rw [Store.rows_set_ne _ _ h1, Store.rows_set_ne _ _ h0, Store.rows_set_ne _ _ h1, h.len]
  · intro a ha
    have h0 : a ≠ c0 := fun e => ha (by simp [e])
    have h1 : a ≠ c1 := fun e => ha (by simp [e])
    rw [Store.poly_set_ne _ _ h1, Store.poly_set_ne _ _ h0, Store.poly_set_ne _ _ h1]
    exact h.poly_frame ha

/-- the end of the secret-key function -/
theorem EncSt.finish' (hs : EncSep e c0 c1) (h : EncSt e c0 c1 level s0 s V x) (b : Bool) :
    EncRes e c0 c1 s0 (after (do setNTT c0 b; setNTT c1 b; truncateBoth c0 c1 level) s)
      (Poly.trunc ⟨V.v0, b⟩ level, Poly.trunc ⟨V.v1, b⟩ level) x := by
  have e01 : c0 ≠ c1 := hs.ne (i := 2) (j := 3) (by omega) (by omega) (by omega)
  have er0 : e.rnd ≠ c0 := hs.ne (i := 0) (j := 2) (by omega) (by omega) (by omega)
  have er1 : e.rnd ≠ c1 := hs.ne (i := 0) (j := 3) (by omega) (by omega) (by omega)
  unfold truncateBoth
  rw [after_setNTT, after_setNTT, after_truncate, after_truncate']
  constructor
  · rw [Store.poly_set_ne _ _ e01, Store.poly_set_self, Store.poly_set_ne _ _ e01, Store.poly_set_self]
    exact trunc_same h.v0 _
  · rw [Store.poly_set_self, Store.poly_set_ne _ _ e01.symm, Store.poly_set_self, Store.rows_set_ne _ _ e01.symm]
    exact trunc_same h.v1 _
  · rw [Store.set_ne _ _ er1, Store.set_ne _ _ er0, Store.set_ne _ _ er1, Store.set_ne _ _ er0, h.rnd]
  · intro a h0 h1
    rw [Store.rows_set_ne _ _ h1, Store.rows_set_ne _ _ h0, Store.rows_set_ne _ _ h1, Store.rows_set_ne _ _ h0, h.len]
  · intro a ha
    have h0 : a ≠ c0 := fun e => ha (by simp [e])
    have h1 : a ≠ c1 := fun e => ha (by simp [e])
    rw [Store.poly_set_ne _ _ h1, Store.poly_set_ne _ _ h0, Store.poly_set_ne _ _ h1, Store.poly_set_ne _ _ h0]
    exact h.poly_frame ha

theorem EncReady.start (h : EncReady e s x) : EncSt e c0 c1 level s s
    ⟨s.rows e.poolQ, s.rows c0, s.rows c1, s.rows e.poolP0, s.rows e.poolP1, s.rows e.poolP2⟩ x :=
  ⟨SameUpTo.refl .., SameUpTo.refl .., SameUpTo.refl .., SameUpTo.refl .., SameUpTo.refl .., SameUpTo.refl .., h.be, h.rnd,
    fun _ => rfl, fun _ => rfl, fun _ _ => rfl⟩

/-- `skEncryptor.encrypt` alone -/
theorem run_skEncrypt (S : Samplers σ) (hs : EncSep e c0 c1) {sk pt : ℕ}
    (hpt : pt ∉ [e.rnd, e.poolQ, c0, c1, e.poolP0, e.poolP1, e.poolP2, e.beQ]) (h : EncReady e s x) :
    EncRes e c0 c1 s (after (e.skEncrypt S sk pt c0 c1) s)
      (skEncrypt e.ringQ (s.rows sk) (S.gaussian x).1 (s.poly pt) (s.poly c0) (s.poly c1)) (S.gaussian x).2 := by
  unfold Encryptor.skEncrypt skEncrypt
  dsimp only
  rw [after_rd, after_rd]
  have h0 := h.start (c0 := c0) (c1 := c1) (level := min (s.poly pt).level (s.poly c0).level)
  generalize hl : min (s.poly pt).level (s.poly c0).level = level at h0
  refine h0.step_v0 hs (rw_mul ..) (.mul _ (.refl ..) (.refl ..) (.refl ..)) fun t h1 => ?_
  refine h1.step_v0 hs (rw_neg ..) (.neg _ h1.v0 h1.v0) fun t h2 => ?_
  rw [after_rd, h2.flag]
  have hptr : ∀ {t V x}, EncSt e c0 c1 level s t V x → SameUpTo level (t.rows pt) (s.poly pt).coeffs := fun h => by
    rw [h.frame pt hpt]; exact .refl ..
  by_cases hc : (s.poly c0).isNTT = true
  · rw [if_pos hc, if_pos hc]
    refine h2.readGauss_q hs _ _ (y := gaussWrite e.ringQ level (S.gaussian x).1 (newPoly e.ringQ.n e.ringQ.subs.length))
      (fun z hz => .gaussFresh _ _ ?_) fun t h3 => ?_
    · rw [hz.1, newPoly, List.length_replicate]
      exact h.q
    by_cases hp : (s.poly pt).isNTT = true
    · rw [if_pos hp, if_pos hp]
      refine h3.step_q hs (rw_ntt ..) (.ntt _ h3.q h3.q) fun t h4 => ?_
      refine h4.step_v0 hs (rw_add ..) (.add _ h4.v0 h4.q h4.v0) fun t h5 => ?_
      refine h5.step_v0 hs (rw_add ..) (.add _ h5.v0 (hptr h5) h5.v0) fun t h6 => ?_
      exact h6.finish' hs true
    · rw [if_neg hp, if_neg hp]
      refine h3.step_q hs (rw_add ..) (.add _ h3.q (hptr h3) h3.q) fun t h4 => ?_
      refine h4.step_q hs (rw_ntt ..) (.ntt _ h4.q h4.q) fun t h5 => ?_
      refine h5.step_v0 hs (rw_add ..) (.add _ h5.v0 h5.q h5.v0) fun t h6 => ?_
      exact h6.finish' hs true
  · rw [if_neg hc, if_neg hc]
    have tail : ∀ t V, EncSt e c0 c1 level s t V x → V.v1 = (s.poly c1).coeffs →
        EncRes e c0 c1 s (after (do
          let lvl ← rd fun s => (s.poly c0).level
          readAddGauss e.ringQ e.rnd S.gaussian lvl c0
          ringCall level c1 fun s => e.ringQ.invNttLvl level (s.rows c1) (s.rows c1)
          setNTT c0 false
          setNTT c1 false
          truncateBoth c0 c1 level) t)
          (Poly.trunc ⟨gaussAdd e.ringQ (s.poly c0).level (S.gaussian x).1 V.v0, false⟩ level,
            Poly.trunc ⟨e.ringQ.invNttLvl level (s.poly c1).coeffs (s.poly c1).coeffs, false⟩ level) (S.gaussian x).2 := by
      intro t V h3 hv
      have hlen : (t.poly c0).level = (s.poly c0).level := congrArg (· - 1) (h3.len c0)
      rw [after_rd, hlen]
      refine h3.readAddGauss_v0 hs _ _ _ fun t h4 => ?_
      rw [← hv]
      refine h4.step_v1 hs (rw_invNtt ..) (.invNtt _ h4.v1 h4.v1) fun t h5 => ?_
      exact h5.finish' hs false
    by_cases hp : (s.poly pt).isNTT = true
    · rw [if_pos hp, if_pos hp]
      refine h2.step_v0 hs (rw_add ..) (.add _ h2.v0 (hptr h2) h2.v0) fun t h3 => ?_
      refine h3.step_v0 hs (rw_invNtt ..) (.invNtt _ h3.v0 h3.v0) fun t h4 => ?_
      exact tail t _ h4 rfl
    · rw [if_neg hp, if_neg hp]
      refine h2.step_v0 hs (rw_invNtt ..) (.invNtt _ h2.v0 h2.v0) fun t h3 => ?_
      refine h3.step_v0 hs (rw_add ..) (.add _ h3.v0 (hptr h3) h3.v0) fun t h4 => ?_
      exact tail t _ h4 rfl

/-- `pkEncryptor.encryptNoP` alone -/
theorem run_pkEncryptNoP (S : Samplers σ) (hs : EncSep e c0 c1) {pk : PkRef} {pt : ℕ}
    (hk : ∀ a ∈ [pk.q0, pk.p0, pk.q1, pk.p1], a ∉ [e.rnd, e.poolQ, c0, c1, e.poolP0, e.poolP1, e.poolP2, e.beQ])
    (hpt : pt ∉ [e.rnd, e.poolQ, c0, c1, e.poolP0, e.poolP1, e.poolP2, e.beQ]) (h : EncReady e s x) :
    EncRes e c0 c1 s (after (e.pkEncryptNoP S pk pt c0 c1) s)
      (pkEncryptNoP e.ringQ (s.rows pk.q0, s.rows pk.q1)
        (writeLvl (min (s.poly pt).level (s.poly c0).level) (S.ternary x).1 (newPoly e.ringQ.n e.ringQ.subs.length))
        (if (s.poly c0).isNTT then (S.gaussian (S.gaussian (S.ternary x).2).2).1 else (S.gaussian (S.ternary x).2).1)
        (if (s.poly c0).isNTT then (S.gaussian (S.ternary x).2).1 else (S.gaussian (S.gaussian (S.ternary x).2).2).1)
        (s.poly pt) (s.poly c0) (s.poly c1))
      (S.gaussian (S.gaussian (S.ternary x).2).2).2 := by
  unfold Encryptor.pkEncryptNoP pkEncryptNoP
  dsimp only
  rw [after_rd, after_rd]
  have h0 := h.start (c0 := c0) (c1 := c1) (level := min (s.poly pt).level (s.poly c0).level)
  generalize hl : min (s.poly pt).level (s.poly c0).level = level at h0
  have hptr : ∀ {t V x}, EncSt e c0 c1 level s t V x → SameUpTo level (t.rows pt) (s.poly pt).coeffs := fun h => by
    rw [h.frame pt hpt]; exact .refl ..
  have hq0 : ∀ {t V x}, EncSt e c0 c1 level s t V x → SameUpTo level (t.rows pk.q0) (s.rows pk.q0) := fun h => by
    rw [h.frame pk.q0 (hk _ (by simp))]; exact .refl ..
  have hq1 : ∀ {t V x}, EncSt e c0 c1 level s t V x → SameUpTo level (t.rows pk.q1) (s.rows pk.q1) := fun h => by
    rw [h.frame pk.q1 (hk _ (by simp))]; exact .refl ..
  refine h0.readRows_q hs _ _ (y := writeLvl level (S.ternary x).1 (newPoly e.ringQ.n e.ringQ.subs.length))
    (fun z hz => .fresh _ ?_) fun t h1 => ?_
  · rw [hz.1, newPoly, List.length_replicate]
    exact h.q
  refine h1.step_q hs (rw_ntt ..) (.ntt _ h1.q h1.q) fun t h2 => ?_
  refine h2.step_q hs (rw_mform ..) (.mform _ h2.q h2.q) fun t h3 => ?_
  refine h3.step_v0 hs (rw_mul ..) (.mul _ h3.q (hq0 h3) h3.v0) fun t h4 => ?_
  refine h4.step_v1 hs (rw_mul ..) (.mul _ h4.q (hq1 h4) h4.v1) fun t h5 => ?_
  rw [after_rd, h5.flag]
  clear h1 h2 h3 h4
  by_cases hc : (s.poly c0).isNTT = true
  · simp only [if_pos hc]
    refine h5.readGauss_q hs _ _ (fun z hz => .gauss _ _ _ hz) fun t h6 => ?_
    refine h6.step_q hs (rw_ntt ..) (.ntt _ h6.q h6.q) fun t h7 => ?_
    refine h7.step_v1 hs (rw_add ..) (.add _ h7.v1 h7.q h7.v1) fun t h8 => ?_
    refine h8.readGauss_q hs _ _ (fun z hz => .gauss _ _ _ hz) fun t h9 => ?_
    by_cases hp : (!(s.poly pt).isNTT) = true
    · simp only [if_pos hp]
      refine h9.step_q hs (rw_add ..) (.add _ h9.q (hptr h9) h9.q) fun t h10 => ?_
      refine h10.step_q hs (rw_ntt ..) (.ntt _ h10.q h10.q) fun t h11 => ?_
      refine h11.step_v0 hs (rw_add ..) (.add _ h11.v0 h11.q h11.v0) fun t h12 => ?_
      exact h12.finish hs
    · simp only [if_neg hp]
      refine h9.step_q hs (rw_ntt ..) (.ntt _ h9.q h9.q) fun t h10 => ?_
      refine h10.step_v0 hs (rw_add ..) (.add _ h10.v0 h10.q h10.v0) fun t h11 => ?_
      refine h11.step_v0 hs (rw_add ..) (.add _ h11.v0 (hptr h11) h11.v0) fun t h12 => ?_
      exact h12.finish hs
  · simp only [if_neg hc]
    refine h5.step_v0 hs (rw_invNtt ..) (.invNtt _ h5.v0 h5.v0) fun t h6 => ?_
    refine h6.step_v1 hs (rw_invNtt ..) (.invNtt _ h6.v1 h6.v1) fun t h7 => ?_
    have hlen : (t.poly c0).level = (s.poly c0).level := congrArg (· - 1) (h7.len c0)
    rw [after_rd, hlen]
    refine h7.readAddGauss_v0 hs _ _ _ fun t h8 => ?_
    refine h8.readAddGauss_v1 hs _ _ _ fun t h9 => ?_
    by_cases hp : (!(s.poly pt).isNTT) = true
    · simp only [if_pos hp]
      refine h9.step_v0 hs (rw_add ..) (.add _ h9.v0 (hptr h9) h9.v0) fun t h10 => ?_
      exact h10.finish hs
    · simp only [if_neg hp]
      refine h9.step_q hs (rw_invNtt ..) (.invNtt _ (hptr h9) h9.q) fun t h10 => ?_
      refine h10.step_v0 hs (rw_add ..) (.add _ h10.v0 h10.q h10.v0) fun t h11 => ?_
      exact h11.finish hs

/-- `pkEncryptor.encrypt` alone -/
theorem run_pkEncrypt (S : Samplers σ) (hs : EncSep e c0 c1) {pk : PkRef} {pt : ℕ}
    (hk : ∀ a ∈ [pk.q0, pk.p0, pk.q1, pk.p1], a ∉ [e.rnd, e.poolQ, c0, c1, e.poolP0, e.poolP1, e.poolP2, e.beQ])
    (hpt : pt ∉ [e.rnd, e.poolQ, c0, c1, e.poolP0, e.poolP1, e.poolP2, e.beQ]) (h : EncReady e s x) :
    EncRes e c0 c1 s (after (e.pkEncrypt S pk pt c0 c1) s)
      (pkEncrypt e.ringQ e.ringP (⟨s.rows pk.q0, s.rows pk.p0⟩, ⟨s.rows pk.q1, s.rows pk.p1⟩)
        (writeLvl (min (s.poly pt).level (s.poly c0).level) (S.ternary x).1 (newPoly e.ringQ.n e.ringQ.subs.length))
        (S.gaussian (S.ternary x).2).1 (S.gaussian (S.gaussian (S.ternary x).2).2).1
        (s.poly pt) (s.poly c0) (s.poly c1))
      (S.gaussian (S.gaussian (S.ternary x).2).2).2 := by
  have e1 : e.poolQ ≠ e.poolP2 := hs.ne (i := 1) (j := 6) (by omega) (by omega) (by omega)
  unfold Encryptor.pkEncrypt pkEncrypt
  extract_lets rQ rP levelP levelQ poolP uP uQ uP1 uQ1 uP2 q0 p0 q1 p1 q01 p01 q11 p11 eQ eP q02 p02 eQ1 eP1 q12 p12 be q03 q13
    qa qb qc qd pool v
  rw [after_rd, after_rd]
  have h0 := h.start (c0 := c0) (c1 := c1) (level := levelQ)
  have hptr : ∀ {t V x}, EncSt e c0 c1 levelQ s t V x → SameUpTo levelQ (t.rows pt) (s.poly pt).coeffs := fun h => by
    rw [h.frame pt hpt]; exact .refl ..
  have hq0 : ∀ {t V x}, EncSt e c0 c1 levelQ s t V x → SameUpTo levelQ (t.rows pk.q0) (s.rows pk.q0) := fun h => by
    rw [h.frame pk.q0 (hk _ (by simp))]; exact .refl ..
  have hq1 : ∀ {t V x}, EncSt e c0 c1 levelQ s t V x → SameUpTo levelQ (t.rows pk.q1) (s.rows pk.q1) := fun h => by
    rw [h.frame pk.q1 (hk _ (by simp))]; exact .refl ..
  have hp0 : ∀ {t V x}, EncSt e c0 c1 levelQ s t V x → SameUpTo 0 (t.rows pk.p0) (s.rows pk.p0) := fun h => by
    rw [h.frame pk.p0 (hk _ (by simp))]; exact .refl ..
  have hp1 : ∀ {t V x}, EncSt e c0 c1 levelQ s t V x → SameUpTo 0 (t.rows pk.p1) (s.rows pk.p1) := fun h => by
    rw [h.frame pk.p1 (hk _ (by simp))]; exact .refl ..
  refine h0.readRows_q hs _ _ (y := writeLvl levelQ (S.ternary x).1 (newPoly e.ringQ.n e.ringQ.subs.length))
    (fun z hz => .fresh _ ?_) fun t h1 => ?_
  · rw [hz.1, newPoly, List.length_replicate]
    exact h.q
  refine h1.step_p2 hs (y' := uP) (rw_extend _ _ _ e1) (.extendFresh _ _ h1.q ?_) fun t h2 => ?_
  · rw [h1.len, h.p2]
    exact List.length_replicate.symm
  refine h2.step_q hs (y' := uQ) (rw_ntt ..) (.ntt _ h2.q h2.q) fun t h3 => ?_
  refine h3.step_p2 hs (y' := uP1) (rw_ntt ..) (.ntt _ h3.p2 h3.p2) fun t h4 => ?_
  refine h4.step_q hs (y' := uQ1) (rw_mform ..) (.mform _ h4.q h4.q) fun t h5 => ?_
  refine h5.step_p2 hs (y' := uP2) (rw_mform ..) (.mform _ h5.p2 h5.p2) fun t h6 => ?_
  clear h1 h2 h3 h4 h5
  refine h6.step_v0 hs (y' := q0) (rw_mul ..) (.mul _ h6.q (hq0 h6) h6.v0) fun t h7 => ?_
  refine h7.step_p0 hs (y' := p0) (rw_mul ..) (.mulFresh _ h7.p2 (hp0 h7) ?_) fun t h8 => ?_
  · rw [h7.len, h.p0]
    exact List.length_replicate.symm
  refine h8.step_v1 hs (y' := q1) (rw_mul ..) (.mul _ h8.q (hq1 h8) h8.v1) fun t h9 => ?_
  refine h9.step_p1 hs (y' := p1) (rw_mul ..) (.mulFresh _ h9.p2 (hp1 h9) ?_) fun t h10 => ?_
  · rw [h9.len, h.p1]
    exact List.length_replicate.symm
  clear h6 h7 h8 h9
  refine h10.step_v0 hs (y' := q01) (rw_invNtt ..) (.invNtt _ h10.v0 h10.v0) fun t h11 => ?_
  refine h11.step_p0 hs (y' := p01) (rw_invNtt ..) (.invNtt _ h11.p0 h11.p0) fun t h12 => ?_
  refine h12.step_v1 hs (y' := q11) (rw_invNtt ..) (.invNtt _ h12.v1 h12.v1) fun t h13 => ?_
  refine h13.step_p1 hs (y' := p11) (rw_invNtt ..) (.invNtt _ h13.p1 h13.p1) fun t h14 => ?_
  clear h10 h11 h12 h13
  refine h14.readGauss_q hs _ _ (y := eQ) (fun z hz => .gauss _ _ _ hz) fun t h15 => ?_
  refine h15.step_p2 hs (y' := eP) (rw_extend _ _ _ e1) (.extend _ _ h15.q h15.p2) fun t h16 => ?_
  refine h16.step_v0 hs (y' := q02) (rw_add ..) (.add _ h16.v0 h16.q h16.v0) fun t h17 => ?_
  refine h17.step_p0 hs (y' := p02) (rw_add ..) (.add _ h17.p0 h17.p2 h17.p0) fun t h18 => ?_
  clear h14 h15 h16 h17
  refine h18.readGauss_q hs _ _ (y := eQ1) (fun z hz => .gauss _ _ _ hz) fun t h19 => ?_
  refine h19.step_p2 hs (y' := eP1) (rw_extend _ _ _ e1) (.extend _ _ h19.q h19.p2) fun t h20 => ?_
  refine h20.step_v1 hs (y' := q12) (rw_add ..) (.add _ h20.v1 h20.q h20.v1) fun t h21 => ?_
  refine h21.step_p1 hs (y' := p12) (rw_add ..) (.add _ h21.p1 h21.p2 h21.p1) fun t h22 => ?_
  clear h18 h19 h20 h21
  refine h22.modDown_v0 hs fun t h23 => ?_
  refine h23.modDown_v1 hs fun t h24 => ?_
  rw [after_rd, h24.flag]
  clear h22 h23
  by_cases hc : (s.poly c0).isNTT = true
  · have hv : v = (qd, qc) := if_pos hc
    rw [hv, if_pos hc]
    by_cases hp : (s.poly pt).isNTT = true
    · have hqa : qa = q03 := if_neg (by rw [hp]; decide)
      have hqd : qd = rQ.addLvl levelQ qb (s.poly pt).coeffs qb := if_pos hp
      rw [if_neg (by rw [hp]; decide), if_pos hp, hqd]
      refine h24.step_v0 hs (y' := qb) (rw_ntt ..) (by show SameUpTo _ _ (rQ.nttLvl levelQ qa qa); rw [hqa]; exact .ntt _ h24.v0 h24.v0) fun t h25 => ?_
      refine h25.step_v1 hs (y' := qc) (rw_ntt ..) (.ntt _ h25.v1 h25.v1) fun t h26 => ?_
      refine h26.step_v0 hs (rw_add ..) (.add _ h26.v0 (hptr h26) h26.v0) fun t h27 => ?_
      exact h27.finish hs
    · have hp' : (!(s.poly pt).isNTT) = true := by simpa using hp
      have hqa : qa = rQ.addLvl levelQ q03 (s.poly pt).coeffs q03 := if_pos hp'
      have hqd : qd = qb := if_neg hp
      rw [if_pos hp', if_neg hp, hqd]
      refine h24.step_v0 hs (y' := qa) (rw_add ..) (by rw [hqa]; exact .add _ h24.v0 (hptr h24) h24.v0) fun t h25 => ?_
      refine h25.step_v0 hs (y' := qb) (rw_ntt ..) (.ntt _ h25.v0 h25.v0) fun t h26 => ?_
      refine h26.step_v1 hs (y' := qc) (rw_ntt ..) (.ntt _ h26.v1 h26.v1) fun t h27 => ?_
      exact h27.finish hs
  · rw [if_neg hc]
    by_cases hp : (!(s.poly pt).isNTT) = true
    · have hv : v = (rQ.addLvl levelQ q03 (s.poly pt).coeffs q03, q13) := (if_neg hc).trans (if_pos hp)
      rw [hv, if_pos hp]
      refine h24.step_v0 hs (rw_add ..) (.add _ h24.v0 (hptr h24) h24.v0) fun t h25 => ?_
      exact h25.finish hs
    · have hv : v = (rQ.addLvl levelQ q03 pool q03, q13) := (if_neg hc).trans (if_neg hp)
      rw [hv, if_neg hp]
      refine h24.step_q hs (y' := pool) (rw_invNtt ..) (.invNtt _ (hptr h24) h24.q) fun t h25 => ?_
      refine h25.step_v0 hs (rw_add ..) (.add _ h25.v0 h25.q h25.v0) fun t h26 => ?_
      exact h26.finish hs

/-- what `Encrypt` does before the key decides: it fills the second component -/
theorem EncRes.of_c1 {s1 s' : Store σ} {r : Poly × Poly} {x' : σ} (h1 : ∀ a, a ≠ c1 → a ≠ e.rnd → s1.poly a = s.poly a)
    (hlr : (s1.rows e.rnd).length = (s.rows e.rnd).length)
    (h : EncRes e c0 c1 s1 s' r x') : EncRes e c0 c1 s s' r x' := by
  refine ⟨h.v0, h.v1, h.rnd, fun a ha0 ha1 => ?_, fun a ha => ?_⟩
  · rw [h.len a ha0 ha1]
    by_cases hr : a = e.rnd
    · rw [hr, hlr]
    · unfold Store.rows
      rw [h1 a ha1 hr]
  · rw [h.frame a ha, h1 a (fun e => ha (by simp [e])) (fun e => ha (by simp [e]))]

theorem run_encrypt (S : Samplers σ) (hs : EncSep e c0 c1) {key : EncKey} {pt : ℕ}
    (hk : ∀ a ∈ key.cells, a ∉ [e.rnd, e.poolQ, c0, c1, e.poolP0, e.poolP1, e.poolP2, e.beQ])
    (hpt : pt ∉ [e.rnd, e.poolQ, c0, c1, e.poolP0, e.poolP1, e.poolP2, e.beQ]) (h : EncReady e s x) :
    EncRes e c0 c1 s (after (e.encrypt S key pt c0 c1) s)
      (encryptFn S e.ringQ e.ringP (.of s key) x (s.poly pt) (s.poly c0) (s.poly c1)).1
      (encryptFn S e.ringQ e.ringP (.of s key) x (s.poly pt) (s.poly c0) (s.poly c1)).2 := by
  have e01 : c0 ≠ c1 := hs.ne (i := 2) (j := 3) (by omega) (by omega) (by omega)
  have er0 : c0 ≠ e.rnd := hs.ne (i := 2) (j := 0) (by omega) (by omega) (by omega)
  have er1 : c1 ≠ e.rnd := hs.ne (i := 3) (j := 0) (by omega) (by omega) (by omega)
  unfold Encryptor.encrypt
  rw [after_rd]
  generalize hl : min (s.poly pt).level (s.poly c0).level = level
  unfold readRows
  rw [after_bind, after_sample _ h.rnd, after_ringCall _ (rw_const ..), Store.rows_set_ne _ _ er1]
  generalize hs1 : Store.setRows (Store.set s e.rnd (.rnd (S.uniform x).2)) c1 (writeLvl level (S.uniform x).1 (s.rows c1)) = s1
  have h1 : ∀ a, a ≠ c1 → a ≠ e.rnd → s1.poly a = s.poly a := fun a ha hr => by
    rw [← hs1, Store.poly_setRows_ne _ _ ha, Store.poly_set_ne _ _ hr]
  have h1r : ∀ a, a ≠ c1 → a ≠ e.rnd → s1.rows a = s.rows a := fun a ha hr => congrArg Poly.coeffs (h1 a ha hr)
  have hc1 : s1.poly c1 = ⟨writeLvl level (S.uniform x).1 (s.poly c1).coeffs, (s.poly c1).isNTT⟩ := by
    rw [← hs1, Store.poly_setRows_self, Store.poly_set_ne _ _ er1]
    rfl
  have hne : ∀ a, a ∉ [e.rnd, e.poolQ, c0, c1, e.poolP0, e.poolP1, e.poolP2, e.beQ] → a ≠ c1 ∧ a ≠ e.rnd :=
    fun a ha => ⟨fun e => ha (by simp [e]), fun e => ha (by simp [e])⟩
  have hlr : (s1.rows e.rnd).length = (s.rows e.rnd).length := by
    rw [← hs1, Store.rows_setRows_ne _ _ er1.symm]
    unfold Store.rows Store.poly
    rw [Store.set_self, h.rnd]
  have hready : EncReady e s1 (S.uniform x).2 := by
    refine ⟨?_, ?_, ?_, ?_, ?_, ?_⟩
    · rw [h1r e.poolQ (hs.ne (i := 1) (j := 3) (by omega) (by omega) (by omega)) (hs.ne (i := 1) (j := 0) (by omega) (by omega) (by omega)), h.q]
    · rw [h1r e.poolP0 (hs.ne (i := 4) (j := 3) (by omega) (by omega) (by omega)) (hs.ne (i := 4) (j := 0) (by omega) (by omega) (by omega)), h.p0]
    · rw [h1r e.poolP1 (hs.ne (i := 5) (j := 3) (by omega) (by omega) (by omega)) (hs.ne (i := 5) (j := 0) (by omega) (by omega) (by omega)), h.p1]
    · rw [h1r e.poolP2 (hs.ne (i := 6) (j := 3) (by omega) (by omega) (by omega)) (hs.ne (i := 6) (j := 0) (by omega) (by omega) (by omega)), h.p2]
    · rw [h1r e.beQ (hs.ne (i := 7) (j := 3) (by omega) (by omega) (by omega)) (hs.ne (i := 7) (j := 0) (by omega) (by omega) (by omega)), h.be]
    · rw [← hs1, Store.setRows_ne _ _ er1.symm, Store.set_self]
  unfold encryptFn
  dsimp only
  rw [hl, ← hc1]
  have r0 := h1 c0 e01 er0
  have rp := h1 pt (hne pt hpt).1 (hne pt hpt).2
  cases key with
  | sk k =>
    have := run_skEncrypt S hs (sk := k) hpt hready
    rw [r0, rp, h1r k (hne k (hk k (by simp [EncKey.cells]))).1 (hne k (hk k (by simp [EncKey.cells]))).2] at this
    exact this.of_c1 h1 hlr
  | pk k =>
    have hk' : ∀ a ∈ [k.q0, k.p0, k.q1, k.p1], a ∉ [e.rnd, e.poolQ, c0, c1, e.poolP0, e.poolP1, e.poolP2, e.beQ] := hk
    have k1 := hne _ (hk' k.q0 (by simp))
    have k2 := hne _ (hk' k.p0 (by simp))
    have k3 := hne _ (hk' k.q1 (by simp))
    have k4 := hne _ (hk' k.p1 (by simp))
    dsimp only [KeyVal.of]
    by_cases hP : e.ringP.subs ≠ []
    · rw [if_pos hP, if_pos hP]
      have := run_pkEncrypt S hs (pk := k) hk' hpt hready
      rw [r0, rp, h1r _ k1.1 k1.2, h1r _ k2.1 k2.2, h1r _ k3.1 k3.2, h1r _ k4.1 k4.2, hl] at this
      exact this.of_c1 h1 hlr
    · rw [if_neg hP, if_neg hP]
      have := run_pkEncryptNoP S hs (pk := k) hk' hpt hready
      rw [r0, rp, h1r _ k1.1 k1.2, h1r _ k3.1 k3.2, hl] at this
      by_cases hc : (s.poly c0).isNTT = true
      · rw [if_pos hc]
        rw [if_pos hc, if_pos hc] at this
        exact this.of_c1 h1 hlr
      · rw [if_neg hc]
        rw [if_neg hc, if_neg hc] at this
        exact this.of_c1 h1 hlr

theorem run_encryptFromCRP (S : Samplers σ) (hs : EncSep e c0 c1) {sk pt crp : ℕ}
    (hk : sk ∉ [e.rnd, e.poolQ, c0, c1, e.poolP0, e.poolP1, e.poolP2, e.beQ])
    (hpt : pt ∉ [e.rnd, e.poolQ, c0, c1, e.poolP0, e.poolP1, e.poolP2, e.beQ]) (h : EncReady e s x) :
    EncRes e c0 c1 s (after (e.encryptFromCRP S sk pt crp c0 c1) s)
      (encryptFromCRPFn S e.ringQ (s.rows sk) x (s.poly pt) (s.poly crp) (s.poly c0) (s.poly c1)).1
      (encryptFromCRPFn S e.ringQ (s.rows sk) x (s.poly pt) (s.poly crp) (s.poly c0) (s.poly c1)).2 := by
  have e01 : c0 ≠ c1 := hs.ne (i := 2) (j := 3) (by omega) (by omega) (by omega)
  have er1 : c1 ≠ e.rnd := hs.ne (i := 3) (j := 0) (by omega) (by omega) (by omega)
  unfold Encryptor.encryptFromCRP
  rw [after_rd, after_call _ (rw_copy ..)]
  generalize hs1 : Store.setRows s c1 (writeLvl (min (s.poly crp).level (s.poly c1).level) (fun u => (s.rows crp).row u) (s.rows c1)) = s1
  have h1 : ∀ a, a ≠ c1 → s1.poly a = s.poly a := fun a ha => by rw [← hs1, Store.poly_setRows_ne _ _ ha]
  have h1r : ∀ a, a ≠ c1 → s1.rows a = s.rows a := fun a ha => congrArg Poly.coeffs (h1 a ha)
  have hc1 : s1.poly c1 = ⟨writeLvl (min (s.poly crp).level (s.poly c1).level) (fun u => (s.poly crp).coeffs.row u) (s.poly c1).coeffs,
      (s.poly c1).isNTT⟩ := by
    rw [← hs1, Store.poly_setRows_self]
    rfl
  have hready : EncReady e s1 x := by
    refine ⟨?_, ?_, ?_, ?_, ?_, ?_⟩
    · rw [h1r e.poolQ (hs.ne (i := 1) (j := 3) (by omega) (by omega) (by omega)), h.q]
    · rw [h1r e.poolP0 (hs.ne (i := 4) (j := 3) (by omega) (by omega) (by omega)), h.p0]
    · rw [h1r e.poolP1 (hs.ne (i := 5) (j := 3) (by omega) (by omega) (by omega)), h.p1]
    · rw [h1r e.poolP2 (hs.ne (i := 6) (j := 3) (by omega) (by omega) (by omega)), h.p2]
    · rw [h1r e.beQ (hs.ne (i := 7) (j := 3) (by omega) (by omega) (by omega)), h.be]
    · rw [← hs1, Store.setRows_ne _ _ er1.symm, h.rnd]
  have := run_skEncrypt S hs (sk := sk) hpt hready
  unfold encryptFromCRPFn
  dsimp only
  rw [← hc1]
  rw [h1 c0 e01, h1 pt fun e => hpt (by simp [e]), h1r sk fun e => hk (by simp [e])] at this
  exact this.of_c1 (fun a ha _ => h1 a ha) (by rw [h1r _ er1.symm])

end

end FastKsw
