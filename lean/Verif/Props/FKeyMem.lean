import Verif.Model.FKeyMem
import Verif.Lemmas.ThreadEncrypt
import Verif.Props.RandomFKeys

/-!
# C124: the keys of the fast key-switch in memory

The allocation of `NewRelinKey` and `NewRotationKey` is what the conversion of `GenRelinKey` and `GenRotKey` fills: no index is out of range,
and what the buffer of the generator holds from earlier calls does not reach the key.
-/

namespace FastKsw.Props

/-- loops that may panic -/
theorem foldlM_inv {σ : Type} {f : σ → ℕ → Option σ} (I : ℕ → σ → Prop) {m : ℕ} {s0 : σ} (h0 : I 0 s0)
    (h : ∀ i < m, ∀ s, I i s → ∃ s', f s i = some s' ∧ I (i + 1) s') : ∃ s', (List.range m).foldlM f s0 = some s' ∧ I m s' := by
  induction m with
  | zero => exact ⟨s0, rfl, h0⟩
  | succ m ih =>
    obtain ⟨s1, e1, i1⟩ := ih fun i hi => h i (by omega)
    obtain ⟨s2, e2, i2⟩ := h m (by omega) s1 i1
    refine ⟨s2, ?_, i2⟩
    rw [List.range_succ, List.foldlM_append, e1]
    simp [e2]

theorem copySlice_same {dst src : Row} (h : dst.length = src.length) : copySlice dst src = src := by
  rw [copySlice, h, List.take_length, ← h, List.drop_length, List.append_nil]

theorem getD_setAt {α : Type} (l : List α) (i j : ℕ) (a d : α) : (l.set i a).getD j d = if i = j ∧ j < l.length then a else l.getD j d := by
  by_cases hj : j < l.length
  · rw [List.getD_eq_getElem _ _ (by simpa using hj), List.getElem_set, List.getD_eq_getElem _ _ hj]
    simp [hj]
  · rw [List.getD_eq_default _ _ (by simpa using hj), List.getD_eq_default _ _ (by omega)]
    simp [hj]

/-- a buffer of `gamma` rows -/
structure GenPool (p : FParams) (pool : Rows) : Prop where
  len : pool.length = p.gamma
  row : ∀ j < p.gamma, (pool.row j).length = p.ringQ.n

/-- a polynomial over `R = P‖Q` whose rows have one entry per coefficient -/
structure RowsR (p : FParams) (x : PolyQP) : Prop where
  lenQ : p.maxLevel < x.q.length
  lenP : p.alpha ≤ x.p.length
  row : ∀ u < p.maxLevel + p.alpha + 1, (x.getR p.alpha u).length = p.ringQ.n

theorem fillPool_eq {p : FParams} {x : PolyQP} (hx : RowsR p x) {i : ℕ} {pool : Rows} (hp : GenPool p pool) :
    ∃ pool', p.fillPool x i pool = some (min p.gamma (p.maxLevel + p.alpha + 1 - i * p.gamma), pool') ∧ GenPool p pool' ∧
      ∀ j < min p.gamma (p.maxLevel + p.alpha + 1 - i * p.gamma), pool'.row j = x.getR p.alpha (i * p.gamma + j) := by
  have hq := hx.lenQ
  have hpl := hx.lenP
  obtain ⟨s, e, h1, h2, h3⟩ := foldlM_inv (m := p.gamma) (s0 := (0, pool))
    (f := fun (s : ℕ × Rows) j =>
      if i * p.gamma + j < p.alpha then
        if j < s.2.length ∧ i * p.gamma + j < x.p.length then
          some (s.1 + 1, s.2.set j (copySlice (s.2.row j) (x.p.row (i * p.gamma + j)))) else none
      else if i * p.gamma + j < p.maxLevel + p.alpha + 1 then
        if j < s.2.length ∧ i * p.gamma + j - p.alpha < x.q.length then
          some (s.1 + 1, s.2.set j (copySlice (s.2.row j) (x.q.row (i * p.gamma + j - p.alpha)))) else none
      else some s)
    (fun m s => s.1 = min m (p.maxLevel + p.alpha + 1 - i * p.gamma) ∧ GenPool p s.2 ∧
      ∀ j < min m (p.maxLevel + p.alpha + 1 - i * p.gamma), s.2.row j = x.getR p.alpha (i * p.gamma + j))
    ⟨by simp, hp, fun j hj => by omega⟩ (by
      rintro j hj ⟨c, P⟩ ⟨i1, i2, i3⟩
      dsimp only at i1 i2 i3 ⊢
      have step : ∀ row : Row, row = x.getR p.alpha (i * p.gamma + j) → i * p.gamma + j < p.maxLevel + p.alpha + 1 →
          c + 1 = min (j + 1) (p.maxLevel + p.alpha + 1 - i * p.gamma) ∧ GenPool p (P.set j (copySlice (P.row j) row)) ∧
          ∀ j' < min (j + 1) (p.maxLevel + p.alpha + 1 - i * p.gamma),
            Rows.row (P.set j (copySlice (P.row j) row)) j' = x.getR p.alpha (i * p.gamma + j') := by
        intro row hr hlt
        have hl := hx.row _ hlt
        rw [copySlice_same (by rw [i2.row j hj, hr, hl]), hr]
        refine ⟨by omega, ⟨by rw [List.length_set, i2.len], fun j' hj' => ?_⟩, fun j' hj' => ?_⟩
        · unfold Rows.row
          rw [getD_setAt]
          split
          · exact hl
          · exact i2.row j' hj'
        · unfold Rows.row
          rw [getD_setAt]
          split
          · rename_i h; rw [h.1]
          · rename_i h
            have := i2.len
            exact i3 j' (by omega)
      have hlen := i2.len
      split
      · rename_i h
        rw [if_pos ⟨by omega, by omega⟩]
        exact ⟨_, rfl, step _ (by rw [PolyQP.getR, if_pos h]) (by omega)⟩
      · rename_i h
        split
        · rename_i h'
          rw [if_pos ⟨by omega, by omega⟩]
          exact ⟨_, rfl, step _ (by rw [PolyQP.getR, if_neg h]) h'⟩
        · exact ⟨_, rfl, by dsimp only; omega, i2, fun j' hj' => i3 j' (by omega)⟩)
  refine ⟨s.2, ?_, h2, h3⟩
  rw [FParams.fillPool, e, ← h1]

theorem modUpQtoP_congr (be : BasisExtender) {levelQ levelP : ℕ} {a b out : Rows} (h : ∀ i ≤ levelQ, a.row i = b.row i) :
    be.modUpQtoP levelQ levelP a out = be.modUpQtoP levelQ levelP b out := by
  unfold BasisExtender.modUpQtoP modUpExact
  refine writeLvl_congr_lt fun j _ _ => ?_
  rw [h 0 (Nat.zero_le _)]
  refine List.map_congr_left fun x _ => modUpCoeff_congr (fun i hi => ?_) _ _ _ _ _ _
  rw [h i (by omega)]

section
variable {fuel n : ℕ} {p : FParams} {kg : FKeyGenerator} (h : p.OK fuel n) (hg : newFKeyGenerator fuel p = some kg)
include h hg

theorem convRiT_length : kg.convRiT.length = ceilDivF (p.maxLevel + p.alpha + 1) p.gamma := by
  have hg0 := h.gamma_pos
  have hg2 := h.gamma32
  have ha2 := h.alpha32
  have hq := h.q100
  have hR := h.lenR
  have e1 : ceilDivF p.ringR.subs.length p.gamma = (p.ringR.subs.length + p.gamma - 1) / p.gamma :=
    ceilDivF_small hg0 (by omega) (by omega)
  obtain ⟨gR, r1, r2⟩ := blockRings_ok (len := (p.ringR.subs.length + p.gamma - 1) / p.gamma)
    h.n_lt h.sR h.bR hg0 (fun i hi => (ceil_block hg0).1 hi)
  unfold newFKeyGenerator at hg
  simp only at hg
  rw [h.cntR, e1, h.hQ.deg, r1] at hg
  rw [h.cntR, e1, ← Option.some.inj hg]
  simp

theorem polyTInto_eq {x : PolyQP} (hx : RowsR p x) {i : ℕ} (hi : i < ceilDivF (p.maxLevel + p.alpha + 1) p.gamma) {pool : Rows}
    (hp : GenPool p pool) : ∃ pool', kg.polyTInto x i pool (newPoly p.ringT.n p.ringT.subs.length) = some (pool', kg.polyT x i) ∧
      GenPool p pool' := by
  have hk := kg_ok h hg
  have hg0 := h.gamma_pos
  have h32 := h.gamma32
  have ha2 := h.alpha32
  have hq := h.q100
  have hR := h.lenR
  have hT := h.lenT
  have hc := convRiT_length h hg
  have hcnt := h.cntR
  have hi' : i * p.gamma < p.ringR.subs.length := by
    rw [h.cntR, ceilDivF_small hg0 (by omega) (by omega)] at hi
    exact (ceil_block hg0).1 hi
  obtain ⟨b, hb, hconv⟩ := hk.conv i hi'
  obtain ⟨pool', e, h1, h2⟩ := fillPool_eq hx (i := i) hp
  have hlT : p.levelT < p.ringT.subs.length := by unfold FParams.levelT; omega
  have hrow : ∀ j < min p.gamma (p.maxLevel + p.alpha + 1 - i * p.gamma), (pool'.row j).length = p.ringQ.n := fun j hj => by
    rw [h2 j hj]
    exact hx.row _ (by omega)
  refine ⟨pool', ?_, h1⟩
  unfold FKeyGenerator.polyTInto
  dsimp only
  rw [hk.params, e, Option.bind_some, if_pos (by omega), hconv, if_pos]
  · obtain ⟨f1, f2⟩ := poolFold (i * p.gamma) p.ringR.subs.length p.gamma
      (fun j => x.getR p.alpha (i * p.gamma + j)) (newPoly p.ringR.n p.gamma) (by rw [length_newPoly]; omega)
    unfold FKeyGenerator.polyT
    simp only [hk.params, h.cntR]
    rw [hconv, blockCount_eq, modUpQtoP_congr]
    intro j hj
    rw [h2 j (by omega), f2 j (by omega)]
  · refine ⟨by omega, by omega, by rw [h1.len]; omega, ?_, by rw [length_newPoly]; exact hlT, fun j hj => ?_, fun t ht => ?_⟩
    · show _ ≤ ((List.range b.subs.length).map _).length
      rw [List.length_map, List.length_range, hb.len]
      omega
    · rw [hrow j hj, hrow 0 (by omega)]
    · rw [row_newPoly (by omega), List.length_replicate, hrow 0 (by omega), h.hT.deg, h.hQ.deg]

theorem polyQPToPolyTsInto_eq {x : PolyQP} (hx : RowsR p x) {pool : Rows} (hp : GenPool p pool) :
    ∃ pool', kg.polyQPToPolyTsInto x pool (List.replicate (ceilDivF (p.maxLevel + p.alpha + 1) p.gamma)
      (newPoly p.ringT.n p.ringT.subs.length)) = some (pool', kg.polyQPToPolyTs x) ∧ GenPool p pool' := by
  have hk := kg_ok h hg
  unfold FKeyGenerator.polyQPToPolyTsInto FKeyGenerator.polyQPToPolyTs
  dsimp only
  rw [hk.params]
  generalize hL : ceilDivF (p.maxLevel + p.alpha + 1) p.gamma = L
  obtain ⟨s, e, h1, h2, h3⟩ := foldlM_inv (m := L) (s0 := (pool, List.replicate L (newPoly p.ringT.n p.ringT.subs.length)))
    (f := fun (s : Rows × List Rows) i =>
      if i < s.2.length then (kg.polyTInto x i s.1 (s.2.getD i [])).map fun r => (r.1, s.2.set i r.2) else none)
    (fun m s => GenPool p s.1 ∧ s.2.length = L ∧ ∀ i < L, s.2.getD i [] =
      if i < m then kg.polyT x i else newPoly p.ringT.n p.ringT.subs.length)
    ⟨hp, by simp, fun i hi => by simp [List.getD, hi]⟩ (by
      rintro i hi ⟨P, l⟩ ⟨i1, i2, i3⟩
      dsimp only at i1 i2 i3 ⊢
      have hi3 := i3 i hi
      rw [if_neg (by omega)] at hi3
      obtain ⟨P', e', h'⟩ := polyTInto_eq h hg hx (i := i) (by omega) i1
      rw [if_pos (by omega), hi3, e', Option.map_some]
      refine ⟨_, rfl, h', by simp [i2], fun j hj => ?_⟩
      rw [getD_setAt, i3 j hj]
      by_cases hij : i = j
      · subst hij
        rw [if_pos ⟨rfl, by omega⟩, if_pos (by omega)]
      · rw [if_neg (fun h => hij h.1)]
        by_cases hji : j < i
        · rw [if_pos hji, if_pos (by omega)]
        · rw [if_neg hji, if_neg (by omega)])
  refine ⟨s.1, ?_, h1⟩
  rw [e]
  congr 1
  refine Prod.ext rfl (List.ext_getElem (by simp [h2]) fun i a b => ?_)
  have := h3 i (by omega)
  rw [List.getD_eq_getElem _ _ a, if_pos (by omega)] at this
  rw [this, List.getElem_map, List.getElem_range]

omit hg in
theorem plain_rows {x : PolyQP} {X : ℕ → ℤ} (hx : x.IsMont n p.ringQ p.ringP p.maxLevel (p.alpha - 1) X) : RowsR p (p.plain x) := by
  have hQ := unmont h.hQ h.sQ hx.q
  have hP := unmont h.hP h.sP hx.p
  have l1 := hQ.lvl
  have l2 : p.alpha - 1 < (p.ringP.invNttLvl (p.alpha - 1) (p.ringP.invMformLvl (p.alpha - 1) x.p x.p)
      (p.ringP.invMformLvl (p.alpha - 1) x.p x.p)).length := hP.lvl
  refine ⟨l1, ?_, fun u hu => ?_⟩
  · change p.alpha ≤ (p.ringP.invNttLvl (p.alpha - 1) (p.ringP.invMformLvl (p.alpha - 1) x.p x.p)
      (p.ringP.invMformLvl (p.alpha - 1) x.p x.p)).length
    omega
  · rw [h.cntR] at hu
    rw [(plain_is h hx hu).len, h.hQ.deg]

/-- **C124.** The conversion of a key into the memory that `NewRelinKey` and `NewRotationKey` allocate, through the buffer of the
generator, whatever that holds: no panic, and the value of `convertKey`, which is computed on a cleared buffer; the buffer is fit for the
next call. -/
theorem C124_conversion {k : SwitchingKey} (hl : p.beta ≤ k.length)
    (hm : ∀ i < p.beta, ∃ B A : ℕ → ℤ, (k.getD i default).1.IsMont n p.ringQ p.ringP p.maxLevel (p.alpha - 1) B ∧
      (k.getD i default).2.IsMont n p.ringQ p.ringP p.maxLevel (p.alpha - 1) A) {pool : Rows} (hp : GenPool p pool) :
    ∃ pool', kg.convertKeyInto pool k (newFRelinKey p) = some (pool', kg.convertKey k) ∧ GenPool p pool' := by
  have hk := kg_ok h hg
  have key := fun {x : PolyQP} (hx : RowsR p x) {pool : Rows} (hp : GenPool p pool) => polyQPToPolyTsInto_eq h hg hx hp
  unfold FKeyGenerator.convertKeyInto FKeyGenerator.convertKey newFRelinKey newFSwitchingKey
  dsimp only
  rw [hk.params]
  generalize List.replicate (ceilDivF (p.maxLevel + p.alpha + 1) p.gamma) (newPoly p.ringT.n p.ringT.subs.length) = z at key
  obtain ⟨s, e, h1, h2, h2', h3, h3'⟩ := foldlM_inv (m := p.beta) (s0 := (pool, (List.replicate p.beta z, List.replicate p.beta z)))
    (f := fun (s : Rows × (FSwitchingKey × FSwitchingKey)) i =>
      if i < k.length ∧ i < s.2.1.length ∧ i < s.2.2.length then
        (kg.polyQPToPolyTsInto (p.plain (k.getD i default).1) s.1 (s.2.1.getD i [])).bind fun r =>
          (kg.polyQPToPolyTsInto (p.plain (k.getD i default).2) r.1 (s.2.2.getD i [])).map fun r' =>
            (r'.1, (s.2.1.set i r.2, s.2.2.set i r'.2))
      else none)
    (fun m s => GenPool p s.1 ∧ s.2.1.length = p.beta ∧ s.2.2.length = p.beta ∧
      (∀ i < p.beta, s.2.1.getD i [] = if i < m then kg.polyQPToPolyTs (p.plain (k.getD i default).1) else z) ∧
      (∀ i < p.beta, s.2.2.getD i [] = if i < m then kg.polyQPToPolyTs (p.plain (k.getD i default).2) else z))
    ⟨hp, by simp, by simp, fun i hi => by simp [List.getD, hi], fun i hi => by simp [List.getD, hi]⟩ (by
      rintro i hi ⟨P, l, l'⟩ ⟨i1, i2, i2', i3, i3'⟩
      dsimp only at i1 i2 i2' i3 i3' ⊢
      have u := i3 i hi
      have u' := i3' i hi
      rw [if_neg (by omega)] at u u'
      obtain ⟨B, A, mB, mA⟩ := hm i hi
      obtain ⟨P1, e1, p1⟩ := key (plain_rows h mB) i1
      obtain ⟨P2, e2, p2⟩ := key (plain_rows h mA) p1
      rw [if_pos ⟨by omega, by omega, by omega⟩, u, u', e1, Option.bind_some, e2, Option.map_some]
      have fin : ∀ {l : FSwitchingKey} {v : ℕ → List Rows}, l.length = p.beta → (∀ i' < p.beta, l.getD i' [] = if i' < i then v i' else z) →
          ∀ j < p.beta, (l.set i (v i)).getD j [] = if j < i + 1 then v j else z := by
        intro l v hl hv j hj
        rw [getD_setAt, hv j hj]
        by_cases hij : i = j
        · subst hij
          rw [if_pos ⟨rfl, by omega⟩, if_pos (by omega)]
        · rw [if_neg (fun h => hij h.1)]
          by_cases hji : j < i
          · rw [if_pos hji, if_pos (by omega)]
          · rw [if_neg hji, if_neg (by omega)]
      exact ⟨_, rfl, p2, by simp [i2], by simp [i2'], fin i2 i3, fin i2' i3'⟩)
  refine ⟨s.1, ?_, h1⟩
  refine Eq.trans e ?_
  have ext : ∀ {l : FSwitchingKey} {v : ℕ → List Rows}, l.length = p.beta → (∀ i < p.beta, l.getD i [] = if i < p.beta then v i else z) →
      l = (List.range p.beta).map v := by
    intro l v hl hv
    refine List.ext_getElem (by simp [hl]) fun i a b => ?_
    have := hv i (by omega)
    rw [List.getD_eq_getElem _ _ a, if_pos (by omega)] at this
    rw [this, List.getElem_map, List.getElem_range]
  exact congrArg some (Prod.ext rfl (Prod.ext (ext h2 h3) (ext h2' h3')))

omit hg in
theorem beta_digit {i : ℕ} (hi : i < p.beta) : i * (p.alpha - 1 + 1) ≤ p.maxLevel := by
  have h1 := h.lenQ
  have h2 := h.lenP
  have h3 := h.q100
  have h4 : p.alpha = p.ringP.subs.length := rfl
  have h5 := h.alpha32
  unfold FParams.beta at hi
  rw [if_pos (by omega), ceilDivF_small (by omega) (by omega) (by omega)] at hi
  have := (ceil_block (by omega)).1 hi
  unfold FParams.maxLevel
  rw [Nat.sub_add_cancel (by omega)]
  omega

omit hg in
/-- the buffer that `NewKeyGenerator` allocates, frlwe/keygen.go:46 -/
theorem newPool_ok : GenPool p (newPoly p.ringR.n p.gamma) :=
  ⟨length_newPoly _ _, fun j hj => by rw [row_newPoly hj, List.length_replicate, h.hR.deg, h.hQ.deg]⟩

theorem switchKey_conversion {k : SwitchingKey} (hl : p.beta ≤ k.length) {sIn sOut : ℕ → ℤ} {e : ℕ → ℕ → ℤ}
    (hs : IsSwitchKey n p.ringQ p.ringP p.maxLevel (p.alpha - 1) k sIn sOut e) {pool : Rows} (hp : GenPool p pool) :
    ∃ pool', kg.convertKeyInto pool k (newFRelinKey p) = some (pool', kg.convertKey k) ∧ GenPool p pool' := by
  obtain ⟨B, A, hBA, -⟩ := hs.ex
  exact C124_conversion h hg hl (fun i hi => ⟨B i, A i, hBA i (beta_digit h hi)⟩) hp

omit hg in
theorem core_beta (skIn : Rows) (skOut : PolyQP) (tape : ℕ → KeyTape) : p.beta ≤
    (genSwitchingKeyCore p.ringQ p.ringP (p.ringQ.subs.length - 1) (p.ringP.subs.length - 1) skIn skOut tape).length := by
  have h1 := h.lenQ
  have h2 := h.lenP
  have h4 : p.alpha = p.ringP.subs.length := rfl
  unfold FParams.beta genSwitchingKeyCore
  rw [if_pos (by omega), List.length_map, List.length_range, Nat.sub_add_cancel (by omega), Nat.sub_add_cancel (by omega), h4]

variable {sk : PolyQP} {S : ℕ → ℤ} (hs : sk.IsMont n p.ringQ p.ringP p.maxLevel (p.alpha - 1) S) {tape : ℕ → KeyTape} {e : ℕ → ℕ → ℤ}
  (ht : TapeOK n p.ringQ p.ringP p.maxLevel (p.alpha - 1) tape e)
include hs ht

/-- **C124 (relinearization).** `GenRelinKey` does not panic, whatever the generator was used for before, and returns the key whose use is
C27. -/
theorem C124_relin {pool : Rows} (hp : GenPool p pool) :
    ∃ pool', kg.genRelinKeyMem pool sk tape = some (pool', kg.genRelinKey sk tape) ∧ GenPool p pool' := by
  have hkey := C33_relinearization (FParams.OK.keyParams h) hs (maxDegree := 1) (i := 0) (by omega) (tape := fun _ => tape) ht
  unfold FKeyGenerator.genRelinKeyMem FKeyGenerator.genRelinKey
  rw [(kg_ok h hg).params]
  exact switchKey_conversion h hg (core_beta h _ _ _) hkey hp

/-- **C124 (rotation).** `GenRotKey`, likewise. -/
theorem C124_rotation (rot : ℤ) {pool : Rows} (hp : GenPool p pool) :
    ∃ pool', kg.genRotKeyMem pool rot sk tape = some (pool', kg.genRotKey rot sk tape) ∧ GenPool p pool' := by
  obtain ⟨g', -, -, hkey⟩ := C33_rotation (FParams.OK.keyParams h) hs (rot.tmod ((p.ringQ.n / 2 : ℕ) : ℤ)) ht
  unfold FKeyGenerator.genRotKeyMem FKeyGenerator.genRotKey
  dsimp only
  rw [(kg_ok h hg).params]
  obtain ⟨pool', e1, h1⟩ := switchKey_conversion h hg (core_beta h _ _ _) hkey hp
  exact ⟨pool', congrArg (Option.map fun r => (r.1, (UInt64.ofInt (rot.tmod ((p.ringQ.n / 2 : ℕ) : ℤ)), r.2))) e1, h1⟩

end

/-- a rotation key after a relinearization key, on a buffer that holds sevens -/
example : ∃ (p : FParams) (kg : FKeyGenerator) (sk : PolyQP) (tape : ℕ → KeyTape) (pool1 pool2 : Rows),
    p.ringQ.moduli = [97, 193, 641] ∧ newFKeyGenerator 100 p = some kg ∧
    kg.genRelinKeyMem (List.replicate p.gamma (List.replicate 16 7)) sk tape = some (pool1, kg.genRelinKey sk tape) ∧
    kg.genRotKeyMem pool1 (-3) sk tape = some (pool2, kg.genRotKey (-3) sk tape) ∧ (kg.genRelinKey sk tape).1.length = 2 := by
  obtain ⟨p, ksw, kg, s, tape, h1, h, hF, ha, lQ, hk, hg, hQ, hP, hsam, hsk, ht⟩ := exampleKeys
  have hp : GenPool p (List.replicate p.gamma (List.replicate 16 7)) := ⟨List.length_replicate, fun j hj => by
    rw [Rows.row, List.getD_eq_getElem _ _ (by simpa using hj), List.getElem_replicate, List.length_replicate, h.hQ.deg]; rfl⟩
  obtain ⟨pool1, e1, p1⟩ := C124_relin h hg hsk ht hp
  obtain ⟨pool2, e2, -⟩ := C124_rotation h hg hsk ht (-3) p1
  refine ⟨p, kg, _, tape, pool1, pool2, hQ, hg, e1, e2, ?_⟩
  have hb : p.beta = 2 := by
    unfold FParams.beta
    rw [ha, lQ]
    decide +kernel
  show ((List.range kg.params.beta).map _).length = 2
  rw [List.length_map, List.length_range, (kg_ok h hg).params, hb]

end FastKsw.Props
