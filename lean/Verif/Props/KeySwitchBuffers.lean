import Verif.Spec.ThreadKeySwitch
import Verif.Props.Concurrent

/-!
# C106: the key switchers keep their intermediate results in buffers that are used again and again
-/

namespace FastKsw.Props

open FastKsw

variable {σ : Type}

/-! ## The buffers do not matter -/

theorem ksAdr_mem (K : KsMem) (p0 p1 : ℕ) (k : KsC) : ksAdr K ⟨p0, (K.poolAt 1).p⟩ ⟨p1, (K.poolAt 2).p⟩ k ∈ K.written p0 p1 := by
  cases k <;> simp [ksAdr, KsMem.written]

theorem ksAdr_inj {K : KsMem} {p0 p1 : ℕ} (h : (K.written p0 p1).Nodup) :
    Function.Injective (ksAdr K ⟨p0, (K.poolAt 1).p⟩ ⟨p1, (K.poolAt 2).p⟩) := by
  simp only [KsMem.written, List.nodup_cons, List.mem_cons, List.not_mem_nil, or_false, not_or] at h
  intro a b hab
  cases a <;> cases b <;> simp only [ksAdr] at hab <;> first | rfl | (exfalso; simp_all)

/-- `SwitchKeysInPlace`, for any contents of its buffers: the outputs are what the same call gives with new buffers, nothing but the
outputs and the buffers listed in `KsMem.written` changes, and the key switcher can be used again. -/
theorem C106_switchKeysInPlace {K : KsMem} {s : Store σ} {levelQ cx p0 p1 : ℕ} {evk : KeyRef} (hK : K.Ready s) (hf : KeyFits s levelQ evk)
    (hw : (K.written p0 p1).Nodup) (hcx : cx ∉ K.written p0 p1) (hkey : ∀ a ∈ keyCells evk, a ∉ K.written p0 p1) :
    let s' := after (K.switchKeysInPlace levelQ cx evk p0 p1) s
    (s'.rows p0, s'.rows p1) = K.ks.switchKeysInPlace levelQ (s.poly cx).isNTT (s.rows cx) (s.key evk) (s.rows p0) (s.rows p1) ∧
    (∀ a ∉ K.written p0 p1, s' a = s a) ∧ (∀ a, (s'.poly a).isNTT = (s.poly a).isNTT) ∧
    (∀ a, (s'.rows a).length = (s.rows a).length) ∧ K.Ready s' := by
  intro s'
  obtain ⟨val, g, hv⟩ := run_switchKeys (levelQ := levelQ) (cx := cx) (ksAdr_inj hw) (fun k e => hcx (e ▸ ksAdr_mem K p0 p1 k))
    (fun a ha k e => hkey a ha (e ▸ ksAdr_mem K p0 p1 k)) hK hf
    (L := max levelQ (max (s.rows p0).length (s.rows p1).length)) (le_max_left _ _)
  refine ⟨?_, fun a ha => g.frame a fun k e => ha (e ▸ ksAdr_mem K p0 p1 k), g.flags, g.lens, hK.mono g.lens⟩
  rw [← hv]
  have e0 : s'.rows p0 = val .c0q := (g.same .c0q).eq ((g.len .c0q).trans_le ((le_max_left _ _).trans (le_max_right _ _)))
  have e1 : s'.rows p1 = val .c1q := (g.same .c1q).eq ((g.len .c1q).trans_le ((le_max_right _ _).trans (le_max_right _ _)))
  rw [e0, e1]

/-- two calls with the same inputs in memories with different buffers -/
theorem C106_buffers_irrelevant {K K' : KsMem} {s s' : Store σ} {levelQ cx p0 p1 : ℕ} {evk : KeyRef} (hks : K.ks = K'.ks) (hK : K.Ready s)
    (hK' : K'.Ready s') (hf : KeyFits s levelQ evk) (hw : (K.written p0 p1).Nodup) (hw' : (K'.written p0 p1).Nodup)
    (hcx : cx ∉ K.written p0 p1) (hcx' : cx ∉ K'.written p0 p1) (hkey : ∀ a ∈ keyCells evk, a ∉ K.written p0 p1)
    (hkey' : ∀ a ∈ keyCells evk, a ∉ K'.written p0 p1) (hsame : ∀ a, a = cx ∨ a = p0 ∨ a = p1 ∨ a ∈ keyCells evk → s a = s' a) :
    (after (K.switchKeysInPlace levelQ cx evk p0 p1) s).rows p0 = (after (K'.switchKeysInPlace levelQ cx evk p0 p1) s').rows p0 ∧
    (after (K.switchKeysInPlace levelQ cx evk p0 p1) s).rows p1 = (after (K'.switchKeysInPlace levelQ cx evk p0 p1) s').rows p1 := by
  have hr : ∀ a, a = cx ∨ a = p0 ∨ a = p1 ∨ a ∈ keyCells evk → s.poly a = s'.poly a := fun a ha => by
    unfold Store.poly
    rw [hsame a ha]
  have hk : s.key evk = s'.key evk := by
    unfold Store.key Store.qp Store.rows
    refine List.map_congr_left fun x hx => ?_
    have hm : ∀ a ∈ [x.1.q, x.1.p, x.2.q, x.2.p], s.poly a = s'.poly a := fun a ha =>
      hr a (Or.inr (Or.inr (Or.inr (List.mem_flatMap.2 ⟨x, hx, ha⟩))))
    rw [hm x.1.q (by simp), hm x.1.p (by simp), hm x.2.q (by simp), hm x.2.p (by simp)]
  have hl : keyLen s' evk = keyLen s evk := by
    unfold keyLen Store.rows
    rw [hr _ (Or.inr (Or.inr (Or.inr (keyCells_getD (i := 0) (hf.beta_pos.trans_le hf.digits) (by simp)))))]
  have hf' : KeyFits s' levelQ evk := ⟨by rw [hl]; exact hf.pos, by rw [hl]; exact hf.le, hf.lvl, by rw [hl]; exact hf.digits⟩
  have h1 := (C106_switchKeysInPlace hK hf hw hcx hkey).1
  have h2 := (C106_switchKeysInPlace hK' hf' hw' hcx' hkey').1
  rw [← hks] at h2
  have e : (s.rows cx, s.rows p0, s.rows p1, (s.poly cx).isNTT) = (s'.rows cx, s'.rows p0, s'.rows p1, (s'.poly cx).isNTT) := by
    unfold Store.rows
    rw [hr cx (by simp), hr p0 (by simp), hr p1 (by simp)]
  simp only [Prod.mk.injEq] at e
  rw [← e.1, ← e.2.1, ← e.2.2.1, ← e.2.2.2, ← hk, ← h1, Prod.mk.injEq] at h2
  exact ⟨h2.1.symm, h2.2.symm⟩

theorem flatMap_cells_nodup : ∀ {l : List QPAddr}, (l.flatMap QPAddr.cells).Nodup → ∀ {i j : ℕ} (hi : i < l.length) (hj : j < l.length),
    (l[i].q = l[j].q → i = j) ∧ (l[i].p = l[j].p → i = j) ∧ l[i].q ≠ l[j].p
  | [], _, _, _, hi, _ => absurd hi (Nat.not_lt_zero _)
  | x :: l, h, i, j, hi, hj => by
    rw [List.flatMap_cons, List.nodup_append] at h
    obtain ⟨h1, h2, h3⟩ := h
    have hm : ∀ {k : ℕ} (hk : k < l.length), ∀ a ∈ l[k].cells, a ∈ l.flatMap QPAddr.cells := fun hk a ha =>
      List.mem_flatMap.2 ⟨_, List.getElem_mem hk, ha⟩
    have hx : x.q ≠ x.p := by
      simpa [QPAddr.cells] using h1
    cases i with
    | zero =>
      cases j with
      | zero => exact ⟨fun _ => rfl, fun _ => rfl, hx⟩
      | succ j =>
        have hj' : j < l.length := by simpa using hj
        simp only [List.getElem_cons_zero, List.getElem_cons_succ]
        exact ⟨fun e => absurd e (h3 _ (by simp [QPAddr.cells]) _ (hm hj' _ (by simp [QPAddr.cells]))),
          fun e => absurd e (h3 _ (by simp [QPAddr.cells]) _ (hm hj' _ (by simp [QPAddr.cells]))),
          h3 _ (by simp [QPAddr.cells]) _ (hm hj' _ (by simp [QPAddr.cells]))⟩
    | succ i =>
      have hi' : i < l.length := by simpa using hi
      cases j with
      | zero =>
        simp only [List.getElem_cons_zero, List.getElem_cons_succ]
        exact ⟨fun e => absurd e.symm (h3 _ (by simp [QPAddr.cells]) _ (hm hi' _ (by simp [QPAddr.cells]))),
          fun e => absurd e.symm (h3 _ (by simp [QPAddr.cells]) _ (hm hi' _ (by simp [QPAddr.cells]))),
          fun e => absurd e.symm (h3 _ (by simp [QPAddr.cells]) _ (hm hi' _ (by simp [QPAddr.cells])))⟩
      | succ j =>
        have hj' : j < l.length := by simpa using hj
        simp only [List.getElem_cons_succ, Nat.succ_inj]
        exact flatMap_cells_nodup h2 hi' hj'

theorem digAdr_inj {K : KsMem} {dig : List QPAddr} {n : ℕ} (hdn : n ≤ dig.length) (hw : (K.writtenDigits dig n).Nodup) :
    Function.Injective (digAdr K dig n) := by
  unfold KsMem.writtenDigits at hw
  rw [List.nodup_cons] at hw
  have hl : ∀ i : Fin n, (i : ℕ) < (dig.take n).length := fun i => by
    rw [List.length_take]
    have := i.2
    omega
  have hg : ∀ i : Fin n, dig.getD i default = (dig.take n)[(i : ℕ)]'(hl i) := fun i => by
    rw [getD_lt' (i.2.trans_le hdn), List.getElem_take]
  have hm : ∀ i : Fin n, ∀ a ∈ (dig.getD i default).cells, a ≠ K.poolInvNTT := fun i a ha e => hw.1 (by
    rw [← e]
    refine List.mem_flatMap.2 ⟨_, ?_, ha⟩
    rw [hg]
    exact List.getElem_mem _)
  have key := fun i j : Fin n => flatMap_cells_nodup hw.2 (hl i) (hl j)
  simp only [← hg] at key
  intro a b hab
  cases a with
  | inv =>
    cases b with
    | inv => rfl
    | q j => exact absurd hab.symm (hm j _ (by simp [QPAddr.cells, digAdr]))
    | p j => exact absurd hab.symm (hm j _ (by simp [QPAddr.cells, digAdr]))
  | q i =>
    cases b with
    | inv => exact absurd hab (hm i _ (by simp [QPAddr.cells, digAdr]))
    | q j => rw [Fin.ext ((key i j).1 hab)]
    | p j => exact absurd hab (key i j).2.2
  | p i =>
    cases b with
    | inv => exact absurd hab (hm i _ (by simp [QPAddr.cells, digAdr]))
    | q j => exact absurd hab.symm (key j i).2.2
    | p j => rw [Fin.ext ((key i j).2.1 hab)]

/-- `DecomposeNTT`: the rows of the digits that the level needs, whatever was in their cells -/
theorem C106_decomposeNTT {K : KsMem} {s : Store σ} {levelQ levelP cx : ℕ} {dig : List QPAddr} (hK : K.Ready s)
    (hl : levelQ + 1 ≤ 2 ^ 20) (hp : levelP + 1 ≤ 2 ^ 20) {n : ℕ} (hn : n = (levelQ + levelP + 1) / (levelP + 1))
    (hdn : n ≤ dig.length) (hdig : ∀ x ∈ dig, x ∈ K.pool ++ K.poolDecompQP) (hw : (K.writtenDigits dig n).Nodup) (hcx : cx ∉ K.writtenDigits dig n) :
    let s' := after (K.decomposeNTT levelQ levelP (levelP + 1) cx dig) s
    (∀ i < n, SameUpTo levelQ (s'.rows (dig.getD i default).q)
        ((K.ks.decomposeNTT levelQ levelP (levelP + 1) (s.poly cx).isNTT (s.rows cx)).getD i default).q ∧
      SameUpTo levelP (s'.rows (dig.getD i default).p)
        ((K.ks.decomposeNTT levelQ levelP (levelP + 1) (s.poly cx).isNTT (s.rows cx)).getD i default).p) ∧
    (∀ a ∉ K.writtenDigits dig n, s' a = s a) ∧ (∀ a, (s'.poly a).isNTT = (s.poly a).isNTT) ∧ K.Ready s' := by
  intro s'
  have hc : ceilDivF (levelQ + 1) (levelP + 1) = n := by
    rw [ceilDivF_eq (by omega) hl hp, hn]
    congr 1
    omega
  have hmem : ∀ k : DigC n, digAdr K dig n k ∈ K.writtenDigits dig n := fun k => by
    unfold KsMem.writtenDigits
    cases k with
    | inv => exact List.mem_cons_self
    | q i =>
      refine List.mem_cons_of_mem _ (List.mem_flatMap.2 ⟨dig.getD i default, ?_, by simp [digAdr, QPAddr.cells]⟩)
      rw [getD_lt' (i.2.trans_le hdn)]
      exact List.mem_take_iff_getElem.2 ⟨i, by have := i.2; omega, rfl⟩
    | p i =>
      refine List.mem_cons_of_mem _ (List.mem_flatMap.2 ⟨dig.getD i default, ?_, by simp [digAdr, QPAddr.cells]⟩)
      rw [getD_lt' (i.2.trans_le hdn)]
      exact List.mem_take_iff_getElem.2 ⟨i, by have := i.2; omega, rfl⟩
  have hinj : Function.Injective (digAdr K dig n) := digAdr_inj hdn hw
  have hlen : ∀ i < n, dig.getD i default ∈ K.pool ++ K.poolDecompQP := fun i hi => by
    rw [getD_lt' (hi.trans_le hdn)]
    exact hdig _ (List.getElem_mem _)
  have hblk : ∀ i < n, i * (levelP + 1) ≤ levelQ := fun i hi => by
    rw [hn] at hi
    have := (ceil_block (a := levelQ + 1) (b := levelP + 1) (i := i) (by omega)).1 (by
      have e : levelQ + 1 + (levelP + 1) - 1 = levelQ + levelP + 1 := by omega
      rwa [e])
    omega
  obtain ⟨val, g, hv⟩ := run_decomposeNTT (K := K) (s := s) (cx := cx) hc hinj (fun k e => hcx (e ▸ hmem k)) (Nat.succ_pos levelP) hblk hK.inv
    fun i hi => hK.pool _ (hlen i hi)
  refine ⟨fun i hi => ?_, fun a ha => g.frame a fun k e => ha (e ▸ hmem k), g.flags, hK.mono g.lens⟩
  have h1 := g.same (.q ⟨i, hi⟩)
  have h2 := g.same (.p ⟨i, hi⟩)
  have := hv ⟨i, hi⟩
  rw [← this]
  exact ⟨h1, h2⟩

theorem fkAdr_mem {K : FKsMem} {c0 c1 nb nl : ℕ} (hb : nb ≤ K.polyTPools1.length) (hl : nl ≤ K.polyTPools2.length) (k : FkC nb nl) :
    fkAdr K c0 c1 nb nl k ∈ K.written c0 c1 := by
  have h1 : ∀ j : Fin nb, K.t1 j ∈ K.polyTPools1 := fun j => by
    unfold FKsMem.t1
    rw [getD_lt' (j.2.trans_le hb)]
    exact List.getElem_mem _
  have h2 : ∀ j : Fin nl, K.t2 j ∈ K.polyTPools2 := fun j => by
    unfold FKsMem.t2
    rw [getD_lt' (j.2.trans_le hl)]
    exact List.getElem_mem _
  cases k <;> simp [fkAdr, FKsMem.written, h1, h2]

theorem fkAdr_inj {K : FKsMem} {c0 c1 nb nl : ℕ} (hb : nb ≤ K.polyTPools1.length) (hl : nl ≤ K.polyTPools2.length)
    (h : (K.written c0 c1).Nodup) : Function.Injective (fkAdr K c0 c1 nb nl) := by
  have h1 : ∀ j : Fin nb, K.t1 j ∈ K.polyTPools1 := fun j => by
    unfold FKsMem.t1
    rw [getD_lt' (j.2.trans_le hb)]
    exact List.getElem_mem _
  have h2 : ∀ j : Fin nl, K.t2 j ∈ K.polyTPools2 := fun j => by
    unfold FKsMem.t2
    rw [getD_lt' (j.2.trans_le hl)]
    exact List.getElem_mem _
  unfold FKsMem.written at h
  obtain ⟨n7, nt, dt⟩ := List.nodup_append.1 h
  obtain ⟨n1, n2, d12⟩ := List.nodup_append.1 nt
  have i1 : ∀ i j : Fin nb, K.t1 i = K.t1 j → i = j := fun i j e => by
    unfold FKsMem.t1 at e
    rw [getD_lt' (i.2.trans_le hb), getD_lt' (j.2.trans_le hb)] at e
    exact Fin.ext ((n1.getElem_inj_iff).1 e)
  have i2 : ∀ i j : Fin nl, K.t2 i = K.t2 j → i = j := fun i j e => by
    unfold FKsMem.t2 at e
    rw [getD_lt' (i.2.trans_le hl), getD_lt' (j.2.trans_le hl)] at e
    exact Fin.ext ((n2.getElem_inj_iff).1 e)
  have d1 : ∀ j : Fin nb, ∀ x ∈ [K.polyQPPool.q, K.polyQPPool.p, K.polyQPool, K.polyRPool, K.be.q, c0, c1], x ≠ K.t1 j := fun j x hx =>
    dt x hx _ (List.mem_append_left _ (h1 j))
  have d2 : ∀ j : Fin nl, ∀ x ∈ [K.polyQPPool.q, K.polyQPPool.p, K.polyQPool, K.polyRPool, K.be.q, c0, c1], x ≠ K.t2 j := fun j x hx =>
    dt x hx _ (List.mem_append_right _ (h2 j))
  have d3 : ∀ (i : Fin nb) (j : Fin nl), K.t1 i ≠ K.t2 j := fun i j => d12 _ (h1 i) _ (h2 j)
  clear h nt dt d12 n1 n2
  simp only [List.nodup_cons, List.mem_cons, List.not_mem_nil, or_false, not_or, forall_eq_or_imp, forall_eq] at n7 d1 d2
  intro a b hab
  obtain ⟨⟨a1, a2, a3, a4, a5, a6⟩, ⟨b1, b2, b3, b4, b5⟩, ⟨e1, e2, e3, e4⟩, ⟨f1, f2, f3⟩, ⟨g1, g2⟩, j1, -⟩ := n7
  cases a with
  | t1 i =>
    obtain ⟨c1, c2, c3, c4, c5, c6, c7⟩ := d1 i
    cases b with
    | t1 j => rw [i1 i j hab]
    | t2 j => exact absurd hab (d3 i j)
    | _ => exact absurd hab.symm (by assumption)
  | t2 i =>
    obtain ⟨c1, c2, c3, c4, c5, c6, c7⟩ := d2 i
    cases b with
    | t1 j => exact absurd hab.symm (d3 j i)
    | t2 j => rw [i2 i j hab]
    | _ => exact absurd hab.symm (by assumption)
  | _ =>
    cases b with
    | t1 j => obtain ⟨c1, c2, c3, c4, c5, c6, c7⟩ := d1 j; exact absurd hab (by assumption)
    | t2 j => obtain ⟨c1, c2, c3, c4, c5, c6, c7⟩ := d2 j; exact absurd hab (by assumption)
    | _ => first | rfl | exact absurd hab (by assumption) | exact absurd hab.symm (by assumption)

theorem exists_fresh (l : List ℕ) : ∃ m : ℕ, ∀ a ∈ l, a < m :=
  ⟨l.sum + 1, fun _ ha => Nat.lt_succ_of_le (List.le_sum_of_mem ha)⟩

/-- `KeyswitchHoisted`: the digits may differ above the level from what `DecomposeNTT` computes, as its buffers do.  `c0` and `c1` may
be any of the polynomials `Pool[i]`, as in `PermuteNTTHoisted`, ckks/evaluator.go:1521-1553. -/
theorem C106_hoisted {K : KsMem} {s : Store σ} {levelQ : ℕ} {dig : List QPAddr} {D : List PolyQP} {evk : KeyRef} {c0 c1 : QPAddr} (hK : K.Ready s)
    (hf : KeyFits s levelQ evk) (hw : (K.writtenHoisted c0 c1).Nodup) (hkey : ∀ a ∈ keyCells evk, a ∉ K.writtenHoisted c0 c1)
    (hdig : ∀ i < (levelQ + keyLen s evk) / keyLen s evk, (dig.getD i default).q ∉ K.writtenHoisted c0 c1 ∧ (dig.getD i default).p ∉ K.writtenHoisted c0 c1)
    (hD : ∀ i < (levelQ + keyLen s evk) / keyLen s evk, SameUpTo levelQ (s.rows (dig.getD i default).q) (D.getD i default).q ∧
      SameUpTo (keyLen s evk - 1) (s.rows (dig.getD i default).p) (D.getD i default).p) :
    let s' := after (K.hoisted levelQ dig evk c0 c1) s
    (s'.rows c0.q, s'.rows c1.q) = K.ks.hoisted levelQ D (s.key evk) (s.qp c0) (s.qp c1) ∧
    (∀ a ∉ K.writtenHoisted c0 c1, s' a = s a) ∧ (∀ a, (s'.poly a).isNTT = (s.poly a).isNTT) ∧
    (∀ a, (s'.rows a).length = (s.rows a).length) ∧ K.Ready s' := by
  intro s'
  have hbq : (s.rows K.be.q).length = K.ks.be.ringQ.subs.length := by rw [hK.beQ]; exact hK.q
  have hbp : (s.rows K.be.p).length = K.ks.be.ringP.subs.length := by rw [hK.beP]; exact hK.p
  -- the run does not use `Pool[0]` and `PoolInvNTT`; put them anywhere
  have run : ∀ a : ℕ, ∃ K' : KsMem, ∃ val, (∀ b < a + 1, b ∉ K.writtenHoisted c0 c1 → ∀ k, b ≠ ksAdr K' c0 c1 k) ∧
      St (ksAdr K' c0 c1) (ksLvl levelQ (keyLen s evk - 1) (max levelQ (max (s.rows c0.q).length (s.rows c1.q).length))) s s' val ∧
      (val .c0q, val .c1q) = K.ks.hoisted levelQ D (s.key evk) (s.qp c0) (s.qp c1) := by
    intro a
    obtain ⟨m, hm⟩ := exists_fresh (a :: (K.writtenHoisted c0 c1 ++ keyCells evk ++ dig.flatMap QPAddr.cells ++ [0]))
    have hma : a < m := hm a (by simp)
    have hmw : ∀ b ∈ K.writtenHoisted c0 c1, b < m := fun b hb => hm b (by simp [hb])
    have hmk : ∀ b ∈ keyCells evk, b < m := fun b hb => hm b (by simp [hb])
    have hmd : ∀ i, (dig.getD i default).q < m ∧ (dig.getD i default).p < m := fun i => by
      by_cases hi : i < dig.length
      · rw [getD_lt' hi]
        have h1 : ∀ b ∈ dig[i].cells, b < m := fun b hb => by
          refine hm b (List.mem_cons_of_mem _ ?_)
          simp only [List.mem_append]
          exact Or.inl (Or.inr (List.mem_flatMap.2 ⟨_, List.getElem_mem hi, hb⟩))
        exact ⟨h1 _ (by simp [QPAddr.cells]), h1 _ (by simp [QPAddr.cells])⟩
      · have e : dig.getD i default = default := by simp [List.getD_eq_getElem?_getD, List.getElem?_eq_none (not_lt.1 hi)]
        rw [e]
        have h0 : 0 < m := hm 0 (by simp)
        exact ⟨h0, h0⟩
    let K' : KsMem := { K with pool := [⟨m, m + 1⟩], poolInvNTT := m + 2 }
    have adr : ∀ k, ksAdr K' c0 c1 k ∈ K.writtenHoisted c0 c1 ∨ m ≤ ksAdr K' c0 c1 k := fun k => by
      cases k
      case c2q => exact Or.inr (le_refl m)
      case c2p => exact Or.inr (Nat.le_succ m)
      case inv => exact Or.inr (by show m ≤ m + 2; omega)
      all_goals exact Or.inl (by simp [ksAdr, KsMem.writtenHoisted, K'])
    have no : ∀ b < m, b ∉ K.writtenHoisted c0 c1 → ∀ k, b ≠ ksAdr K' c0 c1 k := fun b hb hbw k e => by
      rcases adr k with h | h
      · exact hbw (e ▸ h)
      · omega
    have hinj : Function.Injective (ksAdr K' c0 c1) := by
      have n1 : m ≠ m + 1 := by omega
      have n2 : m ≠ m + 2 := by omega
      have n3 : m + 1 ≠ m + 2 := by omega
      have w := hmw
      simp only [KsMem.writtenHoisted, List.mem_cons, List.not_mem_nil, or_false, forall_eq_or_imp, forall_eq] at w
      simp only [KsMem.writtenHoisted, List.nodup_cons, List.mem_cons, List.not_mem_nil, or_false, not_or] at hw
      obtain ⟨w1, w2, w3, w4, w5, w6⟩ := w
      obtain ⟨⟨a1, a2, a3, a4, a5⟩, ⟨b1, b2, b3, b4⟩, ⟨f1, f2, f3⟩, ⟨g1, g2⟩, j1, -⟩ := hw
      intro x y hxy
      have q1 : ∀ z < m, z ≠ m ∧ z ≠ m + 1 ∧ z ≠ m + 2 := fun z hz => by omega
      obtain ⟨p1, p2, p3⟩ := q1 _ w1
      obtain ⟨p4, p5, p6⟩ := q1 _ w2
      obtain ⟨p7, p8, p9⟩ := q1 _ w3
      obtain ⟨r1, r2, r3⟩ := q1 _ w4
      obtain ⟨r4, r5, r6⟩ := q1 _ w5
      obtain ⟨r7, r8, r9⟩ := q1 _ w6
      cases x <;> cases y <;> first
        | rfl
        | exact absurd hxy (by assumption)
        | exact absurd hxy.symm (by assumption)
    obtain ⟨val, g, hv⟩ := run_hoisted (K := K') (s := s) (levelQ := levelQ) (evk := evk) hinj (dig := dig) (D := D)
      (fun i hi k => ⟨no _ (hmd i).1 (hdig i hi).1 k, no _ (hmd i).2 (hdig i hi).2 k⟩) hD
      (fun b hb k => no b (hmk b hb) (hkey b hb) k) hbq hbp hf
      (L := max levelQ (max (s.rows c0.q).length (s.rows c1.q).length)) (le_max_left _ _) (y0 := s.rows c0.p) (y1 := s.rows c1.p) rfl rfl
    exact ⟨K', val, fun b hb hbw k => no b (by omega) hbw k, g, hv⟩
  have fr : ∀ a ∉ K.writtenHoisted c0 c1, s' a = s a := fun a ha => by
    obtain ⟨K', val, no, g, -⟩ := run a
    exact g.frame a (no a (Nat.lt_succ_self a) ha)
  obtain ⟨K', val, -, g, hv⟩ := run 0
  refine ⟨?_, fr, g.flags, g.lens, hK.mono g.lens⟩
  rw [← hv]
  have e0 : s'.rows c0.q = val .c0q := (g.same .c0q).eq ((g.len .c0q).trans_le ((le_max_left _ _).trans (le_max_right _ _)))
  have e1 : s'.rows c1.q = val .c1q := (g.same .c1q).eq ((g.len .c1q).trans_le ((le_max_right _ _).trans (le_max_right _ _)))
  rw [e0, e1]

/-- `SwitchKey` of the fast key switcher, for any contents of its buffers: it panics for an input in NTT form, without having written
anything; otherwise the outputs are what the same call gives with new buffers, nothing but the outputs and the buffers changes, and
the key switcher can be used again. -/
theorem C106_fswitchKey {K : FKsMem} {s : Store σ} {levelQ a c0 c1 nb nl : ℕ} {bg0 bg1 : FKeyRef} (hK : K.Ready s) (hf : K.Fits levelQ nb nl)
    (h0 : FKeyFits bg0 nb nl) (h1 : FKeyFits bg1 nb nl) (hw : (K.written c0 c1).Nodup)
    (hin : ∀ x ∈ a :: (bg0.flatten ++ bg1.flatten), x ∉ K.written c0 c1) :
    let ok := ((K.switchKey levelQ a bg0 bg1 c0 c1).run s).1
    let s' := after (K.switchKey levelQ a bg0 bg1 c0 c1) s
    ok = !(s.poly a).isNTT ∧ (ok = false → s' = s) ∧
    (if ok then some (s'.rows c0, s'.rows c1) else none) =
      K.ksw.switchKey levelQ (s.poly a).isNTT (s.rows a) (s.fkey bg0) (s.fkey bg1) (s.rows c0) (s.rows c1) ∧
    (∀ x ∉ K.written c0 c1, s' x = s x) ∧ (∀ x, (s'.poly x).isNTT = (s.poly x).isNTT) ∧
    (∀ x, (s'.rows x).length = (s.rows x).length) ∧ K.Ready s' := by
  intro ok s'
  cases hn : (s.poly a).isNTT with
  | true =>
    have e : (K.switchKey levelQ a bg0 bg1 c0 c1).run s = (false, s) := run_fswitchKey_panic hn
    have e1 : ok = false := congrArg Prod.fst e
    have e2 : s' = s := congrArg Prod.snd e
    rw [e1, e2]
    exact ⟨rfl, fun _ => rfl, rfl, fun _ _ => rfl, fun _ => rfl, fun _ => rfl, hK⟩
  | false =>
    have hm := fun x (hx : x ∈ a :: (bg0.flatten ++ bg1.flatten)) (k : FkC nb nl) (e : x = fkAdr K c0 c1 nb nl k) =>
      hin x hx (e ▸ fkAdr_mem hf.nb_le hf.nl_le k)
    obtain ⟨e1, ⟨lvl, val, g⟩, e3⟩ := run_fswitchKey (levelQ := levelQ) (fkAdr_inj hf.nb_le hf.nl_le hw) hK hf (hm a (by simp)) h0 h1
      (fun x hx => hm x (by simp only [List.mem_cons, List.mem_append]; exact Or.inr (Or.inl hx)))
      (fun x hx => hm x (by simp only [List.mem_cons, List.mem_append]; exact Or.inr (Or.inr hx))) hn
    have e1 : ok = true := e1
    rw [e1, if_pos rfl, e3]
    exact ⟨rfl, fun h => absurd h (by simp), rfl, fun x hx => g.frame x fun k e => hx (e ▸ fkAdr_mem hf.nb_le hf.nl_le k), g.flags, g.lens,
      hK.mono g.lens⟩

/-! ## What the calls read and write -/

section Within
variable {R W : Set ℕ}

theorem within_forEach {f : ℕ → Proc σ Unit} : ∀ {l : List ℕ}, (∀ i ∈ l, (f i).Within R W) → (forEach f l).Within R W
  | [], _ => trivial
  | i :: _, h => within_bind (h i List.mem_cons_self) fun _ => within_forEach fun j hj => h j (List.mem_cons_of_mem _ hj)

theorem within_doIf {c : Prop} [Decidable c] {p : Proc σ Unit} (h : p.Within R W) : (doIf c p).Within R W := by
  unfold doIf
  split
  · exact h
  · trivial

theorem within_copyRow {out u src v : ℕ} (ho : out ∈ W) (hs : src ∈ R ∪ W) : (copyRow (σ := σ) out u src v).Within R W := by
  unfold copyRow
  refine within_bind (within_rd fun s s' h => by simp only [h.rows hs]) fun x => within_set ho fun s s' h => ?_
  rw [h.rows (Or.inr ho), h.poly (Or.inr ho)]

/-- goes through the statements of a program and checks what each of them reads and writes -/
local macro "within_ks" : tactic => `(tactic|
  repeat' first
    | with_reducible refine within_bind ?_ fun _ => ?_
    | with_reducible exact within_ringCall (by assumption) fun s s' h => by simp only [Store.qp, h.rows, *]
    | with_reducible exact within_rd fun s s' h => by simp only [h.poly, *]
    | with_reducible exact within_pure _
    | with_reducible refine within_doIf ?_
    | with_reducible assumption
    | split
    | dsimp only)

theorem within_divCall (be : BasisExtender) {c : BeCells} {levelQ levelP p1 p2 : ℕ} (hc : c.q ∈ R ∪ W) (h1 : p1 ∈ R ∪ W) (h2 : p2 ∈ W) :
    (be.divCall (σ := σ) c levelQ levelP p1 p2).Within R W := by
  have h2' : p2 ∈ R ∪ W := Or.inr h2
  unfold BasisExtender.divCall
  within_ks

theorem within_modDownCall (be : BasisExtender) {c : BeCells} {levelQ levelP p1 pp p2 : ℕ} (hc : c.q ∈ W) (h1 : p1 ∈ R ∪ W) (hp : pp ∈ R ∪ W)
    (h2 : p2 ∈ W) : (be.modDownCall (σ := σ) c levelQ levelP p1 pp p2).Within R W := by
  have hc' : c.q ∈ R ∪ W := Or.inr hc
  have := within_divCall (σ := σ) be (levelQ := levelQ) (levelP := levelP) hc' h1 h2
  unfold BasisExtender.modDownCall
  within_ks

theorem within_modDownNTTCall (be : BasisExtender) {c : BeCells} {levelQ levelP p1 pp p2 : ℕ} (hc : c.q ∈ W) (hcp : c.p ∈ W) (h1 : p1 ∈ R ∪ W)
    (hp : pp ∈ R ∪ W) (h2 : p2 ∈ W) : (be.modDownNTTCall (σ := σ) c levelQ levelP p1 pp p2).Within R W := by
  have hc' : c.q ∈ R ∪ W := Or.inr hc
  have hcp' : c.p ∈ R ∪ W := Or.inr hcp
  have := within_divCall (σ := σ) be (levelQ := levelQ) (levelP := levelP) hc' h1 h2
  unfold BasisExtender.modDownNTTCall
  within_ks

theorem within_digitCall (d : Decomposer) {levelQ levelP alpha beta c2 c2i : ℕ} {x : QPAddr} (h1 : c2 ∈ R ∪ W) (h2 : c2i ∈ R ∪ W) (hq : x.q ∈ W)
    (hp : x.p ∈ W) : (d.digitCall (σ := σ) levelQ levelP alpha beta c2 c2i x).Within R W := by
  have hq' : x.q ∈ R ∪ W := Or.inr hq
  have hp' : x.p ∈ R ∪ W := Or.inr hp
  unfold Decomposer.digitCall Decomposer.splitCall
  within_ks

theorem within_reduceBoth (r : Ring) {level a b : ℕ} (ha : a ∈ W) (hb : b ∈ W) : (r.reduceBoth (σ := σ) level a b).Within R W := by
  have ha' : a ∈ R ∪ W := Or.inr ha
  have hb' : b ∈ R ∪ W := Or.inr hb
  unfold Ring.reduceBoth
  within_ks

theorem within_roundCall (ks : KeySwitcher) {levelQ levelP mQ mP i : ℕ} {key : QPAddr × QPAddr} {c2 c0 c1 : QPAddr}
    (hk : ∀ a ∈ [key.1.q, key.1.p, key.2.q, key.2.p], a ∈ R ∪ W) (h2 : c2.q ∈ R ∪ W) (h2p : c2.p ∈ R ∪ W) (h0 : c0.q ∈ W) (h0p : c0.p ∈ W)
    (h1 : c1.q ∈ W) (h1p : c1.p ∈ W) : (ks.roundCall (σ := σ) levelQ levelP mQ mP i key c2 c0 c1).Within R W := by
  have a1 : c0.q ∈ R ∪ W := Or.inr h0
  have a2 : c0.p ∈ R ∪ W := Or.inr h0p
  have a3 : c1.q ∈ R ∪ W := Or.inr h1
  have a4 : c1.p ∈ R ∪ W := Or.inr h1p
  have k1 : key.1.q ∈ R ∪ W := hk _ (by simp)
  have k2 : key.1.p ∈ R ∪ W := hk _ (by simp)
  have k3 : key.2.q ∈ R ∪ W := hk _ (by simp)
  have k4 : key.2.p ∈ R ∪ W := hk _ (by simp)
  have r1 := within_reduceBoth (σ := σ) (R := R) ks.ringQ (level := levelQ) h0 h1
  have r2 := within_reduceBoth (σ := σ) (R := R) ks.ringP (level := levelP) h0p h1p
  clear hk
  unfold KeySwitcher.roundCall KeySwitcher.productsCall KeySwitcher.mulQPCall KeySwitcher.mulAddQPCall
  within_ks

theorem within_endCall (ks : KeySwitcher) {levelQ levelP mQ mP beta : ℕ} {c0 c1 : QPAddr} (h0 : c0.q ∈ W) (h0p : c0.p ∈ W)
    (h1 : c1.q ∈ W) (h1p : c1.p ∈ W) : (ks.endCall (σ := σ) levelQ levelP mQ mP beta c0 c1).Within R W := by
  have r1 := within_reduceBoth (σ := σ) (R := R) ks.ringQ (level := levelQ) h0 h1
  have r2 := within_reduceBoth (σ := σ) (R := R) ks.ringP (level := levelP) h0p h1p
  unfold KeySwitcher.endCall
  within_ks

theorem within_keyAlpha {evk : KeyRef} (h : (evk.getD 0 default).1.p ∈ R ∪ W) : (keyAlpha (σ := σ) evk).Within R W := by
  unfold keyAlpha
  exact within_rd fun s s' hs => by simp only [hs.rows h]

theorem within_formsCall (K : KsMem) {levelQ cx : ℕ} (h : cx ∈ R ∪ W) (hi : K.poolInvNTT ∈ W) :
    (K.formsCall (σ := σ) levelQ cx).Within R W := by
  have hi' : K.poolInvNTT ∈ R ∪ W := Or.inr hi
  unfold KsMem.formsCall
  within_ks

theorem key_cells_mem {A : Set ℕ} {evk : KeyRef} (h0 : 0 ∈ A) (h : ∀ a ∈ keyCells evk, a ∈ A) (i : ℕ) :
    ∀ a ∈ [(evk.getD i default).1.q, (evk.getD i default).1.p, (evk.getD i default).2.q, (evk.getD i default).2.p], a ∈ A := by
  intro a ha
  by_cases hi : i < evk.length
  · exact h a (keyCells_getD hi ha)
  · have e : evk.getD i default = default := by simp [List.getD_eq_getElem?_getD, List.getElem?_eq_none (not_lt.1 hi)]
    rw [e] at ha
    have : a = 0 := by
      simp only [List.mem_cons, List.not_mem_nil, or_false] at ha
      rcases ha with ha | ha | ha | ha <;> exact ha
    rw [this]
    exact h0

/-- `SwitchKeysInPlace` reads its input and the key and writes nothing but `KsMem.written` -/
theorem C106_within (K : KsMem) {levelQ cx p0 p1 : ℕ} {evk : KeyRef} (h0 : 0 ∈ R ∪ W) (hcx : cx ∈ R ∪ W) (hk : ∀ a ∈ keyCells evk, a ∈ R ∪ W)
    (hw : ∀ a ∈ K.written p0 p1, a ∈ W) : (K.switchKeysInPlace (σ := σ) levelQ cx evk p0 p1).Within R W := by
  have key := key_cells_mem h0 hk
  simp only [KsMem.written, List.mem_cons, List.not_mem_nil, or_false, forall_eq_or_imp, forall_eq] at hw
  obtain ⟨w1, w2, w3, w4, w5, w6, w7, w8, w9⟩ := hw
  have v4 : p0 ∈ R ∪ W := Or.inr w4
  have v5 : (K.poolAt 1).p ∈ R ∪ W := Or.inr w5
  have v6 : p1 ∈ R ∪ W := Or.inr w6
  have v7 : (K.poolAt 2).p ∈ R ∪ W := Or.inr w7
  have ka : (keyAlpha (σ := σ) evk).Within R W := within_keyAlpha (key 0 _ (by simp))
  have hfo := within_formsCall (σ := σ) K (levelQ := levelQ) hcx w3
  have hdig := fun levelP alpha i (b : Bool) => within_digitCall (σ := σ) K.ks.dec (levelQ := levelQ) (levelP := levelP) (alpha := alpha) (beta := i)
    (c2 := (K.forms cx b).1) (c2i := (K.forms cx b).2) (x := K.poolAt 0) (R := R) (W := W) (by cases b; exacts [Or.inr w3, hcx])
    (by cases b; exacts [hcx, Or.inr w3]) w1 w2
  have hr := fun levelP mQ mP i => within_roundCall (σ := σ) K.ks (levelQ := levelQ) (levelP := levelP) (mQ := mQ) (mP := mP) (i := i)
    (c0 := ⟨p0, (K.poolAt 1).p⟩) (c1 := ⟨p1, (K.poolAt 2).p⟩) (key i) (Or.inr w1) (Or.inr w2) w4 w5 w6 w7
  have he := fun levelP mQ mP beta => within_endCall (σ := σ) K.ks (levelQ := levelQ) (levelP := levelP) (mQ := mQ) (mP := mP) (beta := beta)
    (c0 := ⟨p0, (K.poolAt 1).p⟩) (c1 := ⟨p1, (K.poolAt 2).p⟩) (R := R) w4 w5 w6 w7
  have m1 := fun levelP => within_modDownCall (σ := σ) K.ks.be (levelQ := levelQ) (levelP := levelP) w8 v4 v5 w4
  have m2 := fun levelP => within_modDownCall (σ := σ) K.ks.be (levelQ := levelQ) (levelP := levelP) w8 v6 v7 w6
  have n1 := fun levelP => within_modDownNTTCall (σ := σ) K.ks.be (levelQ := levelQ) (levelP := levelP) w8 w9 v4 v5 w4
  have n2 := fun levelP => within_modDownNTTCall (σ := σ) K.ks.be (levelQ := levelQ) (levelP := levelP) w8 w9 v6 v7 w6
  unfold KsMem.switchKeysInPlace KsMem.switchKeysNoModDown
  dsimp only
  refine within_bind (within_bind hfo fun b => within_bind ka fun al => within_bind (within_forEach fun i _ => within_bind (hdig _ _ i b) fun _ => hr _ _ _ i)
    fun _ => he _ _ _ _) fun _ => within_bind ka fun al => within_bind (within_rd fun s s' h => by simp only [h.poly hcx]) fun b => ?_
  split
  · exact within_bind (n1 _) fun _ => n2 _
  · refine within_bind ?_ fun _ => within_bind ?_ fun _ => within_bind ?_ fun _ => within_bind ?_ fun _ => within_bind (m1 _) fun _ => m2 _
    · within_ks
    · within_ks
    · within_ks
    · within_ks

theorem within_fdigit (K : FKsMem) {levelQ a j : ℕ} (ha : a ∈ R ∪ W) (hq : K.polyQPool ∈ W) (ht : K.t1 j ∈ W) :
    (K.digitCall (σ := σ) levelQ a j).Within R W := by
  have hq' : K.polyQPool ∈ R ∪ W := Or.inr hq
  have ht' : K.t1 j ∈ R ∪ W := Or.inr ht
  unfold FKsMem.digitCall
  refine within_bind (within_forEach fun i _ => within_doIf (within_copyRow hq ha)) fun _ => ?_
  within_ks

theorem within_fproduct (K : FKsMem) {m i j : ℕ} {bg : FKeyRef} (h1 : K.t1 i ∈ R ∪ W) (h2 : K.t2 j ∈ W) (hb : bg.at i j ∈ R ∪ W) :
    (K.productCall (σ := σ) m i j bg).Within R W := by
  have h2' : K.t2 j ∈ R ∪ W := Or.inr h2
  unfold FKsMem.productCall
  refine within_bind ?_ fun _ => within_doIf ?_
  · split
    · exact within_ringCall h2 fun s s' h => by rw [h.rows h1, h.rows h2', h.rows hb]
    · exact within_ringCall h2 fun s s' h => by rw [h.rows h1, h.rows h2', h.rows hb]
  · within_ks

theorem within_fmove (K : FKsMem) {levelQ i : ℕ} (h2 : K.t2 i ∈ W) (hr : K.polyRPool ∈ W) (hq : K.polyQPPool.q ∈ W) (hp : K.polyQPPool.p ∈ W) :
    (K.moveCall (σ := σ) levelQ i).Within R W := by
  have h2' : K.t2 i ∈ R ∪ W := Or.inr h2
  have hr' : K.polyRPool ∈ R ∪ W := Or.inr hr
  unfold FKsMem.moveCall
  refine within_bind ?_ fun _ => within_bind ?_ fun _ => within_bind ?_ fun _ => within_forEach fun j _ => ?_
  · within_ks
  · within_ks
  · within_ks
  · split
    · exact within_copyRow hp hr'
    · exact within_copyRow hq hr'

theorem within_fexternal (K : FKsMem) {levelQ nb nl c : ℕ} {bg : FKeyRef} (hf : K.Fits levelQ nb nl) (hb : FKeyFits bg nb nl)
    (hbg : ∀ a ∈ bg.flatten, a ∈ R ∪ W) (h1 : ∀ i < nb, K.t1 i ∈ W) (h2 : ∀ j < nl, K.t2 j ∈ W) (hr : K.polyRPool ∈ W)
    (hq : K.polyQPPool.q ∈ W) (hp : K.polyQPPool.p ∈ W) (hbe : K.be.q ∈ W) (hc : c ∈ W) :
    (K.externalProduct (σ := σ) levelQ bg c).Within R W := by
  have hq' : K.polyQPPool.q ∈ R ∪ W := Or.inr hq
  have hp' : K.polyQPPool.p ∈ R ∪ W := Or.inr hp
  unfold FKsMem.externalProduct FKsMem.productsCall
  dsimp only
  rw [hf.beta, hf.blockLen]
  refine within_bind (within_forEach fun i hi => within_forEach fun j hj => ?_) fun _ => within_bind (within_doIf (within_forEach fun i hi => ?_)) fun _ =>
    within_bind (within_forEach fun i hi => ?_) fun _ => within_bind (within_forEach fun i hi => ?_) fun _ => within_bind ?_ fun _ =>
    within_bind ?_ fun _ => within_modDownCall _ hbe hq' hp' hc
  · have hi := List.mem_range.1 hi
    have hj := List.mem_range.1 hj
    exact within_fproduct K (Or.inr (h1 i hi)) (h2 j hj) (hbg _ (hb.mem hi hj))
  · have ht := h2 i (List.mem_range.1 hi)
    have ht' : K.t2 i ∈ R ∪ W := Or.inr ht
    within_ks
  · have ht := h2 i (List.mem_range.1 hi)
    have ht' : K.t2 i ∈ R ∪ W := Or.inr ht
    within_ks
  · exact within_fmove K (h2 i (List.mem_range.1 hi)) hr hq hp
  · within_ks
  · within_ks

/-- `SwitchKey` reads its input and the keys and writes nothing but `FKsMem.written` -/
theorem C106_fwithin (K : FKsMem) {levelQ nb nl a c0 c1 : ℕ} {bg0 bg1 : FKeyRef} (hf : K.Fits levelQ nb nl) (h0 : FKeyFits bg0 nb nl)
    (h1 : FKeyFits bg1 nb nl) (hin : ∀ x ∈ a :: (bg0.flatten ++ bg1.flatten), x ∈ R ∪ W) (hw : ∀ x ∈ K.written c0 c1, x ∈ W) :
    (K.switchKey (σ := σ) levelQ a bg0 bg1 c0 c1).Within R W := by
  have ha : a ∈ R ∪ W := hin a (by simp)
  have t1 : ∀ i < nb, K.t1 i ∈ W := fun i hi => hw _ (fkAdr_mem hf.nb_le hf.nl_le (.t1 ⟨i, hi⟩))
  have t2 : ∀ i < nl, K.t2 i ∈ W := fun i hi => hw _ (fkAdr_mem hf.nb_le hf.nl_le (.t2 ⟨i, hi⟩))
  have m : ∀ {x}, x ∈ [K.polyQPPool.q, K.polyQPPool.p, K.polyQPool, K.polyRPool, K.be.q, c0, c1] → x ∈ W := fun hx => hw _ (List.mem_append_left _ hx)
  unfold FKsMem.switchKey
  refine within_bind (within_rd fun s s' h => by simp only [h.poly ha]) fun b => ?_
  split
  · exact within_pure _
  · rw [hf.beta]
    refine within_bind (within_forEach fun i hi => within_fdigit K ha (m (by simp)) (t1 i (List.mem_range.1 hi))) fun _ =>
      within_bind (within_fexternal K hf h0 (fun x hx => hin x ?_) t1 t2 (m (by simp)) (m (by simp)) (m (by simp)) (m (by simp)) (m (by simp))) fun _ =>
      within_bind (within_fexternal K hf h1 (fun x hx => hin x ?_) t1 t2 (m (by simp)) (m (by simp)) (m (by simp)) (m (by simp)) (m (by simp))) fun _ =>
      within_pure _
    · simp only [List.mem_cons, List.mem_append]; exact Or.inr (Or.inl hx)
    · simp only [List.mem_cons, List.mem_append]; exact Or.inr (Or.inr hx)

end Within

/-! ## The cells of the key switchers of a program -/

/-- `cs` are the cells allocated between `m` and `m'`, in this order -/
structure Grow (m m' : Alloc σ) (cs : List ℕ) : Prop where
  cells : cs = List.range' m.next cs.length
  next : m'.next = m.next + cs.length
  old : ∀ a < m.next, m'.store a = m.store a

theorem Grow.nil (m : Alloc σ) : Grow m m [] := ⟨rfl, rfl, fun _ _ => rfl⟩

theorem Grow.trans {m m' m'' : Alloc σ} {cs cs' : List ℕ} (h : Grow m m' cs) (h' : Grow m' m'' cs') : Grow m m'' (cs ++ cs') := by
  refine ⟨?_, ?_, fun a ha => ?_⟩
  · rw [List.length_append, ← List.range'_append_1, ← h.cells, ← h.next, ← h'.cells]
  · rw [h'.next, h.next, List.length_append, Nat.add_assoc]
  · rw [h'.old a (by rw [h.next]; omega), h.old a ha]

theorem Grow.rows {m m' : Alloc σ} {cs : List ℕ} (h : Grow m m' cs) {a : ℕ} (ha : a < m.next) : m'.store.rows a = m.store.rows a := by
  unfold Store.rows Store.poly
  rw [h.old a ha]

theorem Grow.mem {m m' : Alloc σ} {cs : List ℕ} (h : Grow m m' cs) {a : ℕ} : a ∈ cs ↔ m.next ≤ a ∧ a < m'.next := by
  rw [h.cells, List.mem_range'_1, h.next]

theorem Grow.nodup {m m' : Alloc σ} {cs : List ℕ} (h : Grow m m' cs) : cs.Nodup := by
  rw [h.cells]
  exact List.nodup_range'

theorem grow_new (m : Alloc σ) (v : Cell σ) : Grow m (m.new v).2 [(m.new v).1] :=
  ⟨rfl, rfl, fun _ ha => Store.set_ne _ _ (Nat.ne_of_lt ha)⟩

theorem grow_newPoly (m : Alloc σ) (r : Ring) : Grow m (m.newPoly r).2 [(m.newPoly r).1] := grow_new m _

theorem newPoly_rows (m : Alloc σ) (r : Ring) : ((m.newPoly r).2.store.rows (m.newPoly r).1).length = r.subs.length := by
  simp [Alloc.newPoly, Alloc.new, Store.rows, Store.poly, Store.set, newPoly]

theorem grow_newPolyQP (m : Alloc σ) (rQ rP : Ring) : Grow m (m.newPolyQP rQ rP).2 (m.newPolyQP rQ rP).1.cells :=
  (grow_newPoly m rQ).trans (grow_newPoly _ rP)

theorem newPolyQP_rows (m : Alloc σ) (rQ rP : Ring) : ((m.newPolyQP rQ rP).2.store.rows (m.newPolyQP rQ rP).1.q).length = rQ.subs.length ∧
    ((m.newPolyQP rQ rP).2.store.rows (m.newPolyQP rQ rP).1.p).length = rP.subs.length := by
  refine ⟨?_, newPoly_rows _ rP⟩
  have := (grow_newPoly (m.newPoly rQ).2 rP).rows (a := (m.newPoly rQ).1) (by simp [Alloc.newPoly, Alloc.new])
  exact (congrArg List.length this).trans (newPoly_rows m rQ)

theorem grow_newBe (m : Alloc σ) (be : BasisExtender) : Grow m (m.newBe be).2 [(m.newBe be).1.q, (m.newBe be).1.p] :=
  grow_newPolyQP m be.ringQ be.ringP

theorem newBe_rows (m : Alloc σ) (be : BasisExtender) : ((m.newBe be).2.store.rows (m.newBe be).1.q).length = be.ringQ.subs.length ∧
    ((m.newBe be).2.store.rows (m.newBe be).1.p).length = be.ringP.subs.length := newPolyQP_rows m be.ringQ be.ringP

section
variable {α : Type} {f : Alloc σ → α × Alloc σ} {c : α → List ℕ} (hf : ∀ m, Grow m (f m).2 (c (f m).1))
include hf

theorem grow_many : ∀ (n : ℕ) (m : Alloc σ), Grow m (Alloc.many f n m).2 ((Alloc.many f n m).1.flatMap c)
  | 0, m => Grow.nil m
  | n + 1, m => by
    have := (hf m).trans (grow_many n (f m).2)
    exact this

omit hf in
theorem length_many : ∀ (n : ℕ) (m : Alloc σ), (Alloc.many f n m).1.length = n
  | 0, _ => rfl
  | n + 1, m => congrArg (· + 1) (length_many n (f m).2)

/-- what holds of a new object, and depends only on the rows of its cells, holds of all of them in the end -/
theorem many_rows {P : Store σ → α → Prop} (hP : ∀ m, P (f m).2.store (f m).1)
    (hc : ∀ s s' x, (∀ a ∈ c x, s'.rows a = s.rows a) → P s x → P s' x) :
    ∀ (n : ℕ) (m : Alloc σ), ∀ x ∈ (Alloc.many f n m).1, P (Alloc.many f n m).2.store x
  | 0, _, _, hx => absurd hx List.not_mem_nil
  | n + 1, m, x, hx => by
    rcases List.mem_cons.1 hx with rfl | hx
    · exact hc _ _ _ (fun a ha => (grow_many hf n (f m).2).rows ((hf m).mem.1 ha).2) (hP m)
    · exact many_rows hP hc n (f m).2 x hx

end

theorem _root_.FastKsw.KsMem.Ready.congr {K : KsMem} {s s' : Store σ} (h : K.Ready s) (hs : ∀ a ∈ K.own, s' a = s a) : K.Ready s' := by
  have hr : ∀ a ∈ K.own, s'.rows a = s.rows a := fun a ha => by
    unfold Store.rows Store.poly
    rw [hs a ha]
  have hq : ∀ x ∈ K.pool ++ K.poolDecompQP, ∀ a ∈ x.cells, a ∈ K.own := fun x hx a ha => by
    unfold KsMem.own
    simp only [List.mem_append, List.mem_flatMap]
    rcases List.mem_append.1 hx with hx | hx
    · exact Or.inl (Or.inl (Or.inr ⟨x, hx, ha⟩))
    · exact Or.inr ⟨x, hx, ha⟩
  refine ⟨h.beQ, h.beP, fun x hx => ?_, h.six, ?_, ?_, ?_⟩
  · rw [hr x.q (hq x hx _ (by simp [QPAddr.cells])), hr x.p (hq x hx _ (by simp [QPAddr.cells]))]
    exact h.pool x hx
  · rw [hr _ (by simp [KsMem.own])]
    exact h.inv
  · rw [hr _ (by simp [KsMem.own])]
    exact h.q
  · rw [hr _ (by simp [KsMem.own])]
    exact h.p

theorem _root_.FastKsw.FKsMem.Ready.congr {K : FKsMem} {s s' : Store σ} (h : K.Ready s) (hs : ∀ a ∈ K.own, s' a = s a) : K.Ready s' := by
  have hr : ∀ a ∈ K.own, s'.rows a = s.rows a := fun a ha => by
    unfold Store.rows Store.poly
    rw [hs a ha]
  refine ⟨fun a ha => ?_, fun a ha => ?_, ?_, ?_, ?_, ?_, ?_, h.blocks⟩
  · rw [hr a (by simp [FKsMem.own, ha])]
    exact h.t1 a ha
  · rw [hr a (by simp [FKsMem.own, ha])]
    exact h.t2 a ha
  · rw [hr _ (by simp [FKsMem.own, QPAddr.cells])]
    exact h.qpq
  · rw [hr _ (by simp [FKsMem.own, QPAddr.cells])]
    exact h.qpp
  · rw [hr _ (by simp [FKsMem.own])]
    exact h.q
  · rw [hr _ (by simp [FKsMem.own])]
    exact h.r
  · rw [hr _ (by simp [FKsMem.own])]
    exact h.be

theorem grow_ks (ks : KeySwitcher) (m : Alloc σ) : Grow m (ks.alloc m).2 (ks.alloc m).1.own :=
  (((grow_newBe m ks.be).trans (grow_many (fun m => grow_newPolyQP m ks.ringQ ks.ringP) 6 _)).trans (grow_newPoly _ ks.ringQ)).trans
    (grow_many (fun m => grow_newPolyQP m ks.ringQ ks.ringP) _ _)

theorem many_qp_rows (rQ rP : Ring) (n : ℕ) (m : Alloc σ) : ∀ x ∈ (Alloc.many (fun m => m.newPolyQP rQ rP) n m).1,
    ((Alloc.many (fun m => m.newPolyQP rQ rP) n m).2.store.rows x.q).length = rQ.subs.length ∧
    ((Alloc.many (fun m => m.newPolyQP rQ rP) n m).2.store.rows x.p).length = rP.subs.length :=
  many_rows (c := QPAddr.cells) (P := fun s x => (s.rows x.q).length = rQ.subs.length ∧ (s.rows x.p).length = rP.subs.length)
    (fun m => grow_newPolyQP m rQ rP) (fun m => newPolyQP_rows m rQ rP)
    (fun s s' x h hx => by rw [h x.q (by simp [QPAddr.cells]), h x.p (by simp [QPAddr.cells])]; exact hx) n m

theorem many_rows' (r : Ring) (n : ℕ) (m : Alloc σ) : ∀ x ∈ (Alloc.many (fun m => m.newPoly r) n m).1,
    ((Alloc.many (fun m => m.newPoly r) n m).2.store.rows x).length = r.subs.length :=
  many_rows (c := fun x => [x]) (P := fun s x => (s.rows x).length = r.subs.length)
    (fun m => grow_newPoly m r) (fun m => newPoly_rows m r) (fun s s' x h hx => by rw [h x (by simp)]; exact hx) n m

theorem ks_ready (ks : KeySwitcher) (hq : ks.be.ringQ = ks.ringQ) (hp : ks.be.ringP = ks.ringP) (m : Alloc σ) :
    (ks.alloc m).1.Ready (ks.alloc m).2.store := by
  have g1 := grow_newBe m ks.be
  have g2 := grow_many (fun m => grow_newPolyQP (σ := σ) m ks.ringQ ks.ringP) 6 (m.newBe ks.be).2
  set m2 := (Alloc.many (fun m => m.newPolyQP ks.ringQ ks.ringP) 6 (m.newBe ks.be).2) with hm2
  have g3 := grow_newPoly m2.2 ks.ringQ
  have g4 := grow_many (fun m => grow_newPolyQP (σ := σ) m ks.ringQ ks.ringP) (betaOf ks.ringQ ks.ringP) (m2.2.newPoly ks.ringQ).2
  have r1 := newBe_rows m ks.be
  have r2 := many_qp_rows ks.ringQ ks.ringP 6 (m.newBe ks.be).2
  have r3 := newPoly_rows m2.2 ks.ringQ
  have r4 := many_qp_rows ks.ringQ ks.ringP (betaOf ks.ringQ ks.ringP) (m2.2.newPoly ks.ringQ).2
  rw [← hm2] at r2
  have b1 : ∀ a ∈ [(m.newBe ks.be).1.q, (m.newBe ks.be).1.p], (ks.alloc m).2.store.rows a = (m.newBe ks.be).2.store.rows a := fun a ha =>
    ((g2.trans g3).trans g4).rows (g1.mem.1 ha).2
  have b2 : ∀ x ∈ m2.1, ∀ a ∈ x.cells, (ks.alloc m).2.store.rows a = m2.2.store.rows a := fun x hx a ha =>
    (g3.trans g4).rows (g2.mem.1 (List.mem_flatMap.2 ⟨x, hx, ha⟩)).2
  have b3 : (ks.alloc m).2.store.rows (m2.2.newPoly ks.ringQ).1 = (m2.2.newPoly ks.ringQ).2.store.rows (m2.2.newPoly ks.ringQ).1 :=
    g4.rows (g3.mem.1 (List.mem_singleton.2 rfl)).2
  refine ⟨hq, hp, fun x hx => ?_, length_many 6 _, ?_, ?_, ?_⟩
  · rcases List.mem_append.1 hx with hx | hx
    · rw [b2 x hx x.q (by simp [QPAddr.cells]), b2 x hx x.p (by simp [QPAddr.cells])]
      exact r2 x hx
    · exact r4 x hx
  · exact (congrArg List.length b3).trans r3
  · rw [hq] at r1
    exact (congrArg List.length (b1 (m.newBe ks.be).1.q (by simp))).trans r1.1
  · rw [hp] at r1
    exact (congrArg List.length (b1 (m.newBe ks.be).1.p (by simp))).trans r1.2

theorem grow_fks (ksw : FKeySwitcher) (m : Alloc σ) : Grow m (ksw.alloc m).2 (ksw.alloc m).1.own := by
  have h := (((((grow_newPolyQP m ksw.params.ringQ ksw.params.ringP).trans (grow_newPoly _ ksw.params.ringQ)).trans
    (grow_newPoly _ ksw.params.ringR)).trans (grow_newBe _ ksw.convQP)).trans
    (grow_many (c := fun x => [x]) (fun m => grow_newPoly m ksw.params.ringT) ksw.params.beta _)).trans
    (grow_many (c := fun x => [x]) (fun m => grow_newPoly m ksw.params.ringT)
      (ceilDivF (ksw.params.maxLevel + ksw.params.alpha + 1) ksw.params.gamma) _)
  have e : ∀ l : List ℕ, l.flatMap (fun x => [x]) = l := fun l => by simp
  simp only [e] at h
  exact h

theorem length_mapM_option {α β : Type} {f : α → Option β} : ∀ {l : List α} {l' : List β}, l.mapM f = some l' → l'.length = l.length
  | [], l', h => by
    simp only [List.mapM_nil] at h
    cases h
    rfl
  | a :: l, l', h => by
    rw [List.mapM_cons] at h
    cases h1 : f a with
    | none => rw [h1] at h; cases h
    | some b =>
      cases h2 : l.mapM f with
      | none => rw [h1, h2] at h; cases h
      | some bs =>
        rw [h1, h2] at h
        cases h
        exact congrArg (· + 1) (length_mapM_option h2)

/-- what `NewKeySwitcher` puts in the fields that the buffers depend on -/
theorem newFKeySwitcher_fields {fuel : ℕ} {p : FParams} {ksw : FKeySwitcher} (h : newFKeySwitcher fuel p = some ksw) :
    ksw.params = p ∧ ksw.convQP.ringQ = p.ringQ ∧ ksw.ringRi.length = ceilDivF (p.maxLevel + p.alpha + 1) p.gamma := by
  unfold newFKeySwitcher at h
  dsimp only at h
  rw [Option.bind_eq_some_iff] at h
  obtain ⟨rs, h1, h⟩ := h
  rw [Option.bind_eq_some_iff] at h
  obtain ⟨qs, h2, h⟩ := h
  have h := Option.some.inj h
  subst h
  refine ⟨rfl, rfl, ?_⟩
  exact (length_mapM_option h1).trans List.length_range

theorem fks_ready {fuel : ℕ} {p : FParams} {ksw : FKeySwitcher} (h : newFKeySwitcher fuel p = some ksw) (m : Alloc σ) :
    (ksw.alloc m).1.Ready (ksw.alloc m).2.store ∧ (ksw.alloc m).1.Made := by
  obtain ⟨e1, e2, e3⟩ := newFKeySwitcher_fields h
  subst e1
  refine ⟨?_, ⟨⟨fuel, h⟩, length_many _ _, length_many _ _⟩⟩
  have g1 := grow_newPolyQP m ksw.params.ringQ ksw.params.ringP
  have r1 := newPolyQP_rows m ksw.params.ringQ ksw.params.ringP
  set m1 := m.newPolyQP ksw.params.ringQ ksw.params.ringP with hm1
  have g2 := grow_newPoly m1.2 ksw.params.ringQ
  have r2 := newPoly_rows m1.2 ksw.params.ringQ
  set m2 := m1.2.newPoly ksw.params.ringQ with hm2
  have g3 := grow_newPoly m2.2 ksw.params.ringR
  have r3 := newPoly_rows m2.2 ksw.params.ringR
  set m3 := m2.2.newPoly ksw.params.ringR with hm3
  have g4 := grow_newBe m3.2 ksw.convQP
  have r4 := newBe_rows m3.2 ksw.convQP
  set m4 := m3.2.newBe ksw.convQP with hm4
  have g5 := grow_many (c := fun x => [x]) (fun m => grow_newPoly (σ := σ) m ksw.params.ringT) ksw.params.beta m4.2
  have r5 := many_rows' ksw.params.ringT ksw.params.beta m4.2
  set m5 := Alloc.many (fun m => m.newPoly ksw.params.ringT) ksw.params.beta m4.2 with hm5
  have g6 := grow_many (c := fun x => [x]) (fun m => grow_newPoly (σ := σ) m ksw.params.ringT)
    (ceilDivF (ksw.params.maxLevel + ksw.params.alpha + 1) ksw.params.gamma) m5.2
  have r6 := many_rows' ksw.params.ringT (ceilDivF (ksw.params.maxLevel + ksw.params.alpha + 1) ksw.params.gamma) m5.2
  refine ⟨fun a ha => ?_, r6, ?_, ?_, ?_, ?_, ?_, (length_many _ _).trans e3.symm⟩
  · exact (congrArg List.length (g6.rows (g5.mem.1 (List.mem_flatMap.2 ⟨a, ha, by simp⟩)).2)).trans (r5 a ha)
  · exact (congrArg List.length (((((g2.trans g3).trans g4).trans g5).trans g6).rows ((g1.mem (a := m1.1.q)).1 (by simp [QPAddr.cells])).2)).trans r1.1
  · exact (congrArg List.length (((((g2.trans g3).trans g4).trans g5).trans g6).rows ((g1.mem (a := m1.1.p)).1 (by simp [QPAddr.cells])).2)).trans r1.2
  · exact (congrArg List.length ((((g3.trans g4).trans g5).trans g6).rows ((g2.mem (a := m2.1)).1 (by simp)).2)).trans r2
  · exact (congrArg List.length (((g4.trans g5).trans g6).rows ((g3.mem (a := m3.1)).1 (by simp)).2)).trans r3
  · exact (congrArg List.length ((g5.trans g6).rows ((g4.mem (a := m4.1.q)).1 (by simp)).2)).trans r4.1

theorem _root_.FastKsw.KsObjects.Inv.add {o o' : KsObjects σ} (h : o.Inv) {cs : List ℕ} (g : Grow o.mem o'.mem cs)
    (hp : o'.cells.Perm (cs ++ o.cells)) (hk : ∀ K ∈ o'.kss, K ∈ o.kss ∨ K.Ready o'.mem.store)
    (hfk : ∀ K ∈ o'.fkss, K ∈ o.fkss ∨ (K.Ready o'.mem.store ∧ K.Made)) : o'.Inv := by
  have hks : ∀ K ∈ o.kss, ∀ a ∈ K.own, a ∈ o.cells := fun K hK a ha =>
    List.mem_append_left _ (List.mem_append_right _ (List.mem_flatMap.2 ⟨K, hK, ha⟩))
  have hfks : ∀ K ∈ o.fkss, ∀ a ∈ K.own, a ∈ o.cells := fun K hK a ha => List.mem_append_right _ (List.mem_flatMap.2 ⟨K, hK, ha⟩)
  refine ⟨hp.nodup_iff.2 (List.nodup_append.2 ⟨g.nodup, h.nodup, fun a ha b hb e => ?_⟩), fun a ha => ?_, fun a ha => ?_, ?_, ⟨fun K hK => ?_, fun K hK => ?_⟩,
    fun K hK => ?_⟩
  · have := (g.mem.1 ha).1
    have := h.lt b hb
    omega
  · rcases List.mem_append.1 (hp.mem_iff.1 ha) with h1 | h1
    · exact h.next.trans_le (g.mem.1 h1).1
    · exact h.pos a h1
  · rcases List.mem_append.1 (hp.mem_iff.1 ha) with h1 | h1
    · exact (g.mem.1 h1).2
    · rw [g.next]
      exact (h.lt a h1).trans_le (Nat.le_add_right _ _)
  · rw [g.next]
    exact h.next.trans_le (Nat.le_add_right _ _)
  · rcases hk K hK with h1 | h1
    · exact (h.ready.1 K h1).congr fun a ha => g.old a (h.lt a (hks K h1 a ha))
    · exact h1
  · rcases hfk K hK with h1 | h1
    · exact (h.ready.2 K h1).congr fun a ha => g.old a (h.lt a (hfks K h1 a ha))
    · exact h1.1
  · rcases hfk K hK with h1 | h1
    · exact h.made K h1
    · exact h1.2

/-- Whatever polynomials and key switchers a program creates, and whichever key switchers it copies, no two of them share a cell, and
all buffers have the lengths that the key switch needs. -/
theorem C106_objects {o : KsObjects σ} (h : o.Inv) (script : List KsMake) : (script.foldl KsObjects.make o).Inv := by
  induction script generalizing o with
  | nil => exact h
  | cons c cs ih =>
    refine ih ?_
    cases c with
    | poly p => exact h.add (grow_new o.mem (.poly p)) (List.Perm.refl _) (fun K hK => Or.inl hK) fun K hK => Or.inl hK
    | newKeySwitcher rQ rP =>
      refine h.add (grow_ks (newKeySwitcher rQ rP) o.mem) (perm_mid ..) (fun K hK => ?_) fun K hK => Or.inl hK
      rcases List.mem_cons.1 hK with rfl | hK
      · exact Or.inr (ks_ready _ rfl rfl o.mem)
      · exact Or.inl hK
    | copyKeySwitcher i =>
      unfold KsObjects.make
      dsimp only
      cases hi : o.kss[i]? with
      | none => exact h
      | some K0 =>
        have h0 := h.ready.1 K0 (List.mem_of_getElem? hi)
        refine h.add (grow_ks K0.ks o.mem) (perm_mid ..) (fun K hK => ?_) fun K hK => Or.inl hK
        rcases List.mem_cons.1 hK with rfl | hK
        · exact Or.inr (ks_ready _ h0.beQ h0.beP o.mem)
        · exact Or.inl hK
    | newFKeySwitcher fuel p =>
      unfold KsObjects.make newFKsMem
      dsimp only
      cases hk : newFKeySwitcher fuel p with
      | none => exact h
      | some ksw =>
        refine h.add (grow_fks ksw o.mem) (perm_right ..) (fun K hK => Or.inl hK) fun K hK => ?_
        rcases List.mem_cons.1 hK with rfl | hK
        · exact Or.inr (fks_ready hk o.mem)
        · exact Or.inl hK

theorem C106_objects_empty (script : List KsMake) : (script.foldl KsObjects.make (KsObjects.empty (σ := σ))).Inv := by
  refine C106_objects (o := KsObjects.empty) ⟨List.nodup_nil, ?_, ?_, Nat.one_pos, ⟨?_, ?_⟩, ?_⟩ script
  · exact fun a ha => absurd ha List.not_mem_nil
  · exact fun a ha => absurd ha List.not_mem_nil
  · exact fun K hK => absurd hK List.not_mem_nil
  · exact fun K hK => absurd hK List.not_mem_nil
  · exact fun K hK => absurd hK List.not_mem_nil

end FastKsw.Props
