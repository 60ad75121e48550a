import Verif.Spec.Memory

/-!
# C88: copies of polynomials, ciphertexts and keys
-/

namespace FastKsw.Props

open FastKsw

/-! ### Allocation -/

theorem newRows_is (xs : List Row) (m : Mem) :
    (m.newRows xs).1 = List.range' m.nRows xs.length ∧ (m.newRows xs).2.nRows = m.nRows + xs.length ∧
    (m.newRows xs).2.polys = m.polys ∧ (m.newRows xs).2.nPolys = m.nPolys ∧
    (∀ a < m.nRows, (m.newRows xs).2.rows a = m.rows a) ∧
    ∀ i (h : i < xs.length), (m.newRows xs).2.rows (m.nRows + i) = xs[i] := by
  induction xs generalizing m with
  | nil => exact ⟨rfl, rfl, rfl, rfl, fun _ _ => rfl, fun i h => absurd h (by simp)⟩
  | cons x xs ih =>
    obtain ⟨a1, a2, a3, a4, a5, a6⟩ := ih (m.newRow x).2
    have e : (m.newRow x).2.nRows = m.nRows + 1 := rfl
    refine ⟨?_, ?_, a3, a4, fun a ha => ?_, fun i hi => ?_⟩
    · show m.nRows :: _ = _
      rw [a1, e, List.length_cons, List.range'_succ]
    · show ((m.newRow x).2.newRows xs).2.nRows = _
      rw [a2, e, List.length_cons]
      omega
    · show ((m.newRow x).2.newRows xs).2.rows a = _
      rw [a5 a (by omega)]
      show (if a = m.nRows then x else m.rows a) = _
      rw [if_neg (by omega)]
    · show ((m.newRow x).2.newRows xs).2.rows (m.nRows + i) = _
      cases i with
      | zero =>
        rw [a5 _ (by omega)]
        show (if m.nRows + 0 = m.nRows then x else _) = _
        rw [if_pos (by omega)]
        rfl
      | succ i =>
        rw [List.length_cons] at hi
        have := a6 i (by omega)
        rw [e] at this
        rw [show m.nRows + (i + 1) = m.nRows + 1 + i by omega, this]
        rfl

theorem map_rows_new (xs : List Row) (m m'' : Mem)
    (h : ∀ a, m.nRows ≤ a → a < (m.newRows xs).2.nRows → m''.rows a = (m.newRows xs).2.rows a) :
    (m.newRows xs).1.map m''.rows = xs := by
  obtain ⟨a1, a2, -, -, -, a6⟩ := newRows_is xs m
  rw [a1]
  apply List.ext_getElem
  · simp
  · intro i h1 h2
    rw [List.getElem_map, List.getElem_range', h _ (by omega) (by rw [a2]; omega), ← a6 i h2]
    congr 1
    omega

/-! ### Deep copies -/

theorem copies_poly : polyObj.Copies Mem.copyNew := by
  intro m a _
  obtain ⟨a1, a2, a3, a4, a5, a6⟩ := newRows_is ((m.polys a).coeffs.map m.rows) m
  set as := m.newRows ((m.polys a).coeffs.map m.rows) with has
  have hr : (m.copyNew a).2.rows = as.2.rows := rfl
  have hn : (m.copyNew a).2.nRows = as.2.nRows := rfl
  have hp : ∀ b, (m.copyNew a).2.polys b = if b = as.2.nPolys then ⟨as.1, (m.polys a).isNTT, (m.polys a).isMForm⟩ else as.2.polys b :=
    fun _ => rfl
  have hnp : (m.copyNew a).2.nPolys = as.2.nPolys + 1 := rfl
  have hb : (m.copyNew a).1 = as.2.nPolys := rfl
  refine ⟨⟨by rw [hn, a2]; omega, by rw [hnp, a4]; omega, fun b hb => by rw [hr, a5 b hb], fun b hb => ?_⟩,
    ⟨by rw [hb, hnp]; omega, fun b hb' => ?_⟩, fun m'' h => ?_⟩
  · rw [hp, a4, if_neg (by omega), a3]
  · rw [hb, hp, if_pos rfl] at hb'
    dsimp only at hb'
    rw [a1, List.mem_range'] at hb'
    rw [hn, a2]
    obtain ⟨i, hi, rfl⟩ := hb'
    omega
  · show Mem.read m'' (m.copyNew a).1 = Mem.read m a
    have e : m''.polys (m.copyNew a).1 = ⟨as.1, (m.polys a).isNTT, (m.polys a).isMForm⟩ := by
      rw [h.polys _ (by rw [hb, a4]) (by rw [hb, hnp]; omega), hp, hb, if_pos rfl]
    unfold Mem.read
    rw [e]
    dsimp only
    congr 1
    exact map_rows_new _ m m'' fun b h1 h2 => by
      rw [h.rows b h1 (by rw [hn]; exact h2), hr]

/-- a copy made first keeps its contents while others are made -/
theorem Mem.SameNew.step {m m1 m2 m'' : Mem} (h1 : m.Extends m1) (h2 : m1.Extends m2) (h : m.SameNew m2 m'') :
    m.SameNew m1 m'' ∧ m1.SameNew m2 m'' :=
  ⟨⟨fun a ha hb => (h.rows a ha (hb.trans_le h2.nRows)).trans (h2.rows a hb),
    fun a ha hb => (h.polys a ha (hb.trans_le h2.nPolys)).trans (h2.polys a hb)⟩,
   ⟨fun a ha hb => h.rows a (h1.nRows.trans ha) hb, fun a ha hb => h.polys a (h1.nPolys.trans ha) hb⟩⟩

theorem copies_list {α β : Type} {O : Obj α β} {f : Mem → α → α × Mem} (hf : O.Copies f) : O.list.Copies (Mem.mapNew f) := by
  intro m x hx
  induction x generalizing m with
  | nil => exact ⟨Mem.Extends.refl m, fun a ha => absurd ha (by simp [Mem.mapNew]), fun _ _ => rfl⟩
  | cons a as ih =>
    obtain ⟨e1, w1, r1⟩ := hf m a (hx a (by simp))
    have hw : ∀ b ∈ as, O.wf (f m a).2 b := fun b hb => O.wf_ext e1 (hx b (by simp [hb]))
    obtain ⟨e2, w2, r2⟩ := ih (f m a).2 hw
    refine ⟨e1.trans e2, fun b hb => ?_, fun m'' h => ?_⟩
    · rcases List.mem_cons.1 hb with rfl | hb
      · exact O.wf_ext e2 w1
      · exact w2 b hb
    · obtain ⟨h1, h2⟩ := Mem.SameNew.step e1 e2 h
      show O.read m'' (f m a).1 :: _ = O.read m a :: _
      rw [r1 m'' h1]
      congr 1
      refine (r2 m'' h2).trans ?_
      exact O.list.read_old e1.sameOld fun b hb => hx b (by simp [hb])

theorem copies_opt {α β : Type} {O : Obj α β} {f : Mem → α → α × Mem} (hf : O.Copies f) :
    O.opt.Copies fun m x => match x with
      | none => (none, m)
      | some a => (some (f m a).1, (f m a).2) := by
  intro m x hx
  cases x with
  | none => exact ⟨Mem.Extends.refl m, (show ∀ a ∈ (none : Option α), O.wf m a from fun a ha => nomatch ha), fun _ _ => rfl⟩
  | some a =>
    obtain ⟨e1, w1, r1⟩ := hf m a (hx a rfl)
    exact ⟨e1, (show ∀ b ∈ some (f m a).1, O.wf (f m a).2 b from fun b hb => Option.some.inj hb ▸ w1),
      fun m'' h => congrArg some (r1 m'' h)⟩

theorem copies_pair {α β γ δ : Type} {O : Obj α β} {O' : Obj γ δ} {f : Mem → α → α × Mem} {g : Mem → γ → γ × Mem}
    (hf : O.Copies f) (hg : O'.Copies g) :
    (O.pair O').Copies fun m x => (((f m x.1).1, (g (f m x.1).2 x.2).1), (g (f m x.1).2 x.2).2) := by
  intro m x hx
  obtain ⟨e1, w1, r1⟩ := hf m x.1 hx.1
  obtain ⟨e2, w2, r2⟩ := hg (f m x.1).2 x.2 (O'.wf_ext e1 hx.2)
  refine ⟨e1.trans e2, ⟨O.wf_ext e2 w1, w2⟩, fun m'' h => ?_⟩
  obtain ⟨h1, h2⟩ := Mem.SameNew.step e1 e2 h
  show (O.read m'' _, O'.read m'' _) = (O.read m x.1, O'.read m x.2)
  rw [r1 m'' h1, r2 m'' h2, O'.read_old e1.sameOld hx.2]

theorem copies_opt_poly : polyObj.opt.Copies Mem.optCopyNew := by
  intro m x hx
  have := copies_opt copies_poly m x hx
  cases x <;> exact this

theorem copies_qp : qpObj.Copies Mem.qpCopyNew := fun m x hx => copies_pair copies_opt_poly copies_opt_poly m (x.q, x.p) hx

theorem copies_qpPair : (qpObj.pair qpObj).Copies Mem.pairCopyNew := fun m x hx => copies_pair copies_qp copies_qp m x hx

/-- **C88 (deep copies).** `CopyNew` of a polynomial, a ciphertext, a `PolyQP`, a secret key and a public key makes a deep copy: it
leaves everything that exists unchanged, and the copy holds what the original held whatever is written later to memory that existed
before the call. -/
theorem C88_copyNew : polyObj.Copies Mem.copyNew ∧ ctObj.Copies Mem.ctCopyNew ∧ qpObj.Copies Mem.qpCopyNew ∧
    qpObj.opt.Copies Mem.skCopyNew ∧ (qpObj.pair qpObj).opt.Copies Mem.pkCopyNew := by
  refine ⟨copies_poly, copies_list copies_poly, copies_qp, fun m x hx => ?_, fun m x hx => ?_⟩
  · have := copies_opt copies_qp m x hx
    cases x <;> exact this
  · have := copies_opt copies_qpPair m x hx
    cases x <;> exact this

/-- **C88 (isolation).** Whatever is done to the memory that a copy allocated, every object that existed before keeps its contents. -/
theorem C88_isolated {α β γ δ : Type} {O : Obj α β} {f : Mem → α → α × Mem} (hf : O.Copies f) (O' : Obj γ δ) (m : Mem) (x : α)
    (hx : O.wf m x) (c : γ) (hc : O'.wf m c) (m'' : Mem)
    (h : (∀ a < m.nRows, m''.rows a = (f m x).2.rows a) ∧ ∀ a < m.nPolys, m''.polys a = (f m x).2.polys a) :
    O'.read m'' c = O'.read m c := by
  obtain ⟨e, -, -⟩ := hf m x hx
  exact O'.read_old ⟨fun a ha => (h.1 a ha).trans (e.rows a ha), fun a ha => (h.2 a ha).trans (e.polys a ha)⟩ hc

/-- **C88 (switching keys).** The same for switching and relinearization keys in which no list is empty.  Missing: empty keys
(`C88_empty_key_violated`). -/
theorem C88_keys_partial (m : Mem) (x : Option (List (QPRef × QPRef))) (hx : swkObj.wf m x) (hne : x ≠ some []) :
    m.Extends (m.swkCopyNew x).2 ∧ swkObj.wf (m.swkCopyNew x).2 (m.swkCopyNew x).1 ∧
      ∀ m'', m.SameNew (m.swkCopyNew x).2 m'' → swkObj.read m'' (m.swkCopyNew x).1 = swkObj.read m x := by
  cases x with
  | none => exact copies_opt (copies_list copies_qpPair) m none hx
  | some v =>
    have hl : v.length ≠ 0 := fun h => hne (by rw [List.length_eq_zero_iff.1 h])
    have e : m.swkCopyNew (some v) = (some (Mem.mapNew Mem.pairCopyNew m v).1, (Mem.mapNew Mem.pairCopyNew m v).2) := by
      unfold Mem.swkCopyNew
      dsimp only
      rw [if_neg hl]
    rw [e]
    exact copies_opt (copies_list copies_qpPair) m (some v) hx

/-- switching keys with at least one digit, or `nil` -/
def swkObj' : Obj (Option (List (QPRef × QPRef))) (Option (List ((Option PolyVal × Option PolyVal) × (Option PolyVal × Option PolyVal)))) where
  wf := fun m x => swkObj.wf m x ∧ x ≠ some []
  read := swkObj.read
  wf_ext := fun h hx => ⟨swkObj.wf_ext h hx.1, hx.2⟩
  read_old := fun h hx => swkObj.read_old h hx.1

theorem copies_swk : swkObj'.Copies Mem.swkCopyNew := by
  intro m x hx
  obtain ⟨h1, h2, h3⟩ := C88_keys_partial m x hx.1 hx.2
  refine ⟨h1, ⟨h2, ?_⟩, h3⟩
  intro h
  cases x with
  | none => cases h
  | some v =>
    have hl : v.length ≠ 0 := fun h => hx.2 (by rw [List.length_eq_zero_iff.1 h])
    unfold Mem.swkCopyNew at h
    dsimp only at h
    rw [if_neg hl] at h
    cases v with
    | nil => exact hl rfl
    | cons a as => cases h

/-- **C88 (relinearization keys).** As `C88_keys_partial`, with at least one switching key and no empty switching key. -/
theorem C88_relin_partial (m : Mem) (x : List (Option (List (QPRef × QPRef)))) (hx : rlkObj.wf m (some x)) (hne : x ≠ [])
    (hne' : some [] ∉ x) :
    m.Extends (m.rlkCopyNew (some x)).2 ∧ rlkObj.wf (m.rlkCopyNew (some x)).2 (m.rlkCopyNew (some x)).1 ∧
      ∀ m'', m.SameNew (m.rlkCopyNew (some x)).2 m'' → rlkObj.read m'' (m.rlkCopyNew (some x)).1 = rlkObj.read m (some x) := by
  have e : m.rlkCopyNew (some x) = (some (Mem.mapNew Mem.swkCopyNew m x).1, (Mem.mapNew Mem.swkCopyNew m x).2) := by
    unfold Mem.rlkCopyNew
    dsimp only
    rw [if_neg fun h => hne (List.length_eq_zero_iff.1 h)]
  obtain ⟨h1, h2, h3⟩ := copies_list copies_swk m x fun a ha => ⟨hx x rfl a ha, fun h => hne' (h ▸ ha)⟩
  rw [e]
  exact ⟨h1, fun a ha b hb => by cases ha; exact (h2 b hb).1, fun m'' h => congrArg some (h3 m'' h)⟩

/-- **C88 fails** for empty keys: the copy of a switching key without digits, and of a relinearization key without switching keys, is
`nil`, not an empty key. -/
theorem C88_empty_key_violated (m : Mem) : (m.swkCopyNew (some [])).1 = none ∧ (m.rlkCopyNew (some [])).1 = none ∧
    swkObj.read m (m.swkCopyNew (some [])).1 ≠ swkObj.read m (some []) := by
  refine ⟨rfl, rfl, fun h => by cases h⟩

/-- the rows of the components of the copied ciphertext, in order, are consecutive new arrays -/
theorem ctCopyNew_rows (v : List ℕ) (m : Mem) (hv : ctObj.wf m v) :
    (m.ctCopyNew v).1 = List.range' m.nPolys v.length ∧
    ((m.ctCopyNew v).1.flatMap fun b => ((m.ctCopyNew v).2.polys b).coeffs) =
      List.range' m.nRows ((v.map fun a => (m.polys a).coeffs.length).sum) ∧
    (m.ctCopyNew v).2.nRows = m.nRows + (v.map fun a => (m.polys a).coeffs.length).sum := by
  induction v generalizing m with
  | nil => exact ⟨rfl, rfl, rfl⟩
  | cons a as ih =>
    obtain ⟨e1, w1, -⟩ := copies_poly m a (hv a (by simp))
    have hw : ctObj.wf (m.copyNew a).2 as := fun b hb => polyObj.wf_ext e1 (hv b (by simp [hb]))
    obtain ⟨a1, a2, a3, a4, a5, a6⟩ := newRows_is ((m.polys a).coeffs.map m.rows) m
    obtain ⟨i1, i2, i3⟩ := ih (m.copyNew a).2 hw
    have hn : (m.copyNew a).2.nRows = m.nRows + (m.polys a).coeffs.length := by
      show (m.newRows _).2.nRows = _
      rw [a2, List.length_map]
    have hp : (m.copyNew a).2.nPolys = m.nPolys + 1 := by
      show (m.newRows _).2.nPolys + 1 = _
      rw [a4]
    have hb : (m.copyNew a).1 = m.nPolys := a4
    have hc : ((m.copyNew a).2.polys (m.copyNew a).1).coeffs = List.range' m.nRows (m.polys a).coeffs.length := by
      show (if (m.newRows _).2.nPolys = (m.newRows _).2.nPolys then _ else _ : MPoly).coeffs = _
      rw [if_pos rfl]
      dsimp only
      rw [a1, List.length_map]
    have e2 : (m.copyNew a).2.Extends ((m.copyNew a).2.ctCopyNew as).2 := (copies_list copies_poly (m.copyNew a).2 as hw).1
    have hm : ∀ b ∈ as, ((m.copyNew a).2.polys b).coeffs.length = (m.polys b).coeffs.length := fun b hb => by
      rw [e1.polys b (hv b (by simp [hb])).1]
    have hs : (as.map fun b => ((m.copyNew a).2.polys b).coeffs.length) = as.map fun b => (m.polys b).coeffs.length :=
      List.map_congr_left hm
    rw [hs] at i2 i3
    have E : m.ctCopyNew (a :: as) = ((m.copyNew a).1 :: ((m.copyNew a).2.ctCopyNew as).1, ((m.copyNew a).2.ctCopyNew as).2) := rfl
    rw [E]
    refine ⟨?_, ?_, ?_⟩
    · dsimp only
      rw [i1, hb, hp, List.length_cons, List.range'_succ]
    · dsimp only
      rw [List.flatMap_cons, i2, hn, List.map_cons, List.sum_cons]
      have : (((m.copyNew a).2.ctCopyNew as).2.polys (m.copyNew a).1).coeffs = List.range' m.nRows (m.polys a).coeffs.length := by
        rw [e2.polys _ w1.1, hc]
      rw [this, List.range'_append_1]
    · dsimp only
      rw [i3, hn, List.map_cons, List.sum_cons]
      omega

/-- **C88 (no sharing inside a copy).** The components of a copied ciphertext are different polynomials with pairwise different rows,
even if the components of the original share. -/
theorem C88_ct_nodup (v : List ℕ) (m : Mem) (hv : ctObj.wf m v) :
    (m.ctCopyNew v).1.Nodup ∧ ((m.ctCopyNew v).1.flatMap fun b => ((m.ctCopyNew v).2.polys b).coeffs).Nodup := by
  obtain ⟨h1, h2, -⟩ := ctCopyNew_rows v m hv
  rw [h2, h1]
  exact ⟨List.nodup_range', List.nodup_range'⟩

/-! ### Copies into existing polynomials -/

/-- the loop of `copy` over rows: distinct destinations, none of them a source, rows of equal lengths -/
theorem copyRows_is (ds ss : List ℕ) (k : ℕ) (m : Mem) (hd : k ≤ ds.length) (hs : k ≤ ss.length) (hn : ds.Nodup)
    (hdis : ∀ d ∈ ds, d ∉ ss) (hlen : ∀ d ∈ ds, ∀ s ∈ ss, (m.rows d).length = (m.rows s).length) :
    ∃ m', m.copyRows ds ss k = .ok m' ∧ m'.polys = m.polys ∧ m'.nRows = m.nRows ∧ m'.nPolys = m.nPolys ∧
      (∀ a, a ∉ ds.take k → m'.rows a = m.rows a) ∧ (ds.take k).map m'.rows = (ss.take k).map m.rows := by
  induction k generalizing ds ss m with
  | zero => exact ⟨m, by unfold Mem.copyRows; rfl, rfl, rfl, rfl, fun _ _ => rfl, rfl⟩
  | succ k ih =>
    match ds, ss, hd, hs with
    | d :: ds, s :: ss, hd, hs =>
      rw [List.length_cons] at hd hs
      obtain ⟨hn1, hn2⟩ := List.nodup_cons.1 hn
      have e1 : ∀ a, (m.copyRow d s).rows a = if a = d then m.rows s else m.rows a := by
        intro a
        have hl := hlen d (by simp) s (by simp)
        show (if a = d then (m.rows s).take (m.rows d).length ++ (m.rows d).drop (m.rows s).length else m.rows a) = _
        rw [hl, List.take_length, ← hl, List.drop_length, List.append_nil]
      have ht : ∀ t ∈ ss, t ≠ d := fun t ht h => hdis d (by simp) (by simp [← h, ht])
      have hdd : ∀ c ∈ ds, c ≠ d := fun c hc h => hn1 (h ▸ hc)
      obtain ⟨m', a1, a2, a3, a4, a5, a6⟩ := ih ds ss (m.copyRow d s) (by omega) (by omega) hn2
        (fun c hc h => hdis c (by simp [hc]) (by simp [h]))
        (fun c hc t ht' => by rw [e1, e1, if_neg (hdd c hc), if_neg (ht t ht')]; exact hlen c (by simp [hc]) t (by simp [ht']))
      refine ⟨m', by unfold Mem.copyRows; exact a1, a2, a3, a4, fun a ha => ?_, ?_⟩
      · rw [List.take_succ_cons, List.mem_cons, not_or] at ha
        rw [a5 a ha.2, e1, if_neg ha.1]
      · rw [List.take_succ_cons, List.take_succ_cons, List.map_cons, List.map_cons, a6,
          a5 d (fun h => hn1 (List.mem_of_mem_take h)), e1, if_pos rfl]
        congr 1
        exact List.map_congr_left fun t ht' => by rw [e1, if_neg (ht t (List.mem_of_mem_take ht'))]

/-- polynomials that do not share rows and have the same degree, the receiver without repeated rows -/
structure Apart (m : Mem) (p0 p1 : ℕ) : Prop where
  ne : p0 ≠ p1
  nodup : (m.polys p1).coeffs.Nodup
  dis : ∀ d ∈ (m.polys p1).coeffs, d ∉ (m.polys p0).coeffs
  len : ∀ d ∈ (m.polys p1).coeffs, ∀ s ∈ (m.polys p0).coeffs, (m.rows d).length = (m.rows s).length

/-- **C88 (`Copy`).** `Copy` writes the rows up to the lower of the two levels and the flags; the other rows of the receiver keep their
contents, and so does everything else. -/
theorem C88_copy (m : Mem) (p0 p1 : ℕ) (h : Apart m p0 p1) :
    ∃ m', m.copy p0 p1 = .ok m' ∧ m'.nRows = m.nRows ∧ m'.nPolys = m.nPolys ∧
      m'.read p1 = ⟨(m.read p0).coeffs.take (m.minRows p0 p1) ++ (m.read p1).coeffs.drop (m.minRows p0 p1), (m.read p0).isNTT,
        (m.read p0).isMForm⟩ ∧
      (∀ a, a ∉ (m.polys p1).coeffs → m'.rows a = m.rows a) ∧ (∀ a, a ≠ p1 → m'.polys a = m.polys a) ∧
      (m'.polys p1).coeffs = (m.polys p1).coeffs := by
  obtain ⟨m', a1, a2, a3, a4, a5, a6⟩ := copyRows_is (m.polys p1).coeffs (m.polys p0).coeffs (m.minRows p0 p1) m
    (min_le_right _ _) (min_le_left _ _) h.nodup h.dis h.len
  have e1 : ∀ a, (m'.copyFlags p0 p1).polys a =
      if a = p1 then { m.polys p1 with isNTT := (m.polys p0).isNTT, isMForm := (m.polys p0).isMForm } else m.polys a := by
    intro a
    show (if a = p1 then { m'.polys p1 with isNTT := (m'.polys p0).isNTT, isMForm := (m'.polys p0).isMForm } else m'.polys a) = _
    rw [a2]
  refine ⟨m'.copyFlags p0 p1, ?_, a3, a4, ?_, fun a ha => a5 a fun h' => ha (List.mem_of_mem_take h'), fun a ha => by rw [e1, if_neg ha],
    by rw [e1, if_pos rfl]⟩
  · unfold Mem.copy Mem.copyValues
    rw [if_pos h.ne, a1]
    rfl
  · unfold Mem.read
    rw [e1, if_pos rfl]
    dsimp only
    congr 1
    have hr : (m'.copyFlags p0 p1).rows = m'.rows := rfl
    rw [hr]
    generalize m.minRows p0 p1 = k at *
    conv_lhs => rw [← List.take_append_drop k (m.polys p1).coeffs]
    rw [List.map_append, a6, List.map_take, ← List.map_drop]
    congr 1
    refine List.map_congr_left fun a ha => a5 a fun h' => ?_
    have := h.nodup
    rw [← List.take_append_drop k (m.polys p1).coeffs] at this
    exact (List.nodup_append.1 this).2.2 a h' a ha rfl

/-- **C88 (`Copy` at equal levels).** If both polynomials have the same number of rows, the receiver is a copy of the source. -/
theorem C88_copy_equal_partial (m : Mem) (p0 p1 : ℕ) (h : Apart m p0 p1)
    (hl : (m.polys p0).coeffs.length = (m.polys p1).coeffs.length) :
    ∃ m', m.copy p0 p1 = .ok m' ∧ m'.read p1 = m.read p0 := by
  obtain ⟨m', a1, -, -, a4, -⟩ := C88_copy m p0 p1 h
  refine ⟨m', a1, a4.trans ?_⟩
  have hk : m.minRows p0 p1 = (m.polys p0).coeffs.length := by unfold Mem.minRows; omega
  rw [hk]
  unfold Mem.read
  dsimp only
  rw [← List.map_take, List.take_length, ← List.map_drop, hl, List.drop_length, List.map_nil, List.append_nil]

/-- **C88 fails** for `Copy` of a polynomial into one of a higher level (`p0` has fewer rows): the receiver keeps its level and its upper
rows, so it does not hold the same polynomial. -/
theorem C88_copy_level_violated (m : Mem) (p0 p1 : ℕ) (h : Apart m p0 p1)
    (hl : (m.polys p0).coeffs.length < (m.polys p1).coeffs.length) :
    ∃ m', m.copy p0 p1 = .ok m' ∧ m'.read p1 ≠ m.read p0 ∧
      ((m'.read p1).coeffs.drop (m.polys p0).coeffs.length = (m.read p1).coeffs.drop (m.polys p0).coeffs.length) := by
  obtain ⟨m', a1, -, -, a4, -⟩ := C88_copy m p0 p1 h
  have hk : m.minRows p0 p1 = (m.polys p0).coeffs.length := by unfold Mem.minRows; omega
  rw [hk] at a4
  have l0 : (m.read p0).coeffs.length = (m.polys p0).coeffs.length := List.length_map ..
  have l1 : (m.read p1).coeffs.length = (m.polys p1).coeffs.length := List.length_map ..
  refine ⟨m', a1, fun e => ?_, ?_⟩
  · have := congrArg (fun v : PolyVal => v.coeffs.length) (e.symm.trans a4)
    dsimp only at this
    rw [List.length_append, List.length_take, List.length_drop, l0, l1] at this
    omega
  · rw [a4]
    dsimp only
    rw [List.drop_append, List.length_take, l0, min_self, Nat.sub_self, List.drop_zero, List.drop_of_length_le (by simp [l0]),
      List.nil_append]

/-- **C88 fails** for `Ciphertext.Copy` into a ciphertext of a different degree: into one of a lower degree it panics after
writing the first components, into one of a higher degree the extra components stay. -/
theorem C88_ctCopy_degree_violated (m : Mem) (p0 p1 p2 : ℕ) (h : Apart m p0 p1) (h2 : p2 ≠ p1)
    (h3 : ∀ a ∈ (m.polys p2).coeffs, a ∉ (m.polys p1).coeffs) :
    m.ctCopy [p1] [p0, p2] = .panic ∧ ∃ m', m.ctCopy [p1, p2] [p0] = .ok m' ∧ m'.read p2 = m.read p2 := by
  obtain ⟨m', a1, -, -, -, a5, a6, -⟩ := C88_copy m p0 p1 h
  constructor
  · unfold Mem.ctCopy
    rw [a1]
    show m'.ctCopy [] [p2] = _
    unfold Mem.ctCopy
    rfl
  · refine ⟨m', ?_, ?_⟩
    · unfold Mem.ctCopy
      rw [a1]
      show m'.ctCopy [p2] [] = _
      unfold Mem.ctCopy
      rfl
    · unfold Mem.read
      rw [a6 p2 h2]
      congr 1
      exact List.map_congr_left fun a ha => a5 a (h3 a ha)

/-- receivers that do not share rows with each other -/
structure Separate (m : Mem) (a b : ℕ) : Prop where
  ne : a ≠ b
  dis : ∀ d ∈ (m.polys a).coeffs, d ∉ (m.polys b).coeffs

theorem forall₂_congr {m m1 : Mem} {ds ss : List ℕ}
    (h : List.Forall₂ (fun d s => (m.polys s).coeffs.length = (m.polys d).coeffs.length) ds ss)
    (hd : ∀ x ∈ ds, m1.polys x = m.polys x) (hs : ∀ x ∈ ss, m1.polys x = m.polys x) :
    List.Forall₂ (fun d s => (m1.polys s).coeffs.length = (m1.polys d).coeffs.length) ds ss := by
  induction h with
  | nil => exact .nil
  | @cons d s ds ss h1 _ ih =>
    refine .cons ?_ (ih (fun x hx => hd x (by simp [hx])) fun x hx => hs x (by simp [hx]))
    rw [hs s (by simp), hd d (by simp)]
    exact h1

/-- **C88 (`Ciphertext.Copy`).** Between ciphertexts of the same degree and level that do not share rows, the receiver becomes a copy of
the source and nothing else changes, the source in particular.  Missing: different degrees and levels (`C88_ctCopy_degree_violated`,
`C88_copy_level_violated`). -/
theorem C88_ctCopy_partial (ds ss : List ℕ) (m : Mem) (hl : List.Forall₂ (fun d s => (m.polys s).coeffs.length = (m.polys d).coeffs.length) ds ss)
    (hap : ∀ d ∈ ds, ∀ s ∈ ss, Apart m s d) (hsep : ds.Pairwise (Separate m)) :
    ∃ m', m.ctCopy ds ss = .ok m' ∧ ds.map m'.read = ss.map m.read ∧ (∀ a ∉ ds, m'.polys a = m.polys a) ∧
      (∀ a, (∀ d ∈ ds, a ∉ (m.polys d).coeffs) → m'.rows a = m.rows a) ∧ ss.map m'.read = ss.map m.read := by
  induction ds generalizing ss m with
  | nil =>
    cases hl
    exact ⟨m, by unfold Mem.ctCopy; rfl, rfl, fun _ _ => rfl, fun _ _ => rfl, rfl⟩
  | cons d ds ih =>
    cases hl with
    | @cons _ s _ ss h1 h2 =>
    obtain ⟨hs1, hs2⟩ := List.pairwise_cons.1 hsep
    have hA := hap d (by simp) s (by simp)
    obtain ⟨m1, a1, -, -, -, a5, a6, a7⟩ := C88_copy m s d hA
    obtain ⟨m1', c1, c2⟩ := C88_copy_equal_partial m s d hA h1
    obtain rfl : m1' = m1 := by rw [a1] at c1; cases c1; rfl
    have hd : ∀ x ∈ ds, m1'.polys x = m.polys x := fun x hx => a6 x (hs1 x hx).ne.symm
    have hss : ∀ x ∈ s :: ss, m1'.polys x = m.polys x := fun x hx => a6 x (hap d (by simp) x hx).ne
    have hdr : ∀ x ∈ ds, ∀ r ∈ (m.polys x).coeffs, m1'.rows r = m.rows r := fun x hx r hr =>
      a5 r fun h => (hs1 x hx).dis r h hr
    have hsr : ∀ x ∈ s :: ss, ∀ r ∈ (m.polys x).coeffs, m1'.rows r = m.rows r := fun x hx r hr =>
      a5 r fun h => (hap d (by simp) x hx).dis r h hr
    have hread : ∀ x ∈ s :: ss, m1'.read x = m.read x := fun x hx => by
      unfold Mem.read
      rw [hss x hx]
      congr 1
      exact List.map_congr_left (hsr x hx)
    obtain ⟨m', b1, b2, b3, b4, b5⟩ := ih ss m1'
      (forall₂_congr h2 hd fun x hx => hss x (by simp [hx]))
      (fun x hx y hy => by
        have h := hap x (by simp [hx]) y (by simp [hy])
        have hy' : y ∈ s :: ss := by simp [hy]
        refine ⟨h.ne, ?_, ?_, ?_⟩
        · rw [hd x hx]; exact h.nodup
        · rw [hd x hx, hss y hy']; exact h.dis
        · rw [hd x hx, hss y hy']
          intro r hr t ht
          rw [hdr x hx r hr, hsr y hy' t ht]
          exact h.len r hr t ht)
      (by
        refine hs2.imp_of_mem fun {x y} hx hy h => ⟨h.ne, ?_⟩
        rw [hd x hx, hd y hy]
        exact h.dis)
    have hdn : d ∉ ds := fun h => (hs1 d h).ne rfl
    refine ⟨m', ?_, ?_, fun a ha => ?_, fun a ha => ?_, ?_⟩
    · unfold Mem.ctCopy
      rw [a1]
      exact b1
    · rw [List.map_cons, List.map_cons, b2, ← c2]
      congr 1
      · unfold Mem.read
        rw [b3 d hdn]
        congr 1
        refine List.map_congr_left fun r hr => b4 r fun x hx hr' => ?_
        rw [a7] at hr
        rw [hd x hx] at hr'
        exact (hs1 x hx).dis r hr hr'
      · exact List.map_congr_left fun x hx => hread x (by simp [hx])
    · rw [List.mem_cons, not_or] at ha
      rw [b3 a ha.2, a6 a ha.1]
    · rw [b4 a fun x hx => by rw [hd x hx]; exact ha x (by simp [hx]), a5 a (ha d (by simp))]
    · rw [List.map_cons, List.map_cons, b5]
      congr 1
      · have hns : s ∉ ds := fun h => (hap s (by simp [h]) s (by simp)).ne rfl
        unfold Mem.read
        rw [b3 s hns, hss s (by simp)]
        congr 1
        refine List.map_congr_left fun r hr => ?_
        rw [b4 r fun x hx hr' => ?_, hsr s (by simp) r hr]
        rw [hd x hx] at hr'
        exact (hap x (by simp [hx]) s (by simp)).dis r hr' hr
      · exact List.map_congr_left fun x hx => hread x (by simp [hx])

/-- **C88 (`GetCoefficients`, `SetCoefficients`).** `GetCoefficients` returns new rows with the contents of the polynomial, and
`SetCoefficients` writes them back into another polynomial of the same size. -/
theorem C88_coefficients (m : Mem) (p0 p1 : ℕ) (hp0 : m.WF p0) (hp1 : m.WF p1)
    (hn : (m.polys p1).coeffs.Nodup) (hl : (m.polys p0).coeffs.length = (m.polys p1).coeffs.length)
    (hlen : ∀ d ∈ (m.polys p1).coeffs, ∀ s ∈ (m.polys p0).coeffs, (m.rows d).length = (m.rows s).length) :
    m.Extends (m.getCoefficients p0).2 ∧ (∀ a ∈ (m.getCoefficients p0).1, m.nRows ≤ a) ∧
    ∃ m', (m.getCoefficients p0).2.setCoefficients p1 (m.getCoefficients p0).1 = .ok m' ∧
      (m'.read p1).coeffs = (m.read p0).coeffs := by
  obtain ⟨a1, a2, a3, a4, a5, a6⟩ := newRows_is ((m.polys p0).coeffs.map m.rows) m
  have E : m.getCoefficients p0 = m.newRows ((m.polys p0).coeffs.map m.rows) := rfl
  have hmap := map_rows_new ((m.polys p0).coeffs.map m.rows) m (m.newRows ((m.polys p0).coeffs.map m.rows)).2 fun _ _ _ => rfl
  rw [E]
  have hlow : ∀ a ∈ (m.newRows ((m.polys p0).coeffs.map m.rows)).1, m.nRows ≤ a := by
    intro a ha
    rw [a1, List.mem_range'] at ha
    obtain ⟨i, -, rfl⟩ := ha
    omega
  refine ⟨⟨by rw [a2]; omega, by rw [a4], a5, fun a _ => by rw [a3]⟩, hlow, ?_⟩
  have hll : (m.newRows ((m.polys p0).coeffs.map m.rows)).1.length = (m.polys p1).coeffs.length := by
    rw [a1]; simp [hl]
  obtain ⟨m', b1, b2, -, -, -, b6⟩ := copyRows_is (m.polys p1).coeffs (m.newRows ((m.polys p0).coeffs.map m.rows)).1
    (m.newRows ((m.polys p0).coeffs.map m.rows)).1.length (m.newRows ((m.polys p0).coeffs.map m.rows)).2 (by omega) le_rfl hn
    (fun d hd hs => by have := hp1.2 d hd; have := hlow d hs; omega)
    (fun d hd s hs => by
      rw [a5 d (hp1.2 d hd)]
      have : (m.newRows ((m.polys p0).coeffs.map m.rows)).2.rows s ∈ (m.polys p0).coeffs.map m.rows := by
        have := List.mem_map_of_mem (f := (m.newRows ((m.polys p0).coeffs.map m.rows)).2.rows) hs
        rwa [hmap] at this
      obtain ⟨t, ht, ht'⟩ := List.mem_map.1 this
      rw [← ht']
      exact hlen d hd t ht)
  refine ⟨m', ?_, ?_⟩
  · unfold Mem.setCoefficients
    rw [a3]
    exact b1
  · unfold Mem.read
    dsimp only
    rw [b2, a3]
    rw [List.take_length, hmap, hll, List.take_length] at b6
    exact b6

theorem copyRows_panic (ds ss : List ℕ) (k : ℕ) (m : Mem) (h : ds.length < k ∨ ss.length < k) : m.copyRows ds ss k = .panic := by
  induction k generalizing ds ss m with
  | zero => omega
  | succ k ih =>
    match ds, ss with
    | [], _ => rfl
    | _ :: _, [] => rfl
    | d :: ds, s :: ss =>
      unfold Mem.copyRows
      exact ih ds ss _ (by simp only [List.length_cons] at h; omega)

/-- **C88 (`CopyLvl`).** `CopyLvl` writes the rows up to the given level and the flags, and nothing else; it panics exactly when one of two
different polynomials has not enough rows, and between a polynomial and itself nothing changes. -/
theorem C88_copyLvl (m : Mem) (level p0 p1 : ℕ) (h : Apart m p0 p1) :
    (level < m.minRows p0 p1 → ∃ m', m.copyLvl level p0 p1 = .ok m' ∧ m'.nRows = m.nRows ∧ m'.nPolys = m.nPolys ∧
      m'.read p1 = ⟨(m.read p0).coeffs.take (level + 1) ++ (m.read p1).coeffs.drop (level + 1), (m.read p0).isNTT,
        (m.read p0).isMForm⟩ ∧
      (∀ a, a ∉ (m.polys p1).coeffs → m'.rows a = m.rows a) ∧ (∀ a, a ≠ p1 → m'.polys a = m.polys a) ∧
      (m'.polys p1).coeffs = (m.polys p1).coeffs) ∧
    (m.minRows p0 p1 ≤ level → m.copyLvl level p0 p1 = .panic) ∧
    ∃ m', m.copyLvl level p0 p0 = .ok m' ∧ m'.rows = m.rows ∧ m'.polys = m.polys := by
  refine ⟨fun hl => ?_, fun hl => ?_, m.copyFlags p0 p0, ?_, rfl, ?_⟩
  · unfold Mem.minRows at hl
    obtain ⟨m', a1, a2, a3, a4, a5, a6⟩ := copyRows_is (m.polys p1).coeffs (m.polys p0).coeffs (level + 1) m
      (by omega) (by omega) h.nodup h.dis h.len
    have e1 : ∀ a, (m'.copyFlags p0 p1).polys a =
        if a = p1 then { m.polys p1 with isNTT := (m.polys p0).isNTT, isMForm := (m.polys p0).isMForm } else m.polys a := by
      intro a
      show (if a = p1 then { m'.polys p1 with isNTT := (m'.polys p0).isNTT, isMForm := (m'.polys p0).isMForm } else m'.polys a) = _
      rw [a2]
    refine ⟨m'.copyFlags p0 p1, ?_, a3, a4, ?_, fun a ha => a5 a fun h' => ha (List.mem_of_mem_take h'), fun a ha => by rw [e1, if_neg ha],
      by rw [e1, if_pos rfl]⟩
    · unfold Mem.copyLvl Mem.copyValuesLvl
      rw [if_pos h.ne, a1]
      rfl
    · unfold Mem.read
      rw [e1, if_pos rfl]
      dsimp only
      congr 1
      have hr : (m'.copyFlags p0 p1).rows = m'.rows := rfl
      rw [hr]
      generalize level + 1 = k at *
      conv_lhs => rw [← List.take_append_drop k (m.polys p1).coeffs]
      rw [List.map_append, a6, List.map_take, ← List.map_drop]
      congr 1
      refine List.map_congr_left fun a ha => a5 a fun h' => ?_
      have := h.nodup
      rw [← List.take_append_drop k (m.polys p1).coeffs] at this
      exact (List.nodup_append.1 this).2.2 a h' a ha rfl
  · unfold Mem.minRows at hl
    unfold Mem.copyLvl Mem.copyValuesLvl
    rw [if_pos h.ne, copyRows_panic _ _ _ _ (by omega)]
    rfl
  · unfold Mem.copyLvl Mem.copyValuesLvl
    rw [if_neg (by simp)]
    rfl
  · funext a
    show (if a = p0 then { m.polys p0 with isNTT := (m.polys p0).isNTT, isMForm := (m.polys p0).isMForm } else m.polys a) = _
    split
    · rename_i e; rw [e]
    · rfl

/-- **C88 (documented sharing).** `NewCiphertextAtLevelFromPoly` shares the rows of its arguments: the ciphertext reads as the polynomials
truncated to the level in the NTT domain, and a write to a row of the ciphertext is a write to the argument. -/
theorem C88_atLevel (m : Mem) (level p0 p1 : ℕ) (h0 : level < (m.polys p0).coeffs.length) (h1 : level < (m.polys p1).coeffs.length) :
    ∃ v m', m.ctAtLevelFromPoly level p0 p1 = .ok (v, m') ∧
      v.map m'.read = [⟨(m.read p0).coeffs.take (level + 1), true, false⟩, ⟨(m.read p1).coeffs.take (level + 1), true, false⟩] ∧
      ∀ i ≤ level, (m'.polys (v.getD 0 0)).coeffs[i]? = (m.polys p0).coeffs[i]? ∧
        (m'.polys (v.getD 1 0)).coeffs[i]? = (m.polys p1).coeffs[i]? := by
  refine ⟨[m.nPolys, m.nPolys + 1], _, by unfold Mem.ctAtLevelFromPoly; rw [if_neg (by omega)]; rfl, ?_, fun i hi => ?_⟩
  · simp [Mem.read, Mem.newPolyAt, Mem.setPoly, List.map_take]
  · simp [Mem.newPolyAt, Mem.setPoly, List.getElem?_take, Nat.lt_succ_of_le hi]

/-- **C88 fails** for `Shift` by 0 places: the result shares its row with the operand, so a later write to the result changes the
operand; for other shifts it does not. -/
theorem C88_shift_shares (m : Mem) (a : ℕ) (ha : a < m.nRows) :
    m.shiftRowM a 0 = .ok (a, m) ∧ (∀ x, (m.setRow a x).rows a = x) ∧
    ∀ k : ℕ, 0 < k → k ≤ (m.rows a).length → ∃ b m', m.shiftRowM a k = .ok (b, m') ∧ b ≠ a ∧ ∀ x, (m'.setRow b x).rows a = m.rows a := by
  refine ⟨?_, fun x => by simp [Mem.setRow], fun k hk hk' => ⟨m.nRows, (m.newRow ((m.rows a).drop k ++ (m.rows a).take k)).2, ?_, by omega, fun x => ?_⟩⟩
  · unfold Mem.shiftRowM
    rw [if_neg (by omega), if_pos rfl]
  · unfold Mem.shiftRowM
    rw [if_neg (by omega), if_neg (by omega)]
    rfl
  · have : a ≠ m.nRows := by omega
    simp [Mem.setRow, Mem.newRow, this]

/-- A memory with two ciphertexts of degree 1 whose components share a row; the hypotheses of the theorems above are met. -/
example : ∃ (m : Mem) (v : List ℕ), ctObj.wf m v ∧ v.length = 2 ∧ Apart m 0 2 ∧ Apart m 0 3 ∧
    (m.polys 0).coeffs.length < (m.polys 3).coeffs.length ∧ (m.polys 0).coeffs.length = (m.polys 2).coeffs.length ∧
    ctObj.read m v = [⟨[[1, 2]], true, false⟩, ⟨[[1, 2], [3, 4]], true, false⟩] ∧
    ctObj.read ((m.ctCopyNew v).2.setRow 0 [9, 9]) (m.ctCopyNew v).1 = ctObj.read m v := by
  refine ⟨⟨fun a => if a = 0 then [1, 2] else if a = 1 then [3, 4] else [5, 6], 6,
    fun a => if a = 0 then ⟨[0], true, false⟩ else if a = 1 then ⟨[0, 1], true, false⟩ else if a = 2 then ⟨[2], false, true⟩
      else ⟨[3, 4, 5], false, false⟩, 4⟩, [0, 1], ?_, rfl, ?_, ?_, by decide, by decide, rfl, rfl⟩
  · intro a ha
    simp only [List.mem_cons, List.not_mem_nil, or_false] at ha
    rcases ha with rfl | rfl
    · exact ⟨by decide, by decide⟩
    · exact ⟨by decide, by decide⟩
  · exact ⟨by decide, by decide, by decide, by decide⟩
  · exact ⟨by decide, by decide, by decide, by decide⟩

end FastKsw.Props
