import Verif.Spec.Thread
import Verif.Lemmas.PolyIs
import Verif.Lemmas.Scaling

/-!
# Runs of the threads of `Model/Thread.lean`
-/

namespace FastKsw

variable {σ : Type}

/-! ## Cells -/

theorem Store.set_self (s : Store σ) (a : ℕ) (v : Cell σ) : s.set a v a = v := if_pos rfl

theorem Store.set_ne (s : Store σ) {a b : ℕ} (v : Cell σ) (h : b ≠ a) : s.set a v b = s b := if_neg h

theorem Store.set_set (s : Store σ) (a : ℕ) (v w : Cell σ) : (s.set a v).set a w = s.set a w := by
  funext b
  unfold Store.set
  split <;> rfl

theorem Store.poly_set_self (s : Store σ) (a : ℕ) (p : Poly) : (s.set a (.poly p)).poly a = p := by
  unfold Store.poly
  rw [Store.set_self]

theorem Store.poly_set_ne (s : Store σ) {a b : ℕ} (v : Cell σ) (h : b ≠ a) : (s.set a v).poly b = s.poly b := by
  unfold Store.poly
  rw [Store.set_ne _ _ h]

theorem Store.poly_setRows_self (s : Store σ) (a : ℕ) (x : Rows) : (s.setRows a x).poly a = ⟨x, (s.poly a).isNTT⟩ :=
  Store.poly_set_self ..

theorem Store.poly_setRows_ne (s : Store σ) {a b : ℕ} (x : Rows) (h : b ≠ a) : (s.setRows a x).poly b = s.poly b :=
  Store.poly_set_ne _ _ h

theorem Store.rows_setRows_self (s : Store σ) (a : ℕ) (x : Rows) : (s.setRows a x).rows a = x := by
  unfold Store.rows
  rw [Store.poly_setRows_self]

theorem Store.rows_setRows_ne (s : Store σ) {a b : ℕ} (x : Rows) (h : b ≠ a) : (s.setRows a x).rows b = s.rows b := by
  unfold Store.rows
  rw [Store.poly_setRows_ne _ _ h]

theorem Store.rows_set_ne (s : Store σ) {a b : ℕ} (v : Cell σ) (h : b ≠ a) : (s.set a v).rows b = s.rows b := by
  unfold Store.rows
  rw [Store.poly_set_ne _ _ h]

theorem Store.isNTT_setRows (s : Store σ) (a b : ℕ) (x : Rows) : ((s.setRows a x).poly b).isNTT = (s.poly b).isNTT := by
  by_cases h : b = a
  · subst h
    rw [Store.poly_setRows_self]
  · rw [Store.poly_setRows_ne _ _ h]

theorem Store.setRows_setRows (s : Store σ) (a : ℕ) (x y : Rows) : (s.setRows a x).setRows a y = s.setRows a y := by
  rw [Store.setRows, Store.isNTT_setRows, Store.setRows, Store.set_set]
  rfl

theorem Store.setRows_ne (s : Store σ) {a b : ℕ} (x : Rows) (h : b ≠ a) : s.setRows a x b = s b := Store.set_ne _ _ h

/-- row `i` of any polynomial after a write that keeps row `i` of the written one -/
theorem Store.row_setRows {s : Store σ} {out i : ℕ} {y : Rows} (h : y.row i = (s.rows out).row i) (a : ℕ) :
    ((s.setRows out y).rows a).row i = (s.rows a).row i := by
  by_cases ha : a = out
  · subst ha
    rw [Store.rows_setRows_self, h]
  · rw [Store.rows_setRows_ne _ _ ha]

/-! ## Rows -/

theorem writeLvl_congr_lt {level : ℕ} {f g : ℕ → Row} {out : Rows} (h : ∀ i ≤ level, i < out.length → f i = g i) :
    writeLvl level f out = writeLvl level g out := by
  unfold writeLvl
  refine List.ext_getElem (by simp) fun i h1 h2 => ?_
  rw [List.getElem_mapIdx, List.getElem_mapIdx]
  split
  · exact h i (by assumption) (by simpa using h1)
  · rfl

theorem getElem_eq_row {p : Rows} {i : ℕ} (h : i < p.length) : p[i] = p.row i := by
  simp [Rows.row, List.getD, h]

/-! ## Footprints -/

theorem AgreeOn.poly {A : Set ℕ} {s s' : Store σ} (h : AgreeOn A s s') {a : ℕ} (ha : a ∈ A) : s.poly a = s'.poly a := by
  unfold Store.poly
  rw [h a ha]

theorem AgreeOn.rows {A : Set ℕ} {s s' : Store σ} (h : AgreeOn A s s') {a : ℕ} (ha : a ∈ A) : s.rows a = s'.rows a := by
  unfold Store.rows
  rw [h.poly ha]

variable {R W : Set ℕ}

theorem within_rd {α : Type} {f : Store σ → α} (h : ∀ s s' : Store σ, AgreeOn (R ∪ W) s s' → f s = f s') : (rd f).Within R W :=
  ⟨fun _ _ _ => rfl, fun s s' hs => ⟨hs.mono Set.subset_union_right, congrArg Thread.ret (h s s' hs)⟩, fun _ => trivial⟩

theorem within_wr {f : Store σ → Store σ} (h1 : ∀ s, ∀ x ∉ W, f s x = s x)
    (h2 : ∀ s s' : Store σ, AgreeOn (R ∪ W) s s' → AgreeOn W (f s) (f s')) : (wr f).Within R W :=
  ⟨h1, fun s s' hs => ⟨h2 s s' hs, rfl⟩, fun _ => trivial⟩

/-- writing one cell of `W` -/
theorem within_set {a : ℕ} (ha : a ∈ W) {v : Store σ → Cell σ} (h : ∀ s s' : Store σ, AgreeOn (R ∪ W) s s' → v s = v s') :
    (wr fun s => s.set a (v s)).Within R W := by
  refine within_wr (fun s x hx => Store.set_ne _ _ fun e => hx (e ▸ ha)) fun s s' hs x hx => ?_
  unfold Store.set
  split
  · exact h s s' hs
  · exact hs x (Or.inr hx)

theorem within_rowLoop {out : ℕ} (ho : out ∈ W) {f : Store σ → ℕ → Row}
    (h : ∀ s s' : Store σ, AgreeOn (R ∪ W) s s' → f s = f s') : ∀ is, (rowLoop out f is).Within R W
  | [] => trivial
  | i :: is =>
    Thread.Within.bind (within_rd fun s s' hs => by rw [h s s' hs]) fun x =>
      Thread.Within.bind (within_set ho fun s s' hs => by rw [hs.rows (Or.inr ho), hs.poly (Or.inr ho)]) fun _ =>
        within_rowLoop ho h is

theorem within_ringCall {level out : ℕ} (ho : out ∈ W) {op : Store σ → Rows}
    (h : ∀ s s' : Store σ, AgreeOn (R ∪ W) s s' → op s = op s') : (ringCall level out op).Within R W :=
  within_rowLoop ho (fun s s' hs => by rw [h s s' hs]) _

theorem within_sample {α : Type} {rnd : ℕ} (hr : rnd ∈ W) (f : σ → α × σ) (dflt : α) : (sample rnd f dflt).Within R W := by
  refine ⟨fun s x hx => ?_, fun s s' hs => ⟨fun x hx => ?_, ?_⟩, fun _ => trivial⟩
  · dsimp only
    cases hc : s rnd with
    | rnd y => exact Store.set_ne _ _ fun e => hx (e ▸ hr)
    | poly p => rfl
  · dsimp only
    rw [hs rnd (Or.inr hr)]
    cases hc : s' rnd with
    | rnd y =>
      dsimp only
      unfold Store.set
      split
      · rfl
      · exact hs x (Or.inr hx)
    | poly p => exact hs x (Or.inr hx)
  · dsimp only
    rw [hs rnd (Or.inr hr)]

theorem within_setNTT {a : ℕ} (ha : a ∈ W) (b : Bool) : (setNTT (σ := σ) a b).Within R W :=
  within_set ha fun s s' hs => by rw [hs.rows (Or.inr ha)]

theorem within_truncate {a : ℕ} (ha : a ∈ W) (level : ℕ) : (truncate (σ := σ) a level).Within R W :=
  within_set ha fun s s' hs => by rw [hs.poly (Or.inr ha)]

theorem within_ret {α : Type} (a : α) : (Thread.ret a : Proc σ α).Within R W := trivial

/-! ## Runs -/

/-- `op` writes the rows up to the level of `out`, and row `i` depends only on row `i` of `out` -/
def RowWise (level out : ℕ) (op : Store σ → Rows) : Prop :=
  ∃ F : Store σ → ℕ → Row, (∀ s, op s = writeLvl level (F s) (s.rows out)) ∧
    ∀ s y i, y.row i = (s.rows out).row i → F (s.setRows out y) i = F s i

theorem run_rowLoop {level out : ℕ} {F : Store σ → ℕ → Row} {op : Store σ → Rows} (hop : ∀ s, op s = writeLvl level (F s) (s.rows out))
    (hF : ∀ s y i, y.row i = (s.rows out).row i → F (s.setRows out y) i = F s i) (s : Store σ) :
    ∀ (is : List ℕ) (y : Rows), is.Nodup → y.length = (s.rows out).length → (∀ i ∈ is, i ≤ level ∧ y.row i = (s.rows out).row i) →
      (rowLoop out (fun s i => (op s).row i) is).run (s.setRows out y) =
        ((), s.setRows out (y.mapIdx fun i x => if i ∈ is then F s i else x))
  | [], y, _, _, _ => by
    show ((), s.setRows out y) = _
    congr 2
    refine List.ext_getElem (by simp) fun j h1 h2 => ?_
    rw [List.getElem_mapIdx, if_neg (List.not_mem_nil)]
  | i :: is, y, hn, hl, hi => by
    have h0 := hi i (List.mem_cons_self ..)
    show (rowLoop out (fun s i => (op s).row i) is).run ((s.setRows out y).setRows out
      (((s.setRows out y).rows out).set i ((op (s.setRows out y)).row i))) = _
    rw [Store.setRows_setRows, Store.rows_setRows_self]
    have hx : y.set i ((op (s.setRows out y)).row i) = y.set i (F s i) := by
      by_cases hiy : i < y.length
      · congr 1
        rw [hop, Store.rows_setRows_self, writeLvl, row_mapIdx _ _ _ hiy, if_pos h0.1, hF s y i h0.2]
      · rw [List.set_eq_of_length_le (by omega), List.set_eq_of_length_le (by omega)]
    rw [hx]
    have hn' := List.nodup_cons.1 hn
    rw [run_rowLoop hop hF s is _ hn'.2 (by rw [List.length_set, hl]) fun j hj => ⟨(hi j (List.mem_cons_of_mem _ hj)).1, by
      rw [row_set_ne _ _ (fun e : j = i => hn'.1 (e ▸ hj)), (hi j (List.mem_cons_of_mem _ hj)).2]⟩]
    congr 2
    refine List.ext_getElem (by simp) fun j h1 h2 => ?_
    rw [List.getElem_mapIdx, List.getElem_mapIdx, List.getElem_set]
    by_cases hji : i = j
    · subst hji
      rw [if_neg hn'.1, if_pos rfl, if_pos (List.mem_cons_self ..)]
    · rw [if_neg hji]
      have : (j ∈ i :: is) ↔ j ∈ is := by
        rw [List.mem_cons]
        exact ⟨fun h => h.resolve_left (Ne.symm hji), Or.inr⟩
      simp only [this]

theorem run_ringCall {level out : ℕ} {op : Store σ → Rows} (h : RowWise level out op) (s : Store σ) :
    (ringCall level out op).run s = ((), s.setRows out (op s)) := by
  obtain ⟨F, hop, hF⟩ := h
  have key := run_rowLoop hop hF s (List.range (level + 1)) (s.rows out) List.nodup_range rfl
    (fun i hi => ⟨by rw [List.mem_range] at hi; omega, rfl⟩)
  have hw : (s.rows out).mapIdx (fun i x => if i ∈ List.range (level + 1) then F s i else x) = op s := by
    rw [hop]
    unfold writeLvl
    congr 1
    funext i x
    simp only [List.mem_range, Nat.lt_succ_iff]
  rw [hw] at key
  rw [← key]
  unfold ringCall
  rw [List.range_succ_eq_map]
  show (rowLoop out _ _).run (s.setRows out ((s.rows out).set 0 ((op s).row 0))) =
    (rowLoop out _ _).run ((s.setRows out (s.rows out)).setRows out (((s.setRows out (s.rows out)).rows out).set 0
      ((op (s.setRows out (s.rows out))).row 0)))
  rw [Store.setRows_setRows, Store.rows_setRows_self]
  congr 4
  rw [hop, hop, Store.rows_setRows_self]
  exact writeLvl_congr_lt fun i _ _ => (hF s _ i rfl).symm

theorem run_bind' {α β : Type} (p : Proc σ α) (f : α → Proc σ β) (s : Store σ) :
    (p >>= f).run s = (f (p.run s).1).run (p.run s).2 := Thread.run_bind p f s

theorem run_pure {α : Type} (a : α) (s : Store σ) : (pure a : Proc σ α).run s = (a, s) := rfl

theorem run_ret {α : Type} (a : α) (s : Store σ) : (Thread.ret a : Proc σ α).run s = (a, s) := rfl

theorem run_rd {α : Type} (f : Store σ → α) (s : Store σ) : (rd f).run s = (f s, s) := rfl

theorem run_wr (f : Store σ → Store σ) (s : Store σ) : (wr f).run s = ((), f s) := rfl

theorem run_setNTT (a : ℕ) (b : Bool) (s : Store σ) : (setNTT a b).run s = ((), s.set a (.poly ⟨s.rows a, b⟩)) := rfl

theorem run_truncate (a level : ℕ) (s : Store σ) : (truncate a level).run s = ((), s.set a (.poly ((s.poly a).trunc level))) := rfl

theorem run_sample {α : Type} {rnd : ℕ} {s : Store σ} {x : σ} (h : s rnd = .rnd x) (f : σ → α × σ) (dflt : α) :
    (sample rnd f dflt).run s = ((f x).1, s.set rnd (.rnd (f x).2)) := by
  unfold sample
  show ((match s rnd with | .rnd x => (f x).1 | .poly _ => dflt), (match s rnd with | .rnd x => s.set rnd (.rnd (f x).2) | .poly _ => s)) = _
  rw [h]

section
variable {α β : Type} (s : Store σ)

theorem after_bind (p : Proc σ α) (f : α → Proc σ β) : after (p >>= f) s = after (f (p.run s).1) (after p s) := by
  unfold after
  rw [run_bind']

theorem after_ringCall {level out : ℕ} {op : Store σ → Rows} (h : RowWise level out op) :
    after (ringCall level out op) s = s.setRows out (op s) := by
  unfold after
  rw [run_ringCall h]

theorem after_call {level out : ℕ} {op : Store σ → Rows} (h : RowWise level out op) (k : Unit → Proc σ α) :
    after (ringCall level out op >>= k) s = after (k ()) (s.setRows out (op s)) := by
  rw [after_bind, after_ringCall _ h]

theorem after_rd (f : Store σ → β) (k : β → Proc σ α) : after (rd f >>= k) s = after (k (f s)) s := by
  rw [after_bind]
  rfl

theorem after_pure (a : α) : after (pure a : Proc σ α) s = s := rfl

theorem after_pure_bind (a : β) (k : β → Proc σ α) : after (pure a >>= k) s = after (k a) s := rfl

theorem after_setNTT (a : ℕ) (b : Bool) (k : Unit → Proc σ α) :
    after (setNTT a b >>= k) s = after (k ()) (s.set a (.poly ⟨s.rows a, b⟩)) := by
  rw [after_bind]
  rfl

theorem after_truncate (a level : ℕ) (k : Unit → Proc σ α) :
    after (truncate a level >>= k) s = after (k ()) (s.set a (.poly ((s.poly a).trunc level))) := by
  rw [after_bind]
  rfl

theorem after_truncate' (a level : ℕ) : after (truncate a level) s = s.set a (.poly ((s.poly a).trunc level)) := rfl

theorem after_sample {rnd : ℕ} {x : σ} (h : s rnd = .rnd x) (f : σ → β × σ) (dflt : β) (k : β → Proc σ α) :
    after (sample rnd f dflt >>= k) s = after (k (f x).1) (s.set rnd (.rnd (f x).2)) := by
  rw [after_bind]
  unfold after
  rw [run_sample h]

end

/-! ## Operations that go row by row -/

section
variable {level out : ℕ} (r : Ring) (a b : ℕ)

theorem rw_mul : RowWise (σ := σ) level out fun s => r.mulCoeffsMontgomeryLvl level (s.rows a) (s.rows b) (s.rows out) :=
  ⟨fun _ _ => _, fun _ => rfl, fun s y i h => by simp only [Store.row_setRows h]⟩

theorem rw_add : RowWise (σ := σ) level out fun s => r.addLvl level (s.rows a) (s.rows b) (s.rows out) :=
  ⟨fun _ _ => _, fun _ => rfl, fun s y i h => by simp only [Store.row_setRows h]⟩

theorem rw_neg : RowWise (σ := σ) level out fun s => r.negLvl level (s.rows a) (s.rows out) :=
  ⟨fun _ _ => _, fun _ => rfl, fun s y i h => by simp only [Store.row_setRows h]⟩

theorem rw_reduce : RowWise (σ := σ) level out fun s => r.reduceLvl level (s.rows a) (s.rows out) :=
  ⟨fun _ _ => _, fun _ => rfl, fun s y i h => by simp only [Store.row_setRows h]⟩

theorem rw_mform : RowWise (σ := σ) level out fun s => r.mformLvl level (s.rows a) (s.rows out) :=
  ⟨fun _ _ => _, fun _ => rfl, fun s y i h => by simp only [Store.row_setRows h]⟩

theorem rw_ntt : RowWise (σ := σ) level out fun s => r.nttLvl level (s.rows a) (s.rows out) :=
  ⟨fun _ _ => _, fun _ => rfl, fun s y i h => by simp only [Store.row_setRows h]⟩

theorem rw_nttLazy : RowWise (σ := σ) level out fun s => r.nttLazyLvl level (s.rows a) (s.rows out) :=
  ⟨fun _ _ => _, fun _ => rfl, fun s y i h => by simp only [Store.row_setRows h]⟩

theorem rw_invNtt : RowWise (σ := σ) level out fun s => r.invNttLvl level (s.rows a) (s.rows out) :=
  ⟨fun _ _ => _, fun _ => rfl, fun s y i h => by simp only [Store.row_setRows h]⟩

theorem rw_copy : RowWise (σ := σ) level out fun s => writeLvl level (fun u => (s.rows a).row u) (s.rows out) :=
  ⟨fun s i => (s.rows a).row i, fun _ => rfl, fun s y i h => by simp only [Store.row_setRows h]⟩

theorem rw_const (u : ℕ → Row) : RowWise (σ := σ) level out fun s => writeLvl level u (s.rows out) :=
  ⟨fun _ => u, fun _ => rfl, fun _ _ _ _ => rfl⟩

theorem rw_gauss (g : List (UInt64 × Bool)) : RowWise (σ := σ) level out fun s => gaussWrite r level g (s.rows out) :=
  ⟨fun _ _ => _, fun _ => rfl, fun _ _ _ _ => rfl⟩

theorem rw_gaussAdd (g : List (UInt64 × Bool)) : RowWise (σ := σ) level out fun s => gaussAdd r level g (s.rows out) :=
  ⟨fun _ _ => _, fun _ => rfl, fun s y i h => by simp only [Store.row_setRows h]⟩

theorem rw_extend (rP : Ring) (h : a ≠ out) :
    RowWise (σ := σ) level out fun s => extendBasisSmallNorm r rP level (s.rows a) (s.rows out) :=
  ⟨fun _ _ => _, fun _ => rfl, fun s y i _ => by simp only [Store.rows_setRows_ne _ _ h]⟩

theorem rw_modUp (be : BasisExtender) (levelP : ℕ) (h : a ≠ out) :
    RowWise (σ := σ) level out fun s => be.modUpPtoQ levelP level (s.rows a) (s.rows out) :=
  ⟨fun _ _ => _, fun _ => rfl, fun s y i _ => by simp only [Store.rows_setRows_ne _ _ h]⟩

theorem rw_modDown (be : BasisExtender) (levelP : ℕ) :
    RowWise (σ := σ) level out fun s => writeLvl level (fun i =>
      subVecAndMulScalarMontgomeryTwoQiVec ((s.rows a).row i) ((s.rows out).row i)
        ((be.ringQ.sub i).q - (be.modDownPtoQ.row levelP).at i) (be.ringQ.sub i).q (be.ringQ.sub i).mred) (s.rows out) :=
  ⟨fun _ _ => _, fun _ => rfl, fun s y i h => by simp only [Store.row_setRows h]⟩

end

end FastKsw
