import Verif.Model.Memory

/-!
# What it means to copy an object
-/

namespace FastKsw

/-- the polynomial exists and so do its rows -/
def Mem.WF (m : Mem) (a : ℕ) : Prop := a < m.nPolys ∧ ∀ b ∈ (m.polys a).coeffs, b < m.nRows

/-- `m'` results from `m` by allocating: nothing that existed has changed -/
structure Mem.Extends (m m' : Mem) : Prop where
  nRows : m.nRows ≤ m'.nRows
  nPolys : m.nPolys ≤ m'.nPolys
  rows : ∀ a < m.nRows, m'.rows a = m.rows a
  polys : ∀ a < m.nPolys, m'.polys a = m.polys a

/-- `m''` has the contents of `m'` in everything that was allocated between `m` and `m'`; the rest is arbitrary -/
structure Mem.SameNew (m m' m'' : Mem) : Prop where
  rows : ∀ a, m.nRows ≤ a → a < m'.nRows → m''.rows a = m'.rows a
  polys : ∀ a, m.nPolys ≤ a → a < m'.nPolys → m''.polys a = m'.polys a

/-- `m''` has the contents of `m` in everything that was allocated in `m`; the rest is arbitrary -/
structure Mem.SameOld (m m'' : Mem) : Prop where
  rows : ∀ a < m.nRows, m''.rows a = m.rows a
  polys : ∀ a < m.nPolys, m''.polys a = m.polys a

/-- A kind of object: when it exists in memory and what it holds.  Both depend only on allocated memory. -/
structure Obj (α β : Type) where
  wf : Mem → α → Prop
  read : Mem → α → β
  wf_ext : ∀ {m m' : Mem} {x : α}, m.Extends m' → wf m x → wf m' x
  read_old : ∀ {m m'' : Mem} {x : α}, m.SameOld m'' → wf m x → read m'' x = read m x

/-- `f` makes deep copies: it only allocates, the copy exists, and it holds what the original held, no matter what happens to
the memory that existed before. -/
def Obj.Copies {α β : Type} (O : Obj α β) (f : Mem → α → α × Mem) : Prop :=
  ∀ m x, O.wf m x → m.Extends (f m x).2 ∧ O.wf (f m x).2 (f m x).1 ∧
    ∀ m'', m.SameNew (f m x).2 m'' → O.read m'' (f m x).1 = O.read m x

theorem Mem.Extends.sameOld {m m' : Mem} (h : m.Extends m') : m.SameOld m' := ⟨h.rows, h.polys⟩

theorem Mem.Extends.refl (m : Mem) : m.Extends m := ⟨le_rfl, le_rfl, fun _ _ => rfl, fun _ _ => rfl⟩

theorem Mem.Extends.trans {m m' m'' : Mem} (h : m.Extends m') (h' : m'.Extends m'') : m.Extends m'' :=
  ⟨h.nRows.trans h'.nRows, h.nPolys.trans h'.nPolys,
    fun a ha => (h'.rows a (ha.trans_le h.nRows)).trans (h.rows a ha),
    fun a ha => (h'.polys a (ha.trans_le h.nPolys)).trans (h.polys a ha)⟩

/-- polynomials -/
def polyObj : Obj ℕ PolyVal where
  wf := Mem.WF
  read := Mem.read
  wf_ext := fun h ⟨h1, h2⟩ => ⟨h1.trans_le h.nPolys, fun b hb => by
    rw [h.polys _ h1] at hb
    exact (h2 b hb).trans_le h.nRows⟩
  read_old := fun h ⟨h1, h2⟩ => by
    unfold Mem.read
    rw [h.polys _ h1]
    congr 1
    exact List.map_congr_left fun b hb => h.rows b (h2 b hb)

/-- lists of objects -/
def Obj.list {α β : Type} (O : Obj α β) : Obj (List α) (List β) where
  wf := fun m x => ∀ a ∈ x, O.wf m a
  read := fun m x => x.map (O.read m)
  wf_ext := fun h hx a ha => O.wf_ext h (hx a ha)
  read_old := fun h hx => List.map_congr_left fun a ha => O.read_old h (hx a ha)

/-- objects that may be `nil` -/
def Obj.opt {α β : Type} (O : Obj α β) : Obj (Option α) (Option β) where
  wf := fun m x => ∀ a ∈ x, O.wf m a
  read := fun m x => x.map (O.read m)
  wf_ext := fun h hx a ha => O.wf_ext h (hx a ha)
  read_old := fun {m m'' x} h hx => by
    cases x with
    | none => rfl
    | some a => exact congrArg some (O.read_old h (hx a rfl))

/-- pairs of objects -/
def Obj.pair {α β γ δ : Type} (O : Obj α β) (O' : Obj γ δ) : Obj (α × γ) (β × δ) where
  wf := fun m x => O.wf m x.1 ∧ O'.wf m x.2
  read := fun m x => (O.read m x.1, O'.read m x.2)
  wf_ext := fun h hx => ⟨O.wf_ext h hx.1, O'.wf_ext h hx.2⟩
  read_old := fun h hx => by rw [O.read_old h hx.1, O'.read_old h hx.2]

/-- `PolyQP` -/
def qpObj : Obj QPRef (Option PolyVal × Option PolyVal) where
  wf := fun m x => polyObj.opt.wf m x.q ∧ polyObj.opt.wf m x.p
  read := fun m x => (polyObj.opt.read m x.q, polyObj.opt.read m x.p)
  wf_ext := fun h hx => ⟨polyObj.opt.wf_ext h hx.1, polyObj.opt.wf_ext h hx.2⟩
  read_old := fun h hx => by rw [polyObj.opt.read_old h hx.1, polyObj.opt.read_old h hx.2]

/-- ciphertexts -/
def ctObj : Obj (List ℕ) (List PolyVal) := polyObj.list

/-- switching keys: pairs of `PolyQP`, or `nil` -/
def swkObj := (qpObj.pair qpObj).list.opt

/-- relinearization keys -/
def rlkObj := swkObj.list.opt

end FastKsw
