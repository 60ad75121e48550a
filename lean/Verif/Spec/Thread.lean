import Verif.Model.Thread
import Mathlib.Data.Set.Lattice
import Mathlib.Data.Fintype.Card

/-!
# Memory a thread reads and writes
-/

namespace FastKsw

variable {ι L V α β : Type}

/-- two memories are equal on a set -/
def AgreeOn (A : Set L) (s s' : L → V) : Prop := ∀ x ∈ A, s x = s' x

/-- the thread writes only in `W`, and what it writes and how it goes on depends only on `R` and `W` -/
def Thread.Within (R W : Set L) : Thread L V α → Prop
  | .ret _ => True
  | .act u k => (∀ s, ∀ x ∉ W, u s x = s x) ∧ (∀ s s', AgreeOn (R ∪ W) s s' → AgreeOn W (u s) (u s') ∧ k s = k s') ∧
      ∀ s, (k s).Within R W

/-- the thread has ended -/
def Thread.Done : Thread L V α → Prop
  | .ret _ => True
  | .act _ _ => False

theorem AgreeOn.symm {A : Set L} {s s' : L → V} (h : AgreeOn A s s') : AgreeOn A s' s := fun x hx => (h x hx).symm

theorem AgreeOn.trans {A : Set L} {s s' s'' : L → V} (h : AgreeOn A s s') (h' : AgreeOn A s' s'') : AgreeOn A s s'' :=
  fun x hx => (h x hx).trans (h' x hx)

theorem AgreeOn.mono {A B : Set L} {s s' : L → V} (h : AgreeOn B s s') (hAB : A ⊆ B) : AgreeOn A s s' :=
  fun x hx => h x (hAB hx)

theorem AgreeOn.refl (A : Set L) (s : L → V) : AgreeOn A s s := fun _ _ => rfl

/-- a step keeps agreement on everything that the thread may use -/
theorem Thread.Within.step {R W : Set L} {u : (L → V) → L → V} {k : (L → V) → Thread L V α}
    (h : (Thread.act u k).Within R W) {s s' : L → V} (hs : AgreeOn (R ∪ W) s s') : AgreeOn (R ∪ W) (u s) (u s') := by
  intro x hx
  by_cases hW : x ∈ W
  · exact (h.2.1 s s' hs).1 x hW
  · rw [h.1 s x hW, h.1 s' x hW]
    exact hs x hx

theorem Thread.Within.run {R W : Set L} {p : Thread L V α} (h : p.Within R W) {s s' : L → V} (hs : AgreeOn (R ∪ W) s s') :
    (p.run s).1 = (p.run s').1 ∧ AgreeOn (R ∪ W) (p.run s).2 (p.run s').2 := by
  induction p generalizing s s' with
  | ret a => exact ⟨rfl, hs⟩
  | act u k ih =>
    have hk := (h.2.1 s s' hs).2
    have h2 := ih s (h.2.2 s) (h.step hs)
    show ((k s).run (u s)).1 = ((k s').run (u s')).1 ∧ AgreeOn (R ∪ W) ((k s).run (u s)).2 ((k s').run (u s')).2
    rw [← hk]
    exact h2

theorem Thread.Within.frame {R W : Set L} {p : Thread L V α} (h : p.Within R W) (s : L → V) : ∀ x ∉ W, (p.run s).2 x = s x := by
  induction p generalizing s with
  | ret a => exact fun _ _ => rfl
  | act u k ih =>
    intro x hx
    show ((k s).run (u s)).2 x = s x
    rw [ih s (h.2.2 s) (u s) x hx, h.1 s x hx]

theorem Thread.Within.mono {R R' W W' : Set L} {p : Thread L V α} (h : p.Within R W) (hR : R ⊆ R' ∪ W') (hW : W ⊆ W') : p.Within R' W' := by
  induction p with
  | ret a => trivial
  | act u k ih =>
    have hsub : R ∪ W ⊆ R' ∪ W' := Set.union_subset hR (hW.trans Set.subset_union_right)
    refine ⟨fun s x hx => h.1 s x fun hx' => hx (hW hx'), fun s s' hs => ⟨fun x hx => ?_, (h.2.1 s s' (hs.mono hsub)).2⟩,
      fun s => ih s (h.2.2 s)⟩
    by_cases hxW : x ∈ W
    · exact (h.2.1 s s' (hs.mono hsub)).1 x hxW
    · rw [h.1 s x hxW, h.1 s' x hxW]
      exact hs x (Or.inr hx)

theorem Thread.Within.bind {R W : Set L} {p : Thread L V α} {f : α → Thread L V β} (h : p.Within R W) (hf : ∀ a, (f a).Within R W) :
    (p.bind f).Within R W := by
  induction p with
  | ret a => exact hf a
  | act u k ih =>
    refine ⟨h.1, fun s s' hs => ⟨(h.2.1 s s' hs).1, ?_⟩, fun s => ih s (h.2.2 s)⟩
    show (k s).bind f = (k s').bind f
    rw [(h.2.1 s s' hs).2]

theorem Thread.run_bind (p : Thread L V α) (f : α → Thread L V β) (s : L → V) :
    (p.bind f).run s = (f (p.run s).1).run (p.run s).2 := by
  induction p generalizing s with
  | ret a => rfl
  | act u k ih => exact ih s (u s)

/-! ## Schedules -/

variable [DecidableEq ι]

/-- no thread writes what another one reads or writes -/
def Separate (R W : ι → Set L) : Prop := ∀ i j, i ≠ j → Disjoint (W i) (R j ∪ W j)

/-- What thread `i` still has to do gives in the present memory what all of it gives in the initial memory. -/
def OnTrack (R W : ι → Set L) (T : ι → Thread L V α) (s : L → V) (x : (ι → Thread L V α) × (L → V)) : Prop :=
  ∀ i, (x.1 i).Within (R i) (W i) ∧ ((x.1 i).run x.2).1 = ((T i).run s).1 ∧
    AgreeOn (R i ∪ W i) ((x.1 i).run x.2).2 ((T i).run s).2

theorem OnTrack.step {R W : ι → Set L} (hsep : Separate R W) {T : ι → Thread L V α} {s : L → V}
    {x : (ι → Thread L V α) × (L → V)} (h : OnTrack R W T s x) (i : ι) : OnTrack R W T s (schedStep i x) := by
  unfold schedStep
  cases hxi : x.1 i with
  | ret a => exact h
  | act u k =>
    have hi := h i
    rw [hxi] at hi
    intro j
    dsimp only
    by_cases hji : j = i
    · rw [if_pos hji]
      subst hji
      exact ⟨hi.1.2.2 x.2, hi.2⟩
    · rw [if_neg hji]
      have hj := h j
      have hag : AgreeOn (R j ∪ W j) (u x.2) x.2 := fun y hy =>
        hi.1.1 x.2 y fun hy' => Set.disjoint_left.1 (hsep i j (Ne.symm hji)) hy' hy
      have h2 := hj.1.run hag
      exact ⟨hj.1, h2.1.trans hj.2.1, h2.2.trans hj.2.2⟩

theorem OnTrack.runSched {R W : ι → Set L} (hsep : Separate R W) {T : ι → Thread L V α} {s : L → V} (sched : List ι)
    {x : (ι → Thread L V α) × (L → V)} (h : OnTrack R W T s x) : OnTrack R W T s (runSched sched x) := by
  induction sched generalizing x with
  | nil => exact h
  | cons i is ih => exact ih (h.step hsep i)

/-! ## What the calls compute, from the contents of their arguments -/

variable {σ : Type}

/-- the contents of a key -/
inductive KeyVal where
  | pk : PolyQP × PolyQP → KeyVal
  | sk : Rows → KeyVal

def KeyVal.of (s : Store σ) : EncKey → KeyVal
  | .pk k => .pk (⟨s.rows k.q0, s.rows k.p0⟩, ⟨s.rows k.q1, s.rows k.p1⟩)
  | .sk k => .sk (s.rows k)

/-- the ciphertext of `Encrypt` and the next state of the generator: the mask is drawn first, then the key decides -/
def encryptFn (S : Samplers σ) (rQ rP : Ring) (key : KeyVal) (x : σ) (pt c0 c1 : Poly) : (Poly × Poly) × σ :=
  let level := min pt.level c0.level
  let a := S.uniform x
  let c1 : Poly := ⟨writeLvl level a.1 c1.coeffs, c1.isNTT⟩
  match key with
  | .sk k =>
    let g := S.gaussian a.2
    (skEncrypt rQ k g.1 pt c0 c1, g.2)
  | .pk k =>
    let u := S.ternary a.2
    let g := S.gaussian u.2
    let g' := S.gaussian g.2
    let uQ := writeLvl level u.1 (newPoly rQ.n rQ.subs.length)
    if rP.subs ≠ [] then (pkEncrypt rQ rP k uQ g.1 g'.1 pt c0 c1, g'.2)
    else if c0.isNTT then (pkEncryptNoP rQ (k.1.q, k.2.q) uQ g'.1 g.1 pt c0 c1, g'.2)
    else (pkEncryptNoP rQ (k.1.q, k.2.q) uQ g.1 g'.1 pt c0 c1, g'.2)

/-- the ciphertext of `EncryptFromCRP` and the next state of the generator -/
def encryptFromCRPFn (S : Samplers σ) (rQ : Ring) (sk : Rows) (x : σ) (pt crp c0 c1 : Poly) : (Poly × Poly) × σ :=
  let c1 : Poly := ⟨writeLvl (min crp.level c1.level) (fun u => crp.coeffs.row u) c1.coeffs, c1.isNTT⟩
  let g := S.gaussian x
  (skEncrypt rQ sk g.1 pt c0 c1, g.2)

/-! ## Calls -/

/-- the cells of a key -/
def EncKey.cells : EncKey → List ℕ
  | .pk k => [k.q0, k.p0, k.q1, k.p1]
  | .sk k => [k]

/-- the buffers have the lengths `NewPoly` gives them and the generator is one -/
structure EncReady (e : Encryptor) (s : Store σ) (x : σ) : Prop where
  q : (s.rows e.poolQ).length = e.ringQ.subs.length
  p0 : (s.rows e.poolP0).length = e.ringP.subs.length
  p1 : (s.rows e.poolP1).length = e.ringP.subs.length
  p2 : (s.rows e.poolP2).length = e.ringP.subs.length
  be : (s.rows e.beQ).length = e.ringQ.subs.length
  rnd : s e.rnd = .rnd x

/-- what a call reads, besides what belongs to its encryptor or decryptor -/
def Job.inputs : Job → List ℕ
  | .encrypt _ key pt _ _ => pt :: key.cells
  | .encryptFromCRP _ sk pt crp _ _ => [pt, sk, crp]
  | .decrypt d ct _ => d.sk :: ct

/-- the polynomials that a call is to write -/
def Job.outputs : Job → List ℕ
  | .encrypt _ _ _ c0 c1 => [c0, c1]
  | .encryptFromCRP _ _ _ _ c0 c1 => [c0, c1]
  | .decrypt _ _ pt => [pt]

/-- the encryptor or decryptor of a call -/
def Job.object : Job → Encryptor ⊕ Decryptor
  | .encrypt e _ _ _ _ => .inl e
  | .encryptFromCRP e _ _ _ _ _ => .inl e
  | .decrypt d _ _ => .inr d

/-- A call with objects of `o`: its inputs and outputs are polynomials of the program, the outputs are different and none of them is
an input; a ciphertext has a component, and the plaintext of a decryption has no more rows than the ring. -/
def Job.Fits (o : Objects σ) (s : Store σ) (j : Job) : Prop :=
  (∀ a ∈ j.inputs ++ j.outputs, a ∈ o.polys) ∧ j.outputs.Nodup ∧ (∀ a ∈ j.outputs, a ∉ j.inputs) ∧
    match j with
    | .encrypt e _ _ _ _ => e ∈ o.encs
    | .encryptFromCRP e _ _ _ _ _ => e ∈ o.encs
    | .decrypt d ct pt => d ∈ o.decs ∧ ct ≠ [] ∧ (s.rows pt).length ≤ d.ringQ.subs.length

/-- the result of a call that begins in memory `s`: the outputs hold in `s'` what they should -/
def Job.Result (S : Samplers σ) (s s' : Store σ) : Job → Prop
  | .encrypt e key pt c0 c1 => ∀ x, s e.rnd = .rnd x →
      (s'.poly c0, s'.poly c1) = (encryptFn S e.ringQ e.ringP (.of s key) x (s.poly pt) (s.poly c0) (s.poly c1)).1 ∧
        s' e.rnd = .rnd (encryptFn S e.ringQ e.ringP (.of s key) x (s.poly pt) (s.poly c0) (s.poly c1)).2
  | .encryptFromCRP e sk pt crp c0 c1 => ∀ x, s e.rnd = .rnd x →
      (s'.poly c0, s'.poly c1) = (encryptFromCRPFn S e.ringQ (s.rows sk) x (s.poly pt) (s.poly crp) (s.poly c0) (s.poly c1)).1 ∧
        s' e.rnd = .rnd (encryptFromCRPFn S e.ringQ (s.rows sk) x (s.poly pt) (s.poly crp) (s.poly c0) (s.poly c1)).2
  | .decrypt d ct pt => s'.poly pt = FastKsw.decrypt d.ringQ (s.rows d.sk) (ct.map s.poly) (s.poly pt)

/-- the buffers of all objects can be used -/
def Objects.Ready (o : Objects σ) (s : Store σ) : Prop :=
  (∀ e ∈ o.encs, ∃ x, EncReady e s x) ∧ ∀ d ∈ o.decs, (s.rows d.pool).length = d.ringQ.subs.length

/-- the cells that belong to an encryptor -/
def Encryptor.own (e : Encryptor) : List ℕ := [e.rnd, e.poolQ, e.poolP0, e.poolP1, e.poolP2, e.beQ, e.beP]

/-- all cells in use -/
def Objects.cells (o : Objects σ) : List ℕ := o.polys ++ o.encs.flatMap Encryptor.own ++ o.decs.map Decryptor.pool

/-- no cell belongs to two objects, all are below `next`, and the buffers can be used -/
structure Objects.Inv (o : Objects σ) : Prop where
  nodup : o.cells.Nodup
  lt : ∀ a ∈ o.cells, a < o.mem.next
  ready : o.Ready o.mem.store

end FastKsw
