import Verif.Spec.PolyIs
import Verif.Lemmas.SubNTT

namespace FastKsw

theorem row_mapIdx (out : Rows) (f : ℕ → Row → Row) (i : ℕ) (hi : i < out.length) :
    Rows.row (out.mapIdx f) i = f i (out.row i) := by
  simp [Rows.row, List.getD, hi]

theorem row_writeLvl {level : ℕ} {f : ℕ → Row} {out : Rows} {i : ℕ} (hi : i ≤ level)
    (hl : level < out.length) : (writeLvl level f out).row i = f i := by
  rw [writeLvl, row_mapIdx _ _ _ (by omega), if_pos hi]

theorem row_writeLvl_above {level : ℕ} {f : ℕ → Row} {out : Rows} {i : ℕ} (hi : level < i) :
    (writeLvl level f out).row i = out.row i := by
  rcases Nat.lt_or_ge i out.length with h | h
  · rw [writeLvl, row_mapIdx _ _ _ h, if_neg (by omega)]
  · simp [Rows.row, List.getD, writeLvl, h]

theorem length_writeLvl (level : ℕ) (f : ℕ → Row) (out : Rows) :
    (writeLvl level f out).length = out.length := by simp [writeLvl]

theorem writeLvl_is {r : Ring} {level : ℕ} {A : ℕ → ℕ} {f : ℕ → Row} {out : Rows}
    {v : ∀ i, ℕ → ZMod (r.sub i).q.toNat} (hl : level < out.length)
    (h : ∀ i ≤ level, RowIs r.n (r.sub i).q.toNat (A i) (f i) (v i)) :
    PolyWritten r level A out (writeLvl level f out) v :=
  ⟨⟨by rw [length_writeLvl]; exact hl, fun i hi => by rw [row_writeLvl hi hl]; exact h i hi⟩,
    length_writeLvl _ _ _, fun _ hi => row_writeLvl_above hi⟩

theorem PolyIs.mono {r : Ring} {level A B p v} (h : PolyIs r level A p v)
    (hAB : ∀ i ≤ level, A i ≤ B i) : PolyIs r level B p v :=
  ⟨h.lvl, fun i hi => (h.row i hi).mono (hAB i hi)⟩

theorem PolyIs.congr {r : Ring} {level A p v w} (h : PolyIs r level A p v)
    (hvw : ∀ i ≤ level, ∀ k < r.n, v i k = w i k) : PolyIs r level A p w :=
  ⟨h.lvl, fun i hi => (h.row i hi).congr (hvw i hi)⟩

theorem Ring.sub_mem {r : Ring} {i : ℕ} (hi : i < r.subs.length) : r.sub i ∈ r.subs := by
  simp [Ring.sub, List.getD, hi]

theorem Ring.Valid.subAt {n : ℕ} {r : Ring} (h : r.Valid n) {i : ℕ} (hi : i < r.subs.length) :
    (r.sub i).Valid n := h.sub _ (Ring.sub_mem hi)

theorem Ring.Valid.arithLvl {n : ℕ} {r : Ring} (h : r.Valid n) {level : ℕ}
    (hl : level < r.subs.length) : r.ArithLvl level := fun _ hi => (h.subAt (by omega)).arith

end FastKsw
