import Verif.Spec.Ct
import Verif.Lemmas.EltIs
import Verif.Lemmas.RingMisc

/-!
# Reads after writes, and the shape of ciphertexts
-/

namespace FastKsw

section
variable (c : Ct) (i j : ℕ) (p : Rows)

@[simp] theorem Ct.length_setRows : (c.setRows i p).value.length = c.value.length := by simp [Ct.setRows]

@[simp] theorem Ct.scale_setRows : (c.setRows i p).scale = c.scale := rfl

@[simp] theorem Ct.isNTT_setRows : ((c.setRows i p).value.getD j default).isNTT = (c.value.getD j default).isNTT := by
  simp only [Ct.setRows, List.getD, List.getElem?_modify]
  cases c.value[j]? with
  | none => simp
  | some q => by_cases h : i = j <;> simp [h]

theorem Ct.rows_setRows_self (hi : i < c.value.length) : (c.setRows i p).rows i = p := by
  simp [Ct.rows, Ct.setRows, List.getD, List.getElem?_modify, hi]

theorem Ct.rows_setRows_ne (hij : j ≠ i) : (c.setRows i p).rows j = c.rows j := by
  simp only [Ct.rows, Ct.setRows, List.getD, List.getElem?_modify]
  cases c.value[j]? with
  | none => simp
  | some q => simp [Ne.symm hij]

@[simp] theorem Ct.degree_setRows : (c.setRows i p).degree = c.degree := by simp [Ct.degree]

theorem Ct.level_eq : c.level = (c.rows 0).length - 1 := rfl

theorem Ct.level_setRows (hp : p.length = (c.rows i).length) : (c.setRows i p).level = c.level := by
  rw [Ct.level_eq, Ct.level_eq]
  by_cases h : 0 = i
  · subst h
    by_cases hc : 0 < c.value.length
    · rw [Ct.rows_setRows_self _ _ _ hc, hp]
    · have e : c.value = [] := List.length_eq_zero_iff.1 (by omega)
      simp [Ct.rows, Ct.setRows, e]
  · rw [Ct.rows_setRows_ne _ _ _ _ h]

end

section
variable (h : Heap) (a b : Ref) (i j : ℕ) (p : Rows) (c : Ct) (s : ℚ)

@[simp] theorem Heap.set_self : (h.set a c) a = c := by simp [Heap.set]

theorem Heap.set_ne (hab : b ≠ a) : (h.set a c) b = h b := by simp [Heap.set, hab]

@[simp] theorem Heap.rows_set_self : (h.set a c).rows a i = c.rows i := by simp [Heap.rows]

theorem Heap.rows_set_ne (hab : b ≠ a) : (h.set a c).rows b i = h.rows b i := by
  simp [Heap.rows, Heap.set_ne _ _ _ _ hab]

@[simp] theorem Heap.setRows_self : (h.setRows a i p) a = (h a).setRows i p := by simp [Heap.setRows]

theorem Heap.setRows_ne (hab : b ≠ a) : (h.setRows a i p) b = h b := by simp [Heap.setRows, Heap.set_ne _ _ _ _ hab]

@[simp] theorem Heap.setScale_self : (h.setScale a s) a = { h a with scale := s } := by simp [Heap.setScale]

theorem Heap.setScale_ne (hab : b ≠ a) : (h.setScale a s) b = h b := by
  simp [Heap.setScale, Heap.set_ne _ _ _ _ hab]

@[simp] theorem Heap.rows_setScale : (h.setScale a s).rows b i = h.rows b i := by
  by_cases e : b = a
  · subst e; simp [Heap.rows, Ct.rows]
  · simp [Heap.rows, Heap.setScale_ne _ _ _ _ e]

@[simp] theorem Heap.value_setScale : ((h.setScale a s) b).value = (h b).value := by
  by_cases e : b = a
  · subst e; simp
  · rw [Heap.setScale_ne _ _ _ _ e]

@[simp] theorem Heap.level_setScale : ((h.setScale a s) b).level = (h b).level := by
  simp [Ct.level]

@[simp] theorem Heap.degree_setScale : ((h.setScale a s) b).degree = (h b).degree := by
  simp [Ct.degree]

@[simp] theorem Heap.length_setRows : ((h.setRows a i p) b).value.length = (h b).value.length := by
  by_cases e : b = a
  · subst e; simp
  · rw [Heap.setRows_ne _ _ _ _ _ e]

@[simp] theorem Heap.degree_setRows : ((h.setRows a i p) b).degree = (h b).degree := by
  simp [Ct.degree]

@[simp] theorem Heap.scale_setRows : ((h.setRows a i p) b).scale = (h b).scale := by
  by_cases e : b = a
  · subst e; simp
  · rw [Heap.setRows_ne _ _ _ _ _ e]

@[simp] theorem Heap.isNTT_setRows :
    (((h.setRows a i p) b).value.getD j default).isNTT = ((h b).value.getD j default).isNTT := by
  by_cases e : b = a
  · subst e; rw [Heap.setRows_self, Ct.isNTT_setRows]
  · rw [Heap.setRows_ne _ _ _ _ _ e]

theorem Heap.rows_setRows_self (hi : i < (h a).value.length) : (h.setRows a i p).rows a i = p := by
  rw [Heap.rows, Heap.setRows_self, Ct.rows_setRows_self _ _ _ hi]

theorem Heap.rows_setRows_ne (hab : b ≠ a ∨ j ≠ i) : (h.setRows a i p).rows b j = h.rows b j := by
  by_cases e : b = a
  · subst e
    rw [Heap.rows, Heap.setRows_self, Ct.rows_setRows_ne _ _ _ _ (hab.resolve_left (fun h => h rfl)), Heap.rows]
  · rw [Heap.rows, Heap.setRows_ne _ _ _ _ _ e, Heap.rows]

/-- all cases at once, for `simp` -/
theorem Heap.rows_setRows_ite : (h.setRows a i p).rows b j
    = if b = a ∧ j = i ∧ i < (h a).value.length then p else h.rows b j := by
  by_cases e : b = a ∧ j = i
  · obtain ⟨rfl, rfl⟩ := e
    by_cases hi : j < (h b).value.length
    · rw [if_pos ⟨rfl, rfl, hi⟩, Heap.rows_setRows_self _ _ _ _ hi]
    · rw [if_neg (fun h => hi h.2.2), Heap.rows, Heap.setRows_self, Ct.setRows, Heap.rows]
      simp only [Ct.rows, List.getD, List.getElem?_modify]
      rw [List.getElem?_eq_none (by omega)]
      simp
  · rw [if_neg (fun h => e ⟨h.1, h.2.1⟩), Heap.rows_setRows_ne]
    by_cases h1 : b = a
    · exact Or.inr (fun h2 => e ⟨h1, h2⟩)
    · exact Or.inl h1

end

/-! ## Shapes -/

theorem CtShape.degree {deg level : ℕ} {c : Ct} (h : CtShape deg level c) : c.degree = deg := by
  have := h.len
  unfold Ct.degree
  omega

theorem CtShape.level {deg level : ℕ} {c : Ct} (h : CtShape deg level c) : c.level = level := by
  rw [Ct.level_eq, h.size 0 (by omega)]
  rfl

theorem CtShape.all {deg level : ℕ} {c : Ct} (h : CtShape deg level c) : c.value.all (·.isNTT) = true := by
  rw [List.all_eq_true]
  intro q hq
  obtain ⟨i, hi, rfl⟩ := List.getElem_of_mem hq
  have := h.ntt i (by have := h.len; omega)
  rw [List.getD, List.getElem?_eq_getElem hi] at this
  exact this

theorem CtShape.scale {deg level : ℕ} {c : Ct} (h : CtShape deg level c) (s : ℚ) :
    CtShape deg level { c with scale := s } := ⟨h.len, h.ntt, h.size⟩

theorem CtShape.setRows {deg level : ℕ} {c : Ct} (h : CtShape deg level c) {i : ℕ} {p : Rows}
    (hp : p.length = level + 1) : CtShape deg level (c.setRows i p) := by
  refine ⟨by rw [Ct.length_setRows]; exact h.len, fun j hj => by rw [Ct.isNTT_setRows]; exact h.ntt j hj, fun j hj => ?_⟩
  by_cases e : j = i
  · subst e
    rw [Ct.rows_setRows_self _ _ _ (by have := h.len; omega), hp]
  · rw [Ct.rows_setRows_ne _ _ _ _ e]; exact h.size j hj

theorem Ct.rows_dropLevel (c : Ct) (k i : ℕ) : (c.dropLevel k).rows i = (c.rows i).take (c.level + 1 - k) := by
  simp only [Ct.rows, Ct.dropLevel, List.getD, List.getElem?_map]
  cases c.value[i]? with
  | none => simp [show (default : Poly).coeffs = [] from rfl]
  | some q => simp

theorem Ct.isNTT_dropLevel (c : Ct) (k i : ℕ) :
    ((c.dropLevel k).value.getD i default).isNTT = (c.value.getD i default).isNTT := by
  simp only [Ct.dropLevel, List.getD, List.getElem?_map]
  cases c.value[i]? <;> simp

theorem CtShape.dropLevel {deg level : ℕ} {c : Ct} (h : CtShape deg level c) {k : ℕ} (hk : k ≤ level) :
    CtShape deg (level - k) (c.dropLevel k) := by
  refine ⟨by simp [Ct.dropLevel, h.len], fun i hi => by rw [Ct.isNTT_dropLevel]; exact h.ntt i hi, fun i hi => ?_⟩
  rw [Ct.rows_dropLevel, h.level, List.length_take, h.size i hi]
  omega

theorem CtShape.dropTo {deg level l : ℕ} {c : Ct} (h : CtShape deg level c) (hl : l ≤ level) :
    CtShape deg l (c.dropTo l) := by
  unfold Ct.dropTo
  rw [h.level]
  split
  · have := h.dropLevel (k := level - l) (by omega)
    rwa [show level - (level - l) = l by omega] at this
  · rwa [show l = level by omega]

@[simp] theorem Ct.scale_dropTo (c : Ct) (l : ℕ) : (c.dropTo l).scale = c.scale := by
  unfold Ct.dropTo
  split <;> rfl

@[simp] theorem Ct.length_dropTo (c : Ct) (l : ℕ) : (c.dropTo l).value.length = c.value.length := by
  unfold Ct.dropTo
  split <;> simp [Ct.dropLevel]

@[simp] theorem Ct.degree_dropTo (c : Ct) (l : ℕ) : (c.dropTo l).degree = c.degree := by simp [Ct.degree]

theorem CtShape.rows_dropTo {deg level l : ℕ} {c : Ct} (h : CtShape deg level c) (hl : l ≤ level) {i : ℕ}
    (hi : i ≤ deg) : (c.dropTo l).rows i = (c.rows i).take (l + 1) := by
  unfold Ct.dropTo
  rw [h.level]
  split
  · rw [Ct.rows_dropLevel, h.level]
    congr 1
    omega
  · rw [List.take_of_length_le]
    have := h.size i hi
    omega

theorem CtShape.resize_up {deg level : ℕ} {c : Ct} (h : CtShape deg level c) {N d : ℕ} (hd : deg ≤ d) :
    CtShape d level (c.resize N d) := by
  have hlen := h.len
  have e : c.resize N d = { c with value := c.value ++ List.replicate (d - deg) ⟨newPoly N (level + 1), true⟩ } := by
    unfold Ct.resize
    rw [h.degree, if_neg (by omega), h.level, h.ntt 0 (by omega)]
  rw [e]
  refine ⟨by simp; omega, fun i hi => ?_, fun i hi => ?_⟩
  · by_cases hi' : i ≤ deg
    · have := h.ntt i hi'
      rw [List.getD, List.getElem?_append_left (by omega)]
      exact this
    · rw [List.getD, List.getElem?_append_right (by omega), List.getElem?_replicate, if_pos (by omega)]
      rfl
  · by_cases hi' : i ≤ deg
    · have := h.size i hi'
      rw [Ct.rows, List.getD, List.getElem?_append_left (by omega)]
      exact this
    · rw [Ct.rows, List.getD, List.getElem?_append_right (by omega), List.getElem?_replicate, if_pos (by omega)]
      simp [newPoly]

theorem CtShape.rows_resize_up {deg level : ℕ} {c : Ct} (h : CtShape deg level c) {N d i : ℕ} (hd : deg ≤ d)
    (hi : i ≤ deg) : (c.resize N d).rows i = c.rows i := by
  have hlen := h.len
  unfold Ct.resize
  rw [h.degree, if_neg (by omega), Ct.rows, List.getD, List.getElem?_append_left (by omega)]
  rfl

theorem CtShape.resize_down {deg level : ℕ} {c : Ct} (h : CtShape deg level c) {N d : ℕ} (hd : d < deg) :
    CtShape d level (c.resize N d) := by
  have hlen := h.len
  unfold Ct.resize
  rw [h.degree, if_pos hd]
  refine ⟨by simp; omega, fun i hi => ?_, fun i hi => ?_⟩
  · have := h.ntt i (by omega)
    rw [List.getD, List.getElem?_take, if_pos (by omega)]
    exact this
  · have := h.size i (by omega)
    rw [Ct.rows, List.getD, List.getElem?_take, if_pos (by omega)]
    exact this

theorem Ct.rows_take {c : Ct} {m i : ℕ} (hi : i < m) : ({ c with value := c.value.take m } : Ct).rows i = c.rows i := by
  rw [Ct.rows, List.getD, List.getElem?_take, if_pos hi]
  rfl

theorem CtShape.take {deg level : ℕ} {c : Ct} (h : CtShape deg level c) {d : ℕ} (hd : d ≤ deg) :
    CtShape d level { c with value := c.value.take (d + 1) } := by
  have hlen := h.len
  refine ⟨by simp; omega, fun i hi => ?_, fun i hi => ?_⟩
  · have := h.ntt i (by omega)
    rw [List.getD, List.getElem?_take, if_pos (by omega)]
    exact this
  · rw [Ct.rows_take (by omega)]
    exact h.size i (by omega)

@[simp] theorem Ct.scale_resize (c : Ct) (N d : ℕ) : (c.resize N d).scale = c.scale := by
  unfold Ct.resize
  split <;> rfl

theorem newCiphertext_shape (N deg level : ℕ) (s : ℚ) : CtShape deg level (newCiphertext N deg level s) := by
  refine ⟨by simp [newCiphertext], fun i hi => ?_, fun i hi => ?_⟩
  · simp only [newCiphertext, List.getD, List.getElem?_replicate, if_pos (show i < deg + 1 by omega)]
    rfl
  · simp only [Ct.rows, newCiphertext, List.getD, List.getElem?_replicate, if_pos (show i < deg + 1 by omega)]
    simp [newPoly]

/-! ## Elements -/

theorem EltIs.any {n : ℕ} {r : Ring} {level : ℕ} {b : Bool} {A : ℕ → ℕ} {p x} (h : EltIs n r level A b p x) :
    EltIs n r level anyWord b p x := ⟨h.lvl, h.len, fun _ _ _ _ => UInt64.toNat_lt _, h.val⟩

theorem CtIs.any {n : ℕ} {r : Ring} {level deg : ℕ} {A : ℕ → ℕ} {c x} (h : CtIs n r level A deg c x) :
    CtIs n r level anyWord deg c x := ⟨h.shape, fun i hi => (h.elt i hi).any⟩

theorem CtIs.mono {n : ℕ} {r : Ring} {level deg : ℕ} {A B : ℕ → ℕ} {c x} (h : CtIs n r level A deg c x)
    (hAB : ∀ u ≤ level, A u ≤ B u) : CtIs n r level B deg c x := ⟨h.shape, fun i hi => (h.elt i hi).mono hAB⟩

theorem CtIs.dropTo {n : ℕ} {r : Ring} {level deg l : ℕ} {A : ℕ → ℕ} {c x} (h : CtIs n r level A deg c x)
    (hl : l ≤ level) : CtIs n r l A deg (c.dropTo l) x :=
  ⟨h.shape.dropTo hl, fun i hi => by
    rw [h.shape.rows_dropTo hl hi]
    exact ((h.elt i hi).below hl).take (by omega)⟩

end FastKsw
