import Verif.Lemmas.CtEnc

/-!
# Loops over the components of a ciphertext
-/

namespace FastKsw

open Props Finset

/-- what a loop that writes components `o, …, o + m - 1` of `out` leaves: component `o + u` is `F u` of the heap at
the start, everything else is untouched -/
structure LoopIs (out : Ref) (o m : ℕ) (F : ℕ → Heap → Rows) (h h' : Heap) : Prop where
  frame : ∀ b ≠ out, h' b = h b
  scale : (h' out).scale = (h out).scale
  len : (h' out).value.length = (h out).value.length
  ntt : ∀ i, ((h' out).value.getD i default).isNTT = ((h out).value.getD i default).isNTT
  row : ∀ u < m, o + u < (h out).value.length → (h' out).rows (o + u) = F u h
  other : ∀ i, i < o ∨ o + m ≤ i → (h' out).rows i = (h out).rows i

theorem overComponents_is {out : Ref} {o : ℕ} {F : ℕ → Heap → Rows}
    (hF : ∀ u h h', (∀ b, h.rows b (o + u) = h'.rows b (o + u)) → F u h = F u h') (m : ℕ) (h : Heap) :
    LoopIs out o m F h (overComponents (fun u h => h.setRows out (o + u) (F u h)) m h) := by
  induction m with
  | zero => exact ⟨fun _ _ => rfl, rfl, rfl, fun _ => rfl, fun u hu => absurd hu (by omega), fun _ _ => rfl⟩
  | succ m ih =>
    show LoopIs out o (m + 1) F h
      ((overComponents (fun u h => h.setRows out (o + u) (F u h)) m h).setRows out (o + m)
        (F m (overComponents (fun u h => h.setRows out (o + u) (F u h)) m h)))
    generalize overComponents (fun u h => h.setRows out (o + u) (F u h)) m h = g at ih ⊢
    have e : F m g = F m h := hF m g h fun b => by
      by_cases hb : b = out
      · subst hb; exact ih.other (o + m) (by omega)
      · unfold Heap.rows; rw [ih.frame b hb]
    rw [e]
    refine ⟨fun b hb => ?_, ?_, ?_, fun i => ?_, fun u hu hl => ?_, fun i hi => ?_⟩
    · rw [Heap.setRows_ne _ _ _ _ _ hb, ih.frame b hb]
    · rw [Heap.scale_setRows, ih.scale]
    · rw [Heap.length_setRows, ih.len]
    · rw [Heap.isNTT_setRows, ih.ntt]
    · rw [Heap.setRows_self]
      by_cases hu' : u = m
      · subst hu'
        rw [Ct.rows_setRows_self _ _ _ (by rw [ih.len]; exact hl)]
      · rw [Ct.rows_setRows_ne _ _ _ _ (by omega)]
        exact ih.row u (by omega) hl
    · rw [Heap.setRows_self, Ct.rows_setRows_ne _ _ _ _ (by omega)]
      exact ih.other i (by omega)

theorem overComponents_is0 {out : Ref} {F : ℕ → Heap → Rows}
    (hF : ∀ u h h', (∀ b, h.rows b u = h'.rows b u) → F u h = F u h') (m : ℕ) (h : Heap) :
    LoopIs out 0 m F h (overComponents (fun u h => h.setRows out u (F u h)) m h) := by
  have := overComponents_is (out := out) (o := 0) (F := F) (fun u h h' hh => hF u h h' fun b => by simpa using hh b) m h
  simpa using this

theorem LoopIs.shape {out : Ref} {o m : ℕ} {F : ℕ → Heap → Rows} {h h' : Heap} (H : LoopIs out o m F h h') {deg level : ℕ}
    (hs : CtShape deg level (h out)) (hF : ∀ u < m, o + u ≤ deg → (F u h).length = level + 1) :
    CtShape deg level (h' out) := by
  have hl := hs.len
  refine ⟨H.len.trans hs.len, fun i hi => (H.ntt i).trans (hs.ntt i hi), fun i hi => ?_⟩
  by_cases hc : i < o ∨ o + m ≤ i
  · rw [H.other i hc]; exact hs.size i hi
  · obtain ⟨u, rfl⟩ : ∃ u, i = o + u := ⟨i - o, by omega⟩
    rw [H.row u (by omega) (by omega)]
    exact hF u (by omega) hi

theorem CtIs.scale {n : ℕ} {r : Ring} {level deg : ℕ} {A : ℕ → ℕ} {c : Ct} {x : ℕ → ∀ u, Rq (2 ^ n) (r.qs u)}
    (h : CtIs n r level A deg c x) (s : ℚ) : CtIs n r level A deg { c with scale := s } x := ⟨h.shape.scale s, h.elt⟩

theorem CtShape.setScale {deg level : ℕ} {h : Heap} {b : Ref} (hb : CtShape deg level (h b)) (a : Ref) (s : ℚ) :
    CtShape deg level ((h.setScale a s) b) := by
  by_cases e : b = a
  · subst e; rw [Heap.setScale_self]; exact hb.scale s
  · rw [Heap.setScale_ne _ _ _ _ e]; exact hb

theorem CtIs.setScale {n : ℕ} {r : Ring} {level deg : ℕ} {A : ℕ → ℕ} {h : Heap} {b : Ref} {x : ℕ → ∀ u, Rq (2 ^ n) (r.qs u)}
    (hb : CtIs n r level A deg (h b) x) (a : Ref) (s : ℚ) : CtIs n r level A deg ((h.setScale a s) b) x := by
  by_cases e : b = a
  · subst e; rw [Heap.setScale_self]; exact hb.scale s
  · rw [Heap.setScale_ne _ _ _ _ e]; exact hb

/-- a loop over all components of the receiver -/
theorem LoopIs.ctIs {n : ℕ} {r : Ring} {level deg : ℕ} {A : ℕ → ℕ} {out : Ref} {F : ℕ → Heap → Rows} {h h' : Heap}
    (H : LoopIs out 0 (deg + 1) F h h') {x : ℕ → ∀ u, Rq (2 ^ n) (r.qs u)} (hs : CtShape deg level (h out))
    (hF : ∀ i ≤ deg, EltWritten n r level A true ((h out).rows i) (F i h) (x i)) :
    CtIs n r level A deg (h' out) x := by
  refine ⟨H.shape hs fun u _ hu => (hF u (by omega)).len.trans (hs.size u (by omega)), fun i hi => ?_⟩
  have := H.row i (by omega) (by rw [hs.len]; omega)
  rw [Nat.zero_add] at this
  rw [this]
  exact (hF i hi).is

end FastKsw
