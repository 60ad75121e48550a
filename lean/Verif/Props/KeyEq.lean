import Verif.Model.KeyEq
import Mathlib.Data.List.GetD
import Mathlib.Data.List.Perm.Basic
import Mathlib.Data.List.Nodup
import Mathlib.Tactic.Basic

/-!
# C59: rotation key sets
-/

namespace FastKsw.Props

open FastKsw

theorem rowsEqual_iff {a b : List Row} : rowsEqual a b = true ↔ a = b := by
  unfold rowsEqual
  simp only [Bool.and_eq_true, beq_iff_eq, List.all_eq_true, List.mem_range]
  constructor
  · rintro ⟨h1, h2⟩
    refine List.ext_getElem h1 fun i hi hi' => ?_
    obtain ⟨l, e⟩ := h2 i hi
    rw [List.getD_eq_getElem _ _ hi, List.getD_eq_getElem _ _ hi'] at l e
    refine List.ext_getElem l.symm fun j hj hj' => ?_
    have := e j hj
    unfold Row.at at this
    rw [List.getD_eq_getElem _ _ hj, List.getD_eq_getElem _ _ hj'] at this
    exact this.symm
  · rintro rfl
    exact ⟨rfl, fun i _ => ⟨rfl, fun _ _ => rfl⟩⟩

/-- the coefficients that are compared; flags are left out -/
def polyContent (p : Option WPoly) : Option (List Row) := p.map fun x => x.coeffs.getD []

theorem polyEquals_iff {a b : Option WPoly} : polyEquals a b = true ↔ polyContent a = polyContent b := by
  rcases a with _ | a <;> rcases b with _ | b
  · simp [polyEquals]
  · simp [polyEquals, polyContent]
  · simp [polyEquals, polyContent]
  · simp only [polyEquals, polyContent, Option.map_some, Option.some.injEq]
    exact rowsEqual_iff

/-- the coefficients of both parts -/
def qpContent (p : WPolyQP) : Option (List Row) × Option (List Row) := (polyContent p.Q, polyContent p.P)

/-- parts that the receiver lacks are not compared -/
theorem qpEquals_iff {a b : WPolyQP} : a.equals b = true ↔ (a.Q.isSome → polyContent a.Q = polyContent b.Q) ∧
    (a.P.isSome → polyContent a.P = polyContent b.P) := by
  unfold WPolyQP.equals
  dsimp only
  by_cases h1 : a.Q.isSome <;> by_cases h2 : a.P.isSome <;>
    simp [h1, h2, polyEquals_iff]

/-- both parts are present -/
def QPFull (p : WPolyQP) : Prop := p.Q.isSome ∧ p.P.isSome

theorem qpEquals_full {a b : WPolyQP} (ha : QPFull a) : a.equals b = true ↔ qpContent a = qpContent b := by
  rw [qpEquals_iff]
  unfold qpContent
  rw [Prod.mk.injEq]
  exact ⟨fun h => ⟨h.1 ha.1, h.2 ha.2⟩, fun h => ⟨fun _ => h.1, fun _ => h.2⟩⟩

/-- the coefficients of a switching key -/
def swkContent (k : Option WSwk) := k.map fun k => k.map fun v => (qpContent v.1, qpContent v.2)

/-- every part of every digit is present (as in the keys of the generator) -/
def SwkFull (k : Option WSwk) : Prop := ∀ v ∈ k.getD [], QPFull v.1 ∧ QPFull v.2

theorem swkEquals_full {a b : Option WSwk} (ha : SwkFull a) : swkEquals a b = true ↔ swkContent a = swkContent b := by
  rcases a with _ | a <;> rcases b with _ | b
  · simp [swkEquals]
  · simp [swkEquals, swkContent]
  · simp [swkEquals, swkContent]
  · simp only [swkEquals, swkContent, Option.map_some, Option.some.injEq, Bool.and_eq_true, beq_iff_eq, List.all_eq_true,
      List.mem_range]
    constructor
    · rintro ⟨h1, h2⟩
      refine List.ext_getElem (by simpa using h1) fun i hi hi' => ?_
      rw [List.length_map] at hi hi'
      have := h2 i hi
      rw [List.getD_eq_getElem _ _ hi, List.getD_eq_getElem _ _ hi'] at this
      unfold pkEquals at this
      obtain ⟨f1, f2⟩ := ha a[i] (List.getElem_mem hi)
      rw [Bool.and_eq_true, qpEquals_full f1, qpEquals_full f2] at this
      rw [List.getElem_map, List.getElem_map, this.1, this.2]
    · intro h
      have hl : a.length = b.length := by simpa using congrArg List.length h
      refine ⟨hl, fun i hi => ?_⟩
      have hi' : i < b.length := hl ▸ hi
      have e : (qpContent a[i].1, qpContent a[i].2) = (qpContent b[i].1, qpContent b[i].2) := by
        have h1 : (a.map fun v => (qpContent v.1, qpContent v.2))[i]? = (b.map fun v => (qpContent v.1, qpContent v.2))[i]? := by
          rw [h]
        rw [List.getElem?_map, List.getElem?_map, List.getElem?_eq_getElem hi, List.getElem?_eq_getElem hi'] at h1
        simpa using h1
      rw [Prod.mk.injEq] at e
      obtain ⟨f1, f2⟩ := ha a[i] (List.getElem_mem hi)
      rw [List.getD_eq_getElem _ _ hi, List.getD_eq_getElem _ _ hi']
      unfold pkEquals
      rw [Bool.and_eq_true, qpEquals_full f1, qpEquals_full f2]
      exact e

theorem find_iff {k : WRtks} (hk : (k.map Prod.fst).Nodup) {g : UInt64} {v : Option WSwk} :
    k.find g = some v ↔ (g, v) ∈ k := by
  unfold WRtks.find
  induction k with
  | nil => simp
  | cons e l ih =>
    obtain ⟨a, b⟩ := e
    rw [List.map_cons, List.nodup_cons] at hk
    rw [List.lookup_cons]
    by_cases h : g = a
    · subst h
      simp only [BEq.rfl, List.mem_cons, Prod.mk.injEq, true_and, Option.some.injEq]
      constructor
      · rintro rfl; exact Or.inl rfl
      · rintro (rfl | hm)
        · rfl
        · exact absurd (List.mem_map_of_mem (f := Prod.fst) hm) hk.1
    · have : (g == a) = false := by simpa using h
      simp only [this, List.mem_cons, Prod.mk.injEq, h, false_and, false_or]
      exact ih hk.2

theorem find_isSome {k : WRtks} {g : UInt64} : (k.find g).isSome = true ↔ g ∈ k.map Prod.fst := by
  unfold WRtks.find
  induction k with
  | nil => simp
  | cons e l ih =>
    obtain ⟨a, b⟩ := e
    rw [List.lookup_cons, List.map_cons, List.mem_cons]
    by_cases h : g = a
    · simp [h]
    · have : (g == a) = false := by simpa using h
      simp only [this, h, false_or]
      exact ih

/-- **C59 (look-up).** The key stored for exactly that Galois element, or nothing. -/
theorem C59_getRotationKey {k : WRtks} (hk : (k.map Prod.fst).Nodup) (g : UInt64) :
    (∀ v, getRotationKey k g = (v, true) ↔ (g, v) ∈ k) ∧ (getRotationKey k g = (none, false) ↔ g ∉ k.map Prod.fst) := by
  unfold getRotationKey
  constructor
  · intro v
    rw [← find_iff hk]
    rcases k.find g with _ | w <;> simp
  · rw [← find_isSome]
    rcases k.find g with _ | w <;> simp

/-- **C59 (`Includes`).** -/
theorem C59_includes (a b : WRtks) : rtksIncludes (some a) (some b) = true ↔ ∀ g ∈ b.map Prod.fst, g ∈ a.map Prod.fst := by
  simp only [rtksIncludes, List.all_eq_true, find_isSome, List.mem_map]
  constructor
  · rintro h g ⟨e, he, rfl⟩; exact h e he
  · intro h e he; exact h e.1 ⟨e, he, rfl⟩

/-- **C59 (reflexivity on any keys).** The structural comparison of a key with itself returns true, whatever parts it has. -/
theorem C59_refl : (∀ k, swkEquals k k = true) ∧ (∀ k : WRtks, (k.map Prod.fst).Nodup → rtksEquals (some k) (some k) = true) := by
  have hs : ∀ k, swkEquals k k = true := by
    intro k
    rcases k with _ | k
    · rfl
    · simp only [swkEquals, BEq.rfl, Bool.true_and, List.all_eq_true, pkEquals, Bool.and_eq_true, qpEquals_iff]
      exact fun _ _ => ⟨⟨fun _ => trivial, fun _ => trivial⟩, fun _ => trivial, fun _ => trivial⟩
  refine ⟨hs, fun k hk => ?_⟩
  simp only [rtksEquals, BEq.rfl, Bool.true_and, List.all_eq_true]
  rintro ⟨g, v⟩ he
  dsimp only
  rw [(find_iff hk).2 he]
  exact hs v

/-- **C59 (partial, `Equals`: all parts present).** Two sets are equal iff they have the same Galois elements, with keys of the same
coefficients. -/
theorem C59_equals_partial {a b : WRtks} (ha : (a.map Prod.fst).Nodup) (hb : (b.map Prod.fst).Nodup)
    (hfb : ∀ e ∈ b, SwkFull e.2) : rtksEquals (some a) (some b) = true ↔
      ∀ g, (a.find g).map swkContent = (b.find g).map swkContent := by
  simp only [rtksEquals, Bool.and_eq_true, beq_iff_eq, List.all_eq_true]
  constructor
  · rintro ⟨hl, h⟩ g
    have hsub : ∀ x ∈ b.map Prod.fst, x ∈ a.map Prod.fst := by
      intro x hx
      obtain ⟨e, he, rfl⟩ := List.mem_map.1 hx
      have := h e he
      rw [← find_isSome]
      rcases hf : a.find e.1 with _ | w
      · rw [hf] at this; simp at this
      · rfl
    have hperm : (b.map Prod.fst).Perm (a.map Prod.fst) :=
      (List.subperm_of_subset hb hsub).perm_of_length_le (by simp [hl])
    rcases hg : b.find g with _ | v
    · have : g ∉ a.map Prod.fst := by
        rw [← hperm.mem_iff, ← find_isSome, hg]; simp
      rw [← find_isSome] at this
      rcases hf : a.find g with _ | w
      · rfl
      · rw [hf] at this; simp at this
    · have hm := (find_iff hb).1 hg
      have := h _ hm
      dsimp only at this
      rcases hf : a.find g with _ | w
      · rw [hf] at this; simp at this
      · rw [hf] at this
        have e := (swkEquals_full (hfb _ hm)).1 this
        rw [Option.map_some, Option.map_some, e]
  · intro h
    have hiff : ∀ g, g ∈ a.map Prod.fst ↔ g ∈ b.map Prod.fst := by
      intro g
      rw [← find_isSome, ← find_isSome]
      have := congrArg Option.isSome (h g)
      rw [Option.isSome_map, Option.isSome_map] at this
      rw [this]
    have hperm : (a.map Prod.fst).Perm (b.map Prod.fst) := (List.perm_ext_iff_of_nodup ha hb).2 hiff
    refine ⟨by simpa using hperm.length_eq, ?_⟩
    rintro ⟨g, v⟩ hm
    have hg := (find_iff hb).2 hm
    have := h g
    rw [hg, Option.map_some] at this
    dsimp only
    rcases hf : a.find g with _ | w
    · rw [hf] at this; cases this
    · rw [hf, Option.map_some, Option.some.injEq] at this
      exact (swkEquals_full (hfb _ hm)).2 this.symm

/-- **C59 (partial, `Equals` is an equivalence: all parts present).** Symmetry and transitivity; reflexivity is `C59_refl`. -/
theorem C59_equivalence_partial {a b c : WRtks} (ha : (a.map Prod.fst).Nodup) (hb : (b.map Prod.fst).Nodup)
    (hc : (c.map Prod.fst).Nodup) (hfa : ∀ e ∈ a, SwkFull e.2) (hfb : ∀ e ∈ b, SwkFull e.2) (hfc : ∀ e ∈ c, SwkFull e.2) :
    rtksEquals (some a) (some b) = rtksEquals (some b) (some a) ∧
    (rtksEquals (some a) (some b) = true → rtksEquals (some b) (some c) = true → rtksEquals (some a) (some c) = true) := by
  constructor
  · rw [Bool.eq_iff_iff, C59_equals_partial ha hb hfb, C59_equals_partial hb ha hfa]
    exact ⟨fun h g => (h g).symm, fun h g => (h g).symm⟩
  · rw [C59_equals_partial ha hb hfb, C59_equals_partial hb hc hfc, C59_equals_partial ha hc hfc]
    exact fun h1 h2 g => (h1 g).trans (h2 g)

/-- the coefficients of a relinearization key -/
def rlkContent (k : Option (List (Option WSwk))) := k.map fun k => k.map swkContent

/-- **C59 (relinearization keys).** `RelinearizationKey.Equals` is true exactly when the keys agree in number and content, and of any key
with itself.  Missing: keys with a missing part (`C59_violated`). -/
theorem C59_relin_partial (a b : Option (List (Option WSwk))) (ha : ∀ k ∈ a.getD [], SwkFull k) :
    (rlkEquals a b = true ↔ rlkContent a = rlkContent b) ∧ rlkEquals a a = true := by
  constructor
  · rcases a with _ | a <;> rcases b with _ | b
    · simp [rlkEquals]
    · simp [rlkEquals, rlkContent]
    · simp [rlkEquals, rlkContent]
    · simp only [rlkEquals, rlkContent, Option.map_some, Option.some.injEq, Bool.and_eq_true, beq_iff_eq, List.all_eq_true,
        List.mem_range]
      constructor
      · rintro ⟨h1, h2⟩
        refine List.ext_getElem (by simpa using h1) fun i hi hi' => ?_
        rw [List.length_map] at hi hi'
        have := h2 i hi
        rw [List.getD_eq_getElem _ _ hi, List.getD_eq_getElem _ _ hi', swkEquals_full (ha _ (List.getElem_mem hi))] at this
        rw [List.getElem_map, List.getElem_map, this]
      · intro h
        have hl : a.length = b.length := by simpa using congrArg List.length h
        refine ⟨hl, fun i hi => ?_⟩
        have hi' : i < b.length := hl ▸ hi
        rw [List.getD_eq_getElem _ _ hi, List.getD_eq_getElem _ _ hi', swkEquals_full (ha _ (List.getElem_mem hi))]
        have h1 : (a.map swkContent)[i]? = (b.map swkContent)[i]? := by rw [h]
        rw [List.getElem?_map, List.getElem?_map, List.getElem?_eq_getElem hi, List.getElem?_eq_getElem hi'] at h1
        simpa using h1
  · rcases a with _ | a
    · rfl
    · simp only [rlkEquals, BEq.rfl, Bool.true_and, List.all_eq_true]
      exact fun i _ => C59_refl.1 _

/-- a digit with rows of degree 2 -/
def eqDigit (a : UInt64) (p : Option WPoly) : WPolyQP × WPolyQP :=
  (⟨some ⟨some [[a, 1]], true, true⟩, p⟩, ⟨some ⟨some [[a, 1]], true, true⟩, p⟩)

example : rtksEquals (some [(5, some [eqDigit 3 (some ⟨some [[7, 7]], true, true⟩)]), (25, none)])
    (some [(25, none), (5, some [eqDigit 3 (some ⟨some [[7, 7]], false, true⟩)])]) = true := by decide

/-- **C59 (violated, witness).** A key without the part modulo `P` against one that has it: the comparison depends on the order of
the arguments. -/
theorem C59_violated :
    rtksEquals (some [(5, some [eqDigit 3 none])]) (some [(5, some [eqDigit 3 (some ⟨some [[7, 7]], true, true⟩)])]) = false ∧
    rtksEquals (some [(5, some [eqDigit 3 (some ⟨some [[7, 7]], true, true⟩)])]) (some [(5, some [eqDigit 3 none])]) = true := by
  decide

/-- relinearization keys of one digit with all parts present, equal in content and not in flags -/
example : (∀ k ∈ (some [some [eqDigit 3 (some ⟨some [[7, 7]], true, true⟩)]] : Option (List (Option WSwk))).getD [], SwkFull k) ∧
    rlkEquals (some [some [eqDigit 3 (some ⟨some [[7, 7]], true, true⟩)]])
      (some [some [eqDigit 3 (some ⟨some [[7, 7]], false, true⟩)]]) = true := by
  refine ⟨fun k hk => ?_, by decide⟩
  simp only [Option.getD_some, List.mem_cons, List.not_mem_nil, or_false] at hk
  subst hk
  intro v hv
  simp only [Option.getD_some, List.mem_cons, List.not_mem_nil, or_false] at hv
  subst hv
  exact ⟨⟨rfl, rfl⟩, ⟨rfl, rfl⟩⟩

end FastKsw.Props
