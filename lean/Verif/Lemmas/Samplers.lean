import Verif.Model.Samplers
import Verif.Lemmas.KeyGen

namespace FastKsw

open Finset

/-- the `k`-th big-endian 8-byte word of the stream from position `pos` -/
def streamWord (s : ℕ → UInt8) (pos k : ℕ) : UInt64 := beUint ((List.range 8).map fun i => s (pos + 8 * k + i))

/-- `m` is the first index from `k` on at which `P` holds -/
structure FirstFrom (P : ℕ → Prop) (k m : ℕ) : Prop where
  ge : k ≤ m
  acc : P m
  rej : ∀ l, k ≤ l → l < m → ¬ P l

/-- the buffer holds the part of the stream that contains word `k`, which is the next one -/
structure UniInv (s : ℕ → UInt8) (pos N k : ℕ) (st : UniState) : Prop where
  stream : st.prng.stream = s
  ex : ∃ c, st.prng.pos = pos + N * (c + 1) ∧
    st.buf = (List.range N).map (fun i => s (pos + N * c + i)) ∧ 8 * k = N * c + st.ptr ∧ st.ptr ≤ N

theorem take_drop_map_range {α : Type*} (f : ℕ → α) (N p : ℕ) (h : p + 8 ≤ N) :
    (((List.range N).map f).drop p).take 8 = (List.range 8).map fun i => f (p + i) := by
  apply List.ext_getElem
  · simp; omega
  · intro i h1 h2
    simp

theorem uniWord_is {s : ℕ → UInt8} {pos N : ℕ} (hN : N % 8 = 0) (hN0 : 0 < N) {q mask : UInt64} {fuel : ℕ} :
    ∀ {k : ℕ} {st st' : UniState} {w : UInt64}, UniInv s pos N k st → uniWord N q mask fuel st = some (w, st') →
      ∃ m, FirstFrom (fun l => streamWord s pos l &&& mask < q) k m ∧ w = streamWord s pos m &&& mask ∧
        UniInv s pos N (m + 1) st' := by
  induction fuel with
  | zero => intro k st st' w _ h; simp [uniWord] at h
  | succ fuel ih =>
    intro k st st' w hi h
    obtain ⟨hs, c, h1, h2, h3, h4⟩ := hi
    rw [uniWord] at h
    -- after the refill
    obtain ⟨st1, hst1, e1⟩ : ∃ st1 : UniState, (if st.ptr = N then
        (⟨(st.prng.read N).2, (st.prng.read N).1, 0⟩ : UniState) else st) = st1 ∧
        UniInv s pos N k st1 ∧ st1.ptr < N := by
      refine ⟨_, rfl, ?_⟩
      split
      · refine ⟨⟨hs, c + 1, ?_, ?_, ?_, ?_⟩, hN0⟩
        · simp only [Prng.read, h1]; ring
        · simp only [Prng.read, hs, h1]
        · simp only [mul_add, mul_one]; omega
        · simp
      · exact ⟨⟨hs, c, h1, h2, h3, h4⟩, by omega⟩
    simp only [hst1] at h
    obtain ⟨⟨hs, c, h1, h2, h3, h4⟩, h5⟩ := e1
    obtain ⟨M, rfl⟩ : ∃ M, N = 8 * M := ⟨N / 8, by omega⟩
    have h6 : 8 * (k - M * c) = st1.ptr := by
      rw [Nat.mul_sub, h3, ← mul_assoc]
      omega
    have hw : beUint ((st1.buf.drop st1.ptr).take 8) = streamWord s pos k := by
      rw [h2, take_drop_map_range _ _ _ (by omega), streamWord]
      congr 2
      funext i
      congr 1
      rw [h3]
      ring
    have hinv : UniInv s pos (8 * M) (k + 1) { st1 with ptr := st1.ptr + 8 } :=
      ⟨hs, c, h1, h2, by simp only [mul_add]; omega, by simp only; omega⟩
    rw [hw] at h
    split at h
    · rename_i hlt
      injection h with h
      injection h with ha hb
      subst ha hb
      exact ⟨k, ⟨le_refl _, hlt, fun l _ _ => by omega⟩, rfl, hinv⟩
    · rename_i hge
      obtain ⟨m, ⟨g1, g2, g3⟩, g4, g5⟩ := ih hinv h
      refine ⟨m, ⟨by omega, g2, fun l hl1 hl2 => ?_⟩, g4, g5⟩
      rcases Nat.eq_or_lt_of_le hl1 with rfl | hl
      · exact hge
      · exact g3 l hl hl2

/-- `e t` is the index from which the search for the `t`-th value starts -/
structure Picks (P : ℕ → ℕ → Prop) (e : ℕ → ℕ) (cnt : ℕ) : Prop where
  lt : ∀ t < cnt, e t < e (t + 1)
  first : ∀ t < cnt, FirstFrom (P t) (e t) (e (t + 1) - 1)

theorem uniRow_is {s : ℕ → UInt8} {pos N : ℕ} (hN : N % 8 = 0) (hN0 : 0 < N) {q mask : UInt64} {fuel : ℕ} (cnt : ℕ) :
    ∀ {k : ℕ} {st st' : UniState} {x : Row}, UniInv s pos N k st →
      uniRow fuel N q mask cnt st = some (x, st') →
      ∃ e : ℕ → ℕ, e 0 = k ∧ Picks (fun _ l => streamWord s pos l &&& mask < q) e cnt ∧ x.length = cnt ∧
        (∀ t < cnt, x.at t = streamWord s pos (e (t + 1) - 1) &&& mask) ∧ UniInv s pos N (e cnt) st' := by
  induction cnt with
  | zero =>
    intro k st st' x hi h
    simp only [uniRow, Option.some.injEq, Prod.mk.injEq] at h
    obtain ⟨rfl, rfl⟩ := h
    exact ⟨fun _ => k, rfl, ⟨fun t ht => by omega, fun t ht => by omega⟩, rfl, fun t ht => by omega, hi⟩
  | succ cnt ih =>
    intro k st st' x hi h
    rw [uniRow, Option.bind_eq_some_iff] at h
    obtain ⟨⟨w, st1⟩, hw, h⟩ := h
    rw [Option.bind_eq_some_iff] at h
    obtain ⟨⟨y, st2⟩, hy, h⟩ := h
    simp only [Option.some.injEq, Prod.mk.injEq] at h
    obtain ⟨rfl, rfl⟩ := h
    obtain ⟨m, g1, g2, g3⟩ := uniWord_is hN hN0 hi hw
    obtain ⟨e, f1, f2, f3, f4, f5⟩ := ih g3 hy
    have := g1.ge
    refine ⟨fun t => if t = 0 then k else e (t - 1), rfl, ⟨fun t ht => ?_, fun t ht => ?_⟩, by simp [f3],
      fun t ht => ?_, ?_⟩
    · rcases t with - | t
      · simp only [if_true, zero_add, one_ne_zero, if_false, Nat.sub_self, f1]
        omega
      · simpa using f2.lt t (by omega)
    · rcases t with - | t
      · simpa [f1] using g1
      · simpa using f2.first t (by omega)
    · rcases t with - | t
      · simpa [f1, Row.at] using g2
      · simpa [Row.at] using f4 t (by omega)
    · simpa using f5

/-- the `t`-th value drawn, rows of `N` values -/
def rowPred (s : ℕ → UInt8) (pos N : ℕ) (ss : List SubRing) (t l : ℕ) : Prop :=
  streamWord s pos l &&& (ss.getD (t / N) default).mask < (ss.getD (t / N) default).q

theorem uniRows_is {s : ℕ → UInt8} {pos N : ℕ} (hN : N % 8 = 0) (hN0 : 0 < N) {fuel : ℕ} (ss : List SubRing) :
    ∀ {k : ℕ} {st st' : UniState} {x : Rows}, UniInv s pos N k st → uniRows fuel N ss st = some (x, st') →
      ∃ e : ℕ → ℕ, e 0 = k ∧ Picks (rowPred s pos N ss) e (ss.length * N) ∧ x.length = ss.length ∧
        (∀ j < ss.length, (x.row j).length = N ∧ ∀ i < N,
          (x.row j).at i = streamWord s pos (e (j * N + i + 1) - 1) &&& (ss.getD j default).mask) ∧
        UniInv s pos N (e (ss.length * N)) st' := by
  induction ss with
  | nil =>
    intro k st st' x hi h
    simp only [uniRows, Option.some.injEq, Prod.mk.injEq] at h
    obtain ⟨rfl, rfl⟩ := h
    exact ⟨fun _ => k, rfl, ⟨fun t ht => by simp at ht, fun t ht => by simp at ht⟩, rfl, fun t ht => by simp at ht, hi⟩
  | cons a ss ih =>
    intro k st st' x hi h
    rw [uniRows, Option.bind_eq_some_iff] at h
    obtain ⟨⟨w, st1⟩, hw, h⟩ := h
    rw [Option.bind_eq_some_iff] at h
    obtain ⟨⟨y, st2⟩, hy, h⟩ := h
    simp only [Option.some.injEq, Prod.mk.injEq] at h
    obtain ⟨rfl, rfl⟩ := h
    obtain ⟨e1, a1, a2, a3, a4, a5⟩ := uniRow_is hN hN0 N hi hw
    obtain ⟨e2, b1, b2, b3, b4, b5⟩ := ih a5 hy
    have hdiv : ∀ t, N ≤ t → t / N = (t - N) / N + 1 := by
      intro t ht
      rw [← Nat.add_div_right _ hN0, Nat.sub_add_cancel ht]
    refine ⟨fun t => if t < N then e1 t else e2 (t - N), by simp [hN0, a1], ⟨fun t ht => ?_, fun t ht => ?_⟩,
      by simp [b3], fun j hj => ?_, ?_⟩
    · rw [List.length_cons, Nat.add_mul, one_mul] at ht
      by_cases h1 : t < N
      · rw [if_pos h1]
        by_cases h2 : t + 1 < N
        · rw [if_pos h2]; exact a2.lt t h1
        · obtain rfl : N = t + 1 := by omega
          rw [if_neg h2, Nat.sub_self, b1]
          exact a2.lt t h1
      · rw [if_neg h1, if_neg (by omega), show t + 1 - N = t - N + 1 by omega]
        exact b2.lt _ (by omega)
    · rw [List.length_cons, Nat.add_mul, one_mul] at ht
      by_cases h1 : t < N
      · have e0 : rowPred s pos N (a :: ss) t = fun l => streamWord s pos l &&& a.mask < a.q := by
          funext l
          simp [rowPred, Nat.div_eq_of_lt h1]
        rw [if_pos h1, e0]
        by_cases h2 : t + 1 < N
        · rw [if_pos h2]; exact a2.first t h1
        · obtain rfl : N = t + 1 := by omega
          rw [if_neg h2, Nat.sub_self, b1]
          exact a2.first t h1
      · have e0 : rowPred s pos N (a :: ss) t = rowPred s pos N ss (t - N) := by
          funext l
          simp [rowPred, hdiv t (by omega)]
        rw [if_neg h1, if_neg (by omega), show t + 1 - N = t - N + 1 by omega, e0]
        exact b2.first _ (by omega)
    · rcases j with - | j
      · refine ⟨by simpa [Rows.row] using a3, fun i hi => ?_⟩
        have h1 : (Rows.row (w :: y) 0).at i = w.at i := by simp [Rows.row]
        rw [h1, a4 i hi]
        simp only [zero_mul, zero_add, List.getD_cons_zero]
        by_cases h2 : i + 1 < N
        · rw [if_pos h2]
        · obtain rfl : N = i + 1 := by omega
          rw [if_neg h2, Nat.sub_self, b1]
      · obtain ⟨c1, c2⟩ := b4 j (by simpa using hj)
        have h0 : Rows.row (w :: y) (j + 1) = y.row j := by simp [Rows.row]
        refine ⟨by rw [h0]; exact c1, fun i hi => ?_⟩
        rw [h0, c2 i hi, List.getD_cons_succ]
        simp only
        rw [if_neg (by rw [Nat.add_mul]; omega), show (j + 1) * N + i + 1 - N = j * N + i + 1 by
          rw [Nat.add_mul]; omega]
    · simp only
      rw [List.length_cons, if_neg (by rw [Nat.add_mul]; omega), Nat.add_mul, one_mul, Nat.add_sub_cancel]
      exact b5

/-! ## Ternary -/

theorem byteBit_cases (b : UInt8) (i : ℕ) : byteBit b i = 0 ∨ byteBit b i = 1 := by
  have h : (byteBit b i).toNat ≤ 1 := by
    unfold byteBit
    rw [UInt64.toNat_and]
    exact Nat.and_le_right
  rcases (by omega : (byteBit b i).toNat = 0 ∨ (byteBit b i).toNat = 1) with h | h
  · exact Or.inl (UInt64.toNat_inj.1 h)
  · exact Or.inr (UInt64.toNat_inj.1 h)

/-- the integer of an index of `matrixValues` -/
def ternaryInt (index : ℕ) : ℤ := if index = 0 then 0 else if index = 1 then 1 else -1

theorem ternaryValue_is {s : SubRing} (hs : s.Arith) (mont : Bool) (i : ℕ) :
    (ternaryValue s mont i).toNat < s.q.toNat ∧
    (((ternaryValue s mont i).toNat : ℕ) : ZMod s.q.toNat)
      = (ternaryInt i : ZMod s.q.toNat) * (if mont then 2 ^ 64 else 1) := by
  have h1 := hs.one_lt
  have hq1 : (s.q - 1).toNat = s.q.toNat - 1 := by
    rw [UInt64.toNat_sub_of_le _ _ (UInt64.le_iff_toNat_le.2 (by show 1 ≤ _; omega))]
    rfl
  have hq2 : (((s.q - 1).toNat : ℕ) : ZMod s.q.toNat) = -1 := by
    rw [hq1, Nat.cast_sub (by omega)]
    simp
  unfold ternaryValue ternaryInt
  by_cases h0 : i = 0
  · simp [h0]; omega
  by_cases hi : i = 1
  · cases mont
    · simp [hi]; omega
    · have := word_mform hs 1
      simpa [hi] using this
  · cases mont
    · simp only [h0, hi, if_false, Bool.false_eq_true]
      refine ⟨by omega, ?_⟩
      rw [hq2]
      simp
    · have := word_mform hs (s.q - 1)
      rw [hq2] at this
      simpa [h0, hi] using this

theorem ternaryRows_is {n : ℕ} {r : Ring} (hr : r.Valid n) (mont : Bool) {lvl : ℕ} (hl : lvl < r.subs.length)
    {pol : Rows} (hp : lvl < pol.length) {f : ℕ → Row} {idx : ℕ → ℕ}
    (hf : ∀ j ≤ lvl, (f j).length = r.n ∧ ∀ k < r.n, (f j).at k = ternaryValue (r.sub j) mont (idx k)) :
    PolyWritten r lvl r.qs pol (writeLvl lvl f pol)
      (fun u k => ((ternaryInt (idx k) : ℤ) : ZMod (r.sub u).q.toNat) * (if mont then 2 ^ 64 else 1)) := by
  refine writeLvl_is hp fun j hj => ⟨(hf j hj).1, fun k hk => ?_, fun k hk => ?_⟩
  · rw [(hf j hj).2 k hk]
    exact (ternaryValue_is (hr.subAt (by omega)).arith mont _).1
  · unfold zval
    rw [(hf j hj).2 k hk]
    exact (ternaryValue_is (hr.subAt (by omega)).arith mont _).2

theorem ternaryIndex_cases {c s : UInt64} (hc : c = 0 ∨ c = 1) (hs : s = 0 ∨ s = 1) :
    ternaryIndex c s = if c = 0 then 0 else if s = 0 then 1 else 2 := by
  rcases hc with rfl | rfl <;> rcases hs with rfl | rfl <;> decide

theorem kySampling_bits {N : ℕ} {x0 x1 : UInt64} {fuel : ℕ} : ∀ {st : KyState} {d : ℤ} {col : ℕ} {c s : UInt64}
    {st' : KyState}, kySampling N x0 x1 fuel st d col = some (c, s, st') → (c = 0 ∨ c = 1) ∧ (s = 0 ∨ s = 1) := by
  induction fuel with
  | zero => intro st d col c s st' h; simp [kySampling] at h
  | succ fuel ih =>
    intro st d col c s st' h
    rw [kySampling] at h
    split at h
    · exact ih h
    · simp only at h
      split at h
      · exact ih h
      · split at h
        · exact absurd h (by simp)
        · split at h
          · split at h <;>
            · simp only [Option.some.injEq, Prod.mk.injEq] at h
              obtain ⟨rfl, rfl, rfl⟩ := h
              exact ⟨Or.inr rfl, byteBit_cases _ _⟩
          · split at h
            · split at h <;>
              · simp only [Option.some.injEq, Prod.mk.injEq] at h
                obtain ⟨rfl, rfl, rfl⟩ := h
                exact ⟨Or.inl rfl, byteBit_cases _ _⟩
            · exact ih h

theorem kyIndices_length {fuel N : ℕ} {x0 x1 : UInt64} (cnt : ℕ) : ∀ {st st' : KyState} {x : List ℕ},
    kyIndices fuel N x0 x1 cnt st = some (x, st') → x.length = cnt ∧ ∀ i ∈ x, i ≤ 2 := by
  induction cnt with
  | zero =>
    intro st st' x h
    simp only [kyIndices, Option.some.injEq, Prod.mk.injEq] at h
    obtain ⟨rfl, rfl⟩ := h
    simp
  | succ cnt ih =>
    intro st st' x h
    rw [kyIndices, Option.bind_eq_some_iff] at h
    obtain ⟨⟨c, s, st1⟩, hw, h⟩ := h
    rw [Option.bind_eq_some_iff] at h
    obtain ⟨⟨y, st2⟩, hy, h⟩ := h
    simp only [Option.some.injEq, Prod.mk.injEq] at h
    obtain ⟨rfl, rfl⟩ := h
    obtain ⟨h1, h2⟩ := ih hy
    obtain ⟨b1, b2⟩ := kySampling_bits hw
    refine ⟨by simp [h1], fun i hi => ?_⟩
    rcases List.mem_cons.1 hi with rfl | hi
    · rw [ternaryIndex_cases b1 b2]
      split
      · omega
      · split <;> omega
    · exact h2 i hi

theorem swapRemove_perm (l : List ℕ) {j : ℕ} (hj : j < l.length) :
    List.Perm (l.getD j 0 :: (l.set j (l.getD (l.length - 1) 0)).dropLast) l := by
  obtain ⟨init, last, rfl⟩ : ∃ init last, l = init ++ [last] :=
    ⟨l.dropLast, l.getLast (List.ne_nil_of_length_pos (by omega)), (List.dropLast_append_getLast _).symm⟩
  have hlast : (init ++ [last]).getD ((init ++ [last]).length - 1) 0 = last := by simp [List.getD]
  rw [hlast]
  rw [List.length_append, List.length_singleton] at hj
  by_cases h : j = init.length
  · subst h
    have : (init ++ [last]).getD init.length 0 = last := by simp [List.getD]
    rw [this, List.set_append_right _ _ (le_refl _)]
    simpa using (List.perm_append_singleton last init).symm
  · have h1 : j < init.length := by omega
    have : (init ++ [last]).getD j 0 = init[j] := by simp [List.getD, List.getElem?_append_left h1, h1]
    rw [this, List.set_append_left _ _ h1, List.dropLast_concat]
    exact ((List.set_perm_cons_eraseIdx h1 last).cons _).trans ((List.Perm.swap _ _ _).trans
      (((List.getElem_cons_eraseIdx_perm h1).cons _).trans (List.perm_append_singleton last init).symm))

theorem sparseDraw_lt {mask bound : UInt64} {fuel : ℕ} : ∀ {p p' : Prng} {j : UInt64},
    sparseDraw mask bound fuel p = some (j, p') → j < bound := by
  induction fuel with
  | zero => intro p p' j h; simp [sparseDraw] at h
  | succ fuel ih =>
    intro p p' j h
    rw [sparseDraw] at h
    split at h
    · exact ih h
    · rename_i hlt
      simp only [Option.some.injEq, Prod.mk.injEq] at h
      obtain ⟨rfl, rfl⟩ := h
      exact UInt64.not_le.1 hlt

theorem sparseLoop_is {fuel N : ℕ} (hN : N < 2 ^ 64) {signs : List UInt8} (todo : ℕ) : ∀ {i : ℕ} {index rest : List ℕ}
    {p p' : Prng} {ws : List (ℕ × ℕ)}, i + todo ≤ N → index.length = N - i →
    sparseLoop fuel N signs todo i index p = some (ws, rest, p') →
    ws.length = todo ∧ List.Perm (ws.map Prod.fst ++ rest) index ∧ ∀ w ∈ ws, w.2 = 1 ∨ w.2 = 2 := by
  induction todo with
  | zero =>
    intro i index rest p p' ws _ _ h
    simp only [sparseLoop, Option.some.injEq, Prod.mk.injEq] at h
    obtain ⟨rfl, rfl, rfl⟩ := h
    simp
  | succ todo ih =>
    intro i index rest p p' ws hi hl h
    rw [sparseLoop] at h
    simp only at h
    rw [Option.bind_eq_some_iff] at h
    obtain ⟨⟨j, p1⟩, hj, h⟩ := h
    simp only at h
    rw [Option.bind_eq_some_iff] at h
    obtain ⟨⟨ws1, rest1, p2⟩, h1, h⟩ := h
    simp only [Option.some.injEq, Prod.mk.injEq] at h
    obtain ⟨rfl, rfl, rfl⟩ := h
    have hjl : j.toNat < index.length := by
      have := UInt64.lt_iff_toNat_lt.1 (sparseDraw_lt hj)
      rw [UInt64.toNat_ofNat', Nat.mod_eq_of_lt (by omega)] at this
      omega
    obtain ⟨g1, g2, g3⟩ := ih (by omega) (by simp; omega) h1
    refine ⟨by simp [g1], ?_, fun w hw => ?_⟩
    · simp only [List.map_cons, List.cons_append]
      exact (g2.cons _).trans (swapRemove_perm index hjl)
    · rcases List.mem_cons.1 hw with rfl | hw
      · simp only
        rcases byteBit_cases (signs.getD (i / 8) 0) (i % 8) with e | e <;> rw [e] <;> decide
      · exact g3 w hw

theorem applyWrites_length (f : ℕ → UInt64) (ws : List (ℕ × ℕ)) : ∀ row : Row,
    (applyWrites f ws row).length = row.length := by
  induction ws with
  | nil => intro row; rfl
  | cons w ws ih => intro row; rw [applyWrites, List.foldl_cons]; exact (ih _).trans (by simp)

theorem applyWrites_notMem (f : ℕ → UInt64) (ws : List (ℕ × ℕ)) {k : ℕ} (hk : k ∉ ws.map Prod.fst) :
    ∀ row : Row, (applyWrites f ws row).at k = row.at k := by
  induction ws with
  | nil => intro row; rfl
  | cons w ws ih =>
    intro row
    simp only [List.map_cons, List.mem_cons, not_or] at hk
    rw [applyWrites, List.foldl_cons]
    refine (ih hk.2 _).trans ?_
    simp [Row.at, List.getD, List.getElem?_set_ne (Ne.symm hk.1)]

theorem applyWrites_mem (f : ℕ → UInt64) (ws : List (ℕ × ℕ)) (hnd : (ws.map Prod.fst).Nodup) {k v : ℕ}
    (hk : (k, v) ∈ ws) : ∀ row : Row, k < row.length → (applyWrites f ws row).at k = f v := by
  induction ws with
  | nil => simp at hk
  | cons w ws ih =>
    intro row hrow
    simp only [List.map_cons, List.nodup_cons] at hnd
    rw [applyWrites, List.foldl_cons]
    rcases List.mem_cons.1 hk with rfl | hk
    · refine (applyWrites_notMem f ws hnd.1 _).trans ?_
      simp [Row.at, List.getD, hrow]
    · exact ih hnd.2 hk _ (by simpa using hrow)

/-! ## Gaussian -/

/-- the integer of a draw -/
def gaussInt (c : UInt64 × Bool) : ℤ := if c.2 then c.1.toNat else -c.1.toNat

theorem gaussDraw_is {bound : UInt64} {cand : ℕ → UInt64 × Bool} {fuel : ℕ} : ∀ {k k' : ℕ} {c : UInt64 × Bool},
    gaussDraw bound cand fuel k = some (c, k') → ∃ m, FirstFrom (fun l => (cand l).1 ≤ bound) k m ∧ c = cand m ∧
      k' = m + 1 := by
  induction fuel with
  | zero => intro k k' c h; simp [gaussDraw] at h
  | succ fuel ih =>
    intro k k' c h
    rw [gaussDraw] at h
    split at h
    · rename_i hle
      simp only [Option.some.injEq, Prod.mk.injEq] at h
      obtain ⟨rfl, rfl⟩ := h
      exact ⟨k, ⟨le_refl _, hle, fun l _ _ => by omega⟩, rfl, rfl⟩
    · rename_i hgt
      obtain ⟨m, ⟨g1, g2, g3⟩, g4, g5⟩ := ih h
      refine ⟨m, ⟨by omega, g2, fun l hl1 hl2 => ?_⟩, g4, g5⟩
      rcases Nat.eq_or_lt_of_le hl1 with rfl | hl
      · exact hgt
      · exact g3 l hl hl2

theorem gaussDraws_is {bound : UInt64} {cand : ℕ → UInt64 × Bool} {fuel : ℕ} (cnt : ℕ) : ∀ {k k' : ℕ}
    {x : List (UInt64 × Bool)}, gaussDraws fuel bound cand cnt k = some (x, k') →
    x.length = cnt ∧ ∃ e : ℕ → ℕ, e 0 = k ∧ Picks (fun _ l => (cand l).1 ≤ bound) e cnt ∧
      (∀ t < cnt, x.getD t default = cand (e (t + 1) - 1)) ∧ k' = e cnt := by
  induction cnt with
  | zero =>
    intro k k' x h
    simp only [gaussDraws, Option.some.injEq, Prod.mk.injEq] at h
    obtain ⟨rfl, rfl⟩ := h
    exact ⟨rfl, fun _ => k, rfl, ⟨fun t ht => by omega, fun t ht => by omega⟩, fun t ht => by omega, rfl⟩
  | succ cnt ih =>
    intro k k' x h
    rw [gaussDraws, Option.bind_eq_some_iff] at h
    obtain ⟨⟨w, k1⟩, hw, h⟩ := h
    rw [Option.bind_eq_some_iff] at h
    obtain ⟨⟨y, k2⟩, hy, h⟩ := h
    simp only [Option.some.injEq, Prod.mk.injEq] at h
    obtain ⟨rfl, rfl⟩ := h
    obtain ⟨m, g1, g2, g3⟩ := gaussDraw_is hw
    obtain ⟨f0, e, f1, f2, f3, f4⟩ := ih hy
    simp only at f1 f4
    have := g1.ge
    refine ⟨by simp [f0], fun t => if t = 0 then k else e (t - 1), rfl, ⟨fun t ht => ?_, fun t ht => ?_⟩,
      fun t ht => ?_, ?_⟩
    · rcases t with - | t
      · simp only [if_true, zero_add, one_ne_zero, if_false, Nat.sub_self, f1]
        omega
      · simpa using f2.lt t (by omega)
    · rcases t with - | t
      · simpa [f1, g3] using g1
      · simpa using f2.first t (by omega)
    · rcases t with - | t
      · simpa [f1, g3] using g2
      · simpa using f3 t (by omega)
    · simpa using f4

theorem gaussWord_is {q : UInt64} {c : UInt64 × Bool} (h : c.1.toNat ≤ q.toNat) :
    (gaussWord q c).toNat ≤ q.toNat ∧ (((gaussWord q c).toNat : ℕ) : ZMod q.toNat) = (gaussInt c : ZMod q.toNat) := by
  obtain ⟨a, b⟩ := c
  unfold gaussWord gaussInt
  cases b
  · have h1 : (q - a).toNat = q.toNat - a.toNat := UInt64.toNat_sub_of_le _ _ (UInt64.le_iff_toNat_le.2 h)
    have h2 : a * (if false = true then 1 else 0) ||| (q - a) * ((if false = true then 1 else 0) ^^^ (1 : UInt64))
        = q - a := by simp
    simp only at h2 h ⊢
    rw [h2, h1]
    refine ⟨by omega, ?_⟩
    rw [Nat.cast_sub h]
    simp
  · simpa using h

end FastKsw
