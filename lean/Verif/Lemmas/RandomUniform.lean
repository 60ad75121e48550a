import Verif.Lemmas.RandomBytes
import Verif.Props.Samplers

/-!
# The uniform sampler on a random byte stream
-/

namespace FastKsw

open MeasureTheory Finset
open scoped ENNReal

/-- the decision of the rejection loop on eight bytes -/
def uniAcc (q mask : UInt64) (b : Fin 8 → UInt8) : Option UInt64 :=
  if beUint (List.ofFn b) &&& mask < q then some (beUint (List.ofFn b) &&& mask) else none

def specRow (fuel : ℕ) (q mask : UInt64) : ℕ → ℕ → (ℕ → UInt8) → Option (Row × ℕ × (ℕ → UInt8))
  | 0, k, s => some ([], k, s)
  | cnt + 1, k, s => (reject 8 (uniAcc q mask) fuel k s).bind fun a =>
      (specRow fuel q mask cnt a.2.1 a.2.2).bind fun b => some (a.1 :: b.1, b.2)

def specRows (fuel N : ℕ) : List SubRing → ℕ → (ℕ → UInt8) → Option (Rows × ℕ × (ℕ → UInt8))
  | [], k, s => some ([], k, s)
  | a :: ss, k, s => (specRow fuel a.q a.mask N k s).bind fun x =>
      (specRows fuel N ss x.2.1 x.2.2).bind fun y => some (x.1 :: y.1, y.2)

/-- the state of the sampler after `k` blocks: the next block is in the buffer unless it has just been emptied -/
structure UniAt (s : ℕ → UInt8) (pos N k : ℕ) (st : UniState) : Prop where
  inv : UniInv s pos N k st
  used : 0 < k → 0 < st.ptr

/-- the position from which the generator is read next -/
theorem UniAt.pos_eq {s : ℕ → UInt8} {pos N k : ℕ} (hN0 : 0 < N) {st : UniState} (h : UniAt s pos N k st) :
    st.prng.pos = pos + N * ((8 * k - 1) / N + 1) ∧ 8 * k ≤ N * ((8 * k - 1) / N + 1) := by
  obtain ⟨⟨hs, c, h1, h2, h3, h4⟩, h5⟩ := h
  have hc : (8 * k - 1) / N = c := by
    rcases Nat.eq_zero_or_pos k with rfl | hk
    · have : N * c = 0 := by omega
      have : c = 0 := by rcases Nat.mul_eq_zero.1 this with h | h <;> omega
      simp [this]
    · have := h5 hk
      rw [h3, show N * c + st.ptr - 1 = N * c + (st.ptr - 1) by omega, Nat.mul_add_div hN0, Nat.div_eq_of_lt (by omega),
        add_zero]
  rw [hc]
  refine ⟨h1, ?_⟩
  rw [h3, mul_add, mul_one]
  omega

/-- the same result, and the state of the sampler is at the block counted -/
def Linked {α : Type*} (s : ℕ → UInt8) (pos N : ℕ) (x : Option (α × UniState)) (y : Option (α × ℕ × (ℕ → UInt8))) : Prop :=
  (x = none ∧ y = none) ∨ ∃ a st k, x = some (a, st) ∧ y = some (a, k, dropBytes (pos + 8 * k) s) ∧ UniAt s pos N k st

theorem Linked.bind {α γ : Type*} {s : ℕ → UInt8} {pos N : ℕ} {x : Option (α × UniState)}
    {y : Option (α × ℕ × (ℕ → UInt8))} (h : Linked s pos N x y) {f : α × UniState → Option (γ × UniState)}
    {g : α × ℕ × (ℕ → UInt8) → Option (γ × ℕ × (ℕ → UInt8))}
    (hfg : ∀ a st k, UniAt s pos N k st → Linked s pos N (f (a, st)) (g (a, k, dropBytes (pos + 8 * k) s))) :
    Linked s pos N (x.bind f) (y.bind g) := by
  rcases h with ⟨rfl, rfl⟩ | ⟨a, st, k, rfl, rfl, hi⟩
  · exact Or.inl ⟨rfl, rfl⟩
  · exact hfg a st k hi

theorem linked_some {α : Type*} {s : ℕ → UInt8} {pos N k : ℕ} {st : UniState} (a : α) (h : UniAt s pos N k st) :
    Linked s pos N (some (a, st)) (some (a, k, dropBytes (pos + 8 * k) s)) := Or.inr ⟨a, st, k, rfl, rfl, h⟩

theorem uniWord_linked {s : ℕ → UInt8} {pos N : ℕ} (hN : N % 8 = 0) (hN0 : 0 < N) {q mask : UInt64} {fuel : ℕ} :
    ∀ {k : ℕ} {st : UniState}, UniAt s pos N k st →
      Linked s pos N (uniWord N q mask fuel st) (reject 8 (uniAcc q mask) fuel k (dropBytes (pos + 8 * k) s)) := by
  induction fuel with
  | zero => intro k st _; exact Or.inl ⟨rfl, rfl⟩
  | succ fuel ih =>
    intro k st hi
    obtain ⟨⟨hs, c, h1, h2, h3, h4⟩, -⟩ := hi
    rw [uniWord]
    obtain ⟨st1, hst1, e1⟩ : ∃ st1 : UniState, (if st.ptr = N then
        (⟨(st.prng.read N).2, (st.prng.read N).1, 0⟩ : UniState) else st) = st1 ∧
        UniInv s pos N k st1 ∧ st1.ptr < N := by
      refine ⟨_, rfl, ?_⟩
      split
      · refine ⟨⟨hs, c + 1, ?_, ?_, ?_, ?_⟩, hN0⟩
        · simp only [Prng.read, h1]; ring
        · simp only [Prng.read, hs, h1]
        · simp only [mul_add, mul_one]; omega
        · simp
      · exact ⟨⟨hs, c, h1, h2, h3, h4⟩, by omega⟩
    simp only [hst1]
    obtain ⟨⟨hs, c, h1, h2, h3, h4⟩, h5⟩ := e1
    obtain ⟨M, rfl⟩ : ∃ M, N = 8 * M := ⟨N / 8, by omega⟩
    have h6 : 8 * (k - M * c) = st1.ptr := by
      rw [Nat.mul_sub, h3, ← mul_assoc]
      omega
    have hw : beUint ((st1.buf.drop st1.ptr).take 8) = beUint (List.ofFn (prefixOf 8 (dropBytes (pos + 8 * k) s))) := by
      rw [h2, take_drop_map_range _ _ _ (by omega)]
      congr 1
      rw [List.ofFn_eq_map, ← List.map_coe_finRange_eq_range, List.map_map]
      refine List.map_congr_left fun i _ => ?_
      simp only [Function.comp, prefixOf, dropBytes]
      congr 1
      rw [h3]
      ring
    have hinv : UniAt s pos (8 * M) (k + 1) { st1 with ptr := st1.ptr + 8 } :=
      ⟨⟨hs, c, h1, h2, by simp only [mul_add]; omega, by simp only; omega⟩, fun _ => by simp⟩
    have hd : dropBytes 8 (dropBytes (pos + 8 * k) s) = dropBytes (pos + 8 * (k + 1)) s := by
      rw [dropBytes_dropBytes]; congr 1
    rw [hw, reject, uniAcc]
    split
    · simp only [hd]
      exact linked_some _ hinv
    · simp only [hd]
      exact ih hinv

theorem uniRow_linked {s : ℕ → UInt8} {pos N : ℕ} (hN : N % 8 = 0) (hN0 : 0 < N) {q mask : UInt64} {fuel : ℕ} (cnt : ℕ) :
    ∀ {k : ℕ} {st : UniState}, UniAt s pos N k st →
      Linked s pos N (uniRow fuel N q mask cnt st) (specRow fuel q mask cnt k (dropBytes (pos + 8 * k) s)) := by
  induction cnt with
  | zero => intro k st hi; exact linked_some _ hi
  | succ cnt ih =>
    intro k st hi
    exact (uniWord_linked hN hN0 hi).bind fun a st k hi => (ih hi).bind fun b st k hi => linked_some _ hi

theorem uniRows_linked {s : ℕ → UInt8} {pos N : ℕ} (hN : N % 8 = 0) (hN0 : 0 < N) {fuel : ℕ} (ss : List SubRing) :
    ∀ {k : ℕ} {st : UniState}, UniAt s pos N k st →
      Linked s pos N (uniRows fuel N ss st) (specRows fuel N ss k (dropBytes (pos + 8 * k) s)) := by
  induction ss with
  | nil => intro k st hi; exact linked_some _ hi
  | cons a ss ih =>
    intro k st hi
    exact (uniRow_linked hN hN0 N hi).bind fun a st k hi => (ih hi).bind fun b st k hi => linked_some _ hi

/-! ## Probabilities -/

/-- the values of an acceptable coefficient -/
def valuesBelow (q : UInt64) : Finset UInt64 := (range q.toNat).image UInt64.ofNat

theorem mem_valuesBelow {q v : UInt64} : v ∈ valuesBelow q ↔ v < q := by
  simp only [valuesBelow, mem_image, mem_range]
  constructor
  · rintro ⟨a, ha, rfl⟩
    have := q.toNat_lt
    rw [UInt64.lt_iff_toNat_lt, UInt64.toNat_ofNat', Nat.mod_eq_of_lt (by omega)]
    exact ha
  · intro h
    exact ⟨v.toNat, UInt64.lt_iff_toNat_lt.1 h, by simp⟩

theorem card_valuesBelow (q : UInt64) : (valuesBelow q).card = q.toNat := by
  rw [valuesBelow, card_image_of_injOn, card_range]
  intro a ha b hb hab
  have := q.toNat_lt
  simp only [coe_range, Set.mem_Iio] at ha hb
  have h := congrArg UInt64.toNat hab
  rw [UInt64.toNat_ofNat', UInt64.toNat_ofNat', Nat.mod_eq_of_lt (by omega), Nat.mod_eq_of_lt (by omega)] at h
  exact h

theorem beUint_ofFn {L : ℕ} (hL : L ≤ 8) (b : Fin L → UInt8) : (beUint (List.ofFn b)).toNat = bytesNat L b :=
  Props.beUint_toNat _ (by simpa using hL)

/-- one coefficient is uniform -/
theorem uniAcc_uniform {q mask : UInt64} {m : ℕ} (hmask : mask.toNat = 2 ^ m - 1) (hm : q.toNat ≤ 2 ^ m) (hm64 : m ≤ 64)
    {E : ℕ → Set (ℕ → UInt8)} (hE : ∀ k, MeasurableSet (E k)) {c : ℝ≥0∞} (hc : ∀ k, randomBytes (E k) = c)
    {v : UInt64} (hv : v < q) (k : ℕ) :
    MeasurableSet {s | ∃ fuel k' s', reject 8 (uniAcc q mask) fuel k s = some (v, k', s') ∧ s' ∈ E k'} ∧
    randomBytes {s | ∃ fuel k' s', reject 8 (uniAcc q mask) fuel k s = some (v, k', s') ∧ s' ∈ E k'}
      = (q.toNat : ℝ≥0∞)⁻¹ * c := by
  have h := reject_uniform (uniAcc q mask) hE hc (V := valuesBelow q) (m := 2 ^ (8 * 8 - m)) (fun b v h => ?_)
    (by positivity) (fun v hv => ?_) (mem_valuesBelow.2 hv) k
  · rwa [card_valuesBelow] at h
  · rw [uniAcc] at h
    split at h
    · cases h
      exact mem_valuesBelow.2 ‹_›
    · cases h
  · have hv := UInt64.lt_iff_toNat_lt.1 (mem_valuesBelow.1 hv)
    refine Eq.trans ?_ (card_mod_two_pow (L := 8) (m := m) (v := v.toNat) (by omega) (by omega))
    rw [blocksOf]
    refine congrArg Finset.card (filter_congr fun b _ => ?_)
    have hb : (beUint (List.ofFn b) &&& mask).toNat = bytesNat 8 b % 2 ^ m := by
      rw [UInt64.toNat_and, hmask, Nat.and_two_pow_sub_one_eq_mod, beUint_ofFn (le_refl _)]
    rw [uniAcc, ← hb]
    split
    · rw [Option.some.injEq, ← UInt64.toNat_inj]
    · rename_i hn
      simp only [reduceCtorEq, false_iff]
      intro h
      exact hn (UInt64.lt_iff_toNat_lt.2 (by omega))

theorem specRow_mono {q mask : UInt64} {fuel fuel' : ℕ} (hf : fuel ≤ fuel') (cnt : ℕ) : ∀ {k : ℕ} {s : ℕ → UInt8}
    {x : Row × ℕ × (ℕ → UInt8)}, specRow fuel q mask cnt k s = some x → specRow fuel' q mask cnt k s = some x := by
  induction cnt with
  | zero => intro k s x h; exact h
  | succ cnt ih =>
    intro k s x h
    rw [specRow, Option.bind_eq_some_iff] at h
    obtain ⟨a, ha, h⟩ := h
    rw [Option.bind_eq_some_iff] at h
    obtain ⟨b, hb, h⟩ := h
    rw [specRow, reject_mono hf ha, Option.bind_some, ih hb, Option.bind_some, h]

theorem specRow_uniform {q mask : UInt64} {m : ℕ} (hmask : mask.toNat = 2 ^ m - 1) (hm : q.toNat ≤ 2 ^ m) (hm64 : m ≤ 64)
    {E : ℕ → Set (ℕ → UInt8)} (hE : ∀ k, MeasurableSet (E k)) {c : ℝ≥0∞} (hc : ∀ k, randomBytes (E k) = c)
    (vs : Row) : ∀ (_ : ∀ v ∈ vs, v < q) (k : ℕ),
    MeasurableSet {s | ∃ fuel k' s', specRow fuel q mask vs.length k s = some (vs, k', s') ∧ s' ∈ E k'} ∧
    randomBytes {s | ∃ fuel k' s', specRow fuel q mask vs.length k s = some (vs, k', s') ∧ s' ∈ E k'}
      = (q.toNat : ℝ≥0∞)⁻¹ ^ vs.length * c := by
  induction vs with
  | nil =>
    intro _ k
    have : {s | ∃ fuel k' s', specRow fuel q mask ([] : Row).length k s = some ([], k', s') ∧ s' ∈ E k'} = E k := by
      ext s
      simp [specRow]
    rw [this, List.length_nil, pow_zero, one_mul]
    exact ⟨hE k, hc k⟩
  | cons v vs ih =>
    intro hv k
    have hv' : ∀ x ∈ vs, x < q := fun x hx => hv x (List.mem_cons_of_mem _ hx)
    have hset : {s | ∃ fuel k' s', specRow fuel q mask (v :: vs).length k s = some (v :: vs, k', s') ∧ s' ∈ E k'}
        = {s | ∃ fuel k' s', reject 8 (uniAcc q mask) fuel k s = some (v, k', s') ∧
          s' ∈ {s | ∃ fuel k'' s', specRow fuel q mask vs.length k' s = some (vs, k'', s') ∧ s' ∈ E k''}} := by
      ext s
      simp only [Set.mem_ofPred_eq, List.length_cons, specRow]
      constructor
      · rintro ⟨fuel, k', s', h, hs⟩
        rw [Option.bind_eq_some_iff] at h
        obtain ⟨⟨a, k1, s1⟩, ha, h⟩ := h
        rw [Option.bind_eq_some_iff] at h
        obtain ⟨⟨b, k2, s2⟩, hb, h⟩ := h
        simp only [Option.some.injEq, Prod.mk.injEq, List.cons.injEq] at h
        obtain ⟨⟨rfl, rfl⟩, rfl, rfl⟩ := h
        exact ⟨fuel, k1, s1, ha, fuel, _, _, hb, hs⟩
      · rintro ⟨f1, k1, s1, ha, f2, k2, s2, hb, hs⟩
        refine ⟨max f1 f2, k2, s2, ?_, hs⟩
        rw [reject_mono (le_max_left _ _) ha, Option.bind_some, specRow_mono (le_max_right _ _) _ hb]
        rfl
    rw [hset, List.length_cons, pow_succ', mul_assoc]
    exact uniAcc_uniform hmask hm hm64 (fun k => (ih hv' k).1) (fun k => (ih hv' k).2) (hv v List.mem_cons_self) k

theorem specRows_mono {N fuel fuel' : ℕ} (hf : fuel ≤ fuel') (ss : List SubRing) : ∀ {k : ℕ} {s : ℕ → UInt8}
    {x : Rows × ℕ × (ℕ → UInt8)}, specRows fuel N ss k s = some x → specRows fuel' N ss k s = some x := by
  induction ss with
  | nil => intro k s x h; exact h
  | cons a ss ih =>
    intro k s x h
    rw [specRows, Option.bind_eq_some_iff] at h
    obtain ⟨a, ha, h⟩ := h
    rw [Option.bind_eq_some_iff] at h
    obtain ⟨b, hb, h⟩ := h
    rw [specRows, specRow_mono hf _ ha, Option.bind_some, ih hb, Option.bind_some, h]

/-- what the rows of a ring may contain: `N` values below the modulus -/
def RowsBelow (N : ℕ) : List SubRing → Rows → Prop
  | [], vs => vs = []
  | a :: ss, vs => ∃ v vs', vs = v :: vs' ∧ v.length = N ∧ (∀ x ∈ v, x < a.q) ∧ RowsBelow N ss vs'

theorem specRows_uniform {N : ℕ} {E : ℕ → Set (ℕ → UInt8)} (hE : ∀ k, MeasurableSet (E k)) {c : ℝ≥0∞}
    (hc : ∀ k, randomBytes (E k) = c) (ss : List SubRing) : ∀ (_ : ∀ a ∈ ss, ∃ m, a.mask.toNat = 2 ^ m - 1 ∧
      a.q.toNat ≤ 2 ^ m ∧ m ≤ 64) {vs : Rows} (_ : RowsBelow N ss vs) (k : ℕ),
    MeasurableSet {s | ∃ fuel k' s', specRows fuel N ss k s = some (vs, k', s') ∧ s' ∈ E k'} ∧
    randomBytes {s | ∃ fuel k' s', specRows fuel N ss k s = some (vs, k', s') ∧ s' ∈ E k'}
      = (ss.map fun a => (a.q.toNat : ℝ≥0∞)⁻¹ ^ N).prod * c := by
  induction ss with
  | nil =>
    rintro _ vs rfl k
    have : {s | ∃ fuel k' s', specRows fuel N [] k s = some ([], k', s') ∧ s' ∈ E k'} = E k := by
      ext s
      simp [specRows]
    rw [this, List.map_nil, List.prod_nil, one_mul]
    exact ⟨hE k, hc k⟩
  | cons a ss ih =>
    rintro hm _ ⟨v, vs, rfl, rfl, hv, hvs⟩ k
    have hm' : ∀ a ∈ ss, ∃ m, a.mask.toNat = 2 ^ m - 1 ∧ a.q.toNat ≤ 2 ^ m ∧ m ≤ 64 :=
      fun x hx => hm x (List.mem_cons_of_mem _ hx)
    have hset : {s | ∃ fuel k' s', specRows fuel v.length (a :: ss) k s = some (v :: vs, k', s') ∧ s' ∈ E k'}
        = {s | ∃ fuel k' s', specRow fuel a.q a.mask v.length k s = some (v, k', s') ∧
          s' ∈ {s | ∃ fuel k'' s', specRows fuel v.length ss k' s = some (vs, k'', s') ∧ s' ∈ E k''}} := by
      ext s
      simp only [Set.mem_ofPred_eq, specRows]
      constructor
      · rintro ⟨fuel, k', s', h, hs⟩
        rw [Option.bind_eq_some_iff] at h
        obtain ⟨⟨a, k1, s1⟩, ha, h⟩ := h
        rw [Option.bind_eq_some_iff] at h
        obtain ⟨⟨b, k2, s2⟩, hb, h⟩ := h
        simp only [Option.some.injEq, Prod.mk.injEq, List.cons.injEq] at h
        obtain ⟨⟨rfl, rfl⟩, rfl, rfl⟩ := h
        exact ⟨fuel, k1, s1, ha, fuel, _, _, hb, hs⟩
      · rintro ⟨f1, k1, s1, ha, f2, k2, s2, hb, hs⟩
        refine ⟨max f1 f2, k2, s2, ?_, hs⟩
        rw [specRow_mono (le_max_left _ _) _ ha, Option.bind_some, specRows_mono (le_max_right _ _) _ hb]
        rfl
    obtain ⟨m, m1, m2, m3⟩ := hm a List.mem_cons_self
    rw [hset, List.map_cons, List.prod_cons, mul_assoc]
    exact specRow_uniform m1 m2 m3 (fun k => (ih hm' hvs k).1) (fun k => (ih hm' hvs k).2) v hv k

end FastKsw
