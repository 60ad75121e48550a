import Verif.Props.Gaussian
import Verif.Props.Distribution

/-!
# Samplers that read one generator in turn

The samplers of a key generator share the generator, and the Gaussian sampler keeps its pointer from call to call.  A `Step` is a
computation on this state whose result has the property `A` with probability `p`, whatever the state, independently of the bytes that
follow.  Steps compose.
-/

namespace FastKsw.Props

open MeasureTheory Finset
open scoped ENNReal

variable {X Y : Type}

/-- two states that behave alike: the same bytes to come and the same pointer -/
structure Sim (st1 st2 : GaussState) : Prop where
  ok1 : st1.Ok
  ok2 : st2.Ok
  ptr : st1.ptr = st2.ptr
  bytes : dropBytes st1.prng.pos st1.prng.stream = dropBytes st2.prng.pos st2.prng.stream

/-- the streams on which `f` returns a result in `A` and leaves bytes in `E` -/
def stepEvent (f : ℕ → GaussState → Option (X × GaussState)) (A : X → Prop) (E : ℕ → Set (ℕ → UInt8)) (pos : ℕ) (clk : UInt64)
    (buf : List UInt8) (ptr : ℕ) : Set (ℕ → UInt8) :=
  {s | ∃ k x st', f k ⟨⟨s, pos, clk⟩, buf, ptr⟩ = some (x, st') ∧ A x ∧ (fun i => s (st'.prng.pos + i)) ∈ E st'.ptr}

structure Step (f : ℕ → GaussState → Option (X × GaussState)) (A : X → Prop) (p : ℝ≥0∞) : Prop where
  mono : ∀ {k k' st y}, k ≤ k' → f k st = some y → f k' st = some y
  keeps : ∀ {k st x st'}, st.Ok → f k st = some (x, st') → st'.Ok ∧ st'.prng.stream = st.prng.stream
  shift : ∀ {k st st2 x st'}, Sim st st2 → f k st = some (x, st') → A x →
    ∃ k' x' st2', f k' st2 = some (x', st2') ∧ A x' ∧ Sim st' st2'
  law : ∀ (pos : ℕ) (clk : UInt64) {buf : List UInt8} {ptr : ℕ}, buf.length = 1024 → ptr ≤ 1024 → ptr % 8 = 0 →
    ∀ {E : ℕ → Set (ℕ → UInt8)} {c : ℝ≥0∞}, (∀ k, MeasurableSet (E k)) → (∀ k, randomBytes (E k) = c) →
      MeasurableSet (stepEvent f A E pos clk buf ptr) ∧ randomBytes (stepEvent f A E pos clk buf ptr) = p * c

/-- one computation after the other -/
def seqStep (f : ℕ → GaussState → Option (X × GaussState)) (g : ℕ → GaussState → Option (Y × GaussState)) (k : ℕ) (st : GaussState) :
    Option ((X × Y) × GaussState) :=
  (f k st).bind fun a => (g k a.2).map fun b => ((a.1, b.1), b.2)

theorem seqStep_eq {f : ℕ → GaussState → Option (X × GaussState)} {g : ℕ → GaussState → Option (Y × GaussState)} {k : ℕ}
    {st : GaussState} {z : (X × Y) × GaussState} : seqStep f g k st = some z ↔
      ∃ x st1 y st2, f k st = some (x, st1) ∧ g k st1 = some (y, st2) ∧ z = ((x, y), st2) := by
  constructor
  · intro h
    rw [seqStep, Option.bind_eq_some_iff] at h
    obtain ⟨⟨x, st1⟩, h1, h2⟩ := h
    rw [Option.map_eq_some_iff] at h2
    obtain ⟨⟨y, st2⟩, h3, rfl⟩ := h2
    exact ⟨x, st1, y, st2, h1, h3, rfl⟩
  · rintro ⟨x, st1, y, st2, h1, h2, rfl⟩
    rw [seqStep, h1, Option.bind_some, h2, Option.map_some]

theorem Step.seq {f : ℕ → GaussState → Option (X × GaussState)} {g : ℕ → GaussState → Option (Y × GaussState)} {A : X → Prop}
    {B : Y → Prop} {p q : ℝ≥0∞} (hf : Step f A p) (hg : Step g B q) : Step (seqStep f g) (fun z => A z.1 ∧ B z.2) (p * q) where
  mono := by
    intro k k' st z hk h
    obtain ⟨x, st1, y, st2, h1, h2, rfl⟩ := seqStep_eq.1 h
    exact seqStep_eq.2 ⟨x, st1, y, st2, hf.mono hk h1, hg.mono hk h2, rfl⟩
  keeps := by
    intro k st z st' hst h
    obtain ⟨x, st1, y, st2, h1, h2, e⟩ := seqStep_eq.1 h
    cases e
    obtain ⟨a1, a2⟩ := hf.keeps hst h1
    obtain ⟨b1, b2⟩ := hg.keeps a1 h2
    exact ⟨b1, b2.trans a2⟩
  shift := by
    rintro k st st2 z st' hs h ⟨ha, hb⟩
    obtain ⟨x, st1, y, st3, h1, h2, e⟩ := seqStep_eq.1 h
    cases e
    obtain ⟨k1, x', st1', c1, c2, c3⟩ := hf.shift hs h1 ha
    obtain ⟨k2, y', st2', d1, d2, d3⟩ := hg.shift c3 h2 hb
    exact ⟨max k1 k2, (x', y'), st2', seqStep_eq.2 ⟨x', st1', y', st2', hf.mono (le_max_left _ _) c1, hg.mono (le_max_right _ _) d1, rfl⟩,
      ⟨c2, d2⟩, d3⟩
  law := by
    intro pos clk buf ptr hlen hle hw E c hE hc
    set E' : ℕ → Set (ℕ → UInt8) := fun k =>
      if k ≤ 1024 ∧ k % 8 = 0 then stepEvent g B E 0 0 (List.replicate 1024 0) k
      else stepEvent g B E 0 0 (List.replicate 1024 0) 0 with hE'
    have hm : ∀ k, MeasurableSet (E' k) ∧ randomBytes (E' k) = q * c := by
      intro k
      simp only [hE']
      split
      · rename_i h; exact hg.law 0 0 List.length_replicate h.1 h.2 hE hc
      · exact hg.law 0 0 List.length_replicate (Nat.zero_le _) rfl hE hc
    have key : stepEvent (seqStep f g) (fun z => A z.1 ∧ B z.2) E pos clk buf ptr = stepEvent f A E' pos clk buf ptr := by
      ext s
      simp only [stepEvent, Set.mem_ofPred_eq]
      have hlink : ∀ st1 : GaussState, st1.Ok → st1.prng.stream = s → ∀ u : ℕ → UInt8, u = (fun i => s (st1.prng.pos + i)) →
          Sim st1 ⟨⟨u, 0, 0⟩, List.replicate 1024 0, st1.ptr⟩ := by
        rintro st1 h1 rfl u rfl
        exact ⟨h1, ⟨List.length_replicate, h1.2, h1.3⟩, rfl, by funext i; simp [dropBytes]⟩
      constructor
      · rintro ⟨k, z, st', h, ⟨ha, hb⟩, he⟩
        obtain ⟨x, st1, y, st2, h1, h2, e⟩ := seqStep_eq.1 h
        cases e
        obtain ⟨a1, a2⟩ := hf.keeps ⟨hlen, hle, hw⟩ h1
        obtain ⟨b1, b2⟩ := hg.keeps a1 h2
        refine ⟨k, x, st1, h1, ha, ?_⟩
        simp only [hE', if_pos (And.intro a1.2 a1.3), stepEvent, Set.mem_ofPred_eq]
        obtain ⟨k', y', st2', c1, c2, c3⟩ := hg.shift (hlink st1 a1 a2 _ rfl) h2 hb
        refine ⟨k', y', st2', c1, c2, ?_⟩
        obtain ⟨d1, d2⟩ := hg.keeps (hlink st1 a1 a2 _ rfl).ok2 c1
        rw [← c3.ptr]
        have e := c3.bytes
        rw [d2, b2, a2] at e
        exact (congrArg (· ∈ E st'.ptr) e).mp he
      · rintro ⟨k, x, st1, h1, ha, he⟩
        obtain ⟨a1, a2⟩ := hf.keeps ⟨hlen, hle, hw⟩ h1
        simp only [hE', if_pos (And.intro a1.2 a1.3), stepEvent, Set.mem_ofPred_eq] at he
        obtain ⟨k', y', st2', c1, c2, c3⟩ := he
        have hs := hlink st1 a1 a2 _ rfl
        obtain ⟨k2, y, st2, d1, d2, d3⟩ := hg.shift ⟨hs.ok2, hs.ok1, hs.ptr.symm, hs.bytes.symm⟩ c1 c2
        obtain ⟨b1, b2⟩ := hg.keeps a1 d1
        obtain ⟨b3, b4⟩ := hg.keeps hs.ok2 c1
        refine ⟨max k k2, (x, y), st2, seqStep_eq.2 ⟨x, st1, y, st2, hf.mono (le_max_left _ _) h1, hg.mono (le_max_right _ _) d1, rfl⟩,
          ⟨ha, d2⟩, ?_⟩
        rw [← d3.ptr]
        have e := d3.bytes
        rw [b4, b2, a2] at e
        exact (congrArg (· ∈ E st2'.ptr) e).mp c3
    rw [key, mul_assoc]
    exact hf.law pos clk hlen hle hw (fun k => (hm k).1) (fun k => (hm k).2)

/-- the result under a function -/
theorem Step.map {f : ℕ → GaussState → Option (X × GaussState)} {A : X → Prop} {p : ℝ≥0∞} (hf : Step f A p) (h : X → Y) {B : Y → Prop}
    (hB : ∀ {k st x st'}, st.Ok → f k st = some (x, st') → (B (h x) ↔ A x)) :
    Step (fun k st => (f k st).map fun a => (h a.1, a.2)) B p := by
  have key : ∀ {k st y st'}, (f k st).map (fun a => (h a.1, a.2)) = some (y, st') ↔ ∃ x, f k st = some (x, st') ∧ h x = y := by
    intro k st y st'
    rw [Option.map_eq_some_iff]
    constructor
    · rintro ⟨⟨x, st1⟩, h1, h2⟩
      cases h2
      exact ⟨x, h1, rfl⟩
    · rintro ⟨x, h1, rfl⟩
      exact ⟨(x, st'), h1, rfl⟩
  constructor
  · rintro k k' st ⟨y, st'⟩ hk h1
    obtain ⟨x, h2, rfl⟩ := key.1 h1
    exact key.2 ⟨x, hf.mono hk h2, rfl⟩
  · intro k st y st' hst h1
    obtain ⟨x, h2, rfl⟩ := key.1 h1
    exact hf.keeps hst h2
  · intro k st st2 y st' hs h1 hb
    obtain ⟨x, h2, rfl⟩ := key.1 h1
    obtain ⟨k', x', st2', c1, c2, c3⟩ := hf.shift hs h2 ((hB hs.ok1 h2).1 hb)
    exact ⟨k', h x', st2', key.2 ⟨x', c1, rfl⟩, (hB hs.ok2 c1).2 c2, c3⟩
  · intro pos clk buf ptr hlen hle hw E c hE hc
    have e : stepEvent (fun k st => (f k st).map fun a => (h a.1, a.2)) B E pos clk buf ptr = stepEvent f A E pos clk buf ptr := by
      ext s
      simp only [stepEvent, Set.mem_ofPred_eq]
      constructor
      · rintro ⟨k, y, st', h1, hb, he⟩
        obtain ⟨x, h2, rfl⟩ := key.1 h1
        exact ⟨k, x, st', h2, (hB ⟨hlen, hle, hw⟩ h2).1 hb, he⟩
      · rintro ⟨k, x, st', h1, ha, he⟩
        exact ⟨k, h x, st', key.2 ⟨x, h1, rfl⟩, (hB ⟨hlen, hle, hw⟩ h1).2 ha, he⟩
    rw [e]
    exact hf.law pos clk hlen hle hw hE hc

theorem Step.congr {f : ℕ → GaussState → Option (X × GaussState)} {A B : X → Prop} {p : ℝ≥0∞} (hf : Step f A p)
    (hB : ∀ {k st x st'}, st.Ok → f k st = some (x, st') → (B x ↔ A x)) : Step f B p := by
  have := hf.map id hB
  simpa using this

/-- finitely many exclusive outcomes -/
theorem Step.sum {ι : Type} [Fintype ι] {f : ℕ → GaussState → Option (X × GaussState)} {A : ι → X → Prop} {p : ι → ℝ≥0∞}
    (hf : ∀ i, Step f (A i) (p i)) [hne : Nonempty ι]
    (hd : ∀ {k st x st'} i j, st.Ok → f k st = some (x, st') → A i x → A j x → i = j) :
    Step f (fun x => ∃ i, A i x) (∑ i, p i) := by
  obtain ⟨i0⟩ := hne
  constructor
  · exact (hf i0).mono
  · exact (hf i0).keeps
  · rintro k st st2 x st' hs h ⟨i, hi⟩
    obtain ⟨k', x', st2', c1, c2, c3⟩ := (hf i).shift hs h hi
    exact ⟨k', x', st2', c1, ⟨i, c2⟩, c3⟩
  · intro pos clk buf ptr hlen hle hw E c hE hc
    have e : stepEvent f (fun x => ∃ i, A i x) E pos clk buf ptr = ⋃ i, stepEvent f (A i) E pos clk buf ptr := by
      ext s
      simp only [stepEvent, Set.mem_ofPred_eq, Set.mem_iUnion]
      constructor
      · rintro ⟨k, x, st', h, ⟨i, hi⟩, he⟩
        exact ⟨i, k, x, st', h, hi, he⟩
      · rintro ⟨i, k, x, st', h, hi, he⟩
        exact ⟨k, x, st', h, ⟨i, hi⟩, he⟩
    have hl := fun i => (hf i).law pos clk hlen hle hw hE hc
    have hdis : Pairwise (Function.onFun Disjoint fun i => stepEvent f (A i) E pos clk buf ptr) := by
      intro i j hij
      refine Set.disjoint_left.2 fun s => ?_
      rintro ⟨k, x, st', h, hi, -⟩ ⟨k', x', st'', h', hj, -⟩
      have h1 := (hf i).mono (le_max_left k k') h
      have h2 := (hf i).mono (le_max_right k k') h'
      rw [h1] at h2
      cases h2
      exact hij (hd i j ⟨hlen, hle, hw⟩ h hi hj)
    rw [e, measure_iUnion hdis fun i => (hl i).1, tsum_fintype, Finset.sum_mul]
    exact ⟨MeasurableSet.iUnion fun i => (hl i).1, Finset.sum_congr rfl fun i _ => (hl i).2⟩

end FastKsw.Props
