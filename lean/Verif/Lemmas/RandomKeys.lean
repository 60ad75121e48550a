import Verif.Lemmas.RandomDraws
import Verif.Props.RotKeys
import Verif.Model.RandomKeys

/-!
# The draws of key generation as steps
-/

namespace FastKsw.Props

open MeasureTheory Finset
open scoped ENNReal

/-- nothing is drawn -/
theorem step_nil {X : Type} (x : X) : Step (fun _ st => some (x, st)) (fun y => y = x) 1 := by
  constructor
  · intro k k' st y _ h; exact h
  · intro k st y st' hst h
    cases h
    exact ⟨hst, rfl⟩
  · intro k st st2 y st' hs h hy
    cases h
    exact ⟨0, x, st2, rfl, rfl, hs⟩
  · intro pos clk buf ptr _ _ _ E c hE hc
    have e : stepEvent (fun _ st => some (x, st)) (fun y => y = x) E pos clk buf ptr = {s | dropBytes pos s ∈ E ptr} := by
      ext s
      simp only [stepEvent, Set.mem_ofPred_eq]
      constructor
      · rintro ⟨k, y, st', h, -, he⟩
        cases h
        exact he
      · intro h
        exact ⟨0, x, _, rfl, rfl, h⟩
    rw [e, one_mul, ← hc ptr]
    exact ⟨measurable_dropBytes pos (hE ptr), dropBytes_apply pos (hE ptr)⟩

section
variable {F : Type} (O : FloatOps F) (sigma : F) (bound : UInt64) {rQ rP : Ring} {lQ lP : ℕ}

theorem readDigit_eq (k : ℕ) (old : PolyQP × PolyQP) (st : GaussState) :
    readDigit O k rQ rP sigma bound lQ lP old st
      = (seqStep (seqStep (fun k st => gaussianReadLvl O k rQ sigma bound lQ st old.1.q) (uniStep rQ lQ old.2.q)) (uniStep rP lP old.2.p)
        k st).map fun a => ((⟨a.1.1.1, ⟨a.1.1.2, a.1.2⟩⟩ : KeyTape), a.2) := by
  unfold readDigit seqStep uniStep
  cases h1 : gaussianReadLvl O k rQ sigma bound lQ st old.1.q with
  | none => simp [h1]
  | some e =>
    cases h2 : uniformReadLvl k rQ lQ e.2.prng old.2.q with
    | none => simp [h1, h2]
    | some aQ =>
      cases h3 : uniformReadLvl k rP lP aQ.2 old.2.p with
      | none => simp [h1, h2, h3]
      | some aP => simp [h1, h2, h3]

/-- one digit -/
theorem readDigit_step {old : PolyQP × PolyQP} {Ae Aq Ap : Rows → Prop} {pe pq pp : ℝ≥0∞}
    (he : Step (fun k st => gaussianReadLvl O k rQ sigma bound lQ st old.1.q) Ae pe) (hq : Step (uniStep rQ lQ old.2.q) Aq pq)
    (hp : Step (uniStep rP lP old.2.p) Ap pp) :
    Step (fun k st => readDigit O k rQ rP sigma bound lQ lP old st) (fun t => Ae t.e ∧ Aq t.a.q ∧ Ap t.a.p) (pe * pq * pp) := by
  have h := ((he.seq hq).seq hp).map (fun a => (⟨a.1.1, ⟨a.1.2, a.2⟩⟩ : KeyTape)) (B := fun t => Ae t.e ∧ Aq t.a.q ∧ Ap t.a.p)
    (fun _ _ => by simp only [and_assoc])
  have e : (fun k st => readDigit O k rQ rP sigma bound lQ lP old st) = _ := funext fun k => funext fun st =>
    readDigit_eq O sigma bound k old st
  rw [e]
  exact h

/-- all digits -/
theorem readDigits_step (swk : SwitchingKey) : ∀ {Ae Aq Ap : ℕ → Rows → Prop} {pe pq pp : ℕ → ℝ≥0∞},
    (∀ i < swk.length, Step (fun k st => gaussianReadLvl O k rQ sigma bound lQ st (swk.getD i default).1.q) (Ae i) (pe i)) →
    (∀ i < swk.length, Step (uniStep rQ lQ (swk.getD i default).2.q) (Aq i) (pq i)) →
    (∀ i < swk.length, Step (uniStep rP lP (swk.getD i default).2.p) (Ap i) (pp i)) →
    Step (fun k st => readDigits O k rQ rP sigma bound lQ lP swk st)
      (fun ts => ts.length = swk.length ∧ ∀ i < swk.length, Ae i (ts.getD i ⟨[], ⟨[], []⟩⟩).e ∧ Aq i (ts.getD i ⟨[], ⟨[], []⟩⟩).a.q ∧
        Ap i (ts.getD i ⟨[], ⟨[], []⟩⟩).a.p)
      (∏ i ∈ range swk.length, pe i * pq i * pp i) := by
  induction swk with
  | nil =>
    intro Ae Aq Ap pe pq pp _ _ _
    refine (step_nil ([] : List KeyTape)).congr fun {k st x st'} _ h => ?_
    cases h
    simp
  | cons old swk ih =>
    intro Ae Aq Ap pe pq pp he hq hp
    have h1 := readDigit_step O sigma bound (old := old) (he 0 (by simp)) (hq 0 (by simp)) (hp 0 (by simp))
    have h2 := ih (Ae := fun i => Ae (i + 1)) (Aq := fun i => Aq (i + 1)) (Ap := fun i => Ap (i + 1)) (pe := fun i => pe (i + 1))
      (pq := fun i => pq (i + 1)) (pp := fun i => pp (i + 1)) (fun i hi => he (i + 1) (by simpa using hi))
      (fun i hi => hq (i + 1) (by simpa using hi)) (fun i hi => hp (i + 1) (by simpa using hi))
    have h3 := (h1.seq h2).map (fun a => a.1 :: a.2) (B := fun ts => ts.length = (old :: swk).length ∧ ∀ i < (old :: swk).length,
        Ae i (ts.getD i ⟨[], ⟨[], []⟩⟩).e ∧ Aq i (ts.getD i ⟨[], ⟨[], []⟩⟩).a.q ∧ Ap i (ts.getD i ⟨[], ⟨[], []⟩⟩).a.p)
      (fun {k st x st'} _ _ => by
        constructor
        · rintro ⟨a1, a2⟩
          exact ⟨a2 0 (by simp), by simpa using a1, fun i hi => a2 (i + 1) (by simpa using hi)⟩
        · rintro ⟨a1, a2, a3⟩
          refine ⟨by simpa using a2, fun i hi => ?_⟩
          cases i with
          | zero => exact a1
          | succ i => exact a3 i (by simpa using hi))
    rw [List.length_cons, prod_range_succ', mul_comm]
    have e : (fun k st => readDigits O k rQ rP sigma bound lQ lP (old :: swk) st) = fun k st =>
        (seqStep (fun k st => readDigit O k rQ rP sigma bound lQ lP old st) (fun k st => readDigits O k rQ rP sigma bound lQ lP swk st) k
          st).map fun a => (a.1.1 :: a.1.2, a.2) := by
      funext k st
      rw [readDigits, seqStep]
      cases readDigit O k rQ rP sigma bound lQ lP old st with
      | none => rfl
      | some t =>
        simp only [Option.bind_some, Option.map_map]
        cases readDigits O k rQ rP sigma bound lQ lP swk t.2 with
        | none => rfl
        | some ts => rfl
    rw [e]
    exact h3

end

end FastKsw.Props
