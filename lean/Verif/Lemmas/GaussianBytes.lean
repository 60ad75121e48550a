import Verif.Model.GaussianBytes
import Verif.Lemmas.Samplers
import Verif.Lemmas.RandomUniform
import Verif.Lemmas.RandomMachine

/-!
# The Gaussian sampler as a machine that reads blocks of eight bytes
-/

namespace FastKsw

open Finset

/-! ## The buffer -/

/-- the next block of the sampler is at position `a` of the stream; the first buffer was read at position `P` -/
structure GaussAt (s : ℕ → UInt8) (P a : ℕ) (st : GaussState) : Prop where
  stream : st.prng.stream = s
  ex : ∃ c, st.prng.pos = P + 1024 * (c + 1) ∧ st.buf = (List.range 1024).map (fun i => s (P + 1024 * c + i)) ∧
    a = P + 1024 * c + st.ptr ∧ st.ptr ≤ 1024 ∧ st.ptr % 8 = 0 ∧ (0 < st.ptr ∨ c = 0)

theorem GaussAt.pos_eq {s : ℕ → UInt8} {P a : ℕ} {st : GaussState} (h : GaussAt s P a st) :
    st.prng.pos = P + 1024 * ((a - P - 1) / 1024 + 1) ∧ a ≤ st.prng.pos := by
  obtain ⟨-, c, h1, -, h3, h4, -, h5⟩ := h
  omega

/-- what a read of eight bytes sees, and the state after it -/
theorem GaussAt.next {s : ℕ → UInt8} {P a : ℕ} {st : GaussState} (h : GaussAt s P a st) :
    st.fill.bytes 8 = List.ofFn (prefixOf 8 (dropBytes a s)) ∧ GaussAt s P (a + 8) st.fill.advance := by
  obtain ⟨hs, c, h1, h2, h3, h4, h5, h6⟩ := h
  have hlen : st.buf.length = 1024 := by rw [h2]; simp
  have key : ∀ (c' : ℕ) (st1 : GaussState), st1.buf = (List.range 1024).map (fun i => s (P + 1024 * c' + i)) →
      st1.ptr + 8 ≤ 1024 → a = P + 1024 * c' + st1.ptr → st1.bytes 8 = List.ofFn (prefixOf 8 (dropBytes a s)) := by
    intro c' st1 e1 e2 e3
    rw [GaussState.bytes, e1, take_drop_map_range _ _ _ e2, List.ofFn_eq_map, ← List.map_coe_finRange_eq_range,
      List.map_map]
    refine List.map_congr_left fun i _ => ?_
    simp only [Function.comp, prefixOf, dropBytes]
    congr 1
    omega
  unfold GaussState.fill
  split
  · rename_i hp
    rw [hlen] at hp
    have hb : st.clock.buf = (List.range 1024).map (fun i => s (P + 1024 * (c + 1) + i)) := by
      simp only [GaussState.clock, Prng.read, hlen, hs, h1]
    refine ⟨key (c + 1) _ hb (by simp) (by simp only; omega), hs, c + 1, ?_, hb, ?_, ?_, ?_, ?_⟩
    · simp only [GaussState.advance, GaussState.clock, Prng.read, hlen, h1]; ring
    · simp only [GaussState.advance]; omega
    · simp [GaussState.advance]
    · simp [GaussState.advance]
    · left; simp [GaussState.advance]
  · rename_i hp
    rw [hlen] at hp
    refine ⟨key c _ h2 (by omega) h3, hs, c, h1, h2, ?_, ?_, ?_, ?_⟩
    · simp only [GaussState.advance]; omega
    · simp only [GaussState.advance]; omega
    · simp only [GaussState.advance]; omega
    · left; simp [GaussState.advance]

theorem bytes_four (st : GaussState) : st.bytes 4 = (st.bytes 8).take 4 := by
  simp [GaussState.bytes, List.take_take]

/-! ## The machine -/

variable {F : Type} (O : FloatOps F) (sigma : F) (bound : UInt64)

/-- the states: at the top of `normFloat64`; in the loop for the base strip before the first and before the second
read; before the read for another strip -/
inductive GaussQ (F : Type)
  | top
  | tail1 (sign : Bool)
  | tail2 (sign : Bool) (x : F)
  | strip (sign : Bool) (x : F) (i : ℕ)

/-- accept or reject the value of `normFloat64` -/
def gaussFinish (x : F) (sign : Bool) : GaussQ F ⊕ ℤ :=
  let c := O.toU64 (O.mulAdd (O.lit 0.5) x sigma)
  if c ≤ bound then .inr (gaussInt (c, sign)) else .inl .top

def gaussStep : GaussQ F → (Fin 8 → UInt8) → GaussQ F ⊕ ℤ
  | .top, b =>
    let ju := (beUint ((List.ofFn b).take 4)).toNat
    let j := ju &&& 0x7fffffff
    let sign : Bool := ju >>> 31 = 1
    let i := j &&& 0x7F
    let x := O.mul (O.ofNat j) (O.lit32 (zigW.getD i 0))
    if j < zigK.getD i 0 then gaussFinish O sigma bound x sign
    else if i = 0 then .inl (.tail1 sign)
    else .inl (.strip sign x i)
  | .tail1 sign, b =>
    .inl (.tail2 sign (O.mul (O.neg (O.log (randFloat64 O (List.ofFn b)))) (O.lit (1 / 3.442619855899))))
  | .tail2 sign x, b =>
    let y := O.neg (O.log (randFloat64 O (List.ofFn b)))
    if O.ge (O.add y y) (O.mul x x) then gaussFinish O sigma bound (O.add x (O.lit 3.442619855899)) sign
    else .inl (.tail1 sign)
  | .strip sign x i, b =>
    let f := fun k => O.lit32 (zigF.getD k 0)
    if O.lt32 (O.mulAdd32 (f i) (O.to32 (randFloat64 O (List.ofFn b))) (O.sub32 (f (i - 1)) (f i)))
        (O.to32 (O.exp (O.mul (O.mul (O.lit (-0.5)) x) x)))
    then gaussFinish O sigma bound x sign
    else .inl .top

/-- the machine run with some allowance -/
def GaussRun (q : GaussQ F) (s : ℕ → UInt8) (v : ℤ) (L : ℕ) : Prop := ∃ k, runM (gaussStep O sigma bound) k q s = some (v, L)

theorem gaussRun_iff {q : GaussQ F} {s : ℕ → UInt8} {v : ℤ} {L : ℕ} : GaussRun O sigma bound q s v L ↔
    match gaussStep O sigma bound q (prefixOf 8 s) with
    | .inr w => w = v ∧ L = 8
    | .inl q' => ∃ M, L = 8 + M ∧ GaussRun O sigma bound q' (dropBytes 8 s) v M := by
  constructor
  · rintro ⟨k, h⟩
    cases k with
    | zero => simp [runM] at h
    | succ k =>
      rw [runM] at h
      cases hs : gaussStep O sigma bound q (prefixOf 8 s) with
      | inr w =>
        rw [hs] at h
        simp only [Option.some.injEq, Prod.mk.injEq] at h ⊢
        exact ⟨h.1, h.2.symm⟩
      | inl q' =>
        rw [hs] at h
        simp only [Option.map_eq_some_iff, Prod.mk.injEq] at h ⊢
        obtain ⟨⟨w, M⟩, h1, h2, h3⟩ := h
        simp only at h2 h3
        subst h2
        exact ⟨M, h3.symm, k, h1⟩
  · intro h
    cases hs : gaussStep O sigma bound q (prefixOf 8 s) with
    | inr w =>
      rw [hs] at h
      simp only at h
      refine ⟨1, ?_⟩
      rw [runM, hs]
      simp [h.1, h.2]
    | inl q' =>
      rw [hs] at h
      simp only at h
      obtain ⟨M, h1, k, h2⟩ := h
      refine ⟨k + 1, ?_⟩
      rw [runM, hs]
      simp [h2, h1]

/-! ## From the model to the machine -/

theorem gaussTail_run {s : ℕ → UInt8} {P : ℕ} {sign : Bool} {fuel : ℕ} : ∀ {a : ℕ} {st st' : GaussState} {x : F},
    GaussAt s P a st → gaussTail O fuel st = some (x, st') → ∃ a', GaussAt s P a' st' ∧ a ≤ a' ∧
      ∀ v M, (match gaussFinish O sigma bound (O.add x (O.lit 3.442619855899)) sign with
        | .inr w => w = v ∧ M = 0
        | .inl q' => GaussRun O sigma bound q' (dropBytes a' s) v M) →
        GaussRun O sigma bound (.tail1 sign) (dropBytes a s) v (a' - a + M) := by
  induction fuel with
  | zero => intro a st st' x _ h; simp [gaussTail] at h
  | succ fuel ih =>
    intro a st st' x hst h
    obtain ⟨e1, hst1⟩ := hst.next
    obtain ⟨e2, hst2⟩ := hst1.next
    rw [gaussTail] at h
    simp only [e1, e2] at h
    by_cases hc : O.ge (O.add (O.neg (O.log (randFloat64 O (List.ofFn (prefixOf 8 (dropBytes (a + 8) s))))))
        (O.neg (O.log (randFloat64 O (List.ofFn (prefixOf 8 (dropBytes (a + 8) s)))))))
        (O.mul (O.mul (O.neg (O.log (randFloat64 O (List.ofFn (prefixOf 8 (dropBytes a s)))))) (O.lit (1 / 3.442619855899)))
          (O.mul (O.neg (O.log (randFloat64 O (List.ofFn (prefixOf 8 (dropBytes a s)))))) (O.lit (1 / 3.442619855899)))) = true
    · rw [if_pos hc] at h
      simp only [Option.some.injEq, Prod.mk.injEq] at h
      obtain ⟨rfl, rfl⟩ := h
      refine ⟨a + 8 + 8, hst2, by omega, fun v M hM => ?_⟩
      rw [gaussRun_iff]
      refine ⟨8 + M, by omega, ?_⟩
      rw [dropBytes_dropBytes, gaussRun_iff, gaussStep]
      simp only [hc, if_true]
      revert hM
      cases gaussFinish O sigma bound _ sign with
      | inr w => rintro ⟨h1, h2⟩; exact ⟨h1, by omega⟩
      | inl q' => intro h1; exact ⟨M, rfl, by rw [dropBytes_dropBytes]; exact h1⟩
    · rw [if_neg hc] at h
      obtain ⟨a', h1, h2, h3⟩ := ih hst2 h
      refine ⟨a', h1, by omega, fun v M hM => ?_⟩
      rw [gaussRun_iff]
      refine ⟨8 + (a' - (a + 8 + 8) + M), by omega, ?_⟩
      rw [dropBytes_dropBytes, gaussRun_iff, gaussStep]
      simp only [hc, if_false, Bool.false_eq_true]
      refine ⟨_, rfl, ?_⟩
      rw [dropBytes_dropBytes]
      exact h3 v M hM

theorem normFloat64_run {s : ℕ → UInt8} {P : ℕ} {fuel : ℕ} : ∀ {a : ℕ} {st st' : GaussState} {x : F} {sign : Bool},
    GaussAt s P a st → normFloat64 O fuel st = some ((x, sign), st') → ∃ a', GaussAt s P a' st' ∧ a ≤ a' ∧
      ∀ v M, (match gaussFinish O sigma bound x sign with
        | .inr w => w = v ∧ M = 0
        | .inl q' => GaussRun O sigma bound q' (dropBytes a' s) v M) →
        GaussRun O sigma bound .top (dropBytes a s) v (a' - a + M) := by
  induction fuel with
  | zero => intro a st st' x sign _ h; simp [normFloat64] at h
  | succ fuel ih =>
    intro a st st' x sign hst h
    obtain ⟨e1, hst1⟩ := hst.next
    obtain ⟨e2, hst2⟩ := hst1.next
    rw [normFloat64] at h
    simp only [bytes_four, e1] at h
    set ju := (beUint ((List.ofFn (prefixOf 8 (dropBytes a s))).take 4)).toNat with hju
    by_cases hc : ju &&& 0x7fffffff < zigK.getD (ju &&& 0x7fffffff &&& 0x7F) 0
    · rw [if_pos hc] at h
      simp only [Option.some.injEq, Prod.mk.injEq] at h
      obtain ⟨⟨rfl, rfl⟩, rfl⟩ := h
      refine ⟨a + 8, hst1, by omega, fun v M hM => ?_⟩
      rw [gaussRun_iff, gaussStep]
      simp only [← hju, hc, if_true]
      revert hM
      cases gaussFinish O sigma bound _ _ with
      | inr w => rintro ⟨h1, h2⟩; exact ⟨h1, by omega⟩
      | inl q' => intro h1; exact ⟨M, by omega, by rw [dropBytes_dropBytes]; exact h1⟩
    · rw [if_neg hc] at h
      by_cases hi : ju &&& 0x7fffffff &&& 0x7F = 0
      · rw [if_pos hi, Option.map_eq_some_iff] at h
        obtain ⟨⟨y, st2⟩, h1, h2⟩ := h
        simp only [Prod.mk.injEq] at h2
        obtain ⟨⟨rfl, rfl⟩, rfl⟩ := h2
        obtain ⟨a', h3, h4, h5⟩ := gaussTail_run O sigma bound (sign := decide (ju >>> 31 = 1)) hst1 h1
        refine ⟨a', h3, by omega, fun v M hM => ?_⟩
        rw [gaussRun_iff, gaussStep]
        simp only [← hju, if_neg hc, if_pos hi]
        refine ⟨_, ?_, by rw [dropBytes_dropBytes]; exact h5 v M hM⟩
        omega
      · rw [if_neg hi] at h
        simp only [e2] at h
        split at h
        · rename_i hacc
          simp only [Option.some.injEq, Prod.mk.injEq] at h
          obtain ⟨⟨rfl, rfl⟩, rfl⟩ := h
          refine ⟨a + 8 + 8, hst2, by omega, fun v M hM => ?_⟩
          rw [gaussRun_iff, gaussStep]
          simp only [← hju, if_neg hc, if_neg hi]
          refine ⟨8 + M, by omega, ?_⟩
          rw [dropBytes_dropBytes, gaussRun_iff, gaussStep]
          simp only [hacc, if_true]
          revert hM
          cases gaussFinish O sigma bound _ _ with
          | inr w => rintro ⟨h1, h2⟩; exact ⟨h1, by omega⟩
          | inl q' => intro h1; exact ⟨M, rfl, by rw [dropBytes_dropBytes]; exact h1⟩
        · rename_i hacc
          obtain ⟨a', h1, h2, h3⟩ := ih hst2 h
          refine ⟨a', h1, by omega, fun v M hM => ?_⟩
          rw [gaussRun_iff, gaussStep]
          simp only [← hju, if_neg hc, if_neg hi]
          refine ⟨8 + (a' - (a + 8 + 8) + M), by omega, ?_⟩
          rw [dropBytes_dropBytes, gaussRun_iff, gaussStep]
          simp only [hacc, if_false, Bool.false_eq_true]
          exact ⟨_, rfl, by rw [dropBytes_dropBytes]; exact h3 v M hM⟩

theorem gaussCoeff_run {s : ℕ → UInt8} {P : ℕ} {fuel : ℕ} : ∀ {a : ℕ} {st st' : GaussState} {g : UInt64 × Bool},
    GaussAt s P a st → gaussCoeff O sigma bound fuel st = some (g, st') → g.1 ≤ bound ∧ ∃ L, GaussAt s P (a + L) st' ∧
      GaussRun O sigma bound .top (dropBytes a s) (gaussInt g) L := by
  induction fuel with
  | zero => intro a st st' g _ h; simp [gaussCoeff] at h
  | succ fuel ih =>
    intro a st st' g hst h
    rw [gaussCoeff, Option.bind_eq_some_iff] at h
    obtain ⟨⟨⟨x, sign⟩, st1⟩, h1, h2⟩ := h
    obtain ⟨a', h3, h4, h5⟩ := normFloat64_run O sigma bound hst h1
    simp only at h2
    by_cases hc : O.toU64 (O.mulAdd (O.lit 0.5) x sigma) ≤ bound
    · rw [if_pos hc] at h2
      simp only [Option.some.injEq, Prod.mk.injEq] at h2
      obtain ⟨rfl, rfl⟩ := h2
      refine ⟨hc, a' - a, by rw [Nat.add_sub_cancel' h4]; exact h3, ?_⟩
      have := h5 (gaussInt (O.toU64 (O.mulAdd (O.lit 0.5) x sigma), sign)) 0
      simp only [gaussFinish, if_pos hc] at this
      exact this ⟨trivial, trivial⟩
    · rw [if_neg hc] at h2
      obtain ⟨h6, L, h7, h8⟩ := ih h3 h2
      refine ⟨h6, a' - a + L, by rw [← add_assoc, Nat.add_sub_cancel' h4]; exact h7, ?_⟩
      have := h5 (gaussInt g) L
      simp only [gaussFinish, if_neg hc] at this
      exact this h8

/-! ## From the machine to the model -/

theorem gaussTail_mono {fuel : ℕ} : ∀ {fuel' : ℕ} {st : GaussState} {x : F × GaussState}, fuel ≤ fuel' →
    gaussTail O fuel st = some x → gaussTail O fuel' st = some x := by
  induction fuel with
  | zero => intro f st x _ h; simp [gaussTail] at h
  | succ fuel ih =>
    intro f st x hf h
    obtain ⟨f, rfl⟩ : ∃ g, f = g + 1 := ⟨f - 1, by omega⟩
    rw [gaussTail] at h ⊢
    split at h
    · rename_i hc; rw [if_pos hc]; exact h
    · rename_i hc; rw [if_neg hc]; exact ih (by omega) h

theorem normFloat64_mono {fuel : ℕ} : ∀ {fuel' : ℕ} {st : GaussState} {x : (F × Bool) × GaussState}, fuel ≤ fuel' →
    normFloat64 O fuel st = some x → normFloat64 O fuel' st = some x := by
  induction fuel with
  | zero => intro f st x _ h; simp [normFloat64] at h
  | succ fuel ih =>
    intro f st x hf h
    obtain ⟨f, rfl⟩ : ∃ g, f = g + 1 := ⟨f - 1, by omega⟩
    rw [normFloat64] at h ⊢
    simp only at h ⊢
    split at h
    · rename_i hc; rw [if_pos hc]; exact h
    · rename_i hc
      rw [if_neg hc]
      split at h
      · rename_i hi
        rw [if_pos hi]
        rw [Option.map_eq_some_iff] at h ⊢
        obtain ⟨y, h1, h2⟩ := h
        exact ⟨y, gaussTail_mono O (by omega) h1, h2⟩
      · rename_i hi
        rw [if_neg hi]
        split at h
        · rename_i ha; rw [if_pos ha]; exact h
        · rename_i ha; rw [if_neg ha]; exact ih (by omega) h

theorem gaussCoeff_mono {fuel : ℕ} : ∀ {fuel' : ℕ} {st : GaussState} {x : (UInt64 × Bool) × GaussState}, fuel ≤ fuel' →
    gaussCoeff O sigma bound fuel st = some x → gaussCoeff O sigma bound fuel' st = some x := by
  induction fuel with
  | zero => intro f st x _ h; simp [gaussCoeff] at h
  | succ fuel ih =>
    intro f st x hf h
    obtain ⟨f, rfl⟩ : ∃ g, f = g + 1 := ⟨f - 1, by omega⟩
    rw [gaussCoeff, Option.bind_eq_some_iff] at h ⊢
    obtain ⟨y, h1, h2⟩ := h
    refine ⟨y, normFloat64_mono O (by omega) h1, ?_⟩
    simp only at h2 ⊢
    split at h2
    · rename_i hc; rw [if_pos hc]; exact h2
    · rename_i hc; rw [if_neg hc]; exact ih (by omega) h2

theorem gaussCoeffs_mono {fuel fuel' : ℕ} (hf : fuel ≤ fuel') (cnt : ℕ) : ∀ {st : GaussState}
    {x : List (UInt64 × Bool) × GaussState}, gaussCoeffs O sigma bound fuel cnt st = some x →
    gaussCoeffs O sigma bound fuel' cnt st = some x := by
  induction cnt with
  | zero => intro st x h; exact h
  | succ cnt ih =>
    intro st x h
    rw [gaussCoeffs, Option.bind_eq_some_iff] at h
    obtain ⟨a, ha, h⟩ := h
    rw [Option.bind_eq_some_iff] at h
    obtain ⟨b, hb, h⟩ := h
    rw [gaussCoeffs, gaussCoeff_mono O sigma bound hf ha, Option.bind_some, ih hb, Option.bind_some, h]

/-- what the model does from the place that corresponds to a state of the machine -/
def GaussGoal (v : ℤ) (P' : GaussState → Prop) (st : GaussState) : GaussQ F → Prop
  | .top => ∃ fuel g st', gaussCoeff O sigma bound fuel st = some (g, st') ∧ gaussInt g = v ∧ P' st'
  | .tail1 sign => ∃ fuel x st1, gaussTail O fuel st = some (x, st1) ∧
      ∃ fuel g st', (let c := O.toU64 (O.mulAdd (O.lit 0.5) (O.add x (O.lit 3.442619855899)) sigma)
        if c ≤ bound then some ((c, sign), st1) else gaussCoeff O sigma bound fuel st1) = some (g, st') ∧
      gaussInt g = v ∧ P' st'
  | .tail2 sign x => ∃ fuel x' st1, (let st := st.fill
      let y := O.neg (O.log (randFloat64 O (st.bytes 8)))
      if O.ge (O.add y y) (O.mul x x) then some (x, st.advance) else gaussTail O fuel st.advance) = some (x', st1) ∧
      ∃ fuel g st', (let c := O.toU64 (O.mulAdd (O.lit 0.5) (O.add x' (O.lit 3.442619855899)) sigma)
        if c ≤ bound then some ((c, sign), st1) else gaussCoeff O sigma bound fuel st1) = some (g, st') ∧
      gaussInt g = v ∧ P' st'
  | .strip sign x i => ∃ fuel a, (let st := st.fill
      let f := fun k => O.lit32 (zigF.getD k 0)
      if O.lt32 (O.mulAdd32 (f i) (O.to32 (randFloat64 O (st.bytes 8))) (O.sub32 (f (i - 1)) (f i)))
          (O.to32 (O.exp (O.mul (O.mul (O.lit (-0.5)) x) x)))
      then some ((x, sign), st.advance)
      else normFloat64 O fuel st.advance) = some a ∧
      ∃ fuel g st', (let c := O.toU64 (O.mulAdd (O.lit 0.5) a.1.1 sigma)
        if c ≤ bound then some ((c, a.1.2), a.2) else gaussCoeff O sigma bound fuel a.2) = some (g, st') ∧
      gaussInt g = v ∧ P' st'

/-- one successful `normFloat64` and what follows make one coefficient -/
theorem gaussCoeff_of {v : ℤ} {P' : GaussState → Prop} {st : GaussState} {fuel : ℕ} {a : (F × Bool) × GaussState}
    (h : normFloat64 O fuel st = some a) {fuel' : ℕ} {g : UInt64 × Bool} {st' : GaussState}
    (h' : (let c := O.toU64 (O.mulAdd (O.lit 0.5) a.1.1 sigma)
      if c ≤ bound then some ((c, a.1.2), a.2) else gaussCoeff O sigma bound fuel' a.2) = some (g, st'))
    (hv : gaussInt g = v) (hP : P' st') :
    ∃ fuel g st', gaussCoeff O sigma bound fuel st = some (g, st') ∧ gaussInt g = v ∧ P' st' := by
  refine ⟨max fuel fuel' + 1, g, st', ?_, hv, hP⟩
  rw [gaussCoeff, normFloat64_mono O (le_max_left _ _) h, Option.bind_some]
  simp only at h' ⊢
  split at h'
  · rename_i hc; rw [if_pos hc]; exact h'
  · rename_i hc; rw [if_neg hc]; exact gaussCoeff_mono O sigma bound (le_max_right _ _) h'

/-- a coefficient is one successful `normFloat64` and what follows -/
theorem gaussCoeff_split {v : ℤ} {P' : GaussState → Prop} {st : GaussState}
    (h : ∃ fuel g st', gaussCoeff O sigma bound fuel st = some (g, st') ∧ gaussInt g = v ∧ P' st') :
    ∃ fuel a, normFloat64 O fuel st = some a ∧
      ∃ fuel g st', (let c := O.toU64 (O.mulAdd (O.lit 0.5) a.1.1 sigma)
        if c ≤ bound then some ((c, a.1.2), a.2) else gaussCoeff O sigma bound fuel a.2) = some (g, st') ∧
        gaussInt g = v ∧ P' st' := by
  obtain ⟨fuel, g, st', h1, h2, h3⟩ := h
  cases fuel with
  | zero => simp [gaussCoeff] at h1
  | succ fuel =>
    rw [gaussCoeff, Option.bind_eq_some_iff] at h1
    obtain ⟨a, h4, h5⟩ := h1
    exact ⟨fuel, a, h4, fuel, g, st', h5, h2, h3⟩

/-- the end of a value of `normFloat64`, in the machine and in the model -/
theorem gaussFinish_goal {s : ℕ → UInt8} {P a : ℕ} {v : ℤ} {M : ℕ} {x : F} {sign : Bool} {st1 : GaussState}
    {R : GaussQ F → Prop} (hst : GaussAt s P a st1)
    (h : Sum.elim R (fun w => w = v ∧ M = 0) (gaussFinish O sigma bound x sign))
    (ih : R .top → GaussGoal O sigma bound v (GaussAt s P (a + M)) st1 .top) :
    ∃ fuel g st', (let c := O.toU64 (O.mulAdd (O.lit 0.5) x sigma)
        if c ≤ bound then some ((c, sign), st1) else gaussCoeff O sigma bound fuel st1) = some (g, st') ∧
        gaussInt g = v ∧ GaussAt s P (a + M) st' := by
  unfold gaussFinish at h
  simp only at h ⊢
  by_cases hc : O.toU64 (O.mulAdd (O.lit 0.5) x sigma) ≤ bound
  · rw [if_pos hc] at h
    simp only [Sum.elim_inr] at h
    refine ⟨0, _, _, by rw [if_pos hc], h.1, ?_⟩
    rw [h.2]
    exact hst
  · rw [if_neg hc] at h
    obtain ⟨fuel, g, st', h1, h2⟩ := ih h
    exact ⟨fuel, g, st', by rw [if_neg hc]; exact h1, h2⟩

theorem gaussRun_goal {s : ℕ → UInt8} {P : ℕ} {v : ℤ} {k : ℕ} : ∀ {q : GaussQ F} {a L : ℕ} {st : GaussState},
    GaussAt s P a st → runM (gaussStep O sigma bound) k q (dropBytes a s) = some (v, L) →
    GaussGoal O sigma bound v (GaussAt s P (a + L)) st q := by
  induction k with
  | zero => intro q a L st _ h; simp [runM] at h
  | succ k ih =>
    intro q a L st hst h
    obtain ⟨e1, hst1⟩ := hst.next
    obtain ⟨M, hL, h'⟩ := runM_succ _ h
    clear h
    rename' h' => h
    rw [hL, ← add_assoc]
    rw [dropBytes_dropBytes] at h
    have iht := ih (q := .top) (a := a + 8) (L := M) hst1
    cases q with
    | top =>
      rw [gaussStep] at h
      set ju := (beUint ((List.ofFn (prefixOf 8 (dropBytes a s))).take 4)).toNat with hju
      by_cases hc : ju &&& 0x7fffffff < zigK.getD (ju &&& 0x7fffffff &&& 0x7F) 0
      · rw [if_pos hc] at h
        obtain ⟨fuel, g, st', h1, h2, h3⟩ := gaussFinish_goal O sigma bound (x := O.mul (O.ofNat (ju &&& 0x7fffffff)) (O.lit32 (zigW.getD (ju &&& 0x7fffffff &&& 0x7F) 0))) (sign := decide (ju >>> 31 = 1))
          (R := fun q' => runM (gaussStep O sigma bound) k q' (dropBytes (a + 8) s) = some (v, M)) hst1 h iht
        refine gaussCoeff_of O sigma bound (fuel := 1) (a := ((_, _), _)) ?_ h1 h2 h3
        rw [normFloat64]
        simp only [bytes_four, e1, ← hju, if_pos hc]
        rfl
      · rw [if_neg hc] at h
        by_cases hi : ju &&& 0x7fffffff &&& 0x7F = 0
        · rw [if_pos hi] at h
          obtain ⟨fuel, x, st2, h1, fuel', g, st', h2, h3, h4⟩ := ih hst1 h
          refine gaussCoeff_of O sigma bound (fuel := fuel + 1) (a := ((_, _), _)) ?_ h2 h3 h4
          rw [normFloat64]
          simp only [bytes_four, e1, ← hju, if_neg hc, if_pos hi, h1, Option.map_some]
          rfl
        · rw [if_neg hi] at h
          obtain ⟨fuel, b, h1, fuel', g, st', h2, h3, h4⟩ := ih hst1 h
          refine gaussCoeff_of O sigma bound (fuel := fuel + 1) (a := b) ?_ h2 h3 h4
          rw [normFloat64]
          simp only [bytes_four, e1, ← hju, if_neg hc, if_neg hi]
          exact h1
    | tail1 sign =>
      rw [gaussStep] at h
      obtain ⟨fuel, x, st2, h1, h2⟩ := ih hst1 h
      refine ⟨fuel + 1, x, st2, ?_, h2⟩
      rw [gaussTail]
      simp only [e1]
      exact h1
    | tail2 sign x =>
      rw [gaussStep] at h
      try simp only at h
      split_ifs at h with hc
      · have h1 := gaussFinish_goal O sigma bound (x := O.add x (O.lit 3.442619855899)) (sign := sign)
          (R := fun q' => runM (gaussStep O sigma bound) k q' (dropBytes (a + 8) s) = some (v, M)) hst1 h iht
        refine ⟨0, x, st.fill.advance, ?_, h1⟩
        simp only [e1, hc, if_true]
      · obtain ⟨fuel, x', st2, h1, h2⟩ := ih hst1 h
        refine ⟨fuel, x', st2, ?_, h2⟩
        simp only [e1, hc, if_false, Bool.false_eq_true]
        exact h1
    | strip sign x i =>
      rw [gaussStep] at h
      try simp only at h
      split_ifs at h with hc
      · have h1 := gaussFinish_goal O sigma bound (x := x) (sign := sign)
          (R := fun q' => runM (gaussStep O sigma bound) k q' (dropBytes (a + 8) s) = some (v, M)) hst1 h iht
        refine ⟨0, ((x, sign), st.fill.advance), ?_, h1⟩
        simp only [e1, hc, if_true]
      · obtain ⟨fuel, b, h1, h2⟩ := gaussCoeff_split O sigma bound (iht h)
        refine ⟨fuel, b, ?_, h2⟩
        simp only [e1, hc, if_false, Bool.false_eq_true]
        exact h1

end FastKsw
