import Verif.Model.Prng
import Mathlib.Logic.Function.Iterate
import Mathlib.Tactic.Ring

/-!
# C47: the keyed PRNG
-/

namespace FastKsw.Props

/-- one call: `Clock` with a buffer of `len` bytes, or `SetClock` with such a buffer and target `n` -/
inductive PrngCall
  | clock (len : ℕ)
  | setClock (len : ℕ) (n : UInt64)

/-- state after a call; a `SetClock` that fails changes nothing -/
def PrngCall.run (p : Prng) : PrngCall → Prng
  | .clock len => (p.read len).2
  | .setClock len n => match p.setClock (List.replicate len 0) n with
    | none => p
    | some r => r.2

/-- number of bytes clocked by a history that starts with the clock at `c` -/
def bytesClocked (c : UInt64) : List PrngCall → ℕ
  | [] => 0
  | .clock len :: cs => len + bytesClocked (c + 1) cs
  | .setClock len n :: cs =>
    if c ≤ n then (n.toNat - c.toNat) * len + bytesClocked n cs else bytesClocked c cs

theorem read_length (p : Prng) (len : ℕ) : (p.read len).1.length = len := by simp [Prng.read]

/-- **C47.** The loop of `SetClock` is `n - clock` calls of `Clock` with the same buffer. -/
theorem setClockLoop_eq (m : ℕ) : ∀ (n : UInt64) (sum : List UInt8) (p : Prng), p.clock ≤ n →
    n.toNat - p.clock.toNat = m →
    p.setClockLoop n sum = (fun s : List UInt8 × Prng => s.2.read sum.length)^[m] (sum, p) := by
  induction m with
  | zero =>
    intro n sum p hle hm
    have : p.clock = n := UInt64.toNat_inj.1 (by have := UInt64.le_iff_toNat_le.1 hle; omega)
    rw [Prng.setClockLoop, dif_pos this]
    rfl
  | succ m ih =>
    intro n sum p hle hm
    have hne : p.clock ≠ n := fun e => by rw [e] at hm; omega
    have h1 := UInt64.le_iff_toNat_le.1 hle
    have h2 := n.toNat_lt
    have h3 : ((p.read sum.length).2.clock).toNat = p.clock.toNat + 1 := by
      show (p.clock + 1).toNat = _
      rw [UInt64.toNat_add, show (1 : UInt64).toNat = 1 from rfl]
      omega
    rw [Prng.setClockLoop, dif_neg hne]
    show (p.read sum.length).2.setClockLoop n (p.read sum.length).1 = _
    rw [ih n _ _ (UInt64.le_iff_toNat_le.2 (by omega)) (by omega), read_length, Function.iterate_succ_apply]

theorem iterate_read (p : Prng) (sum : List UInt8) (len m : ℕ) :
    ((fun s : List UInt8 × Prng => s.2.read len)^[m] (sum, p)).2
      = ⟨p.stream, p.pos + m * len, p.clock + UInt64.ofNat m⟩ := by
  induction m with
  | zero => simp
  | succ m ih =>
    rw [Function.iterate_succ_apply', Prng.read, ih]
    simp only [Prng.mk.injEq, true_and]
    constructor
    · ring
    · apply UInt64.toNat_inj.1
      simp only [UInt64.toNat_add, UInt64.toNat_ofNat', show (1 : UInt64).toNat = 1 from rfl]
      omega

/-- **C47 (SetClock).** `SetClock` fails exactly when the target is below the current clock; otherwise it gives
the state, and the buffer content, of `n - clock` calls of `Clock` with that buffer. -/
theorem C47_setClock (p : Prng) (sum : List UInt8) (n : UInt64) :
    (p.setClock sum n = none ↔ n < p.clock) ∧
    (p.clock ≤ n → p.setClock sum n
      = some ((fun s : List UInt8 × Prng => s.2.read sum.length)^[n.toNat - p.clock.toNat] (sum, p))) := by
  unfold Prng.setClock
  constructor
  · split
    · simpa using ‹_›
    · simpa using UInt64.not_lt.1 ‹_›
  · intro h
    rw [if_neg (UInt64.not_lt.2 h), setClockLoop_eq _ n sum p h rfl]

/-- **C47 (SetClock on a new PRNG).** The state is that after exactly `n` calls of `Clock`, and reports clock
`n`. -/
theorem C47_fresh (xof : List UInt8 → ℕ → UInt8) (key sum : List UInt8) (n : UInt64) :
    ∃ out, (newKeyedPRNG xof key).setClock sum n
      = some (out, (PrngCall.run · (.clock sum.length))^[n.toNat] (newKeyedPRNG xof key)) ∧
      ((PrngCall.run · (.clock sum.length))^[n.toNat] (newKeyedPRNG xof key)).clock = n := by
  have h1 := (C47_setClock (newKeyedPRNG xof key) sum n).2 (UInt64.le_iff_toNat_le.2 (Nat.zero_le _))
  have h2 : ∀ (m : ℕ) (p : Prng), (PrngCall.run · (.clock sum.length))^[m] p
      = ((fun s : List UInt8 × Prng => s.2.read sum.length)^[m] (sum, p)).2 := by
    intro m p
    induction m with
    | zero => rfl
    | succ m ih => rw [Function.iterate_succ_apply', Function.iterate_succ_apply', ih]; rfl
  refine ⟨((fun s : List UInt8 × Prng => s.2.read sum.length)^[n.toNat] (sum, newKeyedPRNG xof key)).1, ?_, ?_⟩
  · rw [h1, h2]
    rfl
  · rw [h2, iterate_read]
    simp [newKeyedPRNG]

theorem run_pos (cs : List PrngCall) : ∀ p : Prng, (cs.foldl PrngCall.run p).stream = p.stream ∧
    (cs.foldl PrngCall.run p).pos = p.pos + bytesClocked p.clock cs := by
  induction cs with
  | nil => intro p; exact ⟨rfl, rfl⟩
  | cons c cs ih =>
    intro p
    obtain ⟨h1, h2⟩ := ih (PrngCall.run p c)
    rw [List.foldl_cons, h1, h2]
    cases c with
    | clock len => exact ⟨rfl, by simp only [PrngCall.run, Prng.read, bytesClocked]; ring⟩
    | setClock len n =>
      by_cases h : p.clock ≤ n
      · have e := (C47_setClock p (List.replicate len 0) n).2 h
        simp only [PrngCall.run, e, iterate_read, List.length_replicate, bytesClocked, if_pos h, true_and]
        have : p.clock + UInt64.ofNat (n.toNat - p.clock.toNat) = n := by
          apply UInt64.toNat_inj.1
          have h1 := UInt64.le_iff_toNat_le.1 h
          have h2 := n.toNat_lt
          rw [UInt64.toNat_add, UInt64.toNat_ofNat']
          omega
        rw [this]
        ring
      · have e := (C47_setClock p (List.replicate len 0) n).1.2 (UInt64.not_le.1 h)
        simp only [PrngCall.run, e, bytesClocked, if_neg h, true_and]

/-- **C47.** Two PRNGs with the same key whose histories of `Clock` and `SetClock` clocked the same number of
bytes return the same next bytes. -/
theorem C47_deterministic (xof : List UInt8 → ℕ → UInt8) (key : List UInt8) (cs ds : List PrngCall)
    (h : bytesClocked 0 cs = bytesClocked 0 ds) (len : ℕ) :
    ((cs.foldl PrngCall.run (newKeyedPRNG xof key)).read len).1
      = ((ds.foldl PrngCall.run (newKeyedPRNG xof key)).read len).1 := by
  obtain ⟨h1, h2⟩ := run_pos cs (newKeyedPRNG xof key)
  obtain ⟨h3, h4⟩ := run_pos ds (newKeyedPRNG xof key)
  simp only [Prng.read, h1, h2, h3, h4]
  rw [show (newKeyedPRNG xof key).clock = 0 from rfl, h]

/-- **C47 (streaming).** `Clock` on `a` then on `b` bytes returns the bytes of one `Clock` on `a + b`. -/
theorem C47_stream (p : Prng) (a b : ℕ) : (p.read a).1 ++ ((p.read a).2.read b).1 = (p.read (a + b)).1 := by
  simp [Prng.read, List.range_add, Function.comp_def, Nat.add_assoc]

/-- histories of different shape with the same number of bytes: five calls on 8 bytes, against a `SetClock` to 4
and one more call -/
example : bytesClocked 0 [.clock 8, .clock 8, .clock 8, .clock 8, .clock 8]
    = bytesClocked 0 [.setClock 8 4, .setClock 8 2, .clock 8] := by decide +kernel

end FastKsw.Props
