import Verif.Model.RingMore
import Verif.Props.ParamsLit
import Mathlib.Data.List.GetD
import Mathlib.Algebra.BigOperators.Group.Finset.Basic
import Mathlib.Tactic.NormNum.Prime

/-!
# C83, C84: derived rings and parameters, number of slots, serialization of rings
-/

namespace FastKsw.Props

open FastKsw

/-! ## Rings with the same moduli and the same root of unity -/

theorem genSub_q {fuel nthRoot : ℕ} {q : UInt64} {s : SubRing} (h : genSub fuel nthRoot q = some s) : s.q = q := by
  unfold genSub at h
  dsimp only at h
  rw [Option.bind_eq_some_iff] at h
  obtain ⟨g, -, h⟩ := h
  rw [← Option.some.inj h]

theorem newRingCustom_moduli {fuel N nthRoot : ℕ} {m : List UInt64} {ty : RingType} {r : Ring}
    (h : newRingCustom fuel N m ty nthRoot = .ok r) : r.moduli = m := by
  obtain ⟨-, -, -, -, -, -, -, -, -, hf⟩ := newRingCustom_ok h
  unfold Ring.moduli
  clear h
  generalize r.subs = l at hf ⊢
  induction hf with
  | nil => rfl
  | cons a _ ih => rw [List.map_cons, ih, genSub_q a]

/-- degree and type do not enter the tables -/
theorem newRingCustom_change {fuel N nthRoot : ℕ} {m : List UInt64} {ty : RingType} {r : Ring}
    (h : newRingCustom fuel N m ty nthRoot = .ok r) {N' : ℕ} (ty' : RingType)
    (hN : ¬ (N' < 16 ∨ (Nat.land N' (N' - 1) ≠ 0 ∧ N' ≠ 0))) :
    newRingCustom fuel N' m ty' nthRoot = .ok { r with n := N', type := ty' } := by
  unfold newRingCustom at h ⊢
  rw [if_neg hN]
  split at h
  · cases h
  split at h
  · cases h
  rename_i h2
  rw [if_neg h2]
  split at h
  · cases h
  rename_i h3
  rw [if_neg h3]
  split at h
  · split at h <;> cases h
  split at h
  · cases h
  cases h
  rfl

theorem genNTTParams_of {fuel N nthRoot : ℕ} {m : List UInt64} {ty : RingType} {r r0 : Ring}
    (h : newRingCustom fuel N m ty nthRoot = .ok r) (h0 : r0.moduli = m) :
    Ring.genNTTParams fuel r0 nthRoot = .ok { r with n := r0.n, type := r0.type } := by
  unfold newRingCustom at h
  unfold Ring.genNTTParams
  rw [h0]
  split at h
  · cases h
  split at h
  · cases h
  split at h
  · cases h
  split at h
  · split at h <;> cases h
  rename_i e1
  split at h
  · cases h
  rename_i e2
  cases h
  rw [e1]
  dsimp only
  rw [e2]

theorem two_pow_degree {n : ℕ} (hn : 4 ≤ n) : ¬ (2 ^ n < 16 ∨ (Nat.land (2 ^ n) (2 ^ n - 1) ≠ 0 ∧ 2 ^ n ≠ 0)) := by
  have h1 : 2 ^ 4 ≤ 2 ^ n := Nat.pow_le_pow_right (by norm_num) hn
  have h2 : Nat.land (2 ^ n) (2 ^ n - 1) = 0 := by
    have := Nat.and_two_pow_sub_one_eq_mod (2 ^ n) n
    rw [Nat.mod_self] at this
    exact this
  omega

/-- **C83 (`ConjugateInvariantRing`, `StandardRing`).** From a standard ring of degree at least 32, `ConjugateInvariantRing`
returns the ring that `NewRingConjugateInvariant` builds for half the degree, and `StandardRing` of that is the ring
again.  Partial: false for degree 16 (`C83_rings_violated`). -/
theorem C83_rings_partial {fuel n : ℕ} {m : List UInt64} {r : Ring} (hn : 5 ≤ n) (h : newRing fuel (2 ^ n) m = .ok r) :
    ∃ r', r.conjugateInvariantRing fuel = .ok r' ∧ newRingConjugateInvariant fuel (2 ^ (n - 1)) m = .ok r' ∧
      r'.subs = r.subs ∧ r'.standardRing fuel = .ok r := by
  obtain ⟨k, rfl⟩ : ∃ k, n = k + 1 := ⟨n - 1, by omega⟩
  have hm := newRingCustom_moduli h
  obtain ⟨-, -, -, -, -, e1, e2, e3, -, -⟩ := newRingCustom_ok h
  have hd : 2 ^ (k + 1) / 2 = 2 ^ k := by rw [pow_succ]; omega
  have hc : 4 * 2 ^ k = 2 * 2 ^ (k + 1) := by ring
  refine ⟨{ r with n := 2 ^ k, type := .conjugateInvariant }, ?_, ?_, rfl, ?_⟩
  · unfold Ring.conjugateInvariantRing
    rw [if_neg (by rw [e3]; decide), e1, hd, mul_comm, hc,
      genNTTParams_of (r0 := { r with n := 2 ^ k, type := .conjugateInvariant }) h hm]
  · unfold newRingConjugateInvariant
    rw [Nat.add_sub_cancel, hc]
    exact newRingCustom_change h _ (two_pow_degree (by omega))
  · unfold Ring.standardRing
    rw [if_neg (show ¬ RingType.conjugateInvariant = .standard by decide)]
    dsimp only
    have : 2 ^ k * 2 * 2 = 2 * 2 ^ (k + 1) := by ring
    rw [this, genNTTParams_of (r0 := { r with n := 2 ^ k * 2, type := .standard }) h hm]
    dsimp only
    rw [← pow_succ, ← e1, ← e3]

/-- **C83 (violated: degree 16).** `ConjugateInvariantRing` of a ring of degree 16 returns, without error, a ring of degree
8, which `NewRingConjugateInvariant` refuses. -/
theorem C83_rings_violated {fuel : ℕ} {m : List UInt64} {r : Ring} (h : newRing fuel 16 m = .ok r) :
    (∃ r', r.conjugateInvariantRing fuel = .ok r' ∧ r'.n = 8 ∧ r'.type = .conjugateInvariant) ∧
      newRingConjugateInvariant fuel 8 m = .error .degree := by
  have hm := newRingCustom_moduli h
  obtain ⟨-, -, -, -, -, e1, e2, e3, -, -⟩ := newRingCustom_ok h
  refine ⟨⟨{ r with n := 8, type := .conjugateInvariant }, ?_, rfl, rfl⟩, by unfold newRingConjugateInvariant newRingCustom; simp⟩
  unfold Ring.conjugateInvariantRing
  rw [if_neg (by rw [e3]; decide), e1]
  exact genNTTParams_of (r0 := { r with n := 8, type := .conjugateInvariant }) h hm

/-! ## Parameters -/

section
variable {fuel logN : ℕ} {q p : List UInt64} {h : ℕ} {sigma : UInt64} {ty : RingType} {P : RParams}

/-- the rings of accepted parameters -/
theorem newParameters_rings (hP : newParameters fuel logN q p h sigma ty = .ok P) :
    newRingFromType fuel (2 ^ logN) q ty = .ok P.ringQ ∧
      (p = [] ∧ P.ringP = none ∨ p ≠ [] ∧ ∃ rP, P.ringP = some rP ∧ newRingFromType fuel (2 ^ logN) p ty = .ok rP) := by
  unfold newParameters at hP
  split at hP
  · cases hP
  split at hP
  · cases hP
  split at hP
  · cases hP
  rename_i rQ hQ
  split at hP
  · rename_i hp
    split at hP
    · cases hP
    · rename_i rP hrP
      cases hP
      exact ⟨hQ, Or.inr ⟨fun h => hp (by rw [h]; rfl), rP, rfl, hrP⟩⟩
  · rename_i hp
    cases hP
    exact ⟨hQ, Or.inl ⟨List.length_eq_zero_iff.1 (not_not.1 hp), rfl⟩⟩

/-- the logarithm of the largest number of slots -/
def mostSlots : RingType → ℕ → ℤ
  | .standard, n => n - 1
  | .conjugateInvariant, n => n

/-- **C83 (number of slots).** For accepted generic parameters, `ckks.NewParameters` accepts exactly the numbers of slots
up to half the degree (the degree, for a conjugate-invariant ring), and otherwise returns an error. -/
theorem C83_slots (hP : newParameters fuel logN q p h sigma ty = .ok P) (logSlots : ℤ) (scale : UInt64) :
    (0 ≤ logSlots ∧ logSlots ≤ mostSlots ty logN → ckksNewParameters P logSlots scale = .ok ⟨P, logSlots, scale⟩) ∧
    (¬ (0 ≤ logSlots ∧ logSlots ≤ mostSlots ty logN) → ckksNewParameters P logSlots scale = .err) := by
  obtain ⟨a1, -, -, -, -, a6, l1, l2, -⟩ := newParameters_fields hP
  have hz : P.equals .zero = .ok false := by
    unfold RParams.equals
    have : (P.logN == RParams.zero.logN) = false := by
      rw [beq_eq_false_iff_ne, a1]; show logN ≠ 0; omega
    rw [this]
    rfl
  have hroot : (len64 P.ringQ.nthRoot : ℤ) - 3 = mostSlots ty logN := by
    have hr := (newParameters_rings hP).1
    cases ty
    · have := (newRingCustom_ok hr).2.2.2.2.2.2.1
      rw [this, show 2 * 2 ^ logN = 2 ^ (logN + 1) by ring, len64_two_pow]
      unfold mostSlots
      push_cast
      ring
    · have := (newRingCustom_ok hr).2.2.2.2.2.2.1
      rw [this, show 4 * 2 ^ logN = 2 ^ (logN + 2) by ring, len64_two_pow]
      unfold mostSlots
      push_cast
      ring
  unfold ckksNewParameters minLogSlots
  rw [hz, Go.bind_ok, if_neg (by simp), hroot]
  constructor
  · rintro ⟨h1, h2⟩
    rw [if_neg (by omega)]
    rfl
  · intro hn
    rw [if_pos (by omega)]

/-- **C83 (slots of accepted parameters).** The number of slots divides the maximal one, and the encoder's test of the
number of slots (`0 ≤ logSlots ≤ MaxLogSlots`) holds. -/
theorem C83_maxSlots (hP : newParameters fuel logN q p h sigma ty = .ok P) {logSlots : ℤ} {scale : UInt64} {C : CParams}
    (hC : ckksNewParameters P logSlots scale = .ok C) :
    C.logSlots = logSlots ∧ 0 ≤ logSlots ∧ logSlots ≤ C.maxLogSlots ∧ C.slots ∣ C.maxSlots ∧
      (C.maxSlots : ℤ) = 2 ^ C.maxLogSlots.toNat := by
  obtain ⟨a1, -, -, -, -, a6, l1, l2, -⟩ := newParameters_fields hP
  obtain ⟨s1, s2⟩ := C83_slots hP logSlots scale
  have hb : 0 ≤ logSlots ∧ logSlots ≤ mostSlots ty logN := by
    by_contra hc
    rw [s2 hc] at hC
    cases hC
  rw [s1 hb] at hC
  cases hC
  have e1 : (CParams.mk P logSlots scale).maxLogSlots = mostSlots ty logN := by
    unfold CParams.maxLogSlots mostSlots
    rw [a6, a1]
    cases ty <;> rfl
  have e2 : (CParams.mk P logSlots scale).maxSlots = 2 ^ (CParams.mk P logSlots scale).maxLogSlots.toNat := by
    rw [e1]
    unfold CParams.maxSlots
    rw [a6, a1]
    unfold mostSlots
    cases ty
    · dsimp only
      rw [Nat.one_shiftLeft, Nat.shiftRight_eq_div_pow]
      obtain ⟨k, rfl⟩ : ∃ k, logN = k + 1 := ⟨logN - 1, by omega⟩
      have : ((k + 1 : ℕ) : ℤ) - 1 = k := by push_cast; ring
      rw [this, Int.toNat_natCast, pow_succ]
      omega
    · dsimp only
      rw [Nat.one_shiftLeft, Int.toNat_natCast]
  refine ⟨rfl, hb.1, by rw [e1]; exact hb.2, ?_, by rw [e2]; push_cast; rfl⟩
  rw [e2]
  unfold CParams.slots
  rw [Nat.one_shiftLeft]
  exact pow_dvd_pow 2 (by rw [e1]; dsimp only; have := hb.2; omega)

/-- **C83 (`StandardParameters`).** Of accepted conjugate-invariant parameters, the standard parameters exist: twice the
degree, the same moduli, and rings with the same tables as before. -/
theorem C83_standard (hP : newParameters fuel logN q p h sigma .conjugateInvariant = .ok P) :
    ∃ P', P.standardParameters fuel = .ok P' ∧ P'.logN = logN + 1 ∧ P'.qi = q ∧ P'.pi = p ∧ P'.h = h ∧ P'.sigma = sigma ∧
      P'.ringType = .standard ∧ newRing fuel (2 ^ (logN + 1)) q = .ok P'.ringQ ∧ P'.ringQ.subs = P.ringQ.subs ∧
      (p ≠ [] → ∃ rP, P'.ringP = some rP ∧ newRing fuel (2 ^ (logN + 1)) p = .ok rP) := by
  obtain ⟨a1, a2, a3, a4, a5, a6, l1, -⟩ := newParameters_fields hP
  obtain ⟨hQ, hp⟩ := newParameters_rings hP
  have hc : 4 * 2 ^ logN = 2 * 2 ^ (logN + 1) := by ring
  have up : ∀ {m : List UInt64} {r : Ring}, newRingFromType fuel (2 ^ logN) m .conjugateInvariant = .ok r →
      newRing fuel (2 ^ (logN + 1)) m = .ok { r with n := 2 ^ (logN + 1), type := .standard } := by
    intro m r hr
    unfold newRingFromType at hr
    dsimp only at hr
    rw [hc] at hr
    exact newRingCustom_change hr _ (two_pow_degree (by omega))
  have hQ' := up hQ
  unfold RParams.standardParameters RParams.initRings
  rw [a6]
  dsimp only
  have e0 : newRingFromType fuel (2 ^ (P.logN + 1)) P.qi .standard =
      .ok { P.ringQ with n := 2 ^ (logN + 1), type := .standard } := by rw [a1, a2]; exact hQ'
  rw [e0]
  dsimp only
  rcases hp with ⟨hp, hp'⟩ | ⟨hp, rP, hp', hrP⟩
  · rw [if_neg (by rw [a3, hp]; simp)]
    exact ⟨_, rfl, by rw [a1], a2, a3, a4, a5, rfl, hQ', rfl, fun h => absurd hp h⟩
  · have e1 : newRingFromType fuel (2 ^ (P.logN + 1)) P.pi .standard =
        .ok { rP with n := 2 ^ (logN + 1), type := .standard } := by rw [a1, a3]; exact up hrP
    rw [if_pos (by rw [a3]; exact fun h => hp (List.length_eq_zero_iff.1 h)), e1]
    exact ⟨_, rfl, by dsimp only; rw [a1], a2, a3, a4, a5, rfl, hQ', rfl, fun _ => ⟨_, rfl, up hrP⟩⟩

/-- **C83 (`StandardParameters` of ckks).** The number of slots of accepted conjugate-invariant parameters is accepted for
their standard parameters. -/
theorem C83_standard_ckks (hP : newParameters fuel logN q p h sigma .conjugateInvariant = .ok P) {logSlots : ℤ} {scale : UInt64}
    {C : CParams} (hC : ckksNewParameters P logSlots scale = .ok C) :
    ∃ C', C.standardParameters fuel = .ok C' ∧ C'.logSlots = logSlots ∧ C'.defaultScale = scale ∧ C'.rl.logN = logN + 1 ∧
      C'.maxLogSlots = C.maxLogSlots ∧ C'.logSlots ≤ C'.maxLogSlots := by
  obtain ⟨P', b1, b2, -, -, -, -, b3, -⟩ := C83_standard hP
  obtain ⟨a1, -, -, -, -, a6, -⟩ := newParameters_fields hP
  obtain ⟨c1, -, c3, -⟩ := C83_maxSlots hP hC
  have hCe : C = ⟨P, logSlots, scale⟩ := by
    obtain ⟨s1, s2⟩ := C83_slots hP logSlots scale
    by_cases hc : 0 ≤ logSlots ∧ logSlots ≤ (logN : ℤ)
    · rw [s1 hc] at hC; cases hC; rfl
    · rw [s2 hc] at hC; cases hC
  subst hCe
  have e : (CParams.mk P' logSlots scale).maxLogSlots = (CParams.mk P logSlots scale).maxLogSlots := by
    unfold CParams.maxLogSlots
    simp only [b3, a6, b2, a1]
    push_cast
    ring
  refine ⟨⟨P', logSlots, scale⟩, ?_, rfl, rfl, b2, e, by rw [e]; exact c3⟩
  unfold CParams.standardParameters
  rw [if_neg (by rw [a6]; decide), b1]
  rfl

/-- **C83 (violated: the largest conjugate-invariant parameters).** At the largest degree, the standard parameters have a
degree that `NewParameters` and `UnmarshalBinary` refuse: they cannot be decoded again. -/
theorem C83_standard_violated (hP : newParameters fuel 17 q p h sigma .conjugateInvariant = .ok P) (hh : h < 2 ^ 64) :
    ∃ P', P.standardParameters fuel = .ok P' ∧ RParams.unmarshalBinary fuel P'.marshalBinary = .err := by
  obtain ⟨P', b1, b2, b3, b4, b5, b6, b7, -⟩ := C83_standard hP
  obtain ⟨-, -, -, -, -, -, -, -, l3, l4⟩ := newParameters_fields hP
  refine ⟨P', b1, ?_⟩
  rw [rparams_bytes (by omega), b2, b3, b4, b5, b6, b7]
  unfold RParams.unmarshalBinary
  have hs : checkSizeParams (17 + 1) q.length p.length = .error .size := rfl
  rw [if_neg (by simp only [List.length_append, List.length_cons, length_be64]; omega)]
  simp only [Buffer.readUint8, Go.bind_ok, readUint64_append,
    toNat_ofNat8 (show 17 + 1 ≤ 255 by omega), toNat_ofNat8 (show q.length ≤ 255 by omega),
    toNat_ofNat8 (show p.length ≤ 255 by omega), hs, Go.ofExcept]
  rfl

set_option maxRecDepth 1000000 in
theorem root7340033 : (primitiveRoot 100 7340033).isSome = true := by decide +kernel

theorem prime7340033 : isPrime 7340033 := by
  have : Nat.Prime 7340033 := by norm_num
  exact this

theorem genSub7340033 : ∃ s, genSub 100 (4 * 2 ^ 17) 7340033 = some s := by
  obtain ⟨g, hg⟩ := Option.isSome_iff_exists.1 root7340033
  generalize (4 * 2 ^ 17 : ℕ) = t
  unfold genSub
  rw [hg]
  exact ⟨_, rfl⟩

theorem newRingCustom_of {fuel N nthRoot : ℕ} {m : List UInt64} {ty : RingType} {l : List SubRing} (hm0 : m.length ≠ 0)
    (hp : ∀ q ∈ m, isPrime q) (hd : allDistinct m [] = true)
    (hN : ¬ (N < 16 ∨ (Nat.land N (N - 1) ≠ 0 ∧ N ≠ 0)))
    (hn : ∀ q ∈ m, (q &&& (UInt64.ofNat nthRoot - 1)) = 1)
    (hs : m.mapM (genSub fuel nthRoot) = some l) : ∃ r, newRingCustom fuel N m ty nthRoot = .ok r := by
  unfold newRingCustom
  rw [if_neg hN, if_neg hm0, if_neg (not_not.2 hd)]
  generalize hf : List.find? _ _ = o
  cases o with
  | some x =>
    have h1 := List.find?_some hf
    have h2 := List.mem_of_find?_eq_some hf
    rcases Bool.or_eq_true_iff.1 h1 with h | h
    · exact absurd (hp x h2) (of_decide_eq_true h)
    · rw [hn x h2] at h; cases h
  | none =>
    simp only [hs]
    exact ⟨_, rfl⟩

theorem newRingCustom_one {fuel N nthRoot : ℕ} {q : UInt64} {ty : RingType} {s : SubRing}
    (hN : ¬ (N < 16 ∨ (Nat.land N (N - 1) ≠ 0 ∧ N ≠ 0))) (hp : isPrime q)
    (hn : (q &&& (UInt64.ofNat nthRoot - 1)) = 1)
    (hs : genSub fuel nthRoot q = some s) : ∃ r, newRingCustom fuel N [q] ty nthRoot = .ok r := by
  refine newRingCustom_of (l := [s]) (by simp) ?_ (by simp [allDistinct]) hN ?_ (by simp [hs])
  · intro x hx
    rw [List.mem_singleton.1 hx]
    exact hp
  · intro x hx
    rw [List.mem_singleton.1 hx]
    exact hn

theorem newParameters_one {fuel logN h : ℕ} {q sigma : UInt64} {ty : RingType} {r : Ring}
    (h1 : checkSizeParams logN 1 0 = .ok ()) (h2 : checkModuli [q] [] = .ok ())
    (h3 : newRingFromType fuel (2 ^ logN) [q] ty = .ok r) : ∃ P, newParameters fuel logN [q] [] h sigma ty = .ok P := by
  unfold newParameters
  rw [show checkSizeParams logN [q].length ([] : List UInt64).length = .ok () from h1, h2]
  dsimp only
  rw [h3]
  exact ⟨_, rfl⟩

/-- the hypotheses of the preceding theorem are satisfiable: `q = 7·2^20 + 1` -/
theorem C83_standard_witness : ∃ P P', newParameters 100 17 [7340033] [] 8 defaultSigma .conjugateInvariant = .ok P ∧
    P.standardParameters 100 = .ok P' ∧ RParams.unmarshalBinary 100 P'.marshalBinary = .err := by
  obtain ⟨s, hs⟩ := genSub7340033
  obtain ⟨r, hr⟩ := newRingCustom_one (N := 2 ^ 17) (ty := .conjugateInvariant) (two_pow_degree (by norm_num)) prime7340033
    (by decide) hs
  have hm : checkModuli [7340033] [] = .ok () := by
    unfold checkModuli
    rw [if_neg (by decide), if_neg (by decide), if_neg (by decide), if_neg (by decide), if_neg (by simpa using prime7340033),
      if_neg (by simp)]
  have hc : checkSizeParams 17 1 0 = .ok () := by decide
  obtain ⟨P, hP⟩ := newParameters_one (fuel := 100) (h := 8) (sigma := defaultSigma) (ty := .conjugateInvariant) hc hm hr
  obtain ⟨P', h1, h2⟩ := C83_standard_violated hP (by norm_num)
  exact ⟨P, P', hP, h1, h2⟩

/-- **C83 (`CopyNew`).** The copy of accepted parameters equals them in every field. -/
theorem C83_copyNew (hP : newParameters fuel logN q p h sigma ty = .ok P) : P.copyNew fuel = some P := by
  obtain ⟨a1, a2, a3, a4, a5, a6, -⟩ := newParameters_fields hP
  obtain ⟨hQ, hp⟩ := newParameters_rings hP
  unfold RParams.copyNew
  rw [a1, a2, a3, a6, hQ]
  dsimp only
  rcases hp with ⟨hp, hp'⟩ | ⟨hp, rP, hp', hrP⟩
  · rw [if_neg (by rw [hp]; simp), ← a1, ← a2, ← a3, ← a6]
  · rw [if_pos (List.length_pos_iff.2 hp), hrP]
    dsimp only
    rw [← hp', ← a1, ← a2, ← a3, ← a6]

end

/-! ## Serialization of rings -/

theorem newRingCustom_degree {fuel N nthRoot : ℕ} {m : List UInt64} {ty : RingType} {r : Ring}
    (h : newRingCustom fuel N m ty nthRoot = .ok r) : ¬ (N < 16 ∨ (Nat.land N (N - 1) ≠ 0 ∧ N ≠ 0)) := by
  intro hc
  unfold newRingCustom at h
  rw [if_pos hc] at h
  cases h

/-- decoding an encoded ring, for any transformer of the receiver -/
theorem unmarshal_marshal {fuel n : ℕ} {m : List UInt64} {ty : RingType} {r : Ring} (hn : n < 60)
    (h : newRingFromType fuel (2 ^ n) m ty = .ok r) (ntt : Option RingType) :
    RawRing.unmarshalBinary fuel ntt (some r.marshalBinary) = some (.ok ⟨{ r with type := ntt.getD .standard }, ntt⟩) := by
  obtain ⟨k, hk, hk'⟩ : ∃ k, newRingCustom fuel (2 ^ n) m ty (2 ^ k) = .ok r ∧ k ≤ 61 := by
    cases ty
    · exact ⟨n + 1, by rw [pow_succ, mul_comm]; exact h, by omega⟩
    · exact ⟨n + 2, by rw [pow_add, mul_comm]; exact h, by omega⟩
  obtain ⟨h1, -, h3, h4, -, e1, e2, e3, -, -⟩ := newRingCustom_ok hk
  have hm := newRingCustom_moduli hk
  have pk : 2 ^ k < 2 ^ 64 := Nat.pow_lt_pow_right (by norm_num) (by omega)
  have ek : (UInt64.ofNat (2 ^ k)).toNat = 2 ^ k := by rw [UInt64.toNat_ofNat', Nat.mod_eq_of_lt pk]
  have land : ∀ j, Nat.land (2 ^ j) (2 ^ j - 1) = 0 := fun j => by
    have := Nat.and_two_pow_sub_one_eq_mod (2 ^ j) j
    rw [Nat.mod_self] at this
    exact this
  have hNd := newRingCustom_degree hk
  have hd : allDistinct m [] ≠ false := by
    intro hc
    unfold newRingCustom at hk
    rw [hc] at hk
    simp only [Bool.false_eq_true, not_false_eq_true, if_true] at hk
    split at hk
    · cases hk
    · split at hk <;> cases hk
  unfold RawRing.unmarshalBinary Ring.marshalBinary
  dsimp only
  rw [hm, e1, e2, ek, Int.toNat_natCast, land, land, if_neg, if_neg, if_neg (by simp), newRingCustom_change hk _ hNd]
  · dsimp only
    rw [e2]
  · intro hc
    have := congrArg UInt64.toNat hc
    rw [ek] at this
    exact absurd this (by simp)
  · push Not
    exact ⟨by exact_mod_cast h1, rfl, h3, hd⟩

/-- **C84 (partial).** Decoding an encoded ring into a ring that has the transformer of the same type restores it. -/
theorem C84_roundtrip_partial {fuel n : ℕ} {m : List UInt64} {ty : RingType} {r : Ring} (hn : n < 60)
    (h : newRingFromType fuel (2 ^ n) m ty = .ok r) :
    RawRing.unmarshalBinary fuel (some ty) (some r.marshalBinary) = some (.ok ⟨r, some ty⟩) := by
  have e : r.type = ty := by cases ty <;> exact (newRingCustom_ok h).2.2.2.2.2.2.2.1
  rw [unmarshal_marshal hn h, Option.getD_some, ← e]

/-- **C84 (violated).** Decoding into a new ring, the transformer stays nil: whatever the ring, the decoded one has the
degree, the moduli and the tables, and panics on `NTT` and every other method of the transformer. -/
theorem C84_violated {fuel n : ℕ} {m : List UInt64} {ty : RingType} {r : Ring} (hn : n < 60)
    (h : newRingFromType fuel (2 ^ n) m ty = .ok r) :
    ∃ r', RawRing.unmarshalBinary fuel none (some r.marshalBinary) = some (.ok r') ∧ r'.ring.n = r.n ∧
      r'.ring.subs = r.subs ∧ ∀ {α : Type} (f : Ring → RingType → α), r'.call f = .panic := by
  exact ⟨_, unmarshal_marshal hn h none, rfl, rfl, fun _ => rfl⟩

/-- **C84 (violated: malformed input).** A document with a zero root of unity panics. -/
theorem C84_panics (fuel : ℕ) (ntt : Option RingType) : RawRing.unmarshalBinary fuel ntt (some ⟨16, 0, [97]⟩) = some .panic := rfl

/-- **C83 (moduli).** `QLvl` of a level is the product of the primes up to it (the modulus of the ring at that level), it panics exactly
above the maximum level, and `LogQLvl` is the number of its bits. -/
theorem C83_qLvl (p : CParams) (level : ℕ) :
    (level < p.rl.qi.length → p.qLvl level = some (∏ i ∈ Finset.range (level + 1), (p.rl.qi.getD i 0).toNat)) ∧
    (p.rl.qi.length ≤ level → p.qLvl level = none ∧ p.logQLvl level = none) ∧
    ∀ Q, p.qLvl level = some Q → 0 < Q → ∃ b, p.logQLvl level = some b ∧ 2 ^ (b - 1) ≤ Q ∧ Q < 2 ^ b := by
  refine ⟨fun h => ?_, fun h => ?_, fun Q h hQ => ⟨len64 Q, by rw [CParams.logQLvl, h]; rfl, ?_⟩⟩
  · unfold CParams.qLvl
    rw [if_pos h]
    congr 1
    have key : ∀ k ≤ p.rl.qi.length, (p.rl.qi.take k).foldl (fun a q => a * q.toNat) 1 =
        ∏ i ∈ Finset.range k, (p.rl.qi.getD i 0).toNat := by
      intro k hk
      induction k with
      | zero => rfl
      | succ k ih =>
        rw [List.take_succ, List.foldl_append, ih (by omega), Finset.prod_range_succ, List.getElem?_eq_getElem (by omega),
          List.getD_eq_getElem _ _ (by omega)]
        rfl
    exact key _ h
  · have : p.qLvl level = none := by unfold CParams.qLvl; rw [if_neg (by omega)]
    exact ⟨this, by rw [CParams.logQLvl, this]; rfl⟩
  · unfold len64
    rw [if_neg (by omega), Nat.add_sub_cancel]
    exact ⟨Nat.log2_self_le (by omega), Nat.lt_log2_self⟩

/-! ## Concrete cases -/

set_option maxRecDepth 1000000 in
theorem conj_isOk : (newParameters 100 4 [193] [257] 8 defaultSigma .conjugateInvariant).isOk = true := by decide +kernel

/-- degree 16 over 193 and 257: 16 slots, standard parameters of degree 32, and the ring decoded from its own encoding -/
example : ∃ P C P', newParameters 100 4 [193] [257] 8 defaultSigma .conjugateInvariant = .ok P ∧
    ckksNewParameters P 4 0x4170000000000000 = .ok C ∧ C.slots = 16 ∧ C.maxSlots = 16 ∧ ckksNewParameters P 5 0x4170000000000000 = .err ∧
    P.standardParameters 100 = .ok P' ∧ P'.logN = 5 ∧ (∃ r', P'.ringQ.conjugateInvariantRing 100 = .ok r' ∧ r'.n = 16) ∧
    P.copyNew 100 = some P ∧
    RawRing.unmarshalBinary 100 (some .standard) (some P'.ringQ.marshalBinary) = some (.ok ⟨P'.ringQ, some .standard⟩) ∧
    RawRing.unmarshalBinary 100 none (some P'.ringQ.marshalBinary) ≠ some (.ok ⟨P'.ringQ, some .standard⟩) := by
  obtain ⟨P, hP⟩ := newParameters_of_isOk conj_isOk
  obtain ⟨P', b1, b2, -, -, -, -, -, b4, -⟩ := C83_standard hP
  have hC := (C83_slots hP 4 0x4170000000000000).1 (by decide)
  obtain ⟨a1, -, -, -, -, a6, -⟩ := newParameters_fields hP
  obtain ⟨r', c1, c2, -⟩ := C83_rings_partial (n := 4 + 1) (by norm_num) b4
  refine ⟨P, _, P', hP, hC, rfl, ?_, (C83_slots hP 5 _).2 (by decide), b1, b2, ⟨r', c1, ?_⟩, C83_copyNew hP,
    C84_roundtrip_partial (n := 4 + 1) (ty := .standard) (by norm_num) b4, ?_⟩
  · unfold CParams.maxSlots
    dsimp only
    rw [a1, a6]
    rfl
  · exact (newRingCustom_ok c2).2.2.2.2.2.1
  · rw [unmarshal_marshal (n := 4 + 1) (ty := .standard) (by norm_num) b4]
    intro h
    have := congrArg RawRing.ntt (Go.ok.inj (Option.some.inj h))
    cases this

end FastKsw.Props
