import Verif.Model.Defaults
import Verif.Lemmas.DefaultPrimes
import Verif.Props.Accept
import Verif.Props.GenModuli
import Verif.Props.ConjInv
import Verif.Props.FKeys

/-!
# C104: the parameter sets listed in the code

The constructors of parameters from a literal that lists the moduli, without reference to a number of steps; and the literals of the code:
all of them are accepted, with rings that meet the hypotheses of the correctness theorems.
-/

namespace FastKsw.Props
open Finset

/-! ## Literals that list the moduli -/

/-- the Hamming weight of the parameters of a literal -/
def litWeight (l : ParamLit) : ℕ := if l.h = 0 then 2 ^ (l.logN.toNat - 1) else l.h

/-- the deviation of the parameters of a literal -/
def litSigma (l : ParamLit) : UInt64 := if floatEq l.sigma 0 then defaultSigma else l.sigma

/-- **C104 (literals of `rlwe`).** A literal that lists the moduli is accepted exactly when its degree and its moduli are acceptable;
the parameters have the fields of the literal, with the default Hamming weight `N/2` and the default deviation when these are not set. -/
theorem C104_literal (l : ParamLit) {q p : List UInt64} (hq : l.q = some q) (hp : l.p = some p) (hlq : l.logQ = none)
    (hlp : l.logP = none) :
    (0 ≤ l.logN ∧ ParamsAcceptable l.logN.toNat l.ringType q p → ∃ P : RParams,
      (∀ fuel, (∀ x ∈ q ++ p, x.toNat ≤ fuel) → newParametersFromLiteral fuel l = some (.ok P) ∧
        newParameters fuel l.logN.toNat q p (litWeight l) (litSigma l) l.ringType = .ok P)) ∧
    (¬ (0 ≤ l.logN ∧ ParamsAcceptable l.logN.toNat l.ringType q p) → ∀ fuel,
      newParametersFromLiteral fuel l = some .err ∨ newParametersFromLiteral fuel l = some .panic) := by
  constructor
  · rintro ⟨h0, hA⟩
    obtain ⟨P, hP⟩ := (C103_newParameters l.logN.toNat l.ringType q p (litWeight l) (litSigma l)).1 hA
    refine ⟨P, fun fuel hf => ⟨?_, hP fuel hf⟩⟩
    have hd := hA.degree
    have hfill : l.fillH = .ok (litWeight l) := by
      unfold ParamLit.fillH litWeight
      split
      · rw [if_neg (by omega), show (l.logN - 1).toNat = l.logN.toNat - 1 by omega, Nat.mod_eq_of_lt]
        exact Nat.pow_lt_pow_right (by omega) (by omega)
      · rfl
    unfold newParametersFromLiteral
    rw [hfill, hq, hp, hlq, hlp]
    dsimp only
    have := hP fuel hf
    unfold litSigma at this
    unfold newParametersInt
    rw [if_neg (by omega), this]
    rfl
  · intro hbad fuel
    unfold newParametersFromLiteral
    rw [hq, hp, hlq, hlp]
    cases hfill : l.fillH with
    | panic => exact Or.inr rfl
    | err => exact Or.inl rfl
    | ok h =>
      left
      dsimp only
      unfold newParametersInt
      by_cases h0 : l.logN < 0
      · rw [if_pos h0]
      · rw [if_neg h0]
        obtain ⟨e, he, -⟩ := (C103_newParameters l.logN.toNat l.ringType q p h
          (if floatEq l.sigma 0 then defaultSigma else l.sigma)).2 (fun hA => hbad ⟨by omega, hA⟩) fuel
        rw [he]
        rfl

/-- **C104 (literals of `ckks`).** The same for the literals of `ckks`: in addition, the number of slots must be at most the largest
one; zero stands for the largest one. -/
theorem C104_literal_ckks (l : CParamLit) {q p : List UInt64} (hq : l.rl.q = some q) (hp : l.rl.p = some p)
    (hlq : l.rl.logQ = none) (hlp : l.rl.logP = none) (h0 : 0 ≤ l.rl.logN)
    (hA : ParamsAcceptable l.rl.logN.toNat l.rl.ringType q p) :
    (0 ≤ l.logSlots ∧ l.logSlots ≤ mostSlots l.rl.ringType l.rl.logN.toNat → ∃ C : CParams,
      C.logSlots = (if l.logSlots = 0 then (mostSlots l.rl.ringType l.rl.logN.toNat : ℤ) else l.logSlots) ∧ C.defaultScale = l.defaultScale ∧
      (∀ fuel, (∀ x ∈ q ++ p, x.toNat ≤ fuel) → ckksNewParametersFromLiteral fuel l = some (.ok C) ∧
        newParameters fuel l.rl.logN.toNat q p (litWeight l.rl) (litSigma l.rl) l.rl.ringType = .ok C.rl)) ∧
    (¬ (0 ≤ l.logSlots ∧ l.logSlots ≤ mostSlots l.rl.ringType l.rl.logN.toNat) →
      ∀ fuel, (∀ x ∈ q ++ p, x.toNat ≤ fuel) → ckksNewParametersFromLiteral fuel l = some .err) := by
  obtain ⟨P, hP⟩ := (C104_literal l.rl hq hp hlq hlp).1 ⟨h0, hA⟩
  have hd := hA.degree
  have hms : ∀ ty, (mostSlots ty l.rl.logN.toNat : ℤ) = match ty with
      | .standard => l.rl.logN - 1
      | .conjugateInvariant => l.rl.logN := by
    intro ty
    cases ty
    · simp only [mostSlots]; omega
    · simp only [mostSlots]; omega
  have hm0 : 0 ≤ mostSlots l.rl.ringType l.rl.logN.toNat := by
    rw [hms]
    cases l.rl.ringType <;> dsimp only <;> omega
  have step : ∀ fuel, (∀ x ∈ q ++ p, x.toNat ≤ fuel) → ckksNewParametersFromLiteral fuel l =
      some (ckksNewParameters P (if l.logSlots = 0 then (mostSlots l.rl.ringType l.rl.logN.toNat : ℤ) else l.logSlots) l.defaultScale) := by
    intro fuel hf
    unfold ckksNewParametersFromLiteral
    rw [(hP fuel hf).1, hms]
    rfl
  constructor
  · intro hs
    refine ⟨⟨P, if l.logSlots = 0 then (mostSlots l.rl.ringType l.rl.logN.toNat : ℤ) else l.logSlots, l.defaultScale⟩, rfl, rfl,
      fun fuel hf => ⟨?_, (hP fuel hf).2⟩⟩
    rw [step fuel hf]
    congr 1
    apply (C83_slots (hP fuel hf).2 _ _).1
    split
    · exact ⟨hm0, le_rfl⟩
    · exact hs
  · intro hs fuel hf
    rw [step fuel hf, (C83_slots (hP fuel hf).2 _ _).2]
    split
    · rename_i h; exfalso; apply hs; rw [h]; exact ⟨le_rfl, hm0⟩
    · exact hs

/-- moduli for which the fast key switch can be set up -/
structure FAcceptable (l : FParamLit) (q p : List UInt64) : Prop where
  nonneg : 0 ≤ l.rl.logN
  params : ParamsAcceptable l.rl.logN.toNat .standard q p
  disjoint : ∀ x ∈ p, x ∉ q
  ringT : RingAcceptable (2 ^ l.rl.logN.toNat) .standard l.t

/-- **C104 (literals of `frlwe`).** A literal that lists the moduli, with `T` below `2^63`, is accepted exactly when the parameters
are acceptable to `rlwe`, no prime is in both `Q` and `P`, and a ring can be built on `T`; otherwise there is a panic. -/
theorem C104_literal_frlwe (l : FParamLit) {q p : List UInt64} (hq : l.rl.q = some q) (hp : l.rl.p = some p) (hlq : l.rl.logQ = none)
    (hlp : l.rl.logP = none) (ht : ∀ x ∈ l.t, x.toNat < 2 ^ 63) :
    (FAcceptable l q p → ∃ F : FullFParams, F.gamma = l.gamma ∧
      ∀ fuel, (∀ x ∈ q ++ p ++ l.t, x.toNat ≤ fuel) → frlweNewParametersFromLiteral fuel l = some (.ok F) ∧
        newParameters fuel l.rl.logN.toNat q p (litWeight l.rl) (litSigma l.rl) .standard = .ok F.rl ∧
        newRing fuel (2 ^ l.rl.logN.toNat) l.t = .ok F.ringT ∧ newRing fuel (2 ^ l.rl.logN.toNat) (p ++ q) = .ok F.ringR) ∧
    (¬ FAcceptable l q p → ∀ fuel, (∀ x ∈ q ++ p ++ l.t, x.toNat ≤ fuel) → frlweNewParametersFromLiteral fuel l = some .panic) := by
  have L := C104_literal { l.rl with ringType := .standard } hq hp hlq hlp
  have hR : ParamsAcceptable l.rl.logN.toNat .standard q p →
      (RingAcceptable (2 ^ l.rl.logN.toNat) .standard (p ++ q) ↔ ∀ x ∈ p, x ∉ q) := by
    intro hA
    constructor
    · intro h x hx hx'
      exact (List.nodup_append.1 h.nodup).2.2 x hx x hx' rfl
    · intro h
      refine ⟨⟨_, hA.degree.1, rfl⟩, ?_, ?_, ?_, ?_⟩
      · have := hA.countQ.1
        intro h0
        rw [List.append_eq_nil_iff] at h0
        rw [h0.2] at this
        exact absurd this (by simp)
      · rw [List.nodup_append]
        exact ⟨hA.nodup.2, hA.nodup.1, fun x hx y hy e => h x hx (e ▸ hy)⟩
      · intro x hx
        exact hA.prime x (List.mem_append.2 (List.mem_append.1 hx).symm)
      · intro x hx
        exact hA.root x (List.mem_append.2 (List.mem_append.1 hx).symm)
  have hb63 : ParamsAcceptable l.rl.logN.toNat .standard q p → ∀ x ∈ p ++ q, x.toNat < 2 ^ 63 := by
    intro hA x hx
    rcases List.mem_append.1 hx with hx | hx
    · exact hA.sizeP x hx
    · have := hA.sizeQ x hx; omega
  have h61 : ParamsAcceptable l.rl.logN.toNat .standard q p → 2 ^ l.rl.logN.toNat < 2 ^ 61 := fun hA =>
    Nat.pow_lt_pow_right (by omega) (by have := hA.degree; omega)
  constructor
  · rintro ⟨h0, hA, hd, hT⟩
    obtain ⟨P, hP⟩ := L.1 ⟨h0, hA⟩
    obtain ⟨rT, hrT⟩ := (C103_newRing (2 ^ l.rl.logN.toNat) (h61 hA) .standard l.t ht).1 hT
    obtain ⟨rR, hrR⟩ := (C103_newRing (2 ^ l.rl.logN.toNat) (h61 hA) .standard (p ++ q) (hb63 hA)).1 ((hR hA).2 hd)
    refine ⟨⟨P, l.gamma, rR, rT⟩, rfl, fun fuel hf => ?_⟩
    obtain ⟨a, b⟩ := hP fuel fun x hx => hf x (List.mem_append_left _ hx)
    have hrT' : newRing fuel (2 ^ l.rl.logN.toNat) l.t = .ok rT := hrT fuel fun x hx => hf x (List.mem_append_right _ hx)
    have hrR' : newRing fuel (2 ^ l.rl.logN.toNat) (p ++ q) = .ok rR := hrR fuel fun x hx =>
      hf x (List.mem_append_left _ (List.mem_append.2 (List.mem_append.1 hx).symm))
    refine ⟨?_, b, hrT', hrR'⟩
    unfold frlweNewParametersFromLiteral
    rw [a]
    simp only [hq, hp, Option.getD_some, hrT', hrR']
  · intro hbad fuel hf
    by_cases hA : 0 ≤ l.rl.logN ∧ ParamsAcceptable l.rl.logN.toNat .standard q p
    · obtain ⟨P, hP⟩ := L.1 hA
      obtain ⟨a, b⟩ := hP fuel fun x hx => hf x (List.mem_append_left _ hx)
      unfold frlweNewParametersFromLiteral
      rw [a]
      simp only [hq, hp, Option.getD_some]
      by_cases hT : RingAcceptable (2 ^ l.rl.logN.toNat) .standard l.t
      · obtain ⟨rT, hrT⟩ := (C103_newRing (2 ^ l.rl.logN.toNat) (h61 hA.2) .standard l.t ht).1 hT
        have hrT' : newRing fuel (2 ^ l.rl.logN.toNat) l.t = .ok rT := hrT fuel fun x hx => hf x (List.mem_append_right _ hx)
        obtain ⟨e, he, -⟩ := (C103_newRing (2 ^ l.rl.logN.toNat) (h61 hA.2) .standard (p ++ q) (hb63 hA.2)).2
          (fun h => hbad ⟨hA.1, hA.2, (hR hA.2).1 h, hT⟩) fuel
        have he' : newRing fuel (2 ^ l.rl.logN.toNat) (p ++ q) = .error e := he
        rw [hrT']
        simp only [he']
      · obtain ⟨e, he, -⟩ := (C103_newRing (2 ^ l.rl.logN.toNat) (h61 hA.2) .standard l.t ht).2 hT fuel
        have he' : newRing fuel (2 ^ l.rl.logN.toNat) l.t = .error e := he
        rw [he']
    · unfold frlweNewParametersFromLiteral
      rcases L.2 hA fuel with h | h <;> rw [h]

/-- **C104 (literals by sizes).** A literal of `frlwe` that gives sizes instead of moduli panics as soon as the moduli have been generated:
these are not used for the ring modulo `PQ`, which is then built on no modulus at all. -/
theorem C104_sizes_violated (l : FParamLit) (hq : l.rl.q = none) (hp : l.rl.p = none) (fuel : ℕ) :
    frlweNewParametersFromLiteral fuel l = some .panic ∨
      newParametersFromLiteral fuel { l.rl with ringType := .standard } = none := by
  unfold frlweNewParametersFromLiteral
  split
  · right; assumption
  · exact Or.inl rfl
  · exact Or.inl rfl
  · left
    split
    · rfl
    rw [hq, hp]
    have : ∃ e, newRing fuel (2 ^ l.rl.logN.toNat) [] = .error e := by
      unfold newRing newRingCustom
      split
      · exact ⟨_, rfl⟩
      · rw [if_pos (by rfl)]; exact ⟨_, rfl⟩
    obtain ⟨e, he⟩ := this
    simp only [Option.getD_none, List.append_nil, he]

/-- `frlwe` refuses sizes that `rlwe` accepts -/
example : ∃ P, newParametersFromLiteral 100 (sizeLit 4 [9] [10] defaultSigma 8 .standard) = some (.ok P) ∧
    frlweNewParametersFromLiteral 100 ⟨sizeLit 4 [9] [10] defaultSigma 8 .standard, [97], 1⟩ = some .panic := by
  obtain ⟨P, hP⟩ := newParameters_of_isOk sizes_isOk
  have h := fromLiteral_of (logN := 4) (logQ := [9]) (logP := [10]) (by decide +kernel) (by omega) (by decide +kernel) hP
  refine ⟨P, h, ?_⟩
  rcases C104_sizes_violated ⟨sizeLit 4 [9] [10] defaultSigma 8 .standard, [97], 1⟩ rfl rfl 100 with h1 | h1
  · exact h1
  · have h2 := h.symm.trans h1
    cases h2

/-- **C104 (literals of `rlwe` by sizes).** When `GenModuli` has delivered moduli for the sizes of a literal, each size at least the
logarithm of the root order and every modulus within a quarter of its power of two, the literal is accepted, with these moduli. -/
theorem C104_literal_sizes_partial {fuel : ℕ} {logN : ℤ} {logQ logP : List ℤ} {sigma : UInt64} {h : ℕ} {ty : RingType}
    {q p : List UInt64} (hg : genModuli fuel (sizeDegree logN ty) logQ logP = some (.ok (q, p))) (hN : 4 ≤ logN) (hQ : logQ ≠ [])
    (hbig : ∀ s ∈ logQ ++ logP, sizeDegree logN ty + 1 ≤ s) (hq : ∀ i (h : i < (logQ ++ logP).length),
      4 * offTwoPow ((logQ ++ logP)[i]).toNat ((q ++ p).getD i 0).toNat < 2 ^ ((logQ ++ logP)[i]).toNat)
    (hf : ∀ x ∈ q ++ p, x.toNat ≤ fuel) :
    ∃ P, newParametersFromLiteral fuel (sizeLit logN logQ logP sigma h ty) = some (.ok P) ∧ P.qi = q ∧ P.pi = p := by
  have hs : SizesInRange (sizeDegree logN ty) logQ logP := by
    by_contra hc
    rw [genModuli_outOfRange hc] at hg
    cases hg
  obtain ⟨e1, e2, M⟩ := (C102_genModuli_partial hs hbig).2.1 _ _ hg
  obtain ⟨s1, s2, s3, s4, h5, h6⟩ := hs
  have hnd := C102_distinct_partial M (fun s hs' => by have := hbig s hs'; omega) hq
  have hsm : ∀ x ∈ q ++ p, x.toNat < 2 ^ 61 ∧ NttPrime (2 ^ (sizeDegree logN ty + 1).toNat) x.toNat := by
    intro x hx
    obtain ⟨i, hi, rfl⟩ := List.getElem_of_mem hx
    have hi' : i < (logQ ++ logP).length := by rw [← M.length]; exact hi
    have hlt := hq i hi'
    have hu := (M.usable i hi').below
    have hn := (M.usable i hi').ntt
    rw [List.getD_eq_getElem _ 0 hi] at hlt hu hn
    refine ⟨?_, hn⟩
    by_cases h61 : ((logQ ++ logP)[i]).toNat = 61
    · exact hu h61
    · have hle : ((logQ ++ logP)[i]).toNat ≤ 60 := by
        have : (logQ ++ logP)[i] ≤ 61 := by
          rcases List.mem_append.1 (List.getElem_mem hi') with h | h
          · have := h5 _ h; omega
          · have := h6 _ h; omega
        omega
      have e : ((2 ^ ((logQ ++ logP)[i]).toNat : ℕ) : ℤ) = 2 ^ ((logQ ++ logP)[i]).toNat := by push_cast; rfl
      have h60 : 2 ^ ((logQ ++ logP)[i]).toNat ≤ 2 ^ 60 := Nat.pow_le_pow_right (by omega) hle
      unfold offTwoPow at hlt
      rw [← e] at hlt
      omega
  have hdeg : logN ≤ sizeDegree logN ty := by cases ty <;> simp only [sizeDegree] <;> omega
  obtain ⟨n1, n2, -⟩ := List.nodup_append.1 hnd
  have hA : ParamsAcceptable logN.toNat ty q p := by
    refine ⟨by omega, ⟨by rw [e1]; exact List.length_pos_iff.2 hQ, by omega⟩, by omega, fun x hx => ?_, fun x hx => ?_, ⟨n1, n2⟩,
      fun x hx => (hsm x hx).2.1, fun x hx => ?_⟩
    · have := (hsm x (List.mem_append_left _ hx)).1; omega
    · have := (hsm x (List.mem_append_right _ hx)).1; omega
    · have := (hsm x hx).2.2
      have er : rootOrder (2 ^ logN.toNat) ty = 2 ^ (sizeDegree logN ty + 1).toNat := by
        cases ty
        · simp only [rootOrder, sizeDegree]
          rw [show (logN + 1).toNat = logN.toNat + 1 by omega, pow_succ']
        · simp only [rootOrder, sizeDegree]
          rw [show (logN + 1 + 1).toNat = logN.toNat + 2 by omega, pow_add]
          omega
      rw [er]
      exact this
  obtain ⟨P, hP⟩ := (C103_newParameters logN.toNat ty q p (litWeight (sizeLit logN logQ logP sigma h ty))
    (litSigma (sizeLit logN logQ logP sigma h ty))).1 hA
  have hP' := hP fuel hf
  refine ⟨P, ?_, (newParameters_fields hP').2.1, (newParameters_fields hP').2.2.1⟩
  have hfill : (sizeLit logN logQ logP sigma h ty).fillH = .ok (litWeight (sizeLit logN logQ logP sigma h ty)) := by
    unfold ParamLit.fillH litWeight sizeLit
    dsimp only
    split
    · rw [if_neg (by omega), show (logN - 1).toNat = logN.toNat - 1 by omega, Nat.mod_eq_of_lt]
      exact Nat.pow_lt_pow_right (by omega) (by omega)
    · rfl
  unfold newParametersFromLiteral
  rw [hfill]
  unfold litSigma at hP'
  unfold sizeLit at hP' ⊢
  dsimp only at hP' ⊢
  have fin : newParametersInt fuel logN q p (litWeight ⟨logN, none, none, some logQ, some logP, sigma, h, ty⟩)
      (if floatEq sigma 0 then defaultSigma else sigma) ty = .ok P := by
    unfold newParametersInt
    rw [if_neg (by omega), hP']
    rfl
  cases ty
  · replace hg : genModuli fuel logN logQ logP = some (.ok (q, p)) := hg
    simp only [hg, Go.bind_ok, fin]
  · replace hg : genModuli fuel (logN + 1) logQ logP = some (.ok (q, p)) := hg
    simp only [hg, Go.bind_ok, fin]

/-! ## The literals of the code -/

/-- no number twice -/
def nodupB : List ℕ → Bool
  | [] => true
  | x :: l => !(l.any (Nat.beq x)) && nodupB l

theorem nodupB_iff {l : List ℕ} (h : nodupB l = true) : l.Nodup := by
  induction l with
  | nil => exact List.nodup_nil
  | cons x l ih =>
    rw [nodupB, Bool.and_eq_true, Bool.not_eq_true', List.any_eq_false] at h
    refine List.nodup_cons.2 ⟨fun hx => ?_, ih h.2⟩
    exact h.1 x hx (Nat.beq_refl x)

/-- distinct primes below `2^61` that are 1 modulo `ord` -/
def moduliCheck (ord : ℕ) (l : List ℕ) : Bool :=
  nodupB l && l.all fun x => Nat.blt x (2 ^ 61) && Nat.beq (x % ord) 1 && defaultCerts.any fun c => Nat.beq c.1 x

theorem moduliCheck_sound {ord : ℕ} {l : List UInt64} (h : moduliCheck ord (l.map UInt64.toNat) = true) :
    l.Nodup ∧ ∀ x ∈ l, x.toNat < 2 ^ 61 ∧ x.toNat % ord = 1 ∧ x.toNat.Prime := by
  rw [moduliCheck, Bool.and_eq_true, List.all_eq_true] at h
  refine ⟨List.Nodup.of_map _ (nodupB_iff h.1), fun x hx => ?_⟩
  have := h.2 x.toNat (List.mem_map_of_mem hx)
  rw [Bool.and_eq_true, Bool.and_eq_true, Nat.blt_eq] at this
  exact ⟨this.1.1, Nat.eq_of_beq_eq_true this.1.2, defaultCerts_prime this.2⟩

/-- a literal with acceptable moduli below `2^61`, both chains not empty and disjoint -/
def litCheck (l : ParamLit) : Bool :=
  match l.q, l.p, l.logQ, l.logP with
  | some q, some p, none, none =>
    decide (4 ≤ l.logN) && decide (l.logN ≤ 16) && Nat.blt 0 q.length && Nat.ble q.length 100 && Nat.blt 0 p.length &&
      Nat.ble p.length 32 && decide (l.h = 0) && decide (l.sigma = defaultSigma) && moduliCheck (rootOrder (2 ^ l.logN.toNat) l.ringType) ((q ++ p).map UInt64.toNat)
  | _, _, _, _ => false

structure LitOK (l : ParamLit) (q p : List UInt64) : Prop where
  eq : l.q = some q
  ep : l.p = some p
  elq : l.logQ = none
  elp : l.logP = none
  four : 4 ≤ l.logN
  le : l.logN ≤ 16
  eh : l.h = 0
  es : l.sigma = defaultSigma
  acc : ParamsAcceptable l.logN.toNat l.ringType q p
  small : ∀ x ∈ q ++ p, x.toNat < 2 ^ 61
  p0 : p ≠ []
  p32 : p.length ≤ 32
  disj : ∀ x ∈ q, x ∉ p

theorem litCheck_sound {l : ParamLit} (h : litCheck l = true) : ∃ q p, LitOK l q p := by
  obtain ⟨logN, lq, lp, llq, llp, sigma, hh, ty⟩ := l
  unfold litCheck at h
  dsimp only at h
  split at h
  · rename_i q p
    simp only [Bool.and_eq_true, decide_eq_true_eq, Nat.blt_eq, Nat.ble_eq] at h
    obtain ⟨⟨⟨⟨⟨⟨⟨⟨h1, h2⟩, h3⟩, h4⟩, h5⟩, h6⟩, h7⟩, h8⟩, h9⟩ := h
    obtain ⟨n1, n2⟩ := moduliCheck_sound h9
    obtain ⟨a1, a2, a3⟩ := List.nodup_append.1 n1
    refine ⟨q, p, rfl, rfl, rfl, rfl, h1, h2, h7, h8, ⟨by dsimp only; omega, ⟨h3, h4⟩, by omega, fun x hx => ?_, fun x hx => ?_, ⟨a1, a2⟩,
      fun x hx => (n2 x hx).2.2, fun x hx => (n2 x hx).2.1⟩, fun x hx => (n2 x hx).1, fun h0 => by simp [h0] at h5, h6,
      fun x hx hx' => a3 x hx x hx' rfl⟩
    · have := (n2 x (List.mem_append_left _ hx)).1; omega
    · have := (n2 x (List.mem_append_right _ hx)).1; omega
  · cases h

theorem LitOK.fuel {l : ParamLit} {q p : List UInt64} (h : LitOK l q p) {fuel : ℕ} (hf : 2 ^ 61 ≤ fuel) :
    ∀ x ∈ q ++ p, x.toNat ≤ fuel := fun x hx => by have := h.small x hx; omega

theorem LitOK.weight {l : ParamLit} {q p : List UInt64} (h : LitOK l q p) : litWeight l = 2 ^ (l.logN.toNat - 1) := by
  unfold litWeight; rw [if_pos h.eh]

theorem LitOK.sig {l : ParamLit} {q p : List UInt64} (h : LitOK l q p) : litSigma l = defaultSigma := by
  unfold litSigma
  rw [h.es]
  exact ite_self _

/-- rings on acceptable chains below `2^61` without common prime -/
theorem keyParams_of_acceptable {logN : ℕ} {q p : List UInt64} (hA : ParamsAcceptable logN .standard q p) (hp : p ≠ [])
    (hs : ∀ x ∈ q ++ p, x.toNat < 2 ^ 61) (hd : ∀ x ∈ q, x ∉ p) {fuel : ℕ} (hf : 2 ^ 61 ≤ fuel) {rQ rP : Ring}
    (h1 : newRing fuel (2 ^ logN) q = .ok rQ) (h2 : newRing fuel (2 ^ logN) p = .ok rP) : KeyParams logN rQ rP := by
  obtain ⟨P, hP⟩ := (C103_newParameters logN .standard q p 0 0).1 hA
  have hP' := hP fuel fun x hx => by have := hs x hx; omega
  obtain ⟨rP', e1, e2, -⟩ := C102_keyParams hP' hp hs hd
  obtain ⟨g1, g2⟩ := newParameters_rings hP'
  change newRing fuel (2 ^ logN) q = _ at g1
  rw [h1] at g1
  cases g1
  rcases g2 with ⟨g2, -⟩ | ⟨-, r, g2, g3⟩
  · exact absurd g2 hp
  · change newRing fuel (2 ^ logN) p = _ at g3
    rw [h2] at g3
    cases g3
    rw [e1] at g2
    cases g2
    exact e2

/-- what is expected of a parameter set of `ckks`: the literal is accepted, the parameters have its fields, the most slots; and the rings
are the ones the correctness theorems are about -/
structure CUsable (l : CParamLit) (C : CParams) : Prop where
  accepted : ∀ fuel, 2 ^ 61 ≤ fuel → ckksNewParametersFromLiteral fuel l = some (.ok C)
  logN : (C.rl.logN : ℤ) = l.rl.logN
  q : some C.rl.qi = l.rl.q
  p : some C.rl.pi = l.rl.p
  type : C.rl.ringType = l.rl.ringType
  h : C.rl.h = 2 ^ (C.rl.logN - 1)
  sigma : C.rl.sigma = defaultSigma
  slots : C.logSlots = C.maxLogSlots
  scale : C.defaultScale = l.defaultScale
  standard : C.rl.ringType = .standard → ∃ rP, C.rl.ringP = some rP ∧ KeyParams C.rl.logN C.rl.ringQ rP ∧
    C.rl.ringQ.moduli = C.rl.qi ∧ rP.moduli = C.rl.pi
  ci : C.rl.ringType = .conjugateInvariant → ∀ fuel, 2 ^ 61 ≤ fuel → ∃ C' : CParams, C.standardParameters fuel = .ok C' ∧
    CIPair C.rl.logN C.rl.ringQ C'.rl.ringQ ∧ ∃ rP, C'.rl.ringP = some rP ∧ KeyParams (C.rl.logN + 1) C'.rl.ringQ rP

theorem cusable_of_check {l : CParamLit} (h : litCheck l.rl = true)
    (hs : 0 < l.logSlots ∧ l.logSlots = mostSlots l.rl.ringType l.rl.logN.toNat) : ∃ C, CUsable l C := by
  obtain ⟨q, p, H⟩ := litCheck_sound h
  have h4 := H.four
  have h16 := H.le
  obtain ⟨C, c1, c2, hC⟩ := (C104_literal_ckks l H.eq H.ep H.elq H.elp (by omega) H.acc).1 ⟨hs.1.le, hs.2.le⟩
  rw [if_neg (by omega)] at c1
  have hn := fun fuel hf => (hC fuel (H.fuel hf)).2
  obtain ⟨f1, f2, f3, f4, f5, f6, -⟩ := newParameters_fields (hn _ le_rfl)
  have hCe : C = ⟨C.rl, l.logSlots, l.defaultScale⟩ := by rw [← c1, ← c2]
  have hnew : ∀ fuel, 2 ^ 61 ≤ fuel → ckksNewParameters C.rl l.logSlots l.defaultScale = .ok C := by
    intro fuel hf
    rw [(C83_slots (hn fuel hf) _ _).1 ⟨hs.1.le, hs.2.le⟩, ← hCe]
  refine ⟨C, fun fuel hf => (hC fuel (H.fuel hf)).1, ?_, ?_, ?_, f6, ?_, ?_, ?_, c2, ?_, ?_⟩
  · rw [f1]; omega
  · rw [f2, H.eq]
  · rw [f3, H.ep]
  · rw [f4, H.weight, f1]
  · rw [f5, H.sig]
  · rw [c1, hs.2]
    unfold CParams.maxLogSlots
    rw [f6, f1]
    cases l.rl.ringType <;> rfl
  · intro hty
    rw [f6] at hty
    have hP := hn _ le_rfl
    rw [hty] at hP
    obtain ⟨rP, r1, r2, r3, r4⟩ := C102_keyParams hP H.p0 H.small H.disj
    rw [f1, f2, f3]
    exact ⟨rP, r1, r2, r3, r4⟩
  · intro hty fuel hf
    rw [f6] at hty
    have hP := hn fuel hf
    rw [hty] at hP
    obtain ⟨P', b1, b2, b3, b4, b5, b6, b7, b8, b9, b10⟩ := C83_standard hP
    obtain ⟨rP, b11, b12⟩ := b10 H.p0
    have hP' := newParameters_rings hP
    obtain ⟨n, e, hpair⟩ := C67_rings (fuel := fuel) (N := 2 ^ l.rl.logN.toNat) (moduli := q) (r := C.rl.ringQ) (rS := P'.ringQ)
      (fun x hx => by have := H.small x (List.mem_append_left _ hx); omega)
      (lt_of_lt_of_le (Nat.pow_lt_pow_right (by omega) (by omega : l.rl.logN.toNat < 17)) (by norm_num)) hP'.1
      (by rw [← pow_succ']; exact b8)
    obtain rfl := Nat.pow_right_injective le_rfl e
    refine ⟨⟨P', l.logSlots, l.defaultScale⟩, ?_, by rw [f1]; exact hpair, rP, b11, ?_⟩
    · unfold CParams.standardParameters
      rw [if_neg (by rw [f6, hty]; decide), b1, hCe]
      rfl
    · rw [f1]
      have hacc := H.acc
      refine keyParams_of_acceptable (q := q) (p := p) ⟨by omega, hacc.countQ, hacc.countP, hacc.sizeQ, hacc.sizeP, hacc.nodup, hacc.prime,
        fun x hx => ?_⟩ H.p0 H.small H.disj hf b8 b12
      have := hacc.root x hx
      rw [hty] at this
      unfold rootOrder at this ⊢
      rw [show 2 * 2 ^ (l.rl.logN.toNat + 1) = 4 * 2 ^ l.rl.logN.toNat by ring]
      exact this

set_option maxRecDepth 100000 in
theorem ckksDefaults_check : (ckksDefaults.all fun d => litCheck d.2.rl &&
    decide (0 < d.2.logSlots ∧ d.2.logSlots = mostSlots d.2.rl.ringType d.2.rl.logN.toNat)) = true := by decide +kernel

/-- **C104 (default parameters).** Each of the 20 default parameter sets of `ckks` is accepted; the parameters have the moduli and the
scale of the literal, Hamming weight `N/2`, deviation 3.2, and the largest number of slots.  The rings of the standard ones meet the
hypotheses of the correctness theorems of key generation, encryption and key switching; the conjugate-invariant ones have standard
parameters with this property, of twice the degree. -/
theorem C104_ckks : ckksDefaults.length = 20 ∧ ∀ d ∈ ckksDefaults, ∃ C, CUsable d.2 C := by
  refine ⟨rfl, fun d hd => ?_⟩
  have := List.all_eq_true.1 ckksDefaults_check d hd
  rw [Bool.and_eq_true, decide_eq_true_eq] at this
  exact cusable_of_check this.1 this.2

set_option maxRecDepth 100000 in
theorem rlweTestParams_check : (rlweTestParams.all fun d => litCheck d.2 && decide (d.2.ringType = .standard)) = true := by decide +kernel

/-- **C104 (test parameters of `rlwe`).** The literals of rlwe/rlwe_test_params.go that list moduli are accepted, with rings that
meet the hypotheses of the correctness theorems. -/
theorem C104_rlwe : ∀ d ∈ rlweTestParams, ∃ (P : RParams) (rP : Ring), (∀ fuel, 2 ^ 61 ≤ fuel → newParametersFromLiteral fuel d.2 = some (.ok P)) ∧
    (P.logN : ℤ) = d.2.logN ∧ some P.qi = d.2.q ∧ some P.pi = d.2.p ∧ P.h = 2 ^ (P.logN - 1) ∧ P.sigma = defaultSigma ∧
    P.ringP = some rP ∧ KeyParams P.logN P.ringQ rP ∧ P.ringQ.moduli = P.qi ∧ rP.moduli = P.pi := by
  intro d hd
  have := List.all_eq_true.1 rlweTestParams_check d hd
  rw [Bool.and_eq_true, decide_eq_true_eq] at this
  obtain ⟨h1, hty⟩ := this
  obtain ⟨q, p, H⟩ := litCheck_sound h1
  have h4 := H.four
  obtain ⟨P, hP⟩ := (C104_literal d.2 H.eq H.ep H.elq H.elp).1 ⟨by omega, H.acc⟩
  have hn := (hP _ (H.fuel le_rfl)).2
  obtain ⟨f1, f2, f3, f4, f5, f6, -⟩ := newParameters_fields hn
  rw [hty] at hn
  obtain ⟨rP, r1, r2, r3, r4⟩ := C102_keyParams hn H.p0 H.small H.disj
  refine ⟨P, rP, fun fuel hf => (hP fuel (H.fuel hf)).1, by rw [f1]; omega, by rw [f2, H.eq], by rw [f3, H.ep], by rw [f4, H.weight, f1],
    by rw [f5, H.sig], r1, by rw [f1]; exact r2, by rw [r3, f2], by rw [r4, f3]⟩

/-! ## Sizes -/

theorem mulAll_eq (acc : ℕ) (l : List UInt64) : mulAll acc l = acc * (l.map UInt64.toNat).prod := by
  unfold mulAll
  induction l generalizing acc with
  | nil => simp
  | cons x l ih => rw [List.foldl_cons, ih, List.map_cons, List.prod_cons, mul_assoc]

theorem bitLenNat_spec {x : ℕ} (hx : x ≠ 0) : 0 < bitLenNat x ∧ 2 ^ (bitLenNat x - 1) ≤ x ∧ x < 2 ^ bitLenNat x := by
  unfold bitLenNat
  rw [if_neg hx]
  exact ⟨by omega, (Nat.le_log2 hx).1 (by omega), (Nat.log2_lt hx).1 (by omega)⟩

/-- **C104 (sizes).** `LogQ`, `LogP` and `LogQP` of accepted parameters are the sizes in bits of the product of the moduli of the first
chain, of the second one, and of both; `LogQP` is the sum of the others, or one less. -/
theorem C104_sizes {fuel logN : ℕ} {q p : List UInt64} {h : ℕ} {sigma : UInt64} {ty : RingType} {P : RParams}
    (hP : newParameters fuel logN q p h sigma ty = .ok P) :
    (2 ^ (P.logQ - 1) ≤ (q.map UInt64.toNat).prod ∧ (q.map UInt64.toNat).prod < 2 ^ P.logQ) ∧
    (2 ^ (P.logP - 1) ≤ (p.map UInt64.toNat).prod ∧ (p.map UInt64.toNat).prod < 2 ^ P.logP) ∧
    (2 ^ (P.logQP - 1) ≤ (q.map UInt64.toNat).prod * (p.map UInt64.toNat).prod ∧
      (q.map UInt64.toNat).prod * (p.map UInt64.toNat).prod < 2 ^ P.logQP) ∧
    (P.logQP = P.logQ + P.logP ∨ P.logQP + 1 = P.logQ + P.logP) := by
  obtain ⟨-, f2, f3, -⟩ := newParameters_fields hP
  have hpr : ∀ x ∈ q ++ p, x.toNat ≠ 0 := by
    by_contra hc
    push Not at hc
    obtain ⟨x, hx, h0⟩ := hc
    obtain ⟨e, he, -⟩ := (C103_newParameters logN ty q p h sigma).2 (fun hA => absurd h0 (hA.prime x hx).ne_zero) fuel
    rw [hP] at he
    cases he
  have nz : ∀ l : List UInt64, (∀ x ∈ l, x.toNat ≠ 0) → (l.map UInt64.toNat).prod ≠ 0 := by
    intro l hl h0
    obtain ⟨x, hx, e⟩ := List.mem_map.1 (List.prod_eq_zero_iff.1 h0)
    exact hl x hx e
  have n1 := nz q fun x hx => hpr x (List.mem_append_left _ hx)
  have n2 := nz p fun x hx => hpr x (List.mem_append_right _ hx)
  have e1 : P.logQ = bitLenNat (q.map UInt64.toNat).prod := by
    unfold RParams.logQ; rw [f2, mulAll_eq, one_mul]
  have e2 : P.logP = bitLenNat (p.map UInt64.toNat).prod := by
    unfold RParams.logP; rw [f3, mulAll_eq, one_mul]
  have e3 : P.logQP = bitLenNat ((q.map UInt64.toNat).prod * (p.map UInt64.toNat).prod) := by
    unfold RParams.logQP; rw [f2, f3, mulAll_eq, mulAll_eq, one_mul]
  obtain ⟨a0, a1, a2⟩ := bitLenNat_spec n1
  obtain ⟨b0, b1, b2⟩ := bitLenNat_spec n2
  obtain ⟨c0, c1, c2⟩ := bitLenNat_spec (mul_ne_zero n1 n2)
  rw [e1, e2, e3]
  refine ⟨⟨a1, a2⟩, ⟨b1, b2⟩, ⟨c1, c2⟩, ?_⟩
  generalize bitLenNat (q.map UInt64.toNat).prod = x at *
  generalize bitLenNat (p.map UInt64.toNat).prod = y at *
  generalize bitLenNat ((q.map UInt64.toNat).prod * (p.map UInt64.toNat).prod) = z at *
  have u1 : 2 ^ (z - 1) < 2 ^ (x + y) := by
    rw [pow_add]
    exact lt_of_le_of_lt c1 (Nat.mul_lt_mul'' a2 b2)
  have u2 : 2 ^ (x - 1 + (y - 1)) < 2 ^ z := by
    rw [pow_add]
    exact lt_of_le_of_lt (Nat.mul_le_mul a1 b1) c2
  have v1 := (Nat.pow_lt_pow_iff_right (by omega : 1 < 2)).1 u1
  have v2 := (Nat.pow_lt_pow_iff_right (by omega : 1 < 2)).1 u2
  omega

set_option maxRecDepth 100000 in
theorem logQP_check : (ckksDefaults.all fun d => Nat.ble (bitLenNat (mulAll (mulAll 1 (d.2.rl.q.getD [])) (d.2.rl.p.getD []))) (d.1 + 1) &&
    Nat.ble d.1 (bitLenNat (mulAll (mulAll 1 (d.2.rl.q.getD [])) (d.2.rl.p.getD [])) + 1)) = true := by decide +kernel

/-- **C104 (`logQP` of the default parameters, what holds).** The size of `QP` differs by at most one from the one in the name and
description of the set.  Missing: that it is this one, which is false. -/
theorem C104_logQP_partial : ∀ d ∈ ckksDefaults, ∀ C, CUsable d.2 C → C.rl.logQP ≤ d.1 + 1 ∧ d.1 ≤ C.rl.logQP + 1 := by
  intro d hd C hC
  have := List.all_eq_true.1 logQP_check d hd
  rw [← hC.q, ← hC.p, Bool.and_eq_true, Nat.ble_eq, Nat.ble_eq] at this
  exact this

set_option maxRecDepth 100000 in
/-- **C104 (`logQP` of the default parameters, violated).** `PN12QP109` is described as having `logQP=109`, and has 108. -/
theorem C104_logQP_violated : ∃ d ∈ ckksDefaults, ∃ C, CUsable d.2 C ∧ d.1 = 109 ∧ C.rl.logQP = 108 := by
  have hmem : (109, pn12qp109) ∈ ckksDefaults := List.mem_cons_self
  obtain ⟨C, hC⟩ := C104_ckks.2 _ hmem
  refine ⟨_, hmem, C, hC, rfl, ?_⟩
  have e1 : C.rl.qi = [0x200000e001, 0x100006001] := Option.some_injective _ hC.q
  have e2 : C.rl.pi = [0x3ffffea001] := Option.some_injective _ hC.p
  unfold RParams.logQP
  rw [e1, e2]
  decide +kernel

/-! ## Parameters of the fast key switch -/

theorem list_prod_range (l : List ℕ) : ∏ j ∈ range l.length, l.getD j 1 = l.prod := by
  induction l with
  | nil => rfl
  | cons x l ih => rw [List.length_cons, prod_range_succ', List.prod_cons, ← ih, mul_comm]; rfl

theorem sub_toNat {r : Ring} {m : List UInt64} (h : r.moduli = m) {u : ℕ} (hu : u < m.length) :
    (r.sub u).q.toNat = (m.map UInt64.toNat).getD u 1 := by
  rw [sub_of_moduli h u m[u] (List.getElem?_eq_getElem hu), List.getD_eq_getElem _ _ (by simpa using hu), List.getElem_map]

theorem blockQ_eq {r : Ring} {m : List UInt64} (h : r.moduli = m) (size i : ℕ) :
    r.blockQ size m.length i = (((m.map UInt64.toNat).drop (i * size)).take size).prod := by
  rw [← list_prod_range]
  unfold Ring.blockQ
  have hl : (((m.map UInt64.toNat).drop (i * size)).take size).length = min size (m.length - i * size) := by simp
  rw [hl]
  apply prod_congr rfl
  intro j hj
  rw [mem_range, lt_min_iff] at hj
  rw [sub_toNat h (by omega), List.getD_eq_getElem _ _ (by simp; omega), List.getD_eq_getElem _ _ (by simp; omega)]
  simp

theorem prodQ_eq {r : Ring} {m : List UInt64} (h : r.moduli = m) (h0 : 0 < m.length) :
    r.prodQ (m.length - 1) = (m.map UInt64.toNat).prod := by
  rw [← list_prod_range]
  unfold Ring.prodQ
  rw [List.length_map, Nat.sub_add_cancel h0]
  exact prod_congr rfl fun j hj => sub_toNat h (mem_range.1 hj)

/-- all blocks of a list have a product of at most `M` -/
def blocksLe (size M : ℕ) : ℕ → List ℕ → Bool
  | 0, _ => true
  | f + 1, l => Nat.ble (l.take size).prod M && blocksLe size M f (l.drop size)

theorem blocksLe_sound {size M f : ℕ} {l : List ℕ} (h : blocksLe size M f l = true) {i : ℕ} (hi : i < f) :
    ((l.drop (i * size)).take size).prod ≤ M := by
  induction f generalizing l i with
  | zero => omega
  | succ f ih =>
    rw [blocksLe, Bool.and_eq_true, Nat.ble_eq] at h
    cases i with
    | zero => rw [Nat.zero_mul, List.drop_zero]; exact h.1
    | succ i =>
      have := ih h.2 (i := i) (by omega)
      rwa [List.drop_drop, show size + i * size = (i + 1) * size by ring] at this

/-- the condition on the size of `T`, on numbers; `MQ` and `MR` bound the blocks -/
def fitsCheck (logN gamma : ℕ) (q p t : List ℕ) (MQ MR : ℕ) : Bool :=
  blocksLe p.length MQ q.length q && blocksLe gamma MR (p.length + q.length) (p ++ q) &&
    Nat.ble (2 * (2 ^ 39 + 1) * ((q.length + p.length - 1) / p.length * 2 ^ logN * MQ * MR) + 2 ^ 40) (2 ^ 39 * t.prod)

/-- a literal with acceptable moduli below `2^61`, `P` not empty, disjoint from `Q`, and `T` large enough -/
def flitCheck (l : FParamLit) (MQ MR : ℕ) : Bool :=
  litCheck l.rl && decide (l.rl.ringType = .standard) && Nat.blt 0 l.t.length && Nat.ble l.t.length 32 && Nat.blt 0 l.gamma && Nat.ble l.gamma 32 &&
    moduliCheck (2 * 2 ^ l.rl.logN.toNat) (l.t.map UInt64.toNat) &&
    fitsCheck l.rl.logN.toNat l.gamma ((l.rl.q.getD []).map UInt64.toNat) ((l.rl.p.getD []).map UInt64.toNat) (l.t.map UInt64.toNat) MQ MR

/-- what is expected of a parameter set of the fast key switch: it is accepted, and the parts of the parameters used by the fast key
switch meet the hypotheses of its correctness theorems -/
structure FUsable (l : FParamLit) (F : FullFParams) (fp : FParams) : Prop where
  accepted : ∀ fuel, 2 ^ 61 ≤ fuel → frlweNewParametersFromLiteral fuel l = some (.ok F)
  ringQ : fp.ringQ = F.rl.ringQ
  ringP : some fp.ringP = F.rl.ringP
  ringR : fp.ringR = F.ringR
  ringT : fp.ringT = F.ringT
  gamma : fp.gamma = l.gamma ∧ F.gamma = l.gamma
  q : some fp.ringQ.moduli = l.rl.q
  p : some fp.ringP.moduli = l.rl.p
  t : fp.ringT.moduli = l.t
  ok : ∀ fuel, 2 ^ 61 ≤ fuel → fp.OK fuel l.rl.logN.toNat
  fits : fp.Fits
  built : ∀ fuel, 2 ^ 61 ≤ fuel → ∃ ksw kg, newFKeySwitcher fuel fp = some ksw ∧ newFKeyGenerator fuel fp = some kg

theorem fusable_of_check {l : FParamLit} {MQ MR : ℕ} (h : flitCheck l MQ MR = true) : ∃ F fp, FUsable l F fp := by
  unfold flitCheck at h
  simp only [Bool.and_eq_true, decide_eq_true_eq, Nat.blt_eq, Nat.ble_eq] at h
  obtain ⟨⟨⟨⟨⟨⟨⟨h1, h2⟩, h3⟩, h4⟩, h5⟩, h6⟩, h7⟩, h8⟩ := h
  obtain ⟨q, p, H⟩ := litCheck_sound h1
  obtain ⟨t1, t2⟩ := moduliCheck_sound h7
  have hl4 := H.four
  have hacc : ParamsAcceptable l.rl.logN.toNat .standard q p := h2 ▸ H.acc
  have hA : FAcceptable l q p := ⟨by omega, hacc, fun x hx hx' => H.disj x hx' hx,
    ⟨⟨_, by omega, rfl⟩, fun h0 => by simp [h0] at h3, t1, fun x hx => (t2 x hx).2.2, fun x hx => (t2 x hx).2.1⟩⟩
  obtain ⟨F, hg, hF⟩ := (C104_literal_frlwe l H.eq H.ep H.elq H.elp (fun x hx => by have := (t2 x hx).1; omega)).1 hA
  have hfu : ∀ fuel, 2 ^ 61 ≤ fuel → ∀ x ∈ q ++ p ++ l.t, x.toNat ≤ fuel := by
    intro fuel hf x hx
    rcases List.mem_append.1 hx with hx | hx
    · exact H.fuel hf x hx
    · have := (t2 x hx).1; omega
  obtain ⟨-, g2, -, -⟩ := hF _ (hfu _ le_rfl)
  obtain ⟨-, hrP⟩ := newParameters_rings g2
  rcases hrP with ⟨hc, -⟩ | ⟨-, rP, hrP, -⟩
  · exact absurd hc H.p0
  have hnew : ∀ fuel, 2 ^ 61 ≤ fuel → newFParams fuel l.rl.logN.toNat q p l.t (litWeight l.rl) (litSigma l.rl) l.gamma =
      some ⟨F.rl.ringQ, rP, F.ringR, F.ringT, l.gamma⟩ := by
    intro fuel hf
    obtain ⟨-, k2, k3, k4⟩ := hF fuel (hfu fuel hf)
    unfold newFParams
    rw [k2]
    simp only [k3, k4, hrP]
  have hok := fun fuel hf => C26_params (hnew fuel hf) (fun x hx => H.small x (List.mem_append_left _ hx))
    (fun x hx => H.small x (List.mem_append_right _ hx)) (fun x hx => (t2 x hx).1) H.p32 h4 h5 h6
  obtain ⟨o1, mQ, mP, mT, mR, -⟩ := hok _ le_rfl
  dsimp only at mQ mP mT mR
  refine ⟨F, ⟨F.rl.ringQ, rP, F.ringR, F.ringT, l.gamma⟩, fun fuel hf => (hF fuel (hfu fuel hf)).1, rfl, hrP.symm, rfl, rfl, ⟨rfl, hg⟩,
    by dsimp only; rw [mQ, H.eq], by dsimp only; rw [mP, H.ep], mT, fun fuel hf => (hok fuel hf).1, ?_, fun fuel hf => ?_⟩
  · rw [H.eq, H.ep, Option.getD_some, Option.getD_some] at h8
    have lQ : F.rl.ringQ.subs.length = q.length := by rw [← mQ, Ring.moduli, List.length_map]
    have lP : rP.subs.length = p.length := by rw [← mP, Ring.moduli, List.length_map]
    have lR : F.ringR.subs.length = (p ++ q).length := by rw [← mR, Ring.moduli, List.length_map]
    have lT : F.ringT.subs.length = l.t.length := by rw [← mT, Ring.moduli, List.length_map]
    intro i j hi hj
    unfold FParams.levelT
    have ha : (FParams.mk F.rl.ringQ rP F.ringR F.ringT l.gamma).alpha = p.length := lP
    have hp0 : 0 < p.length := List.length_pos_iff.2 H.p0
    rw [ha] at hi ⊢
    dsimp only at hi hj ⊢
    rw [lQ] at hi ⊢
    rw [lR] at hj ⊢
    rw [lT, blockQ_eq mQ, blockQ_eq mR, prodQ_eq mT h3, show F.rl.ringQ.n = 2 ^ l.rl.logN.toNat from o1.hQ.deg]
    have hi' : i < q.length := lt_of_le_of_lt (Nat.le_mul_of_pos_right _ hp0) hi
    have hj' : j < (p ++ q).length := lt_of_le_of_lt (Nat.le_mul_of_pos_right _ h5) hj
    unfold fitsCheck at h8
    simp only [Bool.and_eq_true, Nat.ble_eq, List.length_map, ← List.map_append] at h8
    rw [List.length_append] at hj'
    have k1 := blocksLe_sound h8.1.1 hi'
    have k2 := blocksLe_sound h8.1.2 hj'
    refine le_trans (Nat.add_le_add_right (Nat.mul_le_mul_left _ ?_) _) h8.2
    exact Nat.mul_le_mul (Nat.mul_le_mul_left _ k1) k2
  · obtain ⟨⟨ksw, hk, -⟩, ⟨kg, hkg, -⟩⟩ := C26_constructors (hok fuel hf).1
    exact ⟨ksw, kg, hk, hkg⟩

set_option maxRecDepth 100000 in
theorem fast_check : flitCheck fPN15QP880 0x3fffff220004bddff910001 0xffffffe2800080cefff8a0001 = true ∧
    flitCheck fcPN15QP870.fl 0x10017c0001 0x1004305d66b58a85d64004300001 = true ∧
    flitCheck fcPN16QP1760.fl 0x1002540001 0x100a7ebfb1e8507db6f934f05434e247dbf55c0a7c0001 = true :=
  ⟨by decide +kernel, by decide +kernel, by decide +kernel⟩

theorem fast_checks : ∀ l ∈ [fPN15QP880, fcPN15QP870.fl, fcPN16QP1760.fl], ∃ MQ MR, flitCheck l MQ MR = true := by
  intro l hl
  simp only [List.mem_cons, List.not_mem_nil, or_false] at hl
  rcases hl with h | h | h
  · rw [h]; exact ⟨_, _, fast_check.1⟩
  · rw [h]; exact ⟨_, _, fast_check.2.1⟩
  · rw [h]; exact ⟨_, _, fast_check.2.2⟩

/-- **C104 (parameters of the fast key switch).** The literals of frlwe/fksw_test.go and fckks/fckks_test.go are accepted, `T` is large
enough, and the constructors of the key switcher and of the key generator return: the theorems on the fast key switch apply to them. -/
theorem C104_fast : ∀ l ∈ [fPN15QP880, fcPN15QP870.fl, fcPN16QP1760.fl], ∃ F fp, FUsable l F fp := fun l hl => by
  obtain ⟨MQ, MR, h⟩ := fast_checks l hl
  exact fusable_of_check h

/-- **C104 (literals of `fckks`).** A literal of `fckks` whose moduli are accepted by `frlwe` is accepted exactly when the number of slots
is at most half the degree; both parts then hold the same generic parameters. -/
theorem C104_literal_fckks (l : FCParamLit) {q p : List UInt64} (hq : l.fl.rl.q = some q) (hp : l.fl.rl.p = some p)
    (hlq : l.fl.rl.logQ = none) (hlp : l.fl.rl.logP = none) (ht : ∀ x ∈ l.fl.t, x.toNat < 2 ^ 63) (hA : FAcceptable l.fl q p) :
    (0 ≤ l.logSlots ∧ l.logSlots ≤ l.fl.rl.logN - 1 → ∃ S : FCParams, S.ckks.rl = S.frlwe.rl ∧ S.ckks.defaultScale = l.defaultScale ∧
      S.ckks.logSlots = (if l.logSlots = 0 then l.fl.rl.logN - 1 else l.logSlots) ∧
      ∀ fuel, (∀ x ∈ q ++ p ++ l.fl.t, x.toNat ≤ fuel) → fckksNewParametersFromLiteral fuel l = some (.ok S) ∧
        frlweNewParametersFromLiteral fuel l.fl = some (.ok S.frlwe)) ∧
    (¬ (0 ≤ l.logSlots ∧ l.logSlots ≤ l.fl.rl.logN - 1) → ∀ fuel, (∀ x ∈ q ++ p ++ l.fl.t, x.toNat ≤ fuel) →
      fckksNewParametersFromLiteral fuel l = some .panic) := by
  obtain ⟨F, hg, hF⟩ := (C104_literal_frlwe l.fl hq hp hlq hlp ht).1 hA
  have hd := hA.params.degree
  have hm : mostSlots .standard l.fl.rl.logN.toNat = l.fl.rl.logN - 1 := by
    simp only [mostSlots]; omega
  have L := C104_literal_ckks ⟨{ l.fl.rl with ringType := .standard }, l.logSlots, l.defaultScale⟩ hq hp hlq hlp hA.nonneg hA.params
  dsimp only at L
  rw [hm] at L
  have hfu : ∀ fuel, (∀ x ∈ q ++ p ++ l.fl.t, x.toNat ≤ fuel) → ∀ x ∈ q ++ p, x.toNat ≤ fuel := fun fuel hf x hx =>
    hf x (List.mem_append_left _ hx)
  constructor
  · intro hs
    obtain ⟨C, c1, c2, hC⟩ := L.1 hs
    have he : C.rl = F.rl := by
      have hf : ∀ x ∈ q ++ p ++ l.fl.t, x.toNat ≤ 2 ^ 64 := fun x _ => x.toNat_lt.le
      have h1 := (hF _ hf).2.1
      have h2 := (hC _ (hfu _ hf)).2
      have h3 := h2.symm.trans h1
      exact Except.ok.inj h3
    refine ⟨⟨C, F⟩, he, c2, c1, fun fuel hf => ⟨?_, (hF fuel hf).1⟩⟩
    unfold fckksNewParametersFromLiteral
    rw [(hC fuel (hfu fuel hf)).1]
    simp only [(hF fuel hf).1]
  · intro hs fuel hf
    unfold fckksNewParametersFromLiteral
    rw [L.2 hs fuel (hfu fuel hf)]

/-- the literals of fckks/fckks_test.go are accepted by `fckks` -/
theorem C104_fckks : ∀ l ∈ [fcPN15QP870, fcPN16QP1760], ∃ S fp, (∀ fuel, 2 ^ 61 ≤ fuel → fckksNewParametersFromLiteral fuel l = some (.ok S)) ∧
    S.ckks.rl = S.frlwe.rl ∧ S.ckks.logSlots = l.fl.rl.logN - 1 ∧ S.ckks.defaultScale = l.defaultScale ∧ FUsable l.fl S.frlwe fp := by
  intro l hl
  have hmem : l.fl ∈ [fPN15QP880, fcPN15QP870.fl, fcPN16QP1760.fl] := by
    simp only [List.mem_cons, List.not_mem_nil, or_false] at hl ⊢
    rcases hl with rfl | rfl
    · exact Or.inr (Or.inl rfl)
    · exact Or.inr (Or.inr rfl)
  have hs : l.logSlots = l.fl.rl.logN - 1 := by
    simp only [List.mem_cons, List.not_mem_nil, or_false] at hl
    rcases hl with rfl | rfl <;> rfl
  obtain ⟨F, fp, hU⟩ := C104_fast _ hmem
  obtain ⟨MQ, MR, hc'⟩ := fast_checks _ hmem
  unfold flitCheck at hc'
  simp only [Bool.and_eq_true, decide_eq_true_eq, Nat.blt_eq, Nat.ble_eq] at hc'
  obtain ⟨⟨⟨⟨⟨⟨⟨h1, h2⟩, h3⟩, h4⟩, h5⟩, h6⟩, h7⟩, h8⟩ := hc'
  obtain ⟨q, p, H⟩ := litCheck_sound h1
  obtain ⟨t1, t2⟩ := moduliCheck_sound h7
  have hl4 := H.four
  have hacc : ParamsAcceptable l.fl.rl.logN.toNat .standard q p := h2 ▸ H.acc
  have hA : FAcceptable l.fl q p := ⟨by omega, hacc, fun x hx hx' => H.disj x hx' hx,
    ⟨⟨_, by omega, rfl⟩, fun h0 => by simp [h0] at h3, t1, fun x hx => (t2 x hx).2.2, fun x hx => (t2 x hx).2.1⟩⟩
  obtain ⟨S, s1, s2, s3, hS⟩ := (C104_literal_fckks l H.eq H.ep H.elq H.elp (fun x hx => by have := (t2 x hx).1; omega) hA).1
    ⟨by omega, by omega⟩
  have hfu : ∀ fuel, 2 ^ 61 ≤ fuel → ∀ x ∈ q ++ p ++ l.fl.t, x.toNat ≤ fuel := by
    intro fuel hf x hx
    rcases List.mem_append.1 hx with hx | hx
    · exact H.fuel hf x hx
    · have := (t2 x hx).1; omega
  have he : S.frlwe = F := by
    have h9 := (hS _ (hfu _ le_rfl)).2
    rw [hU.accepted _ le_rfl] at h9
    cases h9
    rfl
  refine ⟨S, fp, fun fuel hf => (hS fuel (hfu fuel hf)).1, s1, ?_, s2, he ▸ hU⟩
  rw [s3, if_neg (by omega), hs]

/-! ## The error of a key switch -/

/-- with key errors up to 19 and a ternary key, the error of a key switch is below `B` -/
def noiseCheck (logN : ℕ) (q p : List ℕ) (m B : ℕ) : Bool :=
  q.all (fun x => Nat.ble x m) && Nat.blt 0 m &&
    Nat.blt ((2 ^ 42 + 1) * ((q.length + p.length - 1) / p.length * (2 ^ logN * (m ^ p.length * 19)) + p.prod * (1 + 2 ^ logN)))
      (2 ^ 42 * (p.prod * B))

theorem blockQ_le_pow {r : Ring} {m : ℕ} (h0 : 0 < m) (hm : ∀ u < r.subs.length, (r.sub u).q.toNat ≤ m) (size cnt i : ℕ)
    (hc : cnt ≤ r.subs.length) : r.blockQ size cnt i ≤ m ^ size := by
  unfold Ring.blockQ
  calc ∏ j ∈ range (min size (cnt - i * size)), (r.sub (i * size + j)).q.toNat
      ≤ ∏ _j ∈ range (min size (cnt - i * size)), m := by
        apply prod_le_prod'
        intro j hj
        rw [mem_range, lt_min_iff] at hj
        exact hm _ (by omega)
    _ = m ^ min size (cnt - i * size) := by rw [prod_const, card_range]
    _ ≤ m ^ size := Nat.pow_le_pow_right h0 (Nat.min_le_left _ _)

theorem noise_of_check {l : FParamLit} {F : FullFParams} {fp : FParams} (hU : FUsable l F fp) {m B : ℕ}
    (hc : noiseCheck l.rl.logN.toNat ((l.rl.q.getD []).map UInt64.toNat) ((l.rl.p.getD []).map UInt64.toNat) m B = true) {lQ : ℕ}
    (hl : lQ < fp.ringQ.subs.length) {a d0 d1 : ∀ u, Rq (2 ^ l.rl.logN.toNat) (fp.ringQ.qs u)} {sIn sOut : ℕ → ℤ} {e : ℕ → ℕ → ℤ} {E : ℕ → ℤ}
    (h : KeySwitched l.rl.logN.toNat fp.ringQ fp.ringP lQ (fp.alpha - 1) a d0 d1 sIn sOut e E)
    (he : ∀ i, ∀ k < 2 ^ l.rl.logN.toNat, |e i k| ≤ 19) (hs : ∀ k < 2 ^ l.rl.logN.toNat, |sOut k| ≤ 1) {k : ℕ}
    (hk : k < 2 ^ l.rl.logN.toNat) : |E k| < B := by
  rw [← hU.q, ← hU.p, Option.getD_some, Option.getD_some] at hc
  unfold noiseCheck at hc
  simp only [Bool.and_eq_true, List.all_eq_true, Nat.ble_eq, Nat.blt_eq, List.length_map] at hc
  obtain ⟨⟨c1, c2⟩, c3⟩ := hc
  have hok := hU.ok _ le_rfl
  have hlP := hok.lenP
  have ha : fp.alpha = fp.ringP.subs.length := rfl
  have haa : fp.alpha - 1 + 1 = fp.alpha := by omega
  have lenQ : fp.ringQ.moduli.length = fp.ringQ.subs.length := by rw [Ring.moduli, List.length_map]
  have lenP : fp.ringP.moduli.length = fp.alpha := by rw [Ring.moduli, List.length_map, ha]
  rw [lenQ, lenP] at c3
  have hm : ∀ u < fp.ringQ.subs.length, (fp.ringQ.sub u).q.toNat ≤ m := by
    intro u hu
    rw [sub_toNat rfl (by rw [lenQ]; exact hu), List.getD_eq_getElem _ _ (by rw [List.length_map, lenQ]; exact hu)]
    exact c1 _ (List.getElem_mem _)
  have hn := C27_noise h (M := m ^ fp.alpha) (Be := 19) (Bs := 1)
    (fun i _ => by rw [haa]; exact blockQ_le_pow c2 hm _ _ _ (by omega)) (fun i _ k hk => he i k hk) hs hk
  have hP : fp.ringP.prodQ (fp.alpha - 1) = (fp.ringP.moduli.map UInt64.toNat).prod := by
    rw [← lenP]
    exact prodQ_eq rfl (by rw [lenP]; omega)
  rw [← hP] at c3
  have hb : (lQ + (fp.alpha - 1) + 1) / (fp.alpha - 1 + 1) ≤ (fp.ringQ.subs.length + fp.alpha - 1) / fp.alpha := by
    rw [haa]
    exact Nat.div_le_div_right (by omega)
  have c4 : ((2 ^ 42 + 1 : ℤ) * ((((fp.ringQ.subs.length + fp.alpha - 1) / fp.alpha : ℕ) : ℤ) * (2 ^ l.rl.logN.toNat * ((m : ℤ) ^ fp.alpha * 19)) +
      (fp.ringP.prodQ (fp.alpha - 1) : ℤ) * (1 + 2 ^ l.rl.logN.toNat))) < 2 ^ 42 * ((fp.ringP.prodQ (fp.alpha - 1) : ℤ) * B) := by
    exact_mod_cast c3
  have hb' : (((lQ + (fp.alpha - 1) + 1) / (fp.alpha - 1 + 1) : ℕ) : ℤ) ≤ (((fp.ringQ.subs.length + fp.alpha - 1) / fp.alpha : ℕ) : ℤ) := by
    exact_mod_cast hb
  have hx : (0 : ℤ) ≤ 2 ^ l.rl.logN.toNat * ((m : ℤ) ^ fp.alpha * 19) := by positivity
  have hmul := mul_le_mul_of_nonneg_right hb' hx
  rw [mul_one] at hn
  push_cast at hn
  have hlt : 2 ^ 42 * ((fp.ringP.prodQ (fp.alpha - 1) : ℤ) * |E k|) < 2 ^ 42 * ((fp.ringP.prodQ (fp.alpha - 1) : ℤ) * B) := by
    refine lt_of_le_of_lt hn (lt_of_le_of_lt ?_ c4)
    push_cast at hmul ⊢
    linarith
  have h2 : (fp.ringP.prodQ (fp.alpha - 1) : ℤ) * |E k| < (fp.ringP.prodQ (fp.alpha - 1) : ℤ) * B := by linarith
  exact lt_of_mul_lt_mul_left h2 (by positivity)

set_option maxRecDepth 100000 in
/-- **C104 (error of a key switch).** For the literals of the fast key switch, with a ternary target key and key errors up to 19 (six
deviations): the error of a key switch, fast or classical, at any level and for any input, is below `2^16` for `PN15QP880`, `2^24` for
`PN15QP870` and `2^26` for `PN16QP1760` (the scale of the latter two is `2^36`). -/
theorem C104_noise : ∀ lB ∈ [(fPN15QP880, 16), (fcPN15QP870.fl, 24), (fcPN16QP1760.fl, 26)], ∀ {F : FullFParams} {fp : FParams},
    FUsable lB.1 F fp → ∀ {lQ : ℕ}, lQ < fp.ringQ.subs.length →
    ∀ {a d0 d1 : ∀ u, Rq (2 ^ lB.1.rl.logN.toNat) (fp.ringQ.qs u)} {sIn sOut : ℕ → ℤ} {e : ℕ → ℕ → ℤ} {E : ℕ → ℤ},
      KeySwitched lB.1.rl.logN.toNat fp.ringQ fp.ringP lQ (fp.alpha - 1) a d0 d1 sIn sOut e E →
      (∀ i, ∀ k < 2 ^ lB.1.rl.logN.toNat, |e i k| ≤ 19) → (∀ k < 2 ^ lB.1.rl.logN.toNat, |sOut k| ≤ 1) →
      ∀ k < 2 ^ lB.1.rl.logN.toNat, |E k| < 2 ^ lB.2 := by
  have hall : ([(fPN15QP880, 16), (fcPN15QP870.fl, 24), (fcPN16QP1760.fl, 26)].all fun lB =>
      noiseCheck lB.1.rl.logN.toNat ((lB.1.rl.q.getD []).map UInt64.toNat) ((lB.1.rl.p.getD []).map UInt64.toNat)
        (bif Nat.beq lB.2 16 then 0x1fffffcf0001 else 0x1002700001) (2 ^ lB.2)) = true := by decide +kernel
  intro lB hlB F fp hU lQ hl a d0 d1 sIn sOut e E h he hs k hk
  have := noise_of_check hU (List.all_eq_true.1 hall lB hlB) hl h he hs hk
  push_cast at this
  exact this

end FastKsw.Props
