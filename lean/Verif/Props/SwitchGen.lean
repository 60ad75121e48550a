import Verif.Props.Defaults
import Verif.Props.SwitchMem

/-!
# C126, continued: the shipped parameter sets

The standard parameter sets of `ckks` and the test parameters of `rlwe` have at most 32 primes in `P`.
-/

namespace FastKsw.Props

/-- no call of `SwitchKeysInPlace` with a generated key panics -/
def NeverPanics (n : ℕ) (rQ rP : Ring) : Prop :=
  ∀ {sk : PolyQP} {S : ℕ → ℤ}, sk.IsMont n rQ rP (rQ.subs.length - 1) (rP.subs.length - 1) S →
    ∀ {maxDegree i : ℕ}, i < maxDegree → ∀ {tape : ℕ → ℕ → KeyTape} {E : ℕ → ℕ → ℤ},
    TapeOK n rQ rP (rQ.subs.length - 1) (rP.subs.length - 1) (tape i) E → ∀ (rot : ℤ) {evk : SwitchingKey},
    evk = (genRelinearizationKey rQ rP sk maxDegree tape).getD i [] ∨ evk = genSwitchingKeyForRotationBy rQ rP rot sk (tape i) →
    ∀ {lQ : ℕ}, lQ < rQ.subs.length → ∀ (isNTT : Bool) {cx p0 p1 : Rows}, rowsInRange lQ rQ.n cx = true → rowsInRange lQ rQ.n p0 = true →
    rowsInRange lQ rQ.n p1 = true → ∃ d, (newKeySwitcher rQ rP).switchKeysMem lQ isNTT cx evk p0 p1 = some d

theorem neverPanics_of_32 {n : ℕ} {rQ rP : Ring} (K : KeyParams n rQ rP) (h : rP.subs.length ≤ 32) : NeverPanics n rQ rP := by
  intro sk S hs maxDegree i hi tape E ht rot evk hevk lQ hl isNTT cx p0 p1 hc h0 h1
  have := C126_keys K hs hi ht rot hevk hl isNTT hc h0 h1
  rw [if_pos h] at this
  exact ⟨_, this⟩

/-- **C126 (shipped parameters).** With the standard parameter sets of `ckks` and the test parameters of `rlwe` no call of `SwitchKeysInPlace` with a
generated key panics. -/
theorem C126_defaults :
    (∀ d ∈ ckksDefaults, d.2.rl.ringType = .standard → ∃ C rP, (∀ fuel, 2 ^ 61 ≤ fuel → ckksNewParametersFromLiteral fuel d.2 = some (.ok C)) ∧
      C.rl.ringP = some rP ∧ NeverPanics C.rl.logN C.rl.ringQ rP) ∧
    ∀ d ∈ rlweTestParams, ∃ P rP, (∀ fuel, 2 ^ 61 ≤ fuel → newParametersFromLiteral fuel d.2 = some (.ok P)) ∧
      P.ringP = some rP ∧ NeverPanics P.logN P.ringQ rP := by
  have small : ∀ {l : ParamLit} {pi : List UInt64} {rP : Ring}, litCheck l = true → some pi = l.p → rP.moduli = pi → rP.subs.length ≤ 32 := by
    intro l pi rP hl hpi hm
    obtain ⟨q, p, H⟩ := litCheck_sound hl
    rw [H.ep] at hpi
    have h1 := H.p32
    have h2 := congrArg List.length hm
    rw [Option.some.inj hpi, Ring.moduli, List.length_map] at h2
    omega
  constructor
  · intro d hd hty
    obtain ⟨C, U⟩ := C104_ckks.2 d hd
    have hc := List.all_eq_true.1 ckksDefaults_check d hd
    rw [Bool.and_eq_true] at hc
    obtain ⟨rP, h1, h2, -, h4⟩ := U.standard (by rw [U.type, hty])
    exact ⟨C, rP, U.accepted, h1, neverPanics_of_32 h2 (small hc.1 U.p h4)⟩
  · intro d hd
    obtain ⟨P, rP, h1, -, -, h2, -, -, h3, h4, -, h5⟩ := C104_rlwe d hd
    have hc := List.all_eq_true.1 rlweTestParams_check d hd
    rw [Bool.and_eq_true] at hc
    exact ⟨P, rP, h1, h3, neverPanics_of_32 h4 (small hc.1 h2 h5)⟩

/-- there are standard sets among them -/
example : ∃ d ∈ ckksDefaults, d.2.rl.ringType = .standard := by
  unfold ckksDefaults
  exact ⟨_, List.mem_cons_self, rfl⟩

end FastKsw.Props
