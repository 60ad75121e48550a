import Verif.Props.Evaluator

/-!
# Ciphertexts whose components are constants, for the witnesses
-/

namespace FastKsw

open Props Finset

/-- ring degree 16, level 2: component `i` is the constant `cs[i]` (a constant has equal evaluations) -/
def constCt (scale : ℚ) (cs : List UInt64) : Ct :=
  ⟨cs.map fun c => ⟨List.replicate 3 (List.replicate 16 c), true⟩, scale⟩

section
variable {r : Ring} (hr : r.Valid 4)
include hr

theorem evalAt_elt {u : ℕ} (hu : u < r.subs.length) (p : Rows) {k : ℕ} (hk : k < 2 ^ 4) :
    haveI := (hr.subAt hu).fact
    evalAt ((hr.subAt hu).psiOK (by omega)) hk (r.elt 4 true p u) = zval (r.sub u).q.toNat (p.row u) k := by
  have := (hr.subAt hu).fact
  simp only [Ring.elt, if_true, nttR]
  exact evalAt_ofNtt _ _ _

theorem natCast_rq_inj {u : ℕ} (hu : u < r.subs.length) {a b : ℕ} (h : (a : Rq (2 ^ 4) (r.qs u)) = b) :
    a % r.qs u = b % r.qs u := by
  have := (hr.subAt hu).fact
  have e := congrArg (evalAt ((hr.subAt hu).psiOK (by omega)) (show 0 < 2 ^ 4 by norm_num)) h
  rw [map_natCast, map_natCast] at e
  exact (ZMod.natCast_eq_natCast_iff' _ _ _).1 e

theorem constCt_is (h3 : 2 < r.subs.length) (scale : ℚ) {cs : List UInt64} (hne : cs ≠ [])
    (hq : ∀ c ∈ cs, ∀ u ≤ 2, c.toNat < r.qs u) :
    CtIs 4 r 2 r.qs (cs.length - 1) (constCt scale cs) (fun i _ => ((cs.getD i 0).toNat : Rq (2 ^ 4) _)) := by
  have hpos := List.length_pos_iff.2 hne
  have erow : ∀ i ≤ cs.length - 1, (constCt scale cs).rows i = List.replicate 3 (List.replicate 16 (cs.getD i 0)) := by
    intro i hi
    have : i < cs.length := by omega
    simp [constCt, Ct.rows, List.getD, this]
  have hrow : ∀ (c : UInt64), ∀ u ≤ 2, Rows.row (List.replicate 3 (List.replicate 16 c)) u = List.replicate 16 c := by
    intro c u hu
    rw [Rows.row, List.getD, List.getElem?_replicate, if_pos (by omega)]
    rfl
  have hat : ∀ (c : UInt64), ∀ k < 2 ^ 4, Row.at (List.replicate 16 c) k = c := by
    intro c k hk
    rw [Row.at, List.getD, List.getElem?_replicate, if_pos (show k < 16 from hk)]
    rfl
  refine ⟨⟨?_, fun i hi => ?_, fun i hi => ?_⟩, fun i hi => ?_⟩
  · simp [constCt]; omega
  · have : i < cs.length := by omega
    simp [constCt, List.getD, this]
  · rw [erow i hi]; simp
  · have hm : cs.getD i 0 ∈ cs := by
      have : i < cs.length := by omega
      simp [List.getD, this]
    rw [erow i hi]
    refine ⟨by simp, fun u hu => by rw [hrow _ u hu]; simp, fun u hu k hk => by rw [hrow _ u hu, hat _ k hk]; exact hq _ hm u hu,
      fun u hu => ?_⟩
    have hu' : u < r.subs.length := by omega
    have := (hr.subAt hu').fact
    apply ext_eval ((hr.subAt hu').psiOK (by omega))
    intro k hk
    rw [evalAt_elt hr hu', map_natCast, zval, hrow _ u hu, hat _ k hk]

end

/-- rings of degree 16 with `Q = 97·193·641`, `P = 257·353`, a secret key and a tape of errors -/
theorem exampleRings : ∃ (rQ rP : Ring) (s : Rows) (tape : ℕ → KeyTape), KeyParams 4 rQ rP ∧ rQ.moduli = [97, 193, 641] ∧
    rP.moduli = [257, 353] ∧ rQ.subs.length = 3 ∧ rP.subs.length = 2 ∧ (∀ u ≤ 2, 96 < rQ.qs u) ∧ rQ.qs 0 = 97 ∧
    (genSecretKey rQ rP s).IsMont 4 rQ rP (rQ.subs.length - 1) (rP.subs.length - 1) exampleS ∧
    TapeOK 4 rQ rP (rQ.subs.length - 1) (rP.subs.length - 1) tape (fun _ k => 2 - k % 5) := by
  obtain ⟨fp, ksw, kg, s, tape, h1, h, hF, ha, lQ, hk, hg, hQ, hP, hsam, hsk, ht⟩ := exampleKeys
  have q0 := sub_of_moduli hQ 0 97 rfl
  have q1 := sub_of_moduli hQ 1 193 rfl
  have q2 := sub_of_moduli hQ 2 641 rfl
  have l1 : fp.ringQ.subs.length = 3 := by simpa [Ring.moduli] using congrArg List.length hQ
  have l2 : fp.ringP.subs.length = 2 := by simpa [Ring.moduli] using congrArg List.length hP
  refine ⟨fp.ringQ, fp.ringP, s, tape, FParams.OK.keyParams h, hQ, hP, l1, l2, ?_, ?_, hsk, ht⟩
  · intro u hu
    unfold Ring.qs
    interval_cases u
    · rw [q0]; decide
    · rw [q1]; decide
    · rw [q2]; decide
  · unfold Ring.qs; rw [q0]; rfl

end FastKsw
