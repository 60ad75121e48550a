import Verif.Spec.Program
import Verif.Props.Homomorphic
import Verif.Props.MsgConst

/-!
# C86: programs of homomorphic operations

Any sequence of calls that the client's bookkeeping allows runs without panic or error, and decrypting any ciphertext afterwards
gives the values the client computed, within the bounds the client computed.
-/

namespace FastKsw.Props

open FastKsw Finset

section
variable {fuel logSlots d : ℕ} {p : FParams} {ev : FEvaluator} {kg : FKeyGenerator} {sk : PolyQP} {S : ℕ → ℤ}
  {tape : Option ℤ → ℕ → KeyTape} {e : Option ℤ → ℕ → ℕ → ℤ} {digit Be : ℕ}
  (Q : HomEnv fuel logSlots d p ev kg sk S tape e digit Be)
include Q

/-- a change of one reference keeps what is known about the others -/
theorem holds_update {H H' : Heap} {Γ : Ref → Option Info} {out : Ref} {K : Info}
    (h : ∀ c I, Γ c = some I → CtMsg logSlots d p.ringQ S (H c) I) (hk : ∀ c ≠ out, H' c = H c)
    (ho : CtMsg logSlots d p.ringQ S (H' out) K) :
    ∀ c I, Function.update Γ out (some K) c = some I → CtMsg logSlots d p.ringQ S (H' c) I := by
  intro c I hc
  by_cases hco : c = out
  · subst hco
    rw [Function.update_self, Option.some.injEq] at hc
    rw [← hc]; exact ho
  · rw [Function.update_of_ne hco] at hc
    rw [hk c hco]; exact h c I hc

omit Q in
theorem rescale_nb {r : Ring} {level nb nb' : ℕ} {scale m : ℚ} (h1 : nb = 0 ∨ m ≤ scaleAfter r level scale nb)
    (h2 : scaleAfter r level scale (nb + 1) < m) (b2 : ∀ j, 0 < j → (m ≤ scaleAfter r level scale j ↔ j ≤ nb')) : nb' = nb := by
  have e1 : ¬ nb + 1 ≤ nb' := fun hh => absurd h2 (not_lt.2 ((b2 _ (by omega)).2 hh))
  have e2 : nb ≤ nb' := by
    rcases h1 with h1 | h1
    · omega
    · rcases Nat.eq_zero_or_pos nb with hz | hz
      · omega
      · exact (b2 _ hz).1 h1
  omega

theorem rescale_last {ct : Ct} {I : Info} (hI : CtMsg logSlots d p.ringQ S ct I) {nb : ℕ} {m : ℚ} (hnb : nb ≤ I.level)
    (h2 : scaleAfter p.ringQ I.level I.scale (nb + 1) < m) : scaleAfter p.ringQ I.level I.scale (I.level + 1) < m := by
  have hlv := hI.lvl
  exact (scaleAfter_anti hI.pos hI.flt (fun u hu => (Q.ok.hQ.subAt (show u < p.ringQ.subs.length by omega)).prime.pos)
    (by omega)).trans_lt h2

/-- **C86 (one call).** -/
theorem C86_step {H : Heap} {Γ Γ' : Ref → Option Info} {op : Op}
    (h : ∀ c I, Γ c = some I → CtMsg logSlots d p.ringQ S (H c) I)
    (ht : Track logSlots d p.ringQ (ksErr p (logSlots + 1 + d) digit Be) Γ op Γ') :
    ∃ H', op.run ev (kg.genRelinKey sk (tape none)) (fun k => kg.genRotKey k sk (tape (some k))) H = some H' ∧
      ∀ c I, Γ' c = some I → CtMsg logSlots d p.ringQ S (H' c) I := by
  cases ht with
  | @alloc level scale new hl hp hf =>
    refine ⟨_, rfl, holds_update Q h (out := new) (fun c hc => by simp [Heap.set, hc]) ?_⟩
    have : H.set new (newCiphertext ev.ckks.ringQ.n 1 level scale) new = newCiphertext p.ringQ.n 1 level scale := by
      rw [Q.ring]; simp [Heap.set]
    rw [this]
    exact C85_newCiphertext Q.ok.hQ hl hp hf
  | @add a b out I J K ha hb ho hs =>
    obtain ⟨H', a1, a2, a3⟩ := C85_add Q (h _ _ ha) (h _ _ hb) (h _ _ ho).shape le_rfl hs
    exact ⟨H', a1, holds_update Q h a2 a3⟩
  | @sub a b out I J K ha hb ho hs =>
    obtain ⟨H', a1, a2, a3⟩ := C85_sub Q (h _ _ ha) (h _ _ hb) (h _ _ ho).shape le_rfl hs
    exact ⟨H', a1, holds_update Q h a2 a3⟩
  | @neg a out I K ha ho hl =>
    obtain ⟨H', a1, a2, a3⟩ := C85_neg Q (h _ _ ha) (h _ _ ho).shape hl
    exact ⟨H', a1, holds_update Q h a2 a3⟩
  | @mulRelin a b out I J K ha hb ho =>
    obtain ⟨H', a1, a2, a3⟩ := C85_mulRelin Q (h _ _ ha) (h _ _ hb) (h _ _ ho).shape le_rfl
    exact ⟨H', a1, holds_update Q h a2 a3⟩
  | @rotate k a out I K ha ho hl hs =>
    obtain ⟨H', a1, a2, a3⟩ := C85_rotate Q k (h _ _ ha) (h _ _ ho).shape hl ((h _ _ ho).scale.trans hs)
    exact ⟨H', a1, holds_update Q h a2 a3⟩
  | @rescale a minScale out I K nb ha ho hl h0 hm hnb h1 h2 =>
    have hI := h _ _ ha
    obtain ⟨nb', -, b2, H', a1, a2, a3⟩ := C85_rescale_partial Q hI (out := out) (hl ▸ (h _ _ ho).shape) h0 hm (rescale_last Q hI hnb h2)
    obtain rfl := rescale_nb h1 h2 b2
    refine ⟨H', ?_, holds_update Q h a2 a3⟩
    simp only [Op.run, a1]
  | @multByConst a c out I K sc ha ho hl hc =>
    obtain ⟨H', a1, a2, a3⟩ := C97_multByConst Q.ring Q.ok.hQ (h _ _ ha) (h _ _ ho).shape hl hc
    exact ⟨H', a1, holds_update Q h a2 a3⟩
  | @multByGaussianInteger a re im out I K ha ho hl =>
    obtain ⟨H', a1, a2, a3⟩ := C97_multByGaussianInteger Q.ring Q.ok.hQ (h _ _ ha) (h _ _ ho).shape hl re im
    exact ⟨H', a1, holds_update Q h a2 a3⟩
  | @multByi a out I K ha ho hl =>
    obtain ⟨H', a1, a2, a3⟩ := C97_multByi Q.ring Q.ok.hQ (h _ _ ha) (h _ _ ho).shape hl
    exact ⟨H', a1, holds_update Q h a2 a3⟩
  | @divByi a out I K ha ho hl =>
    obtain ⟨H', a1, a2, a3⟩ := C97_divByi Q.ring Q.ok.hQ (h _ _ ha) (h _ _ ho).shape hl
    exact ⟨H', a1, holds_update Q h a2 a3⟩
  | @mulByPow2 a k I ha hk =>
    obtain ⟨H', a1, a2, a3⟩ := C97_mulByPow2_partial Q.ring Q.ok.hQ (h _ _ ha) hk
    exact ⟨H', a1, holds_update Q h a2 a3⟩
  | @scaleUp a k out I K ha ho hl hk hk0 =>
    obtain ⟨H', a1, a2, a3⟩ := C97_scaleUp_partial Q.ring Q.ok.hQ (h _ _ ha) (h _ _ ho).shape hl hk hk0
    exact ⟨H', a1, holds_update Q h a2 a3⟩
  | @addConst a c I ha =>
    obtain ⟨a2, a3⟩ := C97_addConst_partial Q.ring Q.ok.hQ (h _ _ ha) c
    exact ⟨_, rfl, holds_update Q h a2 a3⟩
  | @dropLevel a k I ha hk =>
    obtain ⟨a2, a3⟩ := C97_dropLevel Q.ring (h _ _ ha) hk a
    exact ⟨_, rfl, holds_update Q h a2 a3⟩
  | @addNew a b new I J ha hb hna hnb hs =>
    obtain ⟨H', a1, a2, a3⟩ := C97_addNew Q (h _ _ ha) hna (h _ _ hb) hnb hs
    exact ⟨H', a1, holds_update Q h a2 a3⟩
  | @subNew a b new I J ha hb hna hnb hs =>
    obtain ⟨H', a1, a2, a3⟩ := C97_subNew Q (h _ _ ha) hna (h _ _ hb) hnb hs
    exact ⟨H', a1, holds_update Q h a2 a3⟩
  | @negNew a new I ha hna =>
    obtain ⟨H', a1, a2, a3⟩ := C97_negNew Q (h _ _ ha) hna
    exact ⟨H', a1, holds_update Q h a2 a3⟩
  | @mulRelinNew a b new I J ha hb hna hnb =>
    obtain ⟨H', a1, a2, a3⟩ := C97_mulRelinNew Q (h _ _ ha) hna (h _ _ hb) hnb
    exact ⟨H', a1, holds_update Q h a2 a3⟩
  | @rotateNew k a new I ha hna =>
    obtain ⟨H', a1, a2, a3⟩ := C97_rotateNew Q (h _ _ ha) hna k
    exact ⟨H', a1, holds_update Q h a2 a3⟩
  | @rescaleNew a minScale new I nb ha hna h0 hm hnb h1 h2 =>
    have hI := h _ _ ha
    obtain ⟨nb', -, b2, H', a1, a2, a3⟩ := C97_rescaleNew_partial Q hI hna h0 hm (rescale_last Q hI hnb h2)
    obtain rfl := rescale_nb h1 h2 b2
    refine ⟨H', ?_, holds_update Q h a2 a3⟩
    simp only [Op.run, a1]
  | @multByConstNew a c new I sc ha hna hc =>
    obtain ⟨H', a1, a2, a3⟩ := C97_multByConstNew Q (h _ _ ha) hna hc
    exact ⟨H', a1, holds_update Q h a2 a3⟩
  | @multByiNew a new I ha hna =>
    obtain ⟨⟨H', a1, a2, a3⟩, -⟩ := C97_byiNew Q (h _ _ ha) hna
    exact ⟨H', a1, holds_update Q h a2 a3⟩
  | @divByiNew a new I ha hna =>
    obtain ⟨-, H', a1, a2, a3⟩ := C97_byiNew Q (h _ _ ha) hna
    exact ⟨H', a1, holds_update Q h a2 a3⟩
  | @scaleUpNew a k new I ha hna hk hk0 =>
    obtain ⟨H', a1, a2, a3⟩ := C97_scaleUpNew_partial Q (h _ _ ha) hna hk hk0
    exact ⟨H', a1, holds_update Q h a2 a3⟩
  | @addConstNew a c new I ha hna =>
    obtain ⟨a2, a3⟩ := C97_addConstNew Q.ring Q.ok.hQ (h _ _ ha) hna c
    exact ⟨_, rfl, holds_update Q h a2 a3⟩
  | @dropLevelNew a k new I ha hk =>
    obtain ⟨a2, a3⟩ := C97_dropLevel Q.ring (h _ _ ha) hk new
    exact ⟨_, rfl, holds_update Q h a2 a3⟩

/-- **C86 (programs).** A program that the client's bookkeeping allows runs to its end, and every ciphertext then holds what the
bookkeeping says. -/
theorem C86_program {Γ Γ' : Ref → Option Info} {ops : List Op}
    (ht : Tracks logSlots d p.ringQ (ksErr p (logSlots + 1 + d) digit Be) Γ ops Γ') :
    ∀ {H : Heap}, (∀ c I, Γ c = some I → CtMsg logSlots d p.ringQ S (H c) I) →
    ∃ H', runProgram ev (kg.genRelinKey sk (tape none)) (fun k => kg.genRotKey k sk (tape (some k))) H ops = some H' ∧
      ∀ c I, Γ' c = some I → CtMsg logSlots d p.ringQ S (H' c) I := by
  induction ht with
  | nil => exact fun {H} h => ⟨H, rfl, h⟩
  | cons h1 _ ih =>
    intro H h
    obtain ⟨H1, a1, a2⟩ := C86_step Q h h1
    obtain ⟨H2, b1, b2⟩ := ih a2
    exact ⟨H2, by rw [runProgram, a1]; exact b1, b2⟩

/-- **C86 (result of a program).** Decrypting any ciphertext after the program, with a new
decryptor, gives the values of the bookkeeping within its bounds, provided that plaintext and noise fit into the modulus at its
level. -/
theorem C86_result {Γ Γ' : Ref → Option Info} {ops : List Op}
    (ht : Tracks logSlots d p.ringQ (ksErr p (logSlots + 1 + d) digit Be) Γ ops Γ') {H : Heap}
    (h : ∀ c I, Γ c = some I → CtMsg logSlots d p.ringQ S (H c) I) {c : Ref} {I : Info} (hc : Γ' c = some I)
    (hsize : 2 * (I.M + I.β) + 1 < p.ringQ.prodQ I.level) {pool : Pt} (hp : PoolOK p.ringQ.n p.maxLevel pool) {mem : List ℂ}
    (hmem : 2 ^ logSlots ≤ mem.length ∧ (3 ≤ logSlots → 16 ≤ mem.length)) {polypool : Rows}
    (hpool : polypool.length = p.ringQ.subs.length) :
    ∃ H' s pool', runProgram ev (kg.genRelinKey sk (tape none)) (fun k => kg.genRotKey k sk (tape (some k))) H ops = some H' ∧
      decryptToMsg p.ringQ (encRoots p.ringQ.nthRoot) Complex.I mem polypool logSlots sk.q (H' c) pool = some (s, pool') ∧
      s.length = 2 ^ logSlots ∧
      ∀ j < 2 ^ logSlots, ‖s.getD j 0 - I.v j‖ ≤ 2 ^ (logSlots + 1) * (((I.M + I.β) / 2 ^ 51 / I.scale : ℚ) : ℝ) +
        (I.ε + 2 ^ (logSlots + 1) * I.β) / I.scale := by
  obtain ⟨H', a1, a2⟩ := C86_program Q ht h
  have hI := a2 c I hc
  have hlv := hI.lvl
  have hmax : min I.level p.maxLevel = I.level := by unfold FParams.maxLevel; omega
  obtain ⟨s, pool', b1, -, b2, b3⟩ := C85_decrypt_partial Q.ok.hQ Q.ok.sQ hI hp (lp := p.maxLevel)
    ((elt_mont Q.ok.hQ (by unfold FParams.maxLevel; omega) Q.hs.q).below (show min I.level p.maxLevel ≤ p.maxLevel by omega))
    (by rw [hmax]; exact hsize) hmem hpool
  exact ⟨H', s, pool', a1, b1, b2, b3⟩

end

/-- the environment of `exampleKeys`: `Q = 97·193·641`, `P = 257·353`, two slots in degree 16 -/
theorem exampleHom : ∃ (fp : FParams) (ev : FEvaluator) (kg : FKeyGenerator) (s : Rows) (tape : ℕ → KeyTape),
    HomEnv 100 1 2 fp ev kg (genSecretKey fp.ringQ fp.ringP s) exampleS (fun _ => tape) (fun _ _ k => 2 - k % 5) 18721 2 ∧
    fp.ringQ.moduli = [97, 193, 641] ∧ fp.alpha = 2 ∧ fp.ringP.prodQ 1 = 257 * 353 ∧ fp.ringP.moduli = [257, 353] := by
  obtain ⟨fp, ksw, kg, s, tape, h1, h, hF, ha, lQ, hk, hg, hQ, hP, hsam, hsk, ht⟩ := exampleKeys
  have q0 := sub_of_moduli hQ 0 97 rfl
  have q1 := sub_of_moduli hQ 1 193 rfl
  have q2 := sub_of_moduli hQ 2 641 rfl
  have p0 := sub_of_moduli hP 0 257 rfl
  have p1 := sub_of_moduli hP 1 353 rfl
  have hmax : fp.maxLevel = 2 := by unfold FParams.maxLevel; omega
  have hev : newFEvaluator 100 fp 7 = some ⟨newEvaluator fp.ringQ fp.ringP none (fun _ => none) 7, ksw⟩ := by
    rw [newFEvaluator, hk]; rfl
  refine ⟨fp, _, kg, s, tape, ⟨h, hF, Or.inl (by omega), ⟨7, hev⟩, hg, hsk, fun k _ => ?_, fun _ => ht, fun _ i _ k _ => ?_, ?_⟩,
    hQ, ha, ?_, hP⟩
  · unfold exampleS
    split_ifs <;> simp
  · have := Int.emod_nonneg (k : ℤ) (show (5 : ℤ) ≠ 0 by norm_num)
    have := Int.emod_lt_of_pos (k : ℤ) (show (0 : ℤ) < 5 by norm_num)
    rw [abs_le]
    push_cast
    omega
  · intro level hl i hi
    rw [ha] at hi ⊢
    refine (blockQ_mono (cnt' := 3) h.hQ (by omega) (by omega)).trans ?_
    rcases (by omega : i = 0 ∨ i = 1) with rfl | rfl
    · rw [Ring.blockQ, show min 2 (3 - 0 * 2) = 2 from rfl, Finset.prod_range_succ, Finset.prod_range_one, q0, q1]
      decide
    · rw [Ring.blockQ, show min 2 (3 - 1 * 2) = 1 from rfl, Finset.prod_range_one, q2]
      decide
  · rw [Ring.prodQ, Finset.prod_range_succ, Finset.prod_range_one, p0, p1]
    decide

/-- the plaintext `600 + 400 X^4` -/
def exampleZ (k : ℕ) : ℤ := if k = 0 then 600 else if k = 4 then 400 else 0

/-- a ciphertext of the plaintext `exampleZ` at scale 1000 -/
theorem exampleMsg {fp : FParams} {ev : FEvaluator} {kg : FKeyGenerator} {sk : PolyQP} {tape : Option ℤ → ℕ → KeyTape}
    {e : Option ℤ → ℕ → ℕ → ℤ} {S : ℕ → ℤ} {fuel digit Be : ℕ} (Q : HomEnv fuel 1 2 fp ev kg sk S tape e digit Be)
    (lQ : fp.ringQ.subs.length = 3) :
    ∃ ct, CtMsg 1 2 fp.ringQ exampleS ct ⟨2, 1000, fun j => slotVal 1 2 exampleZ j / 1000, 12 / 5, 600, 0, 0⟩ := by
  obtain ⟨ct, hsc, hct⟩ := exists_trivial (level := 2) Q.ok.hQ Q.ok.sQ (by omega) exampleZ 1000
  have habs : AbsLe 4 exampleZ 600 := fun k _ => by
    unfold exampleZ
    split_ifs <;> norm_num
  have hcast : ∀ k : ℕ, |(exampleZ k : ℝ)| ≤ 600 := fun k => by
    unfold exampleZ
    split_ifs <;> norm_num
  set I : Info := ⟨2, 1000, fun j => slotVal 1 2 exampleZ j / 1000, 12 / 5, 600, 0, 0⟩ with hIdef
  refine ⟨ct, ?_⟩
  · refine ⟨by show 2 < _; omega, hsc, by norm_num [I], ?_, fun j _ => ?_, exampleZ, fun _ => 0, ?_, habs, fun k _ => by simp [I], fun j _ => ?_, ?_⟩
    · exact f64_nat (m := 1000) (by norm_num)
    · have h1 := norm_slotVal_le (logSlots := 1) (d := 2) (z := exampleZ) (B := 600) (fun k _ => hcast _) j
      show ‖slotVal 1 2 exampleZ j / 1000‖ ≤ 12 / 5
      rw [norm_div]
      norm_num at h1 ⊢
      linarith
    · intro k _ hk
      unfold exampleZ
      rw [if_neg, if_neg]
      · rintro rfl; exact hk (by norm_num)
      · rintro rfl; exact hk (by norm_num)
    · show ‖slotVal 1 2 exampleZ j - ((1000 : ℚ) : ℂ) * (slotVal 1 2 exampleZ j / 1000)‖ ≤ 0
      norm_num
      ring
    · simpa using (hct exampleS).mono (fun u _ => by omega)

/-- In the environment of `exampleHom` with `v = 600 + 400 X^4` at scale 1000, i.e. two different slots, a program computes the rotation by 1
of `2 v^2`, in place from the rotation on, and rescales; the result is right up to `1/20`. -/
example : ∃ (fp : FParams) (ev : FEvaluator) (kg : FKeyGenerator) (sk : PolyQP) (tape : ℕ → KeyTape) (H H' : Heap) (s : List ℂ)
    (pool' : Pt),
    runProgram ev (kg.genRelinKey sk tape) (fun k => kg.genRotKey k sk tape) H [.alloc 2 1000 1, .add 0 0 1, .alloc 2 1 2,
      .mulRelin 0 1 2, .rotate 1 2 2, .rescale 2 2000 2] = some H' ∧
    decryptToMsg fp.ringQ (encRoots fp.ringQ.nthRoot) Complex.I [0, 0] [[], [], []] 1 sk.q (H' 2)
      (newPlaintext fp.ringQ.n 2 1) = some (s, pool') ∧
    ∀ j < 2, ‖s.getD j 0 - 2 * (slotVal 1 2 exampleZ ((j + 1) % 2) / 1000) ^ 2‖ ≤ 1 / 20 := by
  obtain ⟨fp, ev, kg, s, tape, Q, hQ, ha, hP, -⟩ := exampleHom
  have q0 := sub_of_moduli hQ 0 97 rfl
  have q1 := sub_of_moduli hQ 1 193 rfl
  have q2 := sub_of_moduli hQ 2 641 rfl
  have lQ : fp.ringQ.subs.length = 3 := by simpa [Ring.moduli] using congrArg List.length hQ
  have hmax : fp.maxLevel = 2 := by unfold FParams.maxLevel; omega
  have e1 : fp.ringQ.qs 1 = 193 := by unfold Ring.qs; rw [q1]; rfl
  have e2 : fp.ringQ.qs 2 = 641 := by unfold Ring.qs; rw [q2]; rfl
  have ep : fp.ringQ.prodQ 1 = 18721 := by
    rw [Ring.prodQ, Finset.prod_range_succ, Finset.prod_range_one, q0, q1]; decide
  have et : topQ fp.ringQ 2 1 = 641 := by simp [topQ, e2]
  obtain ⟨ct, h0⟩ := exampleMsg Q lQ
  let I : Info := ⟨2, 1000, fun j => slotVal 1 2 exampleZ j / 1000, 12 / 5, 600, 0, 0⟩
  set ks := ksErr fp 4 18721 2 with hks
  have hks2 : ks 2 ≤ 31 ∧ 0 ≤ ks 2 := by
    rw [hks, ksErr, ha, show fp.ringP.prodQ (2 - 1) = 257 * 353 from hP]
    norm_num
  have f1 : f64 1000000 = 1000000 := f64_nat (m := 1000000) (by norm_num)
  let K1 : Info := (I.mul 1 2 ks (I.add I 2) 2).rotate 1 1 (ks 2) 2
  have hK1 : K1.scale = 1000000 := by
    show f64 (1000 * max 1000 1000) = 1000000
    norm_num [f1]
  have g1 : f64OfNat 641 = 641 := f64_nat (m := 641) (by norm_num)
  have g2 : f64OfNat 193 = 193 := f64_nat (m := 193) (by norm_num)
  set s1 := scaleAfter fp.ringQ 2 1000000 1 with hs1
  have hs1' : s1 = f64 (1000000 / 641) := by
    rw [hs1, scaleAfter, scaleAfter, e2, g1, f64Div]
  have b1 := f64_bounds (x := 1000000 / 641) (by norm_num)
  rw [← hs1'] at b1
  have hu : uro ≤ 1 / 2 ^ 52 := by unfold uro; norm_num
  have b1l : 1560 ≤ s1 := le_trans (by nlinarith) b1.1
  have b1u : s1 ≤ 1561 := le_trans b1.2 (by nlinarith)
  have hs2 : scaleAfter fp.ringQ 2 1000000 2 ≤ 9 := by
    rw [scaleAfter, ← hs1, show 2 - 1 = 1 from rfl, e1, g2, f64Div]
    refine (f64_bounds (by positivity)).2.trans ?_
    nlinarith
  have h1000 : f64Div 2000 2 = 1000 := by
    rw [f64Div, show (2000 : ℚ) / 2 = ((1000 : ℕ) : ℚ) by norm_num]
    exact f64_nat (by norm_num)
  let K : Info := K1.rescale 1 2 s1 641 1
  have ht : ∃ Γ', Tracks 1 2 fp.ringQ ks (fun c => if c = 0 then some I else none) [.alloc 2 1000 1, .add 0 0 1, .alloc 2 1 2,
      .mulRelin 0 1 2, .rotate 1 2 2, .rescale 2 2000 2] Γ' ∧ Γ' 2 = some K := by
    refine ⟨_, .cons (.alloc (by omega) (by norm_num) (f64_nat (m := 1000) (by norm_num))) (.cons (.add (I := I) (J := I) (K := Info.zero 2 1000) ?_ ?_ ?_ ?_)
      (.cons (.alloc (by omega) (by norm_num) (by simpa using f64_nat (m := 1) (by norm_num))) (.cons (.mulRelin (I := I) (J := I.add I 2) (K := Info.zero 2 1) ?_ ?_ ?_)
      (.cons (.rotate (I := I.mul 1 2 ks (I.add I 2) 2) (K := I.mul 1 2 ks (I.add I 2) 2) ?_ ?_ ?_ ?_) (.cons (.rescale (I := K1) (K := K1) 1 ?_ ?_ ?_ ?_ ?_ ?_ ?_ ?_) .nil))))), ?_⟩
    · simp
    · simp
    · simp
    · simp [SameScale]
    · simp
    · simp [Info.zero]
    · simp
    · simp [Info.zero]
    · simp [Info.zero]
    · rfl
    · rfl
    · simp [K1, Info.zero, Info.mul, Info.add, I]
    · simp [K1, Info.zero, Info.mul, Info.add, I]
    · rfl
    · simp [K1, Info.rotate]
    · norm_num
    · simp [K1, Info.rotate]
    · right
      rw [hK1, h1000]
      exact le_trans (by norm_num) b1l
    · rw [hK1, h1000]
      exact lt_of_le_of_lt hs2 (by norm_num)
    · rw [Function.update_self, hK1]
      show some (K1.rescale 1 2 (scaleAfter fp.ringQ 2 1000000 1) (topQ fp.ringQ 2 1) 1) = some K
      rw [et]
  obtain ⟨Γ', ht, hΓ⟩ := ht
  have hM : K.M = 2880000 / 641 + 1 / 2 := by
    show (2 ^ (1 + 1) * (600 * (600 + 600)) : ℚ) / (641 : ℕ) + 1 / 2 = _
    norm_num
  have hβ : K.β = (ks 2 + ks 2) / 641 + 9 := by
    show ((2 ^ (1 + 1 + 2) * (600 * (0 + 0) + 0 * (600 + 600) + 0 * (0 + 0)) + ks 2) + ks 2 : ℚ) / (641 : ℕ) + 1 + 2 ^ (1 + 1 + 2) / 2 = _
    ring
  have hε : K.ε ≤ 3 := by
    have e0 : K.ε = ((1000 : ℚ) * (12 / 5) * (0 + 0 + ((max 1000 1000 - 1000 : ℚ) : ℝ) * (12 / 5) + ((max 1000 1000 - 1000 : ℚ) : ℝ) * (12 / 5)) +
      ((max 1000 1000 : ℚ) : ℝ) * (12 / 5 + 12 / 5) * 0 + 0 * (0 + 0 + ((max 1000 1000 - 1000 : ℚ) : ℝ) * (12 / 5) + ((max 1000 1000 - 1000 : ℚ) : ℝ) * (12 / 5)) +
      ((|f64 (1000 * max 1000 1000) - 1000 * max 1000 1000| : ℚ) : ℝ) * (12 / 5 * (12 / 5 + 12 / 5))) / (641 : ℕ) + 2 ^ 1 +
      ((|f64 (1000 * max 1000 1000) / (641 : ℕ) - s1| : ℚ) : ℝ) * (12 / 5 * (12 / 5 + 12 / 5)) := by
      norm_num [K, K1, I, Info.rescale, Info.rotate, Info.mul, Info.add]
    rw [e0, max_self, show (1000 * 1000 : ℚ) = 1000000 by norm_num, f1]
    have h1 : |(1000000 : ℚ) / (641 : ℕ) - s1| ≤ 1 / 1000 := by
      rw [abs_le]
      push_cast
      constructor <;> nlinarith [b1.1, b1.2]
    have h2 : ((|(1000000 : ℚ) / (641 : ℕ) - s1| : ℚ) : ℝ) ≤ 1 / 1000 :=
      (Rat.cast_le.2 h1).trans (by norm_num)
    simp only [sub_self]
    norm_num
    norm_num at h2
    linarith
  obtain ⟨H', s', pool', r1, r2, r3, r4⟩ := C86_result Q ht (H := fun _ => ct) (fun c J hc => by
    by_cases h : c = 0
    · rw [if_pos h, Option.some.injEq] at hc
      rw [← hc]; exact h0
    · rw [if_neg h] at hc; cases hc) hΓ (by
      rw [hM, hβ, show K.level = 1 from rfl, ep]
      norm_num
      linarith) (pool := newPlaintext fp.ringQ.n 2 1) (by rw [hmax]; exact newPlaintext_ok _ _ _) (mem := [0, 0])
    (by norm_num) (polypool := [[], [], []]) (by rw [lQ]; rfl)
  refine ⟨fp, ev, kg, _, tape, _, H', s', pool', r1, r2, fun j hj => ?_⟩
  refine le_trans (le_of_eq ?_) ((r4 j hj).trans ?_)
  · have e : ((j + 1 : ℤ) % 2 ^ 1).toNat = (j + 1) % 2 := by norm_cast
    have : K.v j = slotVal 1 2 exampleZ ((j + 1) % 2) / 1000 *
        (slotVal 1 2 exampleZ ((j + 1) % 2) / 1000 + slotVal 1 2 exampleZ ((j + 1) % 2) / 1000) := by
      rw [← e]; rfl
    rw [this]
    congr 2
    ring
  · have hsK : K.scale = s1 := rfl
    rw [hM, hβ, hsK]
    have c1 : (1560 : ℝ) ≤ (s1 : ℚ) := by exact_mod_cast b1l
    have c2 : ((ks 2 : ℚ) : ℝ) ≤ 31 := by exact_mod_cast hks2.1
    have c3 : (0 : ℝ) ≤ (ks 2 : ℚ) := by exact_mod_cast hks2.2
    have hp : (0 : ℝ) < (s1 : ℚ) := by linarith
    push_cast
    rw [← mul_div_assoc, ← add_div, div_le_iff₀ hp]
    nlinarith

/-- In the same environment, a program with constants: `i (v/2 + 1 - 2i)`, with the constant `1/2` at the scale 641 of the top modulus,
right up to `1/100`. -/
example : ∃ (fp : FParams) (ev : FEvaluator) (kg : FKeyGenerator) (sk : PolyQP) (tape : ℕ → KeyTape) (H H' : Heap) (s : List ℂ)
    (pool' : Pt),
    runProgram ev (kg.genRelinKey sk tape) (fun k => kg.genRotKey k sk tape) H [.multByConstNew 0 (.float (1 / 2)) 1,
      .addConst 1 (.complex 1 (-2)), .multByi 1 1] = some H' ∧
    decryptToMsg fp.ringQ (encRoots fp.ringQ.nthRoot) Complex.I [0, 0] [[], [], []] 1 sk.q (H' 1)
      (newPlaintext fp.ringQ.n 2 1) = some (s, pool') ∧
    ∀ j < 2, ‖s.getD j 0 - Complex.I * (slotVal 1 2 exampleZ j / 1000 / 2 + 1 - 2 * Complex.I)‖ ≤ 1 / 100 := by
  obtain ⟨fp, ev, kg, s, tape, Q, hQ, ha, hP, -⟩ := exampleHom
  have q0 := sub_of_moduli hQ 0 97 rfl
  have q1 := sub_of_moduli hQ 1 193 rfl
  have q2 := sub_of_moduli hQ 2 641 rfl
  have lQ : fp.ringQ.subs.length = 3 := by simpa [Ring.moduli] using congrArg List.length hQ
  have hmax : fp.maxLevel = 2 := by unfold FParams.maxLevel; omega
  have e2 : fp.ringQ.qs 2 = 641 := by unfold Ring.qs; rw [q2]; rfl
  have ep : fp.ringQ.prodQ 2 = 12000161 := by
    rw [Ring.prodQ, Finset.prod_range_succ, Finset.prod_range_succ, Finset.prod_range_one, q0, q1, q2]; decide
  obtain ⟨ct, h0⟩ := exampleMsg Q lQ
  set I : Info := ⟨2, 1000, fun j => slotVal 1 2 exampleZ j / 1000, 12 / 5, 600, 0, 0⟩ with hI
  have g1 : f64OfNat 641 = 641 := f64_nat (m := 641) (by norm_num)
  have g2 : f64 (1000 * 641) = 641000 := by
    have := f64_nat (m := 641000) (by norm_num)
    norm_num at this ⊢
    exact this
  have x1 : fixedPoint (1 / 2) 641 = 321 := by decide +kernel
  have x2 : fixedPoint 0 641 = 0 := by decide +kernel
  have x3 : fixedPoint 1 641000 = 641000 := by decide +kernel
  have x4 : fixedPoint (-2) 641000 = -1282000 := by decide +kernel
  let K1 : Info := I.mulConst (1 / 2, 0) 641 2
  let K2 : Info := K1.addConst (1, -2)
  let K : Info := K2.mulGauss 0 1 2
  set ks := ksErr fp 4 18721 2
  have hc : ConstScale (fp.ringQ.qs I.level) (.float (1 / 2)) 641 := by
    refine ⟨by norm_num [Constant.parts], by norm_num [Constant.parts], Or.inr ⟨fun a b hab => ?_, fun z hz => (nomatch hz), ?_⟩⟩
    · have h1 : (1 / 2 : ℚ) = a := congrArg Prod.fst hab
      have h2 : (1 : ℚ) = 2 * a := by rw [← h1]; norm_num
      have h3 : (1 : ℤ) = 2 * a := by exact_mod_cast h2
      omega
    · rw [show I.level = 2 from rfl, e2, g1]
  have ht : ∃ Γ', Tracks 1 2 fp.ringQ ks (fun c => if c = 0 then some I else none) [.multByConstNew 0 (.float (1 / 2)) 1,
      .addConst 1 (.complex 1 (-2)), .multByi 1 1] Γ' ∧ Γ' 1 = some K := by
    refine ⟨_, .cons (.multByConstNew (I := I) 641 (by simp) (by norm_num) hc) (.cons (.addConst (I := K1) ?_)
      (.cons (.multByi (I := K2) (K := K2) ?_ ?_ le_rfl) .nil)), ?_⟩
    · simp only [Function.update_self]; rfl
    · simp only [Function.update_self]; rfl
    · simp only [Function.update_self]; rfl
    · simp only [Function.update_self]; rfl
  obtain ⟨Γ', ht, hΓ⟩ := ht
  have s1 : K1.scale = 641000 := g2
  have hsK : K.scale = 641000 := s1
  have hM : K.M = 1474600 := by
    show ((|0| + |1| : ℤ) : ℚ) * (((|fixedPoint (1 / 2) 641| + |fixedPoint 0 641| : ℤ) : ℚ) * 600 +
      ((max |fixedPoint 1 (f64 (1000 * 641))| |fixedPoint (-2) (f64 (1000 * 641))| : ℤ) : ℚ)) = _
    rw [g2, x1, x2, x3, x4]
    norm_num
  have hβ : K.β = 0 := by
    show ((|0| + |1| : ℤ) : ℚ) * (((|fixedPoint (1 / 2) 641| + |fixedPoint 0 641| : ℤ) : ℚ) * 0) = _
    rw [mul_zero, mul_zero]
  have hε : K.ε = 1200 := by
    show ((|0| + |1| : ℤ) : ℝ) * (((|fixedPoint (1 / 2) 641| + |fixedPoint 0 641| : ℤ) : ℝ) * 0 +
      ((1000 * (|(fixedPoint (1 / 2) 641 : ℚ) - 641 * (1 / 2)| + |(fixedPoint 0 641 : ℚ) - 641 * 0|) : ℚ) : ℝ) * (12 / 5) +
      ((|f64 (1000 * 641) - 1000 * 641| * (|1 / 2| + |0|) : ℚ) : ℝ) * (12 / 5) +
      ((|(fixedPoint 1 (f64 (1000 * 641)) : ℚ) - f64 (1000 * 641) * 1| + |(fixedPoint (-2) (f64 (1000 * 641)) : ℚ) - f64 (1000 * 641) * (-2)| : ℚ) : ℝ)) = _
    rw [g2, x1, x2, x3, x4]
    norm_num
  obtain ⟨H', s', pool', r1, r2, r3, r4⟩ := C86_result Q ht (H := fun _ => ct) (fun c J hc => by
    by_cases h : c = 0
    · rw [if_pos h, Option.some.injEq] at hc
      rw [← hc]; exact h0
    · rw [if_neg h] at hc; cases hc) hΓ (by
      rw [hM, hβ, show K.level = 2 from rfl, ep]
      norm_num) (pool := newPlaintext fp.ringQ.n 2 1) (by rw [hmax]; exact newPlaintext_ok _ _ _) (mem := [0, 0])
    (by norm_num) (polypool := [[], [], []]) (by rw [lQ]; rfl)
  refine ⟨fp, ev, kg, _, tape, _, H', s', pool', r1, r2, fun j hj => ?_⟩
  refine le_trans (le_of_eq ?_) ((r4 j hj).trans ?_)
  · have : K.v j = (((0 : ℤ) : ℂ) + ((1 : ℤ) : ℂ) * Complex.I) * (cnum (1 / 2, 0) * (slotVal 1 2 exampleZ j / 1000) + cnum (1, -2)) := rfl
    rw [this]
    congr 2
    unfold cnum
    push_cast
    ring
  · rw [hM, hβ, hsK, hε]
    norm_num

end FastKsw.Props
