import Verif.Props.Rescale
import Verif.Props.KeyGen

/-!
# C37: the plaintext after `Rescale`, over the integers

`C37_rescale_partial` gives `P dec' = dec + ∑ δ_i s^i` modulo the remaining moduli.  Here `dec` is the image of an integer
polynomial `Z`, and `dec'` that of an integer polynomial `Z'` with `P Z' = Z + ∑ δ_i s^i` over the integers.
-/

namespace FastKsw.Props

open FastKsw Finset

theorem prodQ_topQ (r : Ring) {level nb : ℕ} (h : nb ≤ level) : r.prodQ level = topQ r level nb * r.prodQ (level - nb) := by
  induction nb with
  | zero => simp [topQ]
  | succ nb ih =>
    rw [ih (by omega), show level - nb = level - (nb + 1) + 1 by omega, prodQ_succ]
    unfold topQ
    rw [prod_range_succ]
    rw [show level - (nb + 1) + 1 = level - nb by omega]
    unfold Ring.qs
    ring

section
variable {n : ℕ} {ev : Evaluator} (hr : ev.ringQ.Valid n) {H : Heap} {ctIn out : Ref} {minScale : ℚ} {level deg : ℕ}
include hr

/-- **C37 (over the integers; partial: as `C37_rescale_partial`).** If the input decrypts to the image of the integer
polynomial `Z` under the key `S`, the result decrypts to the image of an integer polynomial `Z'` with
`P Z' = Z + ∑ δ_i S^i` modulo `X^N + 1`, `P` the product of the consumed moduli and every coefficient of `δ_i` at most
`P/2`.  Missing: as in `C37_rescale_partial`. -/
theorem C37_rescale_exact_partial (sr : ev.ringQ.Small) (hl : level < ev.ringQ.subs.length) {S Z : ℕ → ℤ} {A : ℕ → ℕ}
    (hA1 : ∀ u, ev.ringQ.qs u ≤ A u) (hA2 : ∀ u ≤ level, A u ≤ 2 * ev.ringQ.qs u)
    (h0 : CtEnc n ev.ringQ level A deg (H ctIn) (fun u => intR _ _ S) (fun u => intR _ _ Z))
    (ho : CtShape deg level (H out)) (hm : 0 < minScale) (hs : 0 < (H ctIn).scale) (hf : f64 (H ctIn).scale = (H ctIn).scale)
    (hlev : 0 < level) (hlast : scaleAfter ev.ringQ level (H ctIn).scale (level + 1) < f64Div minScale 2) :
    ∃ nb ≤ level, (∀ j, 0 < j → (f64Div minScale 2 ≤ scaleAfter ev.ringQ level (H ctIn).scale j ↔ j ≤ nb)) ∧
      ∃ (H' : Heap) (Z' : ℕ → ℤ) (δ : ℕ → ℕ → ℤ), ev.rescale H ctIn minScale out = some (.ok H') ∧ (∀ b ≠ out, H' b = H b) ∧
        (H' out).scale = scaleAfter ev.ringQ level (H ctIn).scale nb ∧
        CtEnc n ev.ringQ (level - nb) A deg (H' out) (fun u => intR _ _ S) (fun u => intR _ _ Z') ∧
        (∀ k < 2 ^ n, topQ ev.ringQ level nb * Z' k = Z k + convSum (2 ^ n) (deg + 1) δ (negPow (2 ^ n) S) k) ∧
        ∀ i k, 2 * |δ i k| ≤ topQ ev.ringQ level nb := by
  have h4 := hr.four_le
  have hN := Nat.two_pow_pos n
  obtain ⟨x, hx, ex⟩ := h0
  cases hloop : rescaleLoop ev.ringQ minScale (level + 1) 0 (H ctIn).scale with
  | none =>
    have := (C37_panics_iff hr hl hs hf).1 hloop
    linarith
  | some w =>
    obtain ⟨nb, s'⟩ := w
    obtain ⟨h1, h2, h3⟩ := C37_loop hr hl hs hf hloop
    refine ⟨nb, h1, h3, ?_⟩
    rcases Nat.eq_zero_or_pos nb with h | h
    · subst h
      obtain ⟨H', a1, a2, a3, a4⟩ := C37_copies hr hx ho hm hs.ne' hlev hloop
      refine ⟨H', Z, fun _ _ => 0, a1, a2, a3, ⟨x, a4, ex⟩, fun k _ => ?_, fun i k => by simp [topQ]⟩
      simp [topQ, convSum, negConv]
    · choose X hX using fun i => exists_intR hr (x i)
      obtain ⟨H', a1, a2, a3, a4⟩ := C37_divides hr sr hl hx hA2 ho hm hs.ne' hlev hloop h (by omega)
        (X := X) (fun i _ u hu => hX i u (by omega))
      have hP : 0 < topQ ev.ringQ level nb :=
        prod_pos fun i hi => (hr.subAt (show level - i < _ by omega)).prime.pos
      -- the integer polynomial that the components give, modulo the product of the moduli
      have hsum : ∀ (Y : ℕ → ℕ → ℤ) (u : ℕ), intR (2 ^ n) (ev.ringQ.qs u) (convSum (2 ^ n) (deg + 1) Y (negPow (2 ^ n) S))
          = ∑ i ∈ range (deg + 1), intR (2 ^ n) (ev.ringQ.qs u) (Y i) * intR (2 ^ n) (ev.ringQ.qs u) S ^ i := by
        intro Y u
        rw [intR_convSum]
        exact sum_congr rfl fun i _ => by rw [intR_negPow hN]
      have hW : ∀ k, ∃ W : ℤ, k < 2 ^ n →
          Z k = convSum (2 ^ n) (deg + 1) X (negPow (2 ^ n) S) k + ev.ringQ.prodQ level * W := by
        intro k
        by_cases hk : k < 2 ^ n
        · obtain ⟨W, hW⟩ := hr.dvd_of_cong hl (a := Z k) (b := convSum (2 ^ n) (deg + 1) X (negPow (2 ^ n) S) k)
            (fun u hu => by
              have V := hr.subAt (show u < ev.ringQ.subs.length by omega)
              have := V.fact
              have key : intR (2 ^ n) (ev.ringQ.qs u) Z
                  = intR (2 ^ n) (ev.ringQ.qs u) (convSum (2 ^ n) (deg + 1) X (negPow (2 ^ n) S)) := by
                rw [hsum]
                refine (ex u hu).symm.trans ?_
                exact sum_congr rfl fun i _ => by rw [hX i u (by omega)]
              exact toR_injective (V.psiOK (by omega)) key k hk)
          exact ⟨W, fun _ => by linarith⟩
        · exact ⟨0, fun h => absurd h hk⟩
      choose W hW using hW
      set P := topQ ev.ringQ level nb with hPd
      refine ⟨H', fun k => convSum (2 ^ n) (deg + 1) (fun i => roundDiv P (X i)) (negPow (2 ^ n) S) k +
          ev.ringQ.prodQ (level - nb) * W k, fun i k => P * roundDiv P (X i) k - X i k, a1, a2,
        a3.trans h2, ⟨_, ⟨a4.shape, fun i hi => (a4.elt i hi).mono fun u _ => hA1 u⟩, fun u hu => ?_⟩, fun k hk => ?_,
        fun i k => roundDiv_err hP _ _⟩
      · dsimp only
        rw [← intR_add, hsum]
        have e0 : intR (2 ^ n) (ev.ringQ.qs u) (fun k => ev.ringQ.prodQ (level - nb) * W k) = 0 := by
          refine (intR_congr (b := fun _ => 0) fun k _ => ?_).trans (by simp [intR, toR])
          obtain ⟨c, hc⟩ := prodQ_cast_dvd (r := ev.ringQ) hu
          rw [hc]
          push_cast
          rw [show (((ev.ringQ.sub u).q.toNat : ℕ) : ZMod (ev.ringQ.qs u)) = 0 from ZMod.natCast_self _, zero_mul, zero_mul]
        rw [e0, add_zero]
      · rw [hW k hk, prodQ_topQ ev.ringQ h1, ← hPd]
        push_cast
        have e : convSum (2 ^ n) (deg + 1) (fun i k => P * roundDiv P (X i) k - X i k) (negPow (2 ^ n) S) k =
            P * convSum (2 ^ n) (deg + 1) (fun i => roundDiv P (X i)) (negPow (2 ^ n) S) k -
              convSum (2 ^ n) (deg + 1) X (negPow (2 ^ n) S) k := by
          unfold convSum negConv
          rw [mul_sum, ← sum_sub_distrib]
          refine sum_congr rfl fun i _ => ?_
          rw [mul_sum, ← sum_sub_distrib]
          refine sum_congr rfl fun j _ => ?_
          split <;> ring
        rw [e]
        ring

end

end FastKsw.Props
