import Verif.Lemmas.ZigguratMass
import Verif.Lemmas.GaussianLaw

/-!
# The law of the Gaussian sampler through the chance of one attempt
-/

namespace FastKsw

open MeasureTheory Finset
open scoped ENNReal

/-! ## The first block -/

section
variable {B : ℕ} {Q β : Type*} [DecidableEq β] (step : Q → (Fin B → UInt8) → Q ⊕ β)

theorem runLaw_first (q : Q) (v : β) : runLaw step q v
    = ∑ b : Fin B → UInt8, blockW B * Sum.elim (fun q' => runLaw step q' v) (fun w => if w = v then 1 else 0) (step q b) := by
  have hm := runPr_mono step v
  have h1 : runLaw step q v = ⨆ k, runPr step v (k + 1) q := ((hm q).iSup_nat_add 1).symm
  rw [h1]
  simp only [runPr]
  rw [← ENNReal.finsetSum_iSup_of_monotone]
  · refine sum_congr rfl fun b _ => ?_
    rw [← ENNReal.mul_iSup]
    congr 1
    cases step q b with
    | inr w => simp
    | inl q' => rfl
  · intro b k k' hk
    dsimp only
    gcongr
    cases step q b with
    | inr w => exact le_rfl
    | inl q' => exact hm q' hk

theorem runLaw_le_one (W : Finset β) (q : Q) : ∑ v ∈ W, runLaw step q v ≤ 1 := by
  have hsum : ∑ v ∈ W, runLaw step q v = ⨆ k, ∑ v ∈ W, runPr step v k q :=
    ENNReal.finsetSum_iSup_of_monotone fun v => runPr_mono step v q
  rw [hsum]
  refine iSup_le fun k => ?_
  clear hsum
  induction k generalizing q with
  | zero => simp [runPr]
  | succ k ih =>
    simp only [runPr]
    rw [sum_comm]
    refine le_trans (sum_le_sum fun b _ => ?_) (sum_blockW B).le
    rw [← mul_sum]
    conv_rhs => rw [← mul_one (blockW B)]
    gcongr
    cases step q b with
    | inr w =>
      dsimp only
      rw [sum_ite_eq]
      split <;> simp
    | inl q' => exact ih q'

/-- the chance that the machine yields a value in `W` -/
noncomputable def hit (W : Finset β) (q : Q) : ℝ := (∑ v ∈ W, runLaw step q v).toReal

theorem hit_first (W : Finset β) (q : Q) : hit step W q
    = (1 / 256 ^ B : ℝ) * ∑ b : Fin B → UInt8, Sum.elim (hit step W) (fun w => if w ∈ W then 1 else 0) (step q b) := by
  have h1 : ∑ v ∈ W, runLaw step q v
      = ∑ b : Fin B → UInt8, blockW B * Sum.elim (fun q' => ∑ v ∈ W, runLaw step q' v) (fun w => if w ∈ W then 1 else 0) (step q b) := by
    rw [sum_congr rfl fun v _ => runLaw_first step q v, sum_comm]
    refine sum_congr rfl fun b _ => ?_
    rw [← mul_sum]
    congr 1
    cases step q b with
    | inr w => simp
    | inl q' => rfl
  have hne : ∀ b, Sum.elim (fun q' => ∑ v ∈ W, runLaw step q' v) (fun w => if w ∈ W then (1 : ℝ≥0∞) else 0) (step q b) ≠ ⊤ := by
    intro b
    cases step q b with
    | inr w =>
      simp only [Sum.elim_inr]
      split <;> simp
    | inl q' => exact ne_top_of_le_ne_top ENNReal.one_ne_top (runLaw_le_one step W q')
  rw [hit, h1, ENNReal.toReal_sum fun b _ => ENNReal.mul_ne_top (blockW_ne_top B) (hne b), mul_sum]
  refine sum_congr rfl fun b _ => ?_
  rw [ENNReal.toReal_mul]
  congr 1
  · rw [blockW, ENNReal.toReal_inv, ENNReal.toReal_pow, one_div]
    norm_num
  · cases step q b with
    | inr w =>
      simp only [Sum.elim_inr]
      split <;> simp
    | inl q' => rfl

end

/-! ## Sums over words -/

theorem sum_range_mul (a b : ℕ) (F : ℕ → ℝ) : ∑ n ∈ range (a * b), F n = ∑ x ∈ range a, ∑ y ∈ range b, F (x * b + y) := by
  induction a with
  | zero => simp
  | succ a ih => rw [Nat.succ_mul, sum_range_add, ih, sum_range_succ]

theorem sum_range_mod {a b : ℕ} (F : ℕ → ℝ) : ∑ n ∈ range (a * b), F (n % b) = a * ∑ y ∈ range b, F y := by
  rw [sum_range_mul, sum_congr rfl (g := fun _ => ∑ y ∈ range b, F y), sum_const, card_range, nsmul_eq_mul]
  intro x _
  refine sum_congr rfl fun y hy => ?_
  rw [mul_comm x b, Nat.mul_add_mod, Nat.mod_eq_of_lt (mem_range.1 hy)]

theorem sum_range_div {a b : ℕ} (F : ℕ → ℝ) : ∑ n ∈ range (a * b), F (n / b) = b * ∑ x ∈ range a, F x := by
  rw [sum_range_mul, mul_sum]
  refine sum_congr rfl fun x _ => ?_
  rw [sum_congr rfl (g := fun _ => F x), sum_const, card_range, nsmul_eq_mul]
  intro y hy
  have hy := mem_range.1 hy
  rw [mul_comm x b, Nat.mul_add_div (by omega), Nat.div_eq_of_lt hy, add_zero]

theorem sum_blocks (L : ℕ) (G : ℕ → ℝ) : ∑ b : Fin L → UInt8, G (bytesNat L b) = ∑ n ∈ range (256 ^ L), G n := by
  rw [← bytesNat_image, sum_image fun _ _ _ _ h => bytesNat_injective L h]

theorem mask53 (b : Fin 8 → UInt8) : (beUint (List.ofFn b) &&& 0x1fffffffffffff).toNat = bytesNat 8 b % 2 ^ 53 := by
  have hmask : (0x1fffffffffffff : UInt64).toNat = 2 ^ 53 - 1 := by decide
  rw [UInt64.toNat_and, hmask, Nat.and_two_pow_sub_one_eq_mod, beUint_ofFn le_rfl]

theorem words53 (F : ℕ → ℝ) : (1 / 256 ^ 8 : ℝ) * ∑ b : Fin 8 → UInt8, F (beUint (List.ofFn b) &&& 0x1fffffffffffff).toNat
    = (1 / 2 ^ 53 : ℝ) * ∑ u ∈ range (2 ^ 53), F u := by
  rw [sum_congr rfl fun b _ => by rw [mask53 b], sum_blocks 8 (fun n => F (n % 2 ^ 53)),
    show 256 ^ 8 = 2 ^ 11 * 2 ^ 53 by norm_num, sum_range_mod F]
  generalize ∑ u ∈ range (2 ^ 53), F u = S
  push_cast
  ring

theorem top32 (b : Fin 8 → UInt8) : (beUint ((List.ofFn b).take 4)).toNat = bytesNat 8 b / 2 ^ 32 := by
  rw [Props.beUint_toNat _ (by simp), bytesNat, ofFn_eight]
  have h3 := (b 4).toNat_lt
  have h5 := (b 5).toNat_lt
  have h6 := (b 6).toNat_lt
  have h7 := (b 7).toNat_lt
  simp only [List.take_succ_cons, List.take_zero, List.foldl_cons, List.foldl_nil]
  omega

theorem words31 (H : ℕ → ℝ) : (1 / 256 ^ 8 : ℝ) * ∑ b : Fin 8 → UInt8, H ((beUint ((List.ofFn b).take 4)).toNat &&& 0x7fffffff)
    = (1 / 128 : ℝ) * ∑ i ∈ range 128, (1 / 2 ^ 24 : ℝ) * ∑ m ∈ range (2 ^ 24), H (128 * m + i) := by
  have hm : (0x7fffffff : ℕ) = 2 ^ 31 - 1 := by norm_num
  rw [sum_congr rfl fun b _ => by rw [hm, Nat.and_two_pow_sub_one_eq_mod, top32 b],
    sum_blocks 8 (fun n => H (n / 2 ^ 32 % 2 ^ 31)),
    show 256 ^ 8 = 2 ^ 32 * 2 ^ 32 by norm_num, sum_range_div (fun n => H (n % 2 ^ 31)), show 2 ^ 32 = 2 * 2 ^ 31 by norm_num,
    sum_range_mod H, show 2 ^ 31 = 2 ^ 24 * 128 by norm_num, sum_range_mul, sum_comm, ← mul_sum]
  rw [sum_congr rfl fun i _ => sum_congr rfl fun m _ => by rw [mul_comm m 128]]
  generalize ∑ i ∈ range 128, ∑ m ∈ range (2 ^ 24), H (128 * m + i) = S
  push_cast
  ring

theorem hit_words {Q β : Type*} [DecidableEq β] {step : Q → (Fin 8 → UInt8) → Q ⊕ β} {W : Finset β} {q : Q} (F : ℕ → ℝ)
    (h : ∀ b, Sum.elim (hit step W) (fun w => if w ∈ W then (1 : ℝ) else 0) (step q b)
      = F (beUint (List.ofFn b) &&& 0x1fffffffffffff).toNat) :
    hit step W q = (1 / 2 ^ 53 : ℝ) * ∑ u ∈ range (2 ^ 53), F u := by
  rw [hit_first, sum_congr rfl fun b _ => h b, words53 F]

/-- an average of two values -/
theorem avg_ite (k : ℕ) (c : ℕ → Prop) [DecidablePred c] (g A : ℝ) :
    (1 / 2 ^ k : ℝ) * ∑ u ∈ range (2 ^ k), (if c u then g else A)
      = ((1 / 2 ^ k : ℝ) * ∑ u ∈ range (2 ^ k), if c u then 1 else 0) * g
        + (1 - (1 / 2 ^ k : ℝ) * ∑ u ∈ range (2 ^ k), if c u then 1 else 0) * A := by
  have e : ∀ u, (if c u then g else A) = (if c u then 1 else 0) * (g - A) + A := by
    intro u
    split_ifs <;> ring
  rw [sum_congr rfl fun u _ => e u, sum_add_distrib, ← sum_mul, sum_const, card_range, nsmul_eq_mul]
  push_cast
  field_simp
  ring

theorem avg_const (k : ℕ) (A : ℝ) : (1 / 2 ^ k : ℝ) * ∑ _u ∈ range (2 ^ k), A = A := by
  rw [sum_const, card_range, nsmul_eq_mul]
  push_cast
  field_simp

/-! ## The states of the machine -/

section
variable {σ : ℝ} {bound : UInt64} {n : ℕ}

/-- what follows an accepted point `x` -/
noncomputable def finishVal (σ : ℝ) (bound : UInt64) (n : ℕ) (A x : ℝ) : ℝ :=
  if x < (n + 1 / 2) / σ then 1 else if x < (bound.toNat + 1 / 2) / σ then 0 else A

theorem lt_edge (hσ : 0 < σ) {x : ℝ} (k : ℕ) : ⌊(1 / 2 : ℝ) + x * σ⌋₊ ≤ k ↔ x < (k + 1 / 2) / σ := by
  rw [← Nat.lt_succ_iff, Nat.floor_lt' (Nat.succ_ne_zero k), lt_div_iff₀ hσ]
  push_cast
  constructor <;> intro h <;> linarith

theorem finish_val (hσ : 0 < σ) (hσ2 : σ ≤ 2 ^ 59) (hn : n ≤ bound.toNat) {x : ℝ} (hx : x ≤ 24) (sign : Bool) :
    Sum.elim (hit (gaussStep realOps σ bound) (Icc (-(n : ℤ)) n)) (fun w => if w ∈ Icc (-(n : ℤ)) n then 1 else 0)
      (gaussFinish realOps σ bound x sign)
      = finishVal σ bound n (hit (gaussStep realOps σ bound) (Icc (-(n : ℤ)) n) .top) x := by
  have hc : (realOps.toU64 (realOps.mulAdd (realOps.lit 0.5) x σ)).toNat = ⌊(1 / 2 : ℝ) + x * σ⌋₊ := by
    have e : ((0.5 : ℚ) : ℝ) = 1 / 2 := by norm_num
    simp only [realOps, e]
    rw [UInt64.toNat_ofNat', Nat.mod_eq_of_lt]
    rw [Nat.floor_lt' (by norm_num)]
    have : x * σ ≤ 24 * 2 ^ 59 := by
      calc x * σ ≤ 24 * σ := by gcongr
        _ ≤ _ := by gcongr
    push_cast
    linarith
  unfold gaussFinish finishVal
  simp only [UInt64.le_iff_toNat_le, hc, lt_edge hσ]
  by_cases h : x < (bound.toNat + 1 / 2) / σ
  · rw [if_pos h, if_pos h, Sum.elim_inr]
    refine if_congr ?_ rfl rfl
    rw [← lt_edge hσ, ← hc, mem_Icc, gaussInt]
    dsimp only
    split <;> omega
  · rw [if_neg h, if_neg h, Sum.elim_inl, if_neg]
    intro h2
    refine h (h2.trans_le ?_)
    gcongr

theorem hit_strip (hσ : 0 < σ) (hσ2 : σ ≤ 2 ^ 59) (hn : n ≤ bound.toNat) {x : ℝ} (hx : x ≤ 24) (sign : Bool) (i : ℕ) :
    hit (gaussStep realOps σ bound) (Icc (-(n : ℤ)) n) (.strip sign x i)
      = zigWedge i x * finishVal σ bound n (hit (gaussStep realOps σ bound) (Icc (-(n : ℤ)) n) .top) x
        + (1 - zigWedge i x) * hit (gaussStep realOps σ bound) (Icc (-(n : ℤ)) n) .top := by
  set A := hit (gaussStep realOps σ bound) (Icc (-(n : ℤ)) n) .top with hA
  have e : ∀ b : Fin 8 → UInt8, Sum.elim (hit (gaussStep realOps σ bound) (Icc (-(n : ℤ)) n))
      (fun w => if w ∈ Icc (-(n : ℤ)) n then (1 : ℝ) else 0) (gaussStep realOps σ bound (.strip sign x i) b)
      = (fun u : ℕ => if (zigY i : ℝ) + (u / tailM) * (zigY (i - 1) - zigY i) < bell x then finishVal σ bound n A x else A)
        (beUint (List.ofFn b) &&& 0x1fffffffffffff).toNat := by
    intro b
    have hc : realOps.lt32 (realOps.mulAdd32 (realOps.lit32 (zigF.getD i 0)) (realOps.to32 (randFloat64 realOps (List.ofFn b)))
          (realOps.sub32 (realOps.lit32 (zigF.getD (i - 1) 0)) (realOps.lit32 (zigF.getD i 0))))
        (realOps.to32 (realOps.exp (realOps.mul (realOps.mul (realOps.lit (-0.5)) x) x))) = true ↔
        (zigY i : ℝ) + (((beUint (List.ofFn b) &&& 0x1fffffffffffff).toNat : ℕ) / tailM) * (zigY (i - 1) - zigY i) < bell x := by
      simp only [realOps, randFloat64, decide_eq_true_eq, zigY, bell, tailM]
      have e1 : ((-0.5 : ℚ) : ℝ) * x * x = -(x ^ 2 / 2) := by push_cast; ring
      rw [e1]
      norm_num
    simp only [gaussStep]
    by_cases h : (zigY i : ℝ) + (((beUint (List.ofFn b) &&& 0x1fffffffffffff).toNat : ℕ) / tailM) * (zigY (i - 1) - zigY i) < bell x
    · rw [if_pos (hc.2 h), if_pos h]
      exact finish_val hσ hσ2 hn hx sign
    · rw [if_neg (fun h' => h (hc.1 h')), if_neg h]
      rfl
  rw [hit_words (fun u : ℕ => if (zigY i : ℝ) + (u / tailM) * (zigY (i - 1) - zigY i) < bell x then finishVal σ bound n A x else A) e]
  have := avg_ite 53 (fun u : ℕ => (zigY i : ℝ) + (u / tailM) * (zigY (i - 1) - zigY i) < bell x)
    (finishVal σ bound n A x) A
  rw [zigWedge]
  exact this

theorem hit_tail2 (hσ : 0 < σ) (hσ2 : σ ≤ 2 ^ 59) (hn : n ≤ bound.toNat) {x : ℝ} (hx : x + zigR ≤ 24) (sign : Bool) :
    hit (gaussStep realOps σ bound) (Icc (-(n : ℤ)) n) (.tail2 sign x)
      = tailAcc x * finishVal σ bound n (hit (gaussStep realOps σ bound) (Icc (-(n : ℤ)) n) .top) (x + zigR)
        + (1 - tailAcc x) * hit (gaussStep realOps σ bound) (Icc (-(n : ℤ)) n) (.tail1 sign) := by
  set A := hit (gaussStep realOps σ bound) (Icc (-(n : ℤ)) n) .top with hA
  set T := hit (gaussStep realOps σ bound) (Icc (-(n : ℤ)) n) (.tail1 sign) with hT
  have e : ∀ b : Fin 8 → UInt8, Sum.elim (hit (gaussStep realOps σ bound) (Icc (-(n : ℤ)) n))
      (fun w => if w ∈ Icc (-(n : ℤ)) n then (1 : ℝ) else 0) (gaussStep realOps σ bound (.tail2 sign x) b)
      = (fun w : ℕ => if x * x ≤ -Real.log (w / tailM) + -Real.log (w / tailM) then finishVal σ bound n A (x + zigR) else T)
        (beUint (List.ofFn b) &&& 0x1fffffffffffff).toNat := by
    intro b
    have hR : realOps.add x (realOps.lit 3.442619855899) = x + zigR := rfl
    have hc : realOps.ge (realOps.add (realOps.neg (realOps.log (randFloat64 realOps (List.ofFn b))))
          (realOps.neg (realOps.log (randFloat64 realOps (List.ofFn b))))) (realOps.mul x x) = true ↔
        x * x ≤ -Real.log (((beUint (List.ofFn b) &&& 0x1fffffffffffff).toNat : ℕ) / tailM)
          + -Real.log (((beUint (List.ofFn b) &&& 0x1fffffffffffff).toNat : ℕ) / tailM) := by
      simp only [realOps, randFloat64, decide_eq_true_eq, tailM, ge_iff_le]
      norm_num
    simp only [gaussStep, hR]
    by_cases h : x * x ≤ -Real.log (((beUint (List.ofFn b) &&& 0x1fffffffffffff).toNat : ℕ) / tailM)
          + -Real.log (((beUint (List.ofFn b) &&& 0x1fffffffffffff).toNat : ℕ) / tailM)
    · rw [if_pos (hc.2 h), if_pos h]
      exact finish_val hσ hσ2 hn hx sign
    · rw [if_neg (fun h' => h (hc.1 h')), if_neg h]
      rfl
  rw [hit_words (fun w : ℕ => if x * x ≤ -Real.log (w / tailM) + -Real.log (w / tailM) then finishVal σ bound n A (x + zigR) else T) e]
  have := avg_ite 53 (fun w : ℕ => x * x ≤ -Real.log (w / tailM) + -Real.log (w / tailM))
    (finishVal σ bound n A (x + zigR)) T
  rw [tailAcc]
  exact this

theorem hit_tail1 (sign : Bool) : hit (gaussStep realOps σ bound) (Icc (-(n : ℤ)) n) (.tail1 sign)
    = (1 / 2 ^ 53 : ℝ) * ∑ u ∈ range (2 ^ 53), hit (gaussStep realOps σ bound) (Icc (-(n : ℤ)) n) (.tail2 sign (tailX u)) := by
  refine hit_words (fun u => hit (gaussStep realOps σ bound) (Icc (-(n : ℤ)) n) (.tail2 sign (tailX u))) fun b => ?_
  have hc : realOps.mul (realOps.neg (realOps.log (randFloat64 realOps (List.ofFn b)))) (realOps.lit (1 / 3.442619855899))
      = tailX (beUint (List.ofFn b) &&& 0x1fffffffffffff).toNat := by
    simp only [realOps, randFloat64, tailM, tailX, zigR]
    norm_num
  simp only [gaussStep, hc]
  rfl

/-- the loop for the base strip -/
theorem hit_tail (hσ : 0 < σ) (hσ2 : σ ≤ 2 ^ 59) (hn : n ≤ bound.toNat) (sign : Bool) :
    hit (gaussStep realOps σ bound) (Icc (-(n : ℤ)) n) (.tail1 sign) = tailRound 0 ((n + 1 / 2) / σ) / tailTotal
      + (1 - tailRound 0 ((bound.toNat + 1 / 2) / σ) / tailTotal) * hit (gaussStep realOps σ bound) (Icc (-(n : ℤ)) n) .top := by
  have hT0 : 0 < tailTotal := lt_of_lt_of_le (by norm_num) tailTotal_ge
  have hR := zigR_pos
  have hle : ((n : ℝ) + 1 / 2) / σ ≤ (bound.toNat + 1 / 2) / σ := by gcongr
  have h1 := hit_tail1 (σ := σ) (bound := bound) (n := n) sign
  set A := hit (gaussStep realOps σ bound) (Icc (-(n : ℤ)) n) .top with hA
  set T := hit (gaussStep realOps σ bound) (Icc (-(n : ℤ)) n) (.tail1 sign) with hT
  have e : ∀ u ∈ range (2 ^ 53), hit (gaussStep realOps σ bound) (Icc (-(n : ℤ)) n) (.tail2 sign (tailX u))
      = (if 0 ≤ tailX u + zigR ∧ tailX u + zigR < (n + 1 / 2) / σ then tailAcc (tailX u) else 0)
        + (tailAcc (tailX u) - if 0 ≤ tailX u + zigR ∧ tailX u + zigR < (bound.toNat + 1 / 2) / σ then tailAcc (tailX u) else 0) * A
        + (T - tailAcc (tailX u) * T) := by
    intro u hu
    have h0 := tailX_nonneg (mem_range.1 hu)
    have h20 := tailX_lt u
    have hR4 : (zigR : ℝ) ≤ 4 := by rw [zigR]; norm_num
    have hp : 0 ≤ tailX u + zigR := by linarith
    rw [hit_tail2 hσ hσ2 hn (by linarith) sign, ← hA, ← hT, finishVal]
    simp only [hp, true_and]
    by_cases c1 : tailX u + zigR < (n + 1 / 2) / σ
    · have c2 := c1.trans_le hle
      simp only [c1, c2, if_true]
      ring
    · by_cases c2 : tailX u + zigR < (bound.toNat + 1 / 2) / σ
      · simp only [c1, c2, if_true, if_false]
        ring
      · simp only [c1, c2, if_false]
        ring
  rw [sum_congr rfl e, sum_add_distrib, sum_add_distrib, ← sum_mul, sum_sub_distrib, sum_sub_distrib, ← sum_mul] at h1
  have h2 : T = tailRound 0 ((n + 1 / 2) / σ) + (tailTotal - tailRound 0 ((bound.toNat + 1 / 2) / σ)) * A + (T - tailTotal * T) := by
    have h3 := avg_const 53 T
    rw [tailRound, tailRound, tailTotal]
    generalize ∑ u ∈ range (2 ^ 53), (if 0 ≤ tailX u + zigR ∧ tailX u + zigR < (n + 1 / 2) / σ then tailAcc (tailX u) else 0) = S1 at h1 ⊢
    generalize ∑ u ∈ range (2 ^ 53), (if 0 ≤ tailX u + zigR ∧ tailX u + zigR < (bound.toNat + 1 / 2) / σ then tailAcc (tailX u) else 0) = S2 at h1 ⊢
    generalize ∑ u ∈ range (2 ^ 53), tailAcc (tailX u) = S3 at h1 ⊢
    generalize ∑ u ∈ range (2 ^ 53), T = S4 at h1 h3
    linear_combination h1 + h3
  generalize tailRound 0 ((n + 1 / 2) / σ) = R1 at h2 ⊢
  generalize tailRound 0 ((bound.toNat + 1 / 2) / σ) = R2 at h2 ⊢
  field_simp
  linear_combination h2

theorem hit_words31 {Q β : Type*} [DecidableEq β] {step : Q → (Fin 8 → UInt8) → Q ⊕ β} {W : Finset β} {q : Q} (H : ℕ → ℝ)
    (h : ∀ b, Sum.elim (hit step W) (fun w => if w ∈ W then (1 : ℝ) else 0) (step q b)
      = H ((beUint ((List.ofFn b).take 4)).toNat &&& 0x7fffffff)) :
    hit step W q = (1 / 128 : ℝ) * ∑ i ∈ range 128, (1 / 2 ^ 24 : ℝ) * ∑ m ∈ range (2 ^ 24), H (128 * m + i) := by
  rw [hit_first, sum_congr rfl fun b _ => h b, words31 H]

/-- a word that leads to the loop for the base strip -/
noncomputable def tailWord (i m : ℕ) : ℝ := if i = 0 ∧ ¬ 128 * m < zigK.getD 0 0 then 1 else 0

theorem sum_tailWord : ∑ i ∈ range 128, (1 / 2 ^ 24 : ℝ) * ∑ m ∈ range (2 ^ 24), tailWord i m = (zigTailWords : ℕ) / 2 ^ 24 := by
  have hk : zigK.getD 0 0 = 0x76ad2212 := rfl
  rw [sum_eq_single_of_mem 0 (by simp)]
  · have : ∑ m ∈ range (2 ^ 24), tailWord 0 m = (zigTailWords : ℕ) := by
      have e : (range (2 ^ 24)).filter (fun m => ¬ 128 * m < zigK.getD 0 0) = Ico 15555141 (2 ^ 24) := by
        ext m
        rw [mem_filter, mem_range, mem_Ico, hk]
        constructor <;> intro h <;> constructor <;> omega
      simp only [tailWord, true_and]
      rw [← sum_filter, e, sum_const, Nat.card_Ico, zigTailWords]
      norm_num
    rw [this]
    ring
  · intro i _ hi
    rw [sum_eq_zero, mul_zero]
    intro m _
    rw [tailWord, if_neg]
    exact fun h => hi h.1

/-- the chance of a value up to `n`, through the chances of one attempt -/
theorem hit_top (hσ : 0 < σ) (hσ2 : σ ≤ 2 ^ 59) (hn : n ≤ bound.toNat) :
    hit (gaussStep realOps σ bound) (Icc (-(n : ℤ)) n) .top * zigMass 0 ((bound.toNat + 1 / 2) / σ)
      = zigMass 0 ((n + 1 / 2) / σ) := by
  have hle : ((n : ℝ) + 1 / 2) / σ ≤ (bound.toNat + 1 / 2) / σ := by gcongr
  set A := hit (gaussStep realOps σ bound) (Icc (-(n : ℤ)) n) .top with hA
  set T := tailRound 0 ((n + 1 / 2) / σ) / tailTotal + (1 - tailRound 0 ((bound.toNat + 1 / 2) / σ) / tailTotal) * A with hT
  set H : ℕ → ℝ := fun j => if j < zigK.getD (j % 128) 0 then finishVal σ bound n A (j * (zigW.getD (j % 128) 0 : ℚ))
    else if j % 128 = 0 then T
    else zigWedge (j % 128) (j * (zigW.getD (j % 128) 0 : ℚ)) * finishVal σ bound n A (j * (zigW.getD (j % 128) 0 : ℚ))
      + (1 - zigWedge (j % 128) (j * (zigW.getD (j % 128) 0 : ℚ))) * A with hH
  have e : ∀ b : Fin 8 → UInt8, Sum.elim (hit (gaussStep realOps σ bound) (Icc (-(n : ℤ)) n))
      (fun w => if w ∈ Icc (-(n : ℤ)) n then (1 : ℝ) else 0) (gaussStep realOps σ bound .top b)
      = H ((beUint ((List.ofFn b).take 4)).toNat &&& 0x7fffffff) := by
    intro b
    simp only [gaussStep]
    generalize (beUint ((List.ofFn b).take 4)).toNat = ju
    have hj : ju &&& 0x7fffffff < 2 ^ 31 := by
      rw [show (0x7fffffff : ℕ) = 2 ^ 31 - 1 by norm_num, Nat.and_two_pow_sub_one_eq_mod]
      exact Nat.mod_lt _ (by norm_num)
    generalize (ju &&& 0x7fffffff) = j at hj
    generalize decide (ju >>> 31 = 1) = sign
    have hi : j &&& 0x7F = j % 128 := by
      rw [show (0x7F : ℕ) = 2 ^ 7 - 1 by norm_num, Nat.and_two_pow_sub_one_eq_mod]
    rw [hi, hH]
    have hx : realOps.mul (realOps.ofNat j) (realOps.lit32 (zigW.getD (j % 128) 0)) = j * (zigW.getD (j % 128) 0 : ℚ) := rfl
    have hx24 : (j : ℝ) * (zigW.getD (j % 128) 0 : ℚ) ≤ 24 := by
      have hw := zigW_pos (i := j % 128) (Nat.mod_lt _ (by norm_num))
      have h1 : (zigX (j % 128) : ℝ) ≤ 4 := by
        rcases Nat.eq_zero_or_pos (j % 128) with h0 | h0
        · rw [h0]
          have : zigX 0 ≤ 4 := by decide +kernel
          have := cast_le_real this
          push_cast at this
          exact this
        · have := (zigFacts h0 (Nat.mod_lt j (by norm_num))).x
          linarith
      rw [zigX_eq] at h1
      have h3 : (j : ℝ) ≤ 2 ^ 31 := by exact_mod_cast hj.le
      have : (j : ℝ) * (zigW.getD (j % 128) 0 : ℚ) ≤ 2 ^ 31 * (zigW.getD (j % 128) 0 : ℚ) := by gcongr
      linarith
    rw [hx]
    dsimp only
    split_ifs
    · exact finish_val hσ hσ2 hn hx24 sign
    · exact hit_tail hσ hσ2 hn sign
    · exact hit_strip hσ hσ2 hn hx24 sign _
  have h1 := hit_words31 H e
  rw [← hA] at h1
  have e2 : ∀ i ∈ range 128, ∀ m ∈ range (2 ^ 24), H (128 * m + i)
      = (if 0 ≤ zigPt i m ∧ zigPt i m < (n + 1 / 2) / σ then zigP i m else 0)
        + (A - (if 0 ≤ zigPt i m ∧ zigPt i m < (bound.toNat + 1 / 2) / σ then zigP i m else 0) * A)
        + tailWord i m * (T - A) := by
    intro i hi m _
    have hi := mem_range.1 hi
    have hmod : (128 * m + i) % 128 = i := by omega
    have hp : 0 ≤ zigPt i m := by
      have := zigW_pos hi
      rw [zigPt]
      positivity
    rw [hH]
    dsimp only
    rw [hmod, ← zigPt, finishVal, zigP, tailWord]
    simp only [hp, true_and]
    by_cases h0 : i = 0
    · subst h0
      simp only [true_and, if_true, add_zero]
      by_cases hk : 128 * m < zigK.getD 0 0
      · simp only [hk, if_true, not_true, if_false]
        by_cases c1 : zigPt 0 m < (n + 1 / 2) / σ
        · have c2 := c1.trans_le hle
          simp only [c1, c2, if_true]
          ring
        · by_cases c2 : zigPt 0 m < (bound.toNat + 1 / 2) / σ
          · simp only [c1, c2, if_true, if_false]
            ring
          · simp only [c1, c2, if_false]
            ring
      · simp only [hk, if_false, not_false_eq_true, if_true, ite_self]
        ring
    · simp only [h0, false_and, if_false]
      have key : ∀ P : ℝ, P * (if zigPt i m < (n + 1 / 2) / σ then 1 else if zigPt i m < (bound.toNat + 1 / 2) / σ then 0 else A)
          + (1 - P) * A = (if zigPt i m < (n + 1 / 2) / σ then P else 0)
            + (A - (if zigPt i m < (bound.toNat + 1 / 2) / σ then P else 0) * A) + 0 * (T - A) := by
        intro P
        by_cases c1 : zigPt i m < (n + 1 / 2) / σ
        · have c2 := c1.trans_le hle
          simp only [c1, c2, if_true]
          ring
        · by_cases c2 : zigPt i m < (bound.toNat + 1 / 2) / σ
          · simp only [c1, c2, if_true, if_false]
            ring
          · simp only [c1, c2, if_false]
            ring
      by_cases hk : 128 * m + i < zigK.getD i 0
      · simp only [hk, if_true]
        rw [← key 1]
        ring
      · simp only [hk, if_false]
        exact key _
  have e3 : ∀ i ∈ range 128, (1 / 2 ^ 24 : ℝ) * ∑ m ∈ range (2 ^ 24), H (128 * m + i)
      = (1 / 2 ^ 24 : ℝ) * (∑ m ∈ range (2 ^ 24), if 0 ≤ zigPt i m ∧ zigPt i m < (n + 1 / 2) / σ then zigP i m else 0)
        + (A - ((1 / 2 ^ 24 : ℝ) * ∑ m ∈ range (2 ^ 24), if 0 ≤ zigPt i m ∧ zigPt i m < (bound.toNat + 1 / 2) / σ then zigP i m else 0) * A)
        + ((1 / 2 ^ 24 : ℝ) * ∑ m ∈ range (2 ^ 24), tailWord i m) * (T - A) := by
    intro i hi
    rw [sum_congr rfl (e2 i hi), sum_add_distrib, sum_add_distrib, sum_sub_distrib, ← sum_mul, ← sum_mul]
    have h3 := avg_const 24 A
    linear_combination h3
  rw [sum_congr rfl e3, sum_add_distrib, sum_add_distrib, sum_sub_distrib, ← sum_mul, ← sum_mul, sum_tailWord, sum_const,
    card_range, nsmul_eq_mul] at h1
  rw [zigMass, zigMass]
  rw [hT] at h1
  push_cast at h1
  generalize ∑ i ∈ range 128, (1 / 2 ^ 24 : ℝ) * (∑ m ∈ range (2 ^ 24), if 0 ≤ zigPt i m ∧ zigPt i m < (n + 1 / 2) / σ then zigP i m else 0) = S1 at h1 ⊢
  generalize ∑ i ∈ range 128, (1 / 2 ^ 24 : ℝ) * (∑ m ∈ range (2 ^ 24), if 0 ≤ zigPt i m ∧ zigPt i m < (bound.toNat + 1 / 2) / σ then zigP i m else 0) = S2 at h1 ⊢
  generalize tailRound 0 ((n + 1 / 2) / σ) / tailTotal = R1 at h1 ⊢
  generalize tailRound 0 ((bound.toNat + 1 / 2) / σ) / tailTotal = R2 at h1 ⊢
  linear_combination h1

end

end FastKsw
