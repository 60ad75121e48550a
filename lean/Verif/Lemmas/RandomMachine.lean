import Verif.Lemmas.RandomBytes

/-!
# Machines that read a random byte stream in blocks of `B` bytes
-/

namespace FastKsw

open MeasureTheory Finset
open scoped ENNReal

/-- the weight of one block -/
noncomputable def blockW (B : ℕ) : ℝ≥0∞ := ((256 : ℝ≥0∞) ^ B)⁻¹

theorem blockW_ne_zero (B : ℕ) : blockW B ≠ 0 := ENNReal.inv_ne_zero.2 (ENNReal.pow_ne_top (by norm_num))

theorem blockW_ne_top (B : ℕ) : blockW B ≠ ⊤ := ENNReal.inv_ne_top.2 (by positivity)

theorem sum_blockW (B : ℕ) : ∑ _b : Fin B → UInt8, blockW B = 1 := by
  rw [sum_const, card_univ, card_prefixes, nsmul_eq_mul, blockW]
  push_cast
  exact ENNReal.mul_inv_cancel (pow_ne_zero _ (by norm_num)) (ENNReal.pow_ne_top (by norm_num))

section
variable {B : ℕ} {Q β : Type*} (step : Q → (Fin B → UInt8) → Q ⊕ β)

/-- run from state `q`, at most `k` blocks: the value and the number of bytes read -/
def runM : ℕ → Q → (ℕ → UInt8) → Option (β × ℕ)
  | 0, _, _ => none
  | k + 1, q, s => match step q (prefixOf B s) with
    | .inr v => some (v, B)
    | .inl q' => (runM k q' (dropBytes B s)).map fun x => (x.1, B + x.2)

theorem runM_mono {k : ℕ} : ∀ {k' : ℕ} {q : Q} {s : ℕ → UInt8} {x : β × ℕ}, k ≤ k' → runM step k q s = some x →
    runM step k' q s = some x := by
  induction k with
  | zero => intro k' q s x _ h; simp [runM] at h
  | succ k ih =>
    intro k' q s x hk h
    obtain ⟨k', rfl⟩ : ∃ g, k' = g + 1 := ⟨k' - 1, by omega⟩
    rw [runM] at h ⊢
    cases hs : step q (prefixOf B s) with
    | inr v => rw [hs] at h; exact h
    | inl q' =>
      rw [hs] at h
      simp only [Option.map_eq_some_iff] at h ⊢
      obtain ⟨y, h1, h2⟩ := h
      exact ⟨y, ih (by omega) h1, h2⟩

theorem runM_succ {k : ℕ} {q : Q} {s : ℕ → UInt8} {v : β} {L : ℕ} (h : runM step (k + 1) q s = some (v, L)) :
    ∃ M, L = B + M ∧ Sum.elim (fun q' => runM step k q' (dropBytes B s) = some (v, M)) (fun w => w = v ∧ M = 0)
      (step q (prefixOf B s)) := by
  rw [runM] at h
  cases hs : step q (prefixOf B s) with
  | inr w =>
    rw [hs] at h
    simp only [Option.some.injEq, Prod.mk.injEq] at h
    exact ⟨0, h.2.symm, h.1, rfl⟩
  | inl q' =>
    rw [hs] at h
    simp only [Option.map_eq_some_iff, Prod.mk.injEq] at h
    obtain ⟨⟨w, M⟩, h1, h2, h3⟩ := h
    simp only at h2 h3
    subst h2
    exact ⟨M, h3.symm, h1⟩

theorem runM_unique {k k' : ℕ} {q : Q} {s : ℕ → UInt8} {x y : β × ℕ} (h : runM step k q s = some x)
    (h' : runM step k' q s = some y) : x = y := by
  have h1 := runM_mono step (le_max_left k k') h
  rw [runM_mono step (le_max_right k k') h'] at h1
  exact (Option.some.inj h1).symm

/-- the value is `v` and the rest of the stream is in `E` -/
def runEv (E : ℕ → Set (ℕ → UInt8)) (v : β) (k a : ℕ) (q : Q) : Set (ℕ → UInt8) :=
  {s | ∃ L, runM step k q s = some (v, L) ∧ dropBytes L s ∈ E (a + L)}

variable [DecidableEq β]

/-- the probability of the value `v` within `k` blocks -/
noncomputable def runPr (v : β) : ℕ → Q → ℝ≥0∞
  | 0, _ => 0
  | k + 1, q => ∑ b : Fin B → UInt8, blockW B * match step q b with
    | .inr w => if w = v then 1 else 0
    | .inl q' => runPr v k q'

/-- the probability of no value within `k` blocks -/
noncomputable def runRem : ℕ → Q → ℝ≥0∞
  | 0, _ => 1
  | k + 1, q => ∑ b : Fin B → UInt8, blockW B * match step q b with
    | .inr _ => 0
    | .inl q' => runRem k q'

theorem runEv_succ (E : ℕ → Set (ℕ → UInt8)) (v : β) (k a : ℕ) (q : Q) : runEv step E v (k + 1) a q
    = {s | prefixOf B s ∈ (univ : Finset (Fin B → UInt8)) ∧ dropBytes B s ∈ match step q (prefixOf B s) with
      | .inr w => if w = v then E (a + B) else ∅
      | .inl q' => runEv step E v k (a + B) q'} := by
  ext s
  simp only [runEv, runM, Set.mem_ofPred_eq, mem_univ, true_and]
  cases step q (prefixOf B s) with
  | inr w =>
    simp only [Option.some.injEq, Prod.mk.injEq]
    constructor
    · rintro ⟨L, ⟨h1, h2⟩, h3⟩
      subst h2
      rw [if_pos h1]
      exact h3
    · intro h
      by_cases hw : w = v
      · rw [if_pos hw] at h
        exact ⟨B, ⟨hw, rfl⟩, h⟩
      · rw [if_neg hw] at h
        exact absurd h (Set.notMem_empty _)
  | inl q' =>
    simp only [Option.map_eq_some_iff, Prod.mk.injEq, Set.mem_ofPred_eq]
    constructor
    · rintro ⟨L, ⟨⟨w, M⟩, h1, h2, h3⟩, h4⟩
      simp only at h2 h3
      subst h2 h3
      refine ⟨M, h1, ?_⟩
      rw [dropBytes_dropBytes, add_assoc]
      exact h4
    · rintro ⟨L, h1, h2⟩
      refine ⟨B + L, ⟨(v, L), h1, rfl, rfl⟩, ?_⟩
      rw [dropBytes_dropBytes, add_assoc] at h2
      exact h2

theorem runEv_apply {E : ℕ → Set (ℕ → UInt8)} (hE : ∀ k, MeasurableSet (E k)) {c : ℝ≥0∞}
    (hc : ∀ k, randomBytes (E k) = c) (v : β) (k : ℕ) : ∀ (a : ℕ) (q : Q),
    MeasurableSet (runEv step E v k a q) ∧ randomBytes (runEv step E v k a q) = runPr step v k q * c := by
  induction k with
  | zero => intro a q; simp [runEv, runM, runPr]
  | succ k ih =>
    intro a q
    have hm : ∀ b ∈ (univ : Finset (Fin B → UInt8)), MeasurableSet ((fun b => match step q b with
      | .inr w => if w = v then E (a + B) else ∅
      | .inl q' => runEv step E v k (a + B) q' : (Fin B → UInt8) → Set (ℕ → UInt8)) b) := by
      intro b _
      dsimp only
      cases step q b with
      | inr w =>
        dsimp only
        split
        · exact hE _
        · exact MeasurableSet.empty
      | inl q' => exact (ih _ _).1
    rw [runEv_succ]
    refine ⟨measurable_prefix_mem hm, ?_⟩
    rw [prefix_sum _ hm, runPr, sum_mul]
    refine sum_congr rfl fun b _ => ?_
    rw [blockW, mul_assoc]
    congr 1
    cases step q b with
    | inr w =>
      dsimp only
      split
      · rw [hc, one_mul]
      · rw [measure_empty, zero_mul]
    | inl q' => exact (ih _ _).2

/-- the probability of the value `v` -/
noncomputable def runLaw (q : Q) (v : β) : ℝ≥0∞ := ⨆ k, runPr step v k q

theorem runPr_mono (v : β) (q : Q) : Monotone fun k => runPr step v k q := by
  refine monotone_nat_of_le_succ fun k => ?_
  induction k generalizing q with
  | zero => simp [runPr]
  | succ k ih =>
    rw [runPr, runPr]
    refine sum_le_sum fun b _ => ?_
    gcongr
    cases step q b with
    | inr w => exact le_rfl
    | inl q' => exact ih q'

/-- the value has its law whatever the stream does afterwards -/
theorem run_apply {E : ℕ → Set (ℕ → UInt8)} (hE : ∀ k, MeasurableSet (E k)) {c : ℝ≥0∞}
    (hc : ∀ k, randomBytes (E k) = c) (v : β) (a : ℕ) (q : Q) :
    MeasurableSet {s | ∃ k L, runM step k q s = some (v, L) ∧ dropBytes L s ∈ E (a + L)} ∧
    randomBytes {s | ∃ k L, runM step k q s = some (v, L) ∧ dropBytes L s ∈ E (a + L)} = runLaw step q v * c := by
  have hU : {s | ∃ k L, runM step k q s = some (v, L) ∧ dropBytes L s ∈ E (a + L)} = ⋃ k, runEv step E v k a q := by
    ext s
    simp [runEv]
  have hm : Monotone fun k => runEv step E v k a q := by
    rintro f g hfg s ⟨L, h1, h2⟩
    exact ⟨L, runM_mono step hfg h1, h2⟩
  rw [hU]
  refine ⟨MeasurableSet.iUnion fun k => (runEv_apply step hE hc v k a q).1, ?_⟩
  rw [hm.measure_iUnion, runLaw, ENNReal.iSup_mul]
  exact iSup_congr fun k => (runEv_apply step hE hc v k a q).2

/-- values not yielded have probability zero -/
theorem runLaw_eq_zero {v : β} (hv : ∀ q b, step q b ≠ .inr v) (q : Q) : runLaw step q v = 0 := by
  rw [runLaw, ENNReal.iSup_eq_zero]
  intro k
  induction k generalizing q with
  | zero => rfl
  | succ k ih =>
    rw [runPr]
    refine sum_eq_zero fun b _ => ?_
    cases hs : step q b with
    | inr w =>
      have : w ≠ v := fun h => hv q b (h ▸ hs)
      simp [this]
    | inl q' => simp [ih q']

/-- a symmetry of the machine is one of the law -/
theorem runLaw_symm {f : (Fin B → UInt8) → Fin B → UInt8} (hf : Function.Involutive f) {σ : Q → Q} {τ : β → β}
    (hτ : Function.Injective τ) (h : ∀ q b, step (σ q) (f b) = Sum.map σ τ (step q b)) (q : Q) (v : β) :
    runLaw step (σ q) (τ v) = runLaw step q v := by
  rw [runLaw, runLaw]
  refine iSup_congr fun k => ?_
  induction k generalizing q with
  | zero => rfl
  | succ k ih =>
    rw [runPr, runPr, ← Equiv.sum_comp hf.toPerm]
    refine sum_congr rfl fun b _ => ?_
    rw [Function.Involutive.coe_toPerm, h]
    cases step q b with
    | inr w => simp [hτ.eq_iff]
    | inl q' => simp [ih q']

/-! ## Termination -/

theorem runPr_add_rem {V : Finset β} (hV : ∀ q b v, step q b = .inr v → v ∈ V) (k : ℕ) : ∀ q : Q,
    ∑ v ∈ V, runPr step v k q + runRem step k q = 1 := by
  induction k with
  | zero => intro q; simp [runPr, runRem]
  | succ k ih =>
    intro q
    simp only [runPr, runRem]
    rw [sum_comm, ← sum_add_distrib]
    refine Eq.trans ?_ (sum_blockW B)
    refine sum_congr rfl fun b _ => ?_
    rw [← mul_sum, ← mul_add]
    conv_rhs => rw [← mul_one (blockW B)]
    congr 1
    cases hs : step q b with
    | inr w => simp [hV q b w hs]
    | inl q' => exact ih q'

/-- within `m` blocks from `q`, some bytes make the machine stop -/
def CanStop : ℕ → Q → Prop
  | 0, _ => False
  | m + 1, q => ∃ b, match step q b with
    | .inr _ => True
    | .inl q' => CanStop m q'

/-- a bound on the probability not to stop within `m` blocks -/
noncomputable def stayW (B : ℕ) : ℕ → ℝ≥0∞
  | 0 => 0
  | m + 1 => blockW B * stayW B m + (1 - blockW B)

theorem blockW_le_one (B : ℕ) : blockW B ≤ 1 := by
  rw [← sum_blockW B]
  exact single_le_sum (f := fun _ : Fin B → UInt8 => blockW B) (fun _ _ => zero_le) (mem_univ (fun _ => 0))

theorem stayW_lt_one (B m : ℕ) : stayW B m < 1 := by
  induction m with
  | zero => simp [stayW]
  | succ m ih =>
    have h1 : blockW B * stayW B m < blockW B := by
      conv_rhs => rw [← mul_one (blockW B)]
      exact (ENNReal.mul_lt_mul_iff_right (blockW_ne_zero B) (blockW_ne_top B)).2 ih
    calc stayW B (m + 1) < blockW B + (1 - blockW B) := ENNReal.add_lt_add_right (by
            exact ne_top_of_le_ne_top ENNReal.one_ne_top tsub_le_self) h1
      _ = 1 := add_tsub_cancel_of_le (blockW_le_one B)

omit [DecidableEq β] in
theorem runRem_anti (q : Q) : Antitone fun k => runRem step k q := by
  refine antitone_nat_of_succ_le fun k => ?_
  induction k generalizing q with
  | zero =>
    simp only [runRem]
    refine le_trans ?_ (sum_blockW B).le
    refine sum_le_sum fun b _ => ?_
    conv_rhs => rw [← mul_one (blockW B)]
    gcongr
    cases step q b with
    | inr w => exact zero_le
    | inl q' => exact le_rfl
  | succ k ih =>
    rw [runRem, runRem]
    refine sum_le_sum fun b _ => ?_
    gcongr
    cases step q b with
    | inr w => exact le_rfl
    | inl q' => exact ih q'

omit [DecidableEq β] in
theorem runRem_le {u : ℝ≥0∞} {k : ℕ} (hu : ∀ q, runRem step k q ≤ u) (m : ℕ) : ∀ q, CanStop step m q →
    runRem step (k + m) q ≤ stayW B m * u := by
  induction m with
  | zero => intro q h; exact h.elim
  | succ m ih =>
    rintro q ⟨b, hb⟩
    rw [← add_assoc, runRem, ← add_sum_erase _ _ (mem_univ b), stayW, add_mul, mul_assoc]
    have hrest : ∑ _x ∈ (univ : Finset (Fin B → UInt8)).erase b, blockW B = 1 - blockW B := by
      rw [← sum_blockW B, ← add_sum_erase _ _ (mem_univ b)]
      exact (ENNReal.add_sub_cancel_left (blockW_ne_top B)).symm
    refine add_le_add ?_ ?_
    · gcongr
      cases hs : step q b with
      | inr w => exact zero_le
      | inl q' =>
        rw [hs] at hb
        exact ih q' hb
    · rw [← hrest, sum_mul]
      refine sum_le_sum fun x _ => ?_
      gcongr
      cases step q x with
      | inr w => exact zero_le
      | inl q' => exact (runRem_anti step q' (show k ≤ k + m by omega)).trans (hu q')

/-- if the machine can stop within `m` blocks from every state, it stops with probability one -/
theorem runLaw_total {V : Finset β} (hV : ∀ q b v, step q b = .inr v → v ∈ V) {m : ℕ} (hm : ∀ q, CanStop step m q) (q : Q) :
    ∑ v ∈ V, runLaw step q v = 1 := by
  have hle : ∀ i q, runRem step (i * m) q ≤ stayW B m ^ i := by
    intro i
    induction i with
    | zero => intro q; simp [runRem]
    | succ i ih =>
      intro q
      rw [Nat.succ_mul, pow_succ']
      exact runRem_le step ih m q (hm q)
  have hsum : ∑ v ∈ V, runLaw step q v = ⨆ k, ∑ v ∈ V, runPr step v k q :=
    ENNReal.finsetSum_iSup_of_monotone fun v => runPr_mono step v q
  refine le_antisymm ?_ ?_
  · rw [hsum]
    exact iSup_le fun k => (runPr_add_rem step hV k q) ▸ le_self_add
  · have h1 : ∀ i : ℕ, 1 ≤ ∑ v ∈ V, runLaw step q v + stayW B m ^ i := by
      intro i
      rw [← runPr_add_rem step hV (i * m) q]
      exact add_le_add (sum_le_sum fun v _ => le_iSup (fun k => runPr step v k q) _) (hle i q)
    have h2 : Filter.Tendsto (fun i : ℕ => ∑ v ∈ V, runLaw step q v + stayW B m ^ i) Filter.atTop
        (nhds (∑ v ∈ V, runLaw step q v + 0)) :=
      Filter.Tendsto.add tendsto_const_nhds (ENNReal.tendsto_pow_atTop_nhds_zero_of_lt_one (stayW_lt_one B m))
    rw [add_zero] at h2
    exact ge_of_tendsto' h2 h1

end

end FastKsw
