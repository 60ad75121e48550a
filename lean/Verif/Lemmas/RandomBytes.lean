import Verif.Spec.Random
import Mathlib.Analysis.SpecificLimits.Basic

/-!
# Independence of the parts of a random byte stream, rejection sampling
-/

namespace FastKsw

open MeasureTheory Finset
open scoped ENNReal

/-- the first `L` bytes -/
def prefixOf (L : ℕ) (s : ℕ → UInt8) : Fin L → UInt8 := fun i => s i

/-- the stream without its first `L` bytes -/
def dropBytes (L : ℕ) (s : ℕ → UInt8) : ℕ → UInt8 := fun i => s (L + i)

theorem dropBytes_dropBytes (a b : ℕ) (s : ℕ → UInt8) : dropBytes b (dropBytes a s) = dropBytes (a + b) s := by
  funext i
  simp only [dropBytes]
  congr 1
  omega

theorem measurable_dropBytes (L : ℕ) : Measurable (dropBytes L) :=
  measurable_pi_lambda _ fun i => measurable_pi_apply (L + i)

theorem measurableSet_prefix (L : ℕ) (a : Fin L → UInt8) : MeasurableSet {s | prefixOf L s = a} := by
  have : {s | prefixOf L s = a} = ⋂ i : Fin L, (fun s : ℕ → UInt8 => s i) ⁻¹' {a i} := by
    ext s
    simp [prefixOf, funext_iff]
  rw [this]
  exact MeasurableSet.iInter fun i => measurable_pi_apply (i : ℕ) (measurableSet_singleton (a i))

/-- the bytes after the first `L` are independent of those and distributed like the whole stream -/
theorem prefix_apply (L : ℕ) (a : Fin L → UInt8) {E : Set (ℕ → UInt8)} (hE : MeasurableSet E) :
    randomBytes {s | prefixOf L s = a ∧ dropBytes L s ∈ E} = ((256 : ℝ≥0∞) ^ L)⁻¹ * randomBytes E := by
  have h0 : ((256 : ℝ≥0∞) ^ L) ≠ 0 := by positivity
  have h1 : ((256 : ℝ≥0∞) ^ L) ≠ ⊤ := ENNReal.pow_ne_top (by norm_num)
  have key : ((256 : ℝ≥0∞) ^ L) • ((randomBytes.restrict {s | prefixOf L s = a}).map (dropBytes L)) = randomBytes := by
    rw [randomBytes]
    refine Measure.eq_infinitePi _ fun F t ht => ?_
    rw [Measure.smul_apply, Measure.map_apply (measurable_dropBytes L)
      (MeasurableSet.pi F.countable_toSet fun i _ => ht i), Measure.restrict_apply (measurable_dropBytes L
      (MeasurableSet.pi F.countable_toSet fun i _ => ht i))]
    have hset : dropBytes L ⁻¹' (Set.pi (F : Set ℕ) t) ∩ {s | prefixOf L s = a}
        = Set.pi ((range L ∪ F.map (addLeftEmbedding L) : Finset ℕ) : Set ℕ)
          (fun i => if h : i < L then {a ⟨i, h⟩} else t (i - L)) := by
      ext s
      simp only [Set.mem_inter_iff, Set.mem_preimage, Set.mem_pi, Finset.mem_coe, Set.mem_ofPred_eq, mem_union,
        mem_range, mem_map, addLeftEmbedding_apply, dropBytes]
      constructor
      · rintro ⟨h1, h2⟩ i (hi | ⟨k, hk, rfl⟩)
        · rw [dif_pos hi, ← h2]
          rfl
        · rw [dif_neg (by omega), Nat.add_sub_cancel_left]
          exact h1 k hk
      · intro h
        refine ⟨fun k hk => ?_, ?_⟩
        · have := h (L + k) (Or.inr ⟨k, hk, rfl⟩)
          rwa [dif_neg (by omega), Nat.add_sub_cancel_left] at this
        · funext i
          have := h i (Or.inl i.2)
          rwa [dif_pos i.2] at this
    rw [hset, Measure.infinitePi_pi]
    swap
    · intro i _
      split
      · exact measurableSet_singleton _
      · exact ht _
    rw [prod_union (by
      rw [Finset.disjoint_left]
      intro i h1 h2
      simp only [mem_range, mem_map, addLeftEmbedding_apply] at h1 h2
      omega)]
    have e1 : ∏ i ∈ range L, randomByte (if h : i < L then {a ⟨i, h⟩} else t (i - L)) = ((256 : ℝ≥0∞) ^ L)⁻¹ := by
      rw [prod_congr rfl (g := fun _ => (256 : ℝ≥0∞)⁻¹), prod_const, card_range, ENNReal.inv_pow]
      intro i hi
      rw [dif_pos (mem_range.1 hi), randomByte_singleton]
    have e2 : ∏ i ∈ F.map (addLeftEmbedding L), randomByte (if h : i < L then {a ⟨i, h⟩} else t (i - L))
        = ∏ i ∈ F, randomByte (t i) := by
      rw [prod_map]
      refine prod_congr rfl fun i _ => ?_
      rw [addLeftEmbedding_apply, dif_neg (by omega), Nat.add_sub_cancel_left]
    rw [e1, e2, smul_eq_mul, ← mul_assoc, ENNReal.mul_inv_cancel h0 h1, one_mul]
  have h2 : ((256 : ℝ≥0∞) ^ L) * randomBytes {s | prefixOf L s = a ∧ dropBytes L s ∈ E} = randomBytes E := by
    conv_rhs => rw [← key]
    rw [Measure.smul_apply, Measure.map_apply (measurable_dropBytes L) hE,
      Measure.restrict_apply (measurable_dropBytes L hE), smul_eq_mul]
    congr 2
    ext s
    simp [and_comm]
  rw [← h2, ← mul_assoc, ENNReal.inv_mul_cancel h0 h1, one_mul]

theorem measurable_and {L : ℕ} {a : Fin L → UInt8} {E : Set (ℕ → UInt8)} (hE : MeasurableSet E) :
    MeasurableSet {s | prefixOf L s = a ∧ dropBytes L s ∈ E} :=
  (measurableSet_prefix L a).inter (measurable_dropBytes L hE)

theorem setOf_prefix {L : ℕ} (A : Finset (Fin L → UInt8)) (E : (Fin L → UInt8) → Set (ℕ → UInt8)) :
    {s | prefixOf L s ∈ A ∧ dropBytes L s ∈ E (prefixOf L s)}
      = ⋃ a ∈ A, {s | prefixOf L s = a ∧ dropBytes L s ∈ E a} := by
  ext s
  simp only [Set.mem_ofPred_eq, Set.mem_iUnion]
  constructor
  · rintro ⟨h1, h2⟩
    exact ⟨_, h1, rfl, h2⟩
  · rintro ⟨a, h1, rfl, h2⟩
    exact ⟨h1, h2⟩

theorem measurable_prefix_mem {L : ℕ} {A : Finset (Fin L → UInt8)} {E : (Fin L → UInt8) → Set (ℕ → UInt8)}
    (hE : ∀ a ∈ A, MeasurableSet (E a)) :
    MeasurableSet {s | prefixOf L s ∈ A ∧ dropBytes L s ∈ E (prefixOf L s)} := by
  rw [setOf_prefix]
  exact A.measurableSet_biUnion fun a ha => measurable_and (hE a ha)

/-- a choice of the first bytes and, for each, an event for the rest -/
theorem prefix_sum {L : ℕ} (A : Finset (Fin L → UInt8)) {E : (Fin L → UInt8) → Set (ℕ → UInt8)}
    (hE : ∀ a ∈ A, MeasurableSet (E a)) :
    randomBytes {s | prefixOf L s ∈ A ∧ dropBytes L s ∈ E (prefixOf L s)}
      = ∑ a ∈ A, ((256 : ℝ≥0∞) ^ L)⁻¹ * randomBytes (E a) := by
  rw [setOf_prefix, measure_biUnion_finset]
  · exact sum_congr rfl fun a ha => prefix_apply L a (hE a ha)
  · intro a _ b _ hab
    rw [Function.onFun, Set.disjoint_left]
    rintro s ⟨h1, -⟩ ⟨h2, -⟩
    exact hab (h1.symm.trans h2)
  · exact fun a ha => measurable_and (hE a ha)

theorem prefix_card {L : ℕ} (A : Finset (Fin L → UInt8)) {E : Set (ℕ → UInt8)} (hE : MeasurableSet E) :
    randomBytes {s | prefixOf L s ∈ A ∧ dropBytes L s ∈ E} = (A.card : ℝ≥0∞) * ((256 : ℝ≥0∞) ^ L)⁻¹ * randomBytes E := by
  rw [prefix_sum A (E := fun _ => E) fun _ _ => hE, sum_const, nsmul_eq_mul, mul_assoc]

theorem card_prefixes (L : ℕ) : Fintype.card (Fin L → UInt8) = 256 ^ L := by
  rw [Fintype.card_fun, card_byte, Fintype.card_fin]

/-- the distribution of the stream does not depend on the position at which one starts to read -/
theorem dropBytes_apply (L : ℕ) {E : Set (ℕ → UInt8)} (hE : MeasurableSet E) :
    randomBytes {s | dropBytes L s ∈ E} = randomBytes E := by
  have h := prefix_card (univ : Finset (Fin L → UInt8)) hE
  simp only [mem_univ, true_and] at h
  rw [h, card_univ, card_prefixes]
  push_cast
  rw [ENNReal.mul_inv_cancel (by positivity) (ENNReal.pow_ne_top (by norm_num)), one_mul]

/-! ## Rejection sampling -/

/-- draw blocks of `L` bytes until one is accepted; the value, the number of blocks read so far (starting at
`k`) and the rest of the stream -/
def reject {β : Type*} (L : ℕ) (acc : (Fin L → UInt8) → Option β) : ℕ → ℕ → (ℕ → UInt8) → Option (β × ℕ × (ℕ → UInt8))
  | 0, _, _ => none
  | fuel + 1, k, s =>
    match acc (prefixOf L s) with
    | some v => some (v, k + 1, dropBytes L s)
    | none => reject L acc fuel (k + 1) (dropBytes L s)

theorem reject_mono {β : Type*} {L : ℕ} {acc : (Fin L → UInt8) → Option β} {fuel : ℕ} : ∀ {k : ℕ} {s : ℕ → UInt8}
    {x : β × ℕ × (ℕ → UInt8)} {fuel' : ℕ}, fuel ≤ fuel' → reject L acc fuel k s = some x → reject L acc fuel' k s = some x := by
  induction fuel with
  | zero => intro k s x f _ h; simp [reject] at h
  | succ fuel ih =>
    intro k s x f hf h
    obtain ⟨f, rfl⟩ : ∃ g, f = g + 1 := ⟨f - 1, by omega⟩
    rw [reject] at h ⊢
    split at h
    · exact h
    · exact ih (by omega) h

variable {β : Type*} [DecidableEq β] {L : ℕ} (acc : (Fin L → UInt8) → Option β)

/-- the blocks that yield a value, those that are rejected -/
def blocksOf (v : Option β) : Finset (Fin L → UInt8) := univ.filter fun b => acc b = v

/-- if all values are yielded by equally many blocks, the accepted blocks are that number for each value -/
theorem card_blocks {V : Finset β} (hV : ∀ b v, acc b = some v → v ∈ V) {m : ℕ}
    (hm : ∀ v ∈ V, (blocksOf acc (some v)).card = m) : (blocksOf acc none).card + V.card * m = 256 ^ L := by
  rw [← card_prefixes L, ← card_univ]
  have h : (univ : Finset (Fin L → UInt8)) = blocksOf acc none ∪ V.biUnion fun v => blocksOf acc (some v) := by
    ext b
    simp only [mem_univ, blocksOf, mem_union, mem_filter, true_and, mem_biUnion, true_iff]
    cases h : acc b with
    | none => exact Or.inl rfl
    | some v => exact Or.inr ⟨v, hV b v h, rfl⟩
  rw [h, card_union_of_disjoint, card_biUnion, sum_congr rfl hm, sum_const, smul_eq_mul]
  · intro v _ w _ hvw
    rw [Function.onFun, Finset.disjoint_left]
    intro b h1 h2
    simp only [blocksOf, mem_filter, mem_univ, true_and] at h1 h2
    exact hvw (Option.some.inj (h1.symm.trans h2))
  · rw [Finset.disjoint_left]
    intro b h1 h2
    simp only [blocksOf, mem_filter, mem_univ, true_and, mem_biUnion] at h1 h2
    obtain ⟨v, -, h2⟩ := h2
    rw [h1] at h2
    cases h2

/-- with `fuel` draws, the value is `v` and the rest of the stream is in `E` -/
def rejectEv (E : ℕ → Set (ℕ → UInt8)) (v : β) (fuel k : ℕ) : Set (ℕ → UInt8) :=
  {s | ∃ k' s', reject L acc fuel k s = some (v, k', s') ∧ s' ∈ E k'}

theorem rejectEv_succ (E : ℕ → Set (ℕ → UInt8)) (v : β) (fuel k : ℕ) : rejectEv acc E v (fuel + 1) k
    = {s | prefixOf L s ∈ blocksOf acc (some v) ∧ dropBytes L s ∈ E (k + 1)}
      ∪ {s | prefixOf L s ∈ blocksOf acc none ∧ dropBytes L s ∈ rejectEv acc E v fuel (k + 1)} := by
  ext s
  simp only [rejectEv, blocksOf, mem_filter, mem_univ, true_and, Set.mem_ofPred_eq, Set.mem_union, reject]
  cases h : acc (prefixOf L s) with
  | none => simp
  | some w =>
    simp only [Option.some.injEq, Prod.mk.injEq, reduceCtorEq, false_and, or_false]
    constructor
    · rintro ⟨k', s', ⟨h1, rfl, rfl⟩, h2⟩
      exact ⟨h1, h2⟩
    · rintro ⟨h1, h2⟩
      exact ⟨_, _, ⟨h1, rfl, rfl⟩, h2⟩

theorem rejectEv_measurable {E : ℕ → Set (ℕ → UInt8)} (hE : ∀ k, MeasurableSet (E k)) (v : β) (fuel : ℕ) :
    ∀ k, MeasurableSet (rejectEv acc E v fuel k) := by
  induction fuel with
  | zero => intro k; simp [rejectEv, reject]
  | succ fuel ih =>
    intro k
    rw [rejectEv_succ]
    exact (measurable_prefix_mem (E := fun _ => E (k + 1)) fun _ _ => hE _).union
      (measurable_prefix_mem (E := fun _ => rejectEv acc E v fuel (k + 1)) fun _ _ => ih _)

theorem rejectEv_apply {E : ℕ → Set (ℕ → UInt8)} (hE : ∀ k, MeasurableSet (E k)) {c : ℝ≥0∞}
    (hc : ∀ k, randomBytes (E k) = c) (v : β) (fuel : ℕ) : ∀ k, randomBytes (rejectEv acc E v fuel k)
      = ((blocksOf acc (some v)).card : ℝ≥0∞) * ((256 : ℝ≥0∞) ^ L)⁻¹ * c
        * ∑ i ∈ range fuel, (((blocksOf acc none).card : ℝ≥0∞) * ((256 : ℝ≥0∞) ^ L)⁻¹) ^ i := by
  induction fuel with
  | zero => intro k; simp [rejectEv, reject]
  | succ fuel ih =>
    intro k
    rw [rejectEv_succ, measure_union _ (measurable_prefix_mem (E := fun _ => rejectEv acc E v fuel (k + 1))
      fun _ _ => rejectEv_measurable acc hE v fuel _), prefix_card _ (hE _),
      prefix_card _ (rejectEv_measurable acc hE v fuel _), ih, hc, sum_range_succ']
    · simp only [pow_succ, pow_zero]
      rw [← sum_mul]
      ring
    · rw [Set.disjoint_left]
      rintro s ⟨h1, -⟩ ⟨h2, -⟩
      simp only [blocksOf, mem_filter, mem_univ, true_and] at h1 h2
      rw [h1] at h2
      cases h2

/-- **Rejection sampling.** The value is `v` with probability (number of blocks that yield `v`) over (number of
blocks accepted), independently of what the rest of the stream does. -/
theorem reject_apply {E : ℕ → Set (ℕ → UInt8)} (hE : ∀ k, MeasurableSet (E k)) {c : ℝ≥0∞}
    (hc : ∀ k, randomBytes (E k) = c) (v : β) (k : ℕ) {a : ℕ} (ha : (blocksOf acc none).card + a = 256 ^ L) (ha0 : 0 < a) :
    MeasurableSet {s | ∃ fuel k' s', reject L acc fuel k s = some (v, k', s') ∧ s' ∈ E k'} ∧
    randomBytes {s | ∃ fuel k' s', reject L acc fuel k s = some (v, k', s') ∧ s' ∈ E k'}
      = ((blocksOf acc (some v)).card : ℝ≥0∞) * (a : ℝ≥0∞)⁻¹ * c := by
  have hU : {s | ∃ fuel k' s', reject L acc fuel k s = some (v, k', s') ∧ s' ∈ E k'}
      = ⋃ fuel, rejectEv acc E v fuel k := by
    ext s
    simp [rejectEv]
  have hm : Monotone fun fuel => rejectEv acc E v fuel k := by
    rintro f g hfg s ⟨k', s', h1, h2⟩
    exact ⟨k', s', reject_mono hfg h1, h2⟩
  rw [hU]
  refine ⟨MeasurableSet.iUnion fun f => rejectEv_measurable acc hE v f k, ?_⟩
  rw [hm.measure_iUnion]
  simp only [rejectEv_apply acc hE hc v]
  rw [← ENNReal.mul_iSup, ← ENNReal.tsum_eq_iSup_nat, ENNReal.tsum_geometric]
  have h0 : ((256 : ℝ≥0∞) ^ L) ≠ 0 := by positivity
  have h1 : ((256 : ℝ≥0∞) ^ L) ≠ ⊤ := ENNReal.pow_ne_top (by norm_num)
  have h2 : (1 : ℝ≥0∞) - ((blocksOf acc none).card : ℝ≥0∞) * ((256 : ℝ≥0∞) ^ L)⁻¹ = (a : ℝ≥0∞) * ((256 : ℝ≥0∞) ^ L)⁻¹ := by
    have h3 : (((blocksOf acc none).card : ℝ≥0∞) + a) = (256 : ℝ≥0∞) ^ L := by exact_mod_cast congrArg (Nat.cast (R := ℝ≥0∞)) ha
    refine ENNReal.sub_eq_of_eq_add (ENNReal.mul_ne_top (ENNReal.natCast_ne_top _) (ENNReal.inv_ne_top.2 h0)) ?_
    rw [← add_mul, add_comm, h3, ENNReal.mul_inv_cancel h0 h1]
  rw [h2, ENNReal.mul_inv (Or.inl (by exact_mod_cast ha0.ne')) (Or.inl (ENNReal.natCast_ne_top _)), inv_inv]
  calc _ = ((blocksOf acc (some v)).card : ℝ≥0∞) * (a : ℝ≥0∞)⁻¹ * c * (((256 : ℝ≥0∞) ^ L)⁻¹ * (256 : ℝ≥0∞) ^ L) := by ring
    _ = _ := by rw [ENNReal.inv_mul_cancel h0 h1, mul_one]

/-- rejection sampling in which all values are yielded by equally many blocks is uniform -/
theorem reject_uniform {E : ℕ → Set (ℕ → UInt8)} (hE : ∀ k, MeasurableSet (E k)) {c : ℝ≥0∞}
    (hc : ∀ k, randomBytes (E k) = c) {V : Finset β} (hV : ∀ b v, acc b = some v → v ∈ V) {m : ℕ} (hm0 : 0 < m)
    (hm : ∀ v ∈ V, (blocksOf acc (some v)).card = m) {v : β} (hv : v ∈ V) (k : ℕ) :
    MeasurableSet {s | ∃ fuel k' s', reject L acc fuel k s = some (v, k', s') ∧ s' ∈ E k'} ∧
    randomBytes {s | ∃ fuel k' s', reject L acc fuel k s = some (v, k', s') ∧ s' ∈ E k'} = (V.card : ℝ≥0∞)⁻¹ * c := by
  have hV0 : 0 < V.card := card_pos.2 ⟨v, hv⟩
  obtain ⟨h1, h2⟩ := reject_apply acc hE hc v k (card_blocks acc hV hm) (by positivity)
  refine ⟨h1, ?_⟩
  rw [h2, hm v hv]
  push_cast
  rw [ENNReal.mul_inv (Or.inl (by exact_mod_cast hV0.ne')) (Or.inl (ENNReal.natCast_ne_top _)),
    mul_comm (V.card : ℝ≥0∞)⁻¹, ← mul_assoc,
    ENNReal.mul_inv_cancel (by exact_mod_cast hm0.ne') (ENNReal.natCast_ne_top _), one_mul]

/-! ## Numbers made of bytes -/

/-- the number with the given bytes, most significant first -/
def bytesNat (L : ℕ) (b : Fin L → UInt8) : ℕ := (List.ofFn b).foldl (fun a x => 256 * a + x.toNat) 0

theorem bytesNat_succ (L : ℕ) (b : Fin (L + 1) → UInt8) :
    bytesNat (L + 1) b = 256 * bytesNat L (fun i => b i.castSucc) + (b (Fin.last L)).toNat := by
  rw [bytesNat, List.ofFn_succ', List.concat_eq_append, List.foldl_append]
  rfl

theorem bytesNat_lt (L : ℕ) : ∀ b : Fin L → UInt8, bytesNat L b < 256 ^ L := by
  induction L with
  | zero => intro b; simp [bytesNat]
  | succ L ih =>
    intro b
    rw [bytesNat_succ, pow_succ]
    have := ih fun i => b i.castSucc
    have := (b (Fin.last L)).toNat_lt
    omega

theorem bytesNat_injective (L : ℕ) : Function.Injective (bytesNat L) := by
  induction L with
  | zero => intro b c _; exact funext fun i => i.elim0
  | succ L ih =>
    intro b c h
    rw [bytesNat_succ, bytesNat_succ] at h
    have h1 := (b (Fin.last L)).toNat_lt
    have h2 := (c (Fin.last L)).toNat_lt
    have h3 := ih (show bytesNat L (fun i => b i.castSucc) = bytesNat L (fun i => c i.castSucc) by omega)
    funext i
    refine Fin.lastCases ?_ (fun i => congrFun h3 i) i
    exact UInt8.toNat_inj.1 (by omega)

theorem bytesNat_image (L : ℕ) : (univ : Finset (Fin L → UInt8)).image (bytesNat L) = range (256 ^ L) := by
  refine Finset.eq_of_subset_of_card_le (fun x hx => ?_) ?_
  · obtain ⟨b, -, rfl⟩ := mem_image.1 hx
    exact mem_range.2 (bytesNat_lt L b)
  · rw [card_range, card_image_of_injective _ (bytesNat_injective L), card_univ, card_prefixes]

theorem card_bytesNat (L : ℕ) (P : ℕ → Prop) [DecidablePred P] :
    (univ.filter fun b : Fin L → UInt8 => P (bytesNat L b)).card = ((range (256 ^ L)).filter P).card := by
  rw [← bytesNat_image, filter_image, card_image_of_injective _ (bytesNat_injective L)]

/-- equally many numbers have each remainder modulo a power of two -/
theorem card_mod_two_pow {L m v : ℕ} (hm : m ≤ 8 * L) (hv : v < 2 ^ m) :
    (univ.filter fun b : Fin L → UInt8 => bytesNat L b % 2 ^ m = v).card = 2 ^ (8 * L - m) := by
  rw [card_bytesNat L (fun x => x % 2 ^ m = v), show 256 ^ L = 2 ^ m * 2 ^ (8 * L - m) by
    rw [← pow_add, Nat.add_sub_cancel' hm, pow_mul]; rfl]
  have h : (range (2 ^ m * 2 ^ (8 * L - m))).filter (fun x => x % 2 ^ m = v)
      = (range (2 ^ (8 * L - m))).image fun y => v + 2 ^ m * y := by
    ext x
    simp only [mem_filter, mem_range, mem_image]
    constructor
    · rintro ⟨h1, h2⟩
      refine ⟨x / 2 ^ m, Nat.div_lt_of_lt_mul h1, ?_⟩
      rw [← h2, Nat.mod_add_div]
    · rintro ⟨y, hy, rfl⟩
      refine ⟨?_, by rw [Nat.add_mul_mod_self_left, Nat.mod_eq_of_lt hv]⟩
      calc v + 2 ^ m * y < 2 ^ m + 2 ^ m * y := by omega
        _ = 2 ^ m * (y + 1) := by ring
        _ ≤ _ := Nat.mul_le_mul_left _ hy
  rw [h, card_image_of_injective _ (fun a b hab => ?_), card_range]
  have : 2 ^ m * a = 2 ^ m * b := by simpa using hab
  exact Nat.eq_of_mul_eq_mul_left (by positivity) this

end FastKsw
