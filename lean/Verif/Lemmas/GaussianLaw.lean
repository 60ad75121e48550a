import Verif.Spec.Gaussian
import Verif.Lemmas.GaussianBytes

/-!
# The law of the Gaussian sampler on random bytes
-/

namespace FastKsw

open MeasureTheory Finset
open scoped ENNReal

variable {F : Type} (O : FloatOps F) (sigma : F) (bound : UInt64)

theorem drawInt_eq (g : UInt64 × Bool) : drawInt g = gaussInt g := rfl

theorem GaussAt.ptr_eq {s : ℕ → UInt8} {P a : ℕ} {st : GaussState} (h : GaussAt s P a st) :
    st.ptr = a - P - 1024 * ((a - P - 1) / 1024) := by
  obtain ⟨-, c, h1, -, h3, h4, -, h5⟩ := h
  omega

theorem GaussAt.ok {s : ℕ → UInt8} {P a : ℕ} {st : GaussState} (h : GaussAt s P a st) : st.Ok := by
  obtain ⟨-, c, -, h2, -, h4, h5, -⟩ := h
  exact ⟨by rw [h2]; simp, h4, h5⟩

theorem gaussAt_clock {buf : List UInt8} {ptr : ℕ} (s : ℕ → UInt8) (pos : ℕ) (clk : UInt64)
    (h : GaussState.Ok ⟨⟨s, pos, clk⟩, buf, ptr⟩) :
    GaussAt s pos (pos + ptr) (GaussState.clock ⟨⟨s, pos, clk⟩, buf, ptr⟩) := by
  obtain ⟨h1, h2, h3⟩ := h
  simp only at h1 h2 h3
  refine ⟨rfl, 0, ?_, ?_, ?_, h2, h3, Or.inr rfl⟩
  · simp [GaussState.clock, Prng.read, h1]
  · simp [GaussState.clock, Prng.read, h1]
  · simp [GaussState.clock]

/-! ## A list of draws -/

/-- the machine run once for each value of a list -/
def GaussRuns : List ℤ → (ℕ → UInt8) → ℕ → Prop
  | [], _, L => L = 0
  | v :: vs, s, L => ∃ L1 L2, GaussRun O sigma bound .top s v L1 ∧ GaussRuns vs (dropBytes L1 s) L2 ∧ L = L1 + L2

theorem gaussCoeffs_runs {s : ℕ → UInt8} {P : ℕ} {fuel : ℕ} (cnt : ℕ) : ∀ {a : ℕ} {st st' : GaussState}
    {gs : List (UInt64 × Bool)}, GaussAt s P a st → gaussCoeffs O sigma bound fuel cnt st = some (gs, st') →
    gs.length = cnt ∧ (∀ g ∈ gs, g.1 ≤ bound) ∧ ∃ L, GaussAt s P (a + L) st' ∧
      GaussRuns O sigma bound (gs.map drawInt) (dropBytes a s) L := by
  induction cnt with
  | zero =>
    intro a st st' gs hst h
    simp only [gaussCoeffs, Option.some.injEq, Prod.mk.injEq] at h
    obtain ⟨rfl, rfl⟩ := h
    exact ⟨rfl, by simp, 0, hst, rfl⟩
  | succ cnt ih =>
    intro a st st' gs hst h
    rw [gaussCoeffs, Option.bind_eq_some_iff] at h
    obtain ⟨⟨g, st1⟩, h1, h2⟩ := h
    rw [Option.bind_eq_some_iff] at h2
    obtain ⟨⟨gs1, st2⟩, h3, h4⟩ := h2
    simp only [Option.some.injEq, Prod.mk.injEq] at h4
    obtain ⟨rfl, rfl⟩ := h4
    obtain ⟨e1, L1, e2, e3⟩ := gaussCoeff_run O sigma bound hst h1
    obtain ⟨e4, e5, L2, e6, e7⟩ := ih e2 h3
    refine ⟨by simp [e4], ?_, L1 + L2, by rw [← add_assoc]; exact e6, L1, L2, e3, by rw [dropBytes_dropBytes]; exact e7, rfl⟩
    intro x hx
    rcases List.mem_cons.1 hx with rfl | hx
    · exact e1
    · exact e5 x hx

theorem gaussRuns_coeffs {s : ℕ → UInt8} {P : ℕ} (vs : List ℤ) : ∀ {a L : ℕ} {st : GaussState}, GaussAt s P a st →
    GaussRuns O sigma bound vs (dropBytes a s) L → ∃ fuel gs st', gaussCoeffs O sigma bound fuel vs.length st = some (gs, st') ∧
      gs.map drawInt = vs ∧ GaussAt s P (a + L) st' := by
  induction vs with
  | nil =>
    intro a L st hst h
    cases h
    exact ⟨0, [], st, rfl, rfl, hst⟩
  | cons v vs ih =>
    intro a L st hst h
    obtain ⟨L1, L2, ⟨k, h1⟩, h2, rfl⟩ := h
    obtain ⟨f1, g, st1, e1, e2, e3⟩ := gaussRun_goal O sigma bound hst h1
    rw [dropBytes_dropBytes] at h2
    obtain ⟨f2, gs, st2, e4, e5, e6⟩ := ih e3 h2
    refine ⟨max f1 f2, g :: gs, st2, ?_, by rw [List.map_cons, e5, drawInt_eq, e2], by rw [← add_assoc]; exact e6⟩
    rw [List.length_cons, gaussCoeffs, gaussCoeff_mono O sigma bound (le_max_left _ _) e1, Option.bind_some,
      gaussCoeffs_mono O sigma bound (le_max_right _ _) _ e4, Option.bind_some]

/-- the probability that one run of the machine yields `v` -/
noncomputable def machineLaw (v : ℤ) : ℝ≥0∞ := runLaw (gaussStep O sigma bound) .top v

theorem gaussRuns_apply {E : ℕ → Set (ℕ → UInt8)} (hE : ∀ k, MeasurableSet (E k)) {c : ℝ≥0∞}
    (hc : ∀ k, randomBytes (E k) = c) (vs : List ℤ) : ∀ a : ℕ,
    MeasurableSet {s | ∃ L, GaussRuns O sigma bound vs s L ∧ dropBytes L s ∈ E (a + L)} ∧
    randomBytes {s | ∃ L, GaussRuns O sigma bound vs s L ∧ dropBytes L s ∈ E (a + L)}
      = (vs.map (machineLaw O sigma bound)).prod * c := by
  induction vs with
  | nil =>
    intro a
    have : {s | ∃ L, GaussRuns O sigma bound [] s L ∧ dropBytes L s ∈ E (a + L)} = E a := by
      ext s
      have h0 : dropBytes 0 s = s := by funext i; simp [dropBytes]
      simp only [GaussRuns, Set.mem_ofPred_eq, exists_eq_left, h0, add_zero]
    rw [this]
    simp [hE a, hc a]
  | cons v vs ih =>
    intro a
    have hset : {s | ∃ L, GaussRuns O sigma bound (v :: vs) s L ∧ dropBytes L s ∈ E (a + L)}
        = {s | ∃ k L, runM (gaussStep O sigma bound) k .top s = some (v, L) ∧
          dropBytes L s ∈ {s | ∃ M, GaussRuns O sigma bound vs s M ∧ dropBytes M s ∈ E (a + L + M)}} := by
      ext s
      simp only [Set.mem_ofPred_eq, GaussRuns, GaussRun]
      constructor
      · rintro ⟨L, ⟨L1, L2, ⟨k, h1⟩, h2, rfl⟩, h3⟩
        exact ⟨k, L1, h1, L2, h2, by rw [dropBytes_dropBytes, add_assoc]; exact h3⟩
      · rintro ⟨k, L1, h1, L2, h2, h3⟩
        rw [dropBytes_dropBytes, add_assoc] at h3
        exact ⟨L1 + L2, ⟨L1, L2, ⟨k, h1⟩, h2, rfl⟩, h3⟩
    rw [hset, List.map_cons, List.prod_cons, mul_assoc]
    exact run_apply (gaussStep O sigma bound)
      (E := fun a => {s | ∃ M, GaussRuns O sigma bound vs s M ∧ dropBytes M s ∈ E (a + M)}) (fun k => (ih k).1)
      (fun k => (ih k).2) v a .top

/-- the draws of a sampler and what the generator yields afterwards -/
theorem gaussCoeffs_event {buf : List UInt8} {ptr : ℕ} (pos : ℕ) (clk : UInt64) (hlen : buf.length = 1024) (hle : ptr ≤ 1024)
    (hw : ptr % 8 = 0) (vs : List ℤ) {E : ℕ → Set (ℕ → UInt8)} (hE : ∀ k, MeasurableSet (E k)) {c : ℝ≥0∞}
    (hc : ∀ k, randomBytes (E k) = c) :
    MeasurableSet {s | ∃ fuel gs st', gaussCoeffs O sigma bound fuel vs.length (GaussState.clock ⟨⟨s, pos, clk⟩, buf, ptr⟩)
      = some (gs, st') ∧ gs.map drawInt = vs ∧ (fun i => s (st'.prng.pos + i)) ∈ E st'.ptr} ∧
    randomBytes {s | ∃ fuel gs st', gaussCoeffs O sigma bound fuel vs.length (GaussState.clock ⟨⟨s, pos, clk⟩, buf, ptr⟩)
      = some (gs, st') ∧ gs.map drawInt = vs ∧ (fun i => s (st'.prng.pos + i)) ∈ E st'.ptr}
      = (vs.map (machineLaw O sigma bound)).prod * c := by
  set skip : ℕ → ℕ := fun L => 1024 * ((ptr + L - 1) / 1024 + 1) - (ptr + L) with hskip
  set pt : ℕ → ℕ := fun L => ptr + L - 1024 * ((ptr + L - 1) / 1024) with hpt
  have hst : ∀ s, GaussAt s pos (pos + ptr) (GaussState.clock ⟨⟨s, pos, clk⟩, buf, ptr⟩) := fun s =>
    gaussAt_clock s pos clk ⟨hlen, hle, hw⟩
  have hdrop : ∀ (s : ℕ → UInt8) (L : ℕ) (st : GaussState), GaussAt s pos (pos + ptr + L) st →
      (fun i => s (st.prng.pos + i)) = dropBytes (skip L) (dropBytes L (dropBytes (pos + ptr) s)) ∧ st.ptr = pt L := by
    intro s L st h
    obtain ⟨h1, h2⟩ := h.pos_eq
    have h3 := h.ptr_eq
    have e1 : pos + ptr + L - pos = ptr + L := by omega
    rw [e1] at h1 h3
    refine ⟨?_, h3⟩
    rw [dropBytes_dropBytes, dropBytes_dropBytes]
    funext i
    simp only [dropBytes, hskip]
    congr 1
    omega
  have hset : {s | ∃ fuel gs st', gaussCoeffs O sigma bound fuel vs.length (GaussState.clock ⟨⟨s, pos, clk⟩, buf, ptr⟩)
      = some (gs, st') ∧ gs.map drawInt = vs ∧ (fun i => s (st'.prng.pos + i)) ∈ E st'.ptr}
      = {s | dropBytes (pos + ptr) s ∈ {u | ∃ L, GaussRuns O sigma bound vs u L ∧
          dropBytes L u ∈ {u | dropBytes (skip (0 + L)) u ∈ E (pt (0 + L))}}} := by
    ext s
    simp only [Set.mem_ofPred_eq, zero_add]
    constructor
    · rintro ⟨fuel, gs, st', h1, h2, h3⟩
      obtain ⟨-, -, L, h4, h5⟩ := gaussCoeffs_runs O sigma bound _ (hst s) h1
      obtain ⟨h6, h7⟩ := hdrop s L st' h4
      rw [h6, h7] at h3
      exact ⟨L, h2 ▸ h5, h3⟩
    · rintro ⟨L, h1, h2⟩
      obtain ⟨fuel, gs, st', h3, h4, h5⟩ := gaussRuns_coeffs O sigma bound vs (hst s) h1
      obtain ⟨h6, h7⟩ := hdrop s L st' h5
      rw [← h6, ← h7] at h2
      exact ⟨fuel, gs, st', h3, h4, h2⟩
  have h := gaussRuns_apply O sigma bound (E := fun L => {u | dropBytes (skip L) u ∈ E (pt L)})
    (fun k => measurable_dropBytes _ (hE _)) (c := c) (fun k => by rw [dropBytes_apply _ (hE _), hc]) vs 0
  rw [hset]
  exact ⟨measurable_dropBytes _ h.1, by rw [dropBytes_apply _ h.1, h.2]⟩

/-- the law of the model is that of the machine -/
theorem gaussLaw_eq (v : ℤ) : gaussLaw O sigma bound v = machineLaw O sigma bound v := by
  have h := (gaussCoeffs_event O sigma bound (buf := List.replicate 1024 0) (ptr := 0) 0 0 List.length_replicate (Nat.zero_le _) rfl [v]
    (E := fun _ => Set.univ) (fun _ => MeasurableSet.univ) (c := 1) (fun _ => measure_univ)).2
  rw [List.map_singleton, List.prod_singleton, mul_one] at h
  rw [← h, gaussLaw]
  congr 1
  ext s
  simp only [Set.mem_ofPred_eq, newGaussState, Set.mem_univ, and_true, List.length_singleton, gaussCoeffs, Option.bind_some]
  constructor
  · rintro ⟨fuel, g, st', h1, h2⟩
    exact ⟨fuel, [g], st', by rw [h1]; rfl, by simp [h2]⟩
  · rintro ⟨fuel, gs, st', h1, h2⟩
    rw [Option.bind_eq_some_iff] at h1
    obtain ⟨⟨g, st1⟩, h3, h4⟩ := h1
    simp only [Option.some.injEq, Prod.mk.injEq] at h4
    obtain ⟨rfl, rfl⟩ := h4
    refine ⟨fuel, g, st1, h3, by simpa using h2⟩

/-! ## Facts about the law -/

theorem gaussStep_abs {q : GaussQ F} {b : Fin 8 → UInt8} {v : ℤ} (h : gaussStep O sigma bound q b = .inr v) :
    |v| ≤ bound.toNat := by
  have hf : ∀ x sign, gaussFinish O sigma bound x sign = .inr v → |v| ≤ bound.toNat := by
    intro x sign hx
    unfold gaussFinish at hx
    simp only at hx
    split at hx
    · rename_i hc
      simp only [Sum.inr.injEq] at hx
      have := UInt64.le_iff_toNat_le.1 hc
      rw [← hx, gaussInt]
      split
      · rw [abs_of_nonneg (by positivity)]; exact_mod_cast this
      · rw [abs_neg, abs_of_nonneg (by positivity)]; exact_mod_cast this
    · cases hx
  cases q with
  | top =>
    rw [gaussStep] at h
    split_ifs at h
    exact hf _ _ h
  | tail1 sign => simp [gaussStep] at h
  | tail2 sign x =>
    rw [gaussStep] at h
    split_ifs at h
    exact hf _ _ h
  | strip sign x i =>
    rw [gaussStep] at h
    simp only at h
    split_ifs at h
    exact hf _ _ h

theorem machineLaw_eq_zero {v : ℤ} (hv : (bound.toNat : ℤ) < |v|) : machineLaw O sigma bound v = 0 :=
  runLaw_eq_zero _ (fun _ _ h => absurd (gaussStep_abs O sigma bound h) (by omega)) _

/-- change the top bit of the first byte -/
def flipTop (b : Fin 8 → UInt8) : Fin 8 → UInt8 := Function.update b 0 (b 0 ^^^ 128)

theorem flipTop_involutive : Function.Involutive flipTop := by
  intro b
  funext i
  by_cases hi : i = 0
  · subst hi
    simp [flipTop, UInt8.xor_assoc]
  · simp [flipTop, hi]

/-- change the sign in a state -/
def GaussQ.flip : GaussQ F → GaussQ F
  | .top => .top
  | .tail1 sign => .tail1 (!sign)
  | .tail2 sign x => .tail2 (!sign) x
  | .strip sign x i => .strip (!sign) x i

theorem ofFn_eight (b : Fin 8 → UInt8) : List.ofFn b = [b 0, b 1, b 2, b 3, b 4, b 5, b 6, b 7] := by
  simp [List.ofFn_succ]

theorem byte_flip (x : UInt8) : (x ^^^ 128).toNat % 128 = x.toNat % 128 ∧ (x ^^^ 128).toNat / 128 = 1 - x.toNat / 128 := by
  revert x
  decide +kernel

theorem randFloat64_flip (b : Fin 8 → UInt8) : randFloat64 O (List.ofFn (flipTop b)) = randFloat64 O (List.ofFn b) := by
  suffices h : (beUint (List.ofFn (flipTop b)) &&& 0x1fffffffffffff).toNat = (beUint (List.ofFn b) &&& 0x1fffffffffffff).toNat by
    rw [randFloat64, randFloat64, h]
  have hmask : (0x1fffffffffffff : UInt64).toNat = 2 ^ 53 - 1 := by decide
  rw [UInt64.toNat_and, UInt64.toNat_and, hmask, Nat.and_two_pow_sub_one_eq_mod, Nat.and_two_pow_sub_one_eq_mod,
    beUint_ofFn le_rfl, beUint_ofFn le_rfl, bytesNat, bytesNat, ofFn_eight, ofFn_eight]
  have h : ∀ i : Fin 8, i ≠ 0 → flipTop b i = b i := fun i hi => by simp [flipTop, hi]
  rw [h 1 (by decide), h 2 (by decide), h 3 (by decide), h 4 (by decide), h 5 (by decide), h 6 (by decide), h 7 (by decide)]
  simp only [List.foldl_cons, List.foldl_nil]
  omega

theorem juint32_flip (b : Fin 8 → UInt8) :
    (beUint ((List.ofFn (flipTop b)).take 4)).toNat &&& 0x7fffffff = (beUint ((List.ofFn b).take 4)).toNat &&& 0x7fffffff ∧
    decide ((beUint ((List.ofFn (flipTop b)).take 4)).toNat >>> 31 = 1)
      = !decide ((beUint ((List.ofFn b).take 4)).toNat >>> 31 = 1) := by
  have h : ∀ i : Fin 8, i ≠ 0 → flipTop b i = b i := fun i hi => by simp [flipTop, hi]
  have hm : (0x7fffffff : ℕ) = 2 ^ 31 - 1 := by norm_num
  rw [Props.beUint_toNat _ (by simp), Props.beUint_toNat _ (by simp), ofFn_eight, ofFn_eight,
    h 1 (by decide), h 2 (by decide), h 3 (by decide)]
  have h0 : flipTop b 0 = b 0 ^^^ 128 := by simp [flipTop]
  obtain ⟨h1, h2⟩ := byte_flip (b 0)
  have h3 := (b 0).toNat_lt
  have h4 := (b 0 ^^^ 128).toNat_lt
  have h5 := (b 1).toNat_lt
  have h6 := (b 2).toNat_lt
  have h7 := (b 3).toNat_lt
  rw [h0, hm, Nat.and_two_pow_sub_one_eq_mod, Nat.and_two_pow_sub_one_eq_mod]
  simp only [List.take_succ_cons, List.take_zero, List.foldl_cons, List.foldl_nil, Nat.shiftRight_eq_div_pow]
  refine ⟨by omega, ?_⟩
  rw [← decide_not]
  exact decide_eq_decide.2 (by omega)

theorem gaussFinish_flip (x : F) (sign : Bool) :
    gaussFinish O sigma bound x (!sign) = Sum.map GaussQ.flip (fun v => -v) (gaussFinish O sigma bound x sign) := by
  unfold gaussFinish
  simp only
  split
  · simp only [Sum.map_inr, gaussInt]
    cases sign <;> simp
  · rfl

theorem gaussStep_flip (q : GaussQ F) (b : Fin 8 → UInt8) :
    gaussStep O sigma bound q.flip (flipTop b) = Sum.map GaussQ.flip (fun v => -v) (gaussStep O sigma bound q b) := by
  cases q with
  | top =>
    obtain ⟨h1, h2⟩ := juint32_flip b
    rw [GaussQ.flip, gaussStep, gaussStep, h1, h2]
    split_ifs
    · exact gaussFinish_flip O sigma bound _ _
    · rfl
    · rfl
  | tail1 sign => rw [GaussQ.flip, gaussStep, gaussStep, randFloat64_flip]; rfl
  | tail2 sign x =>
    rw [GaussQ.flip, gaussStep, gaussStep, randFloat64_flip]
    split_ifs
    · exact gaussFinish_flip O sigma bound _ _
    · rfl
  | strip sign x i =>
    rw [GaussQ.flip, gaussStep, gaussStep, randFloat64_flip]
    simp only
    split_ifs
    · exact gaussFinish_flip O sigma bound _ _
    · rfl

theorem machineLaw_neg (v : ℤ) : machineLaw O sigma bound (-v) = machineLaw O sigma bound v :=
  runLaw_symm (gaussStep O sigma bound) flipTop_involutive (σ := GaussQ.flip) (τ := fun v => -v) neg_injective
    (gaussStep_flip O sigma bound) .top v

/-! ## Termination -/

variable {O sigma bound}

theorem canStop_mono {Q β : Type*} {B : ℕ} {step : Q → (Fin B → UInt8) → Q ⊕ β} {m : ℕ} : ∀ {q : Q}, CanStop step m q →
    CanStop step (m + 1) q := by
  induction m with
  | zero => intro q h; exact h.elim
  | succ m ih =>
    rintro q ⟨b, hb⟩
    refine ⟨b, ?_⟩
    cases hs : step q b with
    | inr w => trivial
    | inl q' =>
      rw [hs] at hb
      exact ih hb

theorem canStop_top (h : O.Starts sigma bound) : CanStop (gaussStep O sigma bound) 1 .top := by
  refine ⟨fun _ => 0, ?_⟩
  have h0 : (beUint ((List.ofFn (fun _ : Fin 8 => (0 : UInt8))).take 4)).toNat = 0 := by decide
  rw [gaussStep]
  simp only [h0]
  rw [if_pos (by decide)]
  have h1 : gaussFinish O sigma bound (O.mul (O.ofNat (0 &&& 0x7fffffff)) (O.lit32 (zigW.getD (0 &&& 0x7fffffff &&& 0x7F) 0)))
      (decide (0 >>> 31 = 1)) = .inr (gaussInt (O.toU64 (O.mulAdd (O.lit 0.5) (O.mul (O.ofNat 0) (O.lit32 1.7290405e-09)) sigma),
        false)) := by
    have hz : zigW.getD (0 &&& 0x7fffffff &&& 0x7F) 0 = 1.7290405e-09 := rfl
    unfold gaussFinish
    rw [hz]
    exact if_pos h.zero
  rw [h1]
  trivial

theorem canStop_finish (h : O.Starts sigma bound) (x : F) (sign : Bool) :
    match gaussFinish O sigma bound x sign with
      | .inr _ => True
      | .inl q' => CanStop (gaussStep O sigma bound) 1 q' := by
  unfold gaussFinish
  simp only
  split_ifs
  · trivial
  · exact canStop_top h

theorem canStop_all (h : O.Starts sigma bound) (q : GaussQ F) : CanStop (gaussStep O sigma bound) 4 q := by
  let ones : Fin 8 → UInt8 := fun _ => 255
  have hones : randFloat64 O (List.ofFn ones) = O.div (O.ofNat (2 ^ 53 - 1)) (O.ofNat (2 ^ 53 - 1)) := by
    have h1 : (beUint (List.ofFn ones) &&& 0x1fffffffffffff).toNat = 2 ^ 53 - 1 := by decide
    have h2 : (0x1fffffffffffff : ℕ) = 2 ^ 53 - 1 := by norm_num
    rw [randFloat64, h1, h2]
  have ht2 : ∀ sign x, O.ge (O.add (O.neg (O.log (O.div (O.ofNat (2 ^ 53 - 1)) (O.ofNat (2 ^ 53 - 1)))))
      (O.neg (O.log (O.div (O.ofNat (2 ^ 53 - 1)) (O.ofNat (2 ^ 53 - 1)))))) (O.mul x x) = true →
      CanStop (gaussStep O sigma bound) 2 (.tail2 sign x) := by
    intro sign x hx
    refine ⟨ones, ?_⟩
    rw [gaussStep, hones, if_pos hx]
    have := canStop_finish h (O.add x (O.lit 3.442619855899)) sign
    revert this
    cases gaussFinish O sigma bound (O.add x (O.lit 3.442619855899)) sign with
    | inr w => exact id
    | inl q' => exact id
  have ht1 : ∀ sign, CanStop (gaussStep O sigma bound) 3 (.tail1 sign) := by
    intro sign
    refine ⟨ones, ?_⟩
    rw [gaussStep, hones]
    exact ht2 sign _ (h.tail _ _ rfl rfl)
  cases q with
  | top => exact canStop_mono (canStop_mono (canStop_mono (canStop_top h)))
  | tail1 sign => exact canStop_mono (ht1 sign)
  | tail2 sign x =>
    refine ⟨ones, ?_⟩
    rw [gaussStep]
    split_ifs
    · have := canStop_finish h (O.add x (O.lit 3.442619855899)) sign
      revert this
      cases gaussFinish O sigma bound (O.add x (O.lit 3.442619855899)) sign with
      | inr w => exact id
      | inl q' => exact fun h1 => canStop_mono (canStop_mono h1)
    · exact ht1 sign
  | strip sign x i =>
    refine ⟨ones, ?_⟩
    rw [gaussStep]
    simp only
    split_ifs
    · have := canStop_finish h x sign
      revert this
      cases gaussFinish O sigma bound x sign with
      | inr w => exact id
      | inl q' => exact fun h1 => canStop_mono (canStop_mono h1)
    · exact canStop_mono (canStop_mono (canStop_top h))

/-- the integers up to the bound -/
noncomputable def gaussRange (bound : UInt64) : Finset ℤ := Finset.Icc (-(bound.toNat : ℤ)) bound.toNat

theorem machineLaw_sum (h : O.Starts sigma bound) : ∑ v ∈ gaussRange bound, machineLaw O sigma bound v = 1 :=
  runLaw_total (gaussStep O sigma bound) (fun _ _ _ hv => Finset.mem_Icc.2 (abs_le.1 (gaussStep_abs O sigma bound hv)))
    (canStop_all h) .top

end FastKsw
