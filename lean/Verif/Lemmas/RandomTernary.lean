import Verif.Lemmas.RandomStep
import Verif.Props.DistributionSparse

/-!
# The sampler of fixed Hamming weight as a step
-/

namespace FastKsw.Props

open MeasureTheory Finset
open scoped ENNReal

/-- the sampler of fixed Hamming weight on the state of the samplers -/
def sparseStep (r : Ring) (hw level : ℕ) (pol : Rows) (k : ℕ) (st : GaussState) : Option (Rows × GaussState) :=
  (ternarySparse k r false hw level st.prng pol).map fun a => (a.1, { st with prng := a.2 })

section
variable {n : ℕ} {r : Ring} {hw level : ℕ}

/-- what the sampler writes for sign bytes from `s` and positions `ps` -/
def sparseOut (r : Ring) (hw level : ℕ) (pol : Rows) (s : ℕ → UInt8) (ps rest : List ℕ) : Rows :=
  writeLvl level (fun k => applyWrites (ternaryValue (r.sub k) false)
    (sparseWrites ((List.range ((min hw r.n + 7) / 8)).map s) 0 ps ++ rest.map fun i => (i, 0)) (pol.row k)) pol

theorem ternarySparse_pos (k : ℕ) (s : ℕ → UInt8) (pos : ℕ) (clk : UInt64) (pol : Rows) :
    ternarySparse k r false hw level ⟨s, pos, clk⟩ pol = none ∧
      specLoop k r.n (min hw r.n) 0 (List.range r.n) (dropBytes ((min hw r.n + 7) / 8) (dropBytes pos s)) = none ∨
    ∃ ps rest p' c', specLoop k r.n (min hw r.n) 0 (List.range r.n) (dropBytes ((min hw r.n + 7) / 8) (dropBytes pos s))
        = some (ps, rest, dropBytes p' s) ∧
      ternarySparse k r false hw level ⟨s, pos, clk⟩ pol = some (sparseOut r hw level pol (dropBytes pos s) ps rest, ⟨s, p', c'⟩) := by
  have hw' : (if hw > r.n then r.n else hw) = min hw r.n := by split <;> omega
  have hcl : ternarySparse k r false hw level ⟨s, pos, clk⟩ pol
      = (sparseLoop k r.n ((List.range ((min hw r.n + 7) / 8)).map (dropBytes pos s)) (min hw r.n) 0 (List.range r.n)
          ⟨s, pos + (min hw r.n + 7) / 8, clk + 1⟩).map fun a =>
        (writeLvl level (fun k => applyWrites (ternaryValue (r.sub k) false)
          (a.1 ++ a.2.1.map fun i => (i, 0)) (pol.row k)) pol, a.2.2) := by
    unfold ternarySparse
    simp only [hw']
    rfl
  rw [hcl, dropBytes_dropBytes]
  rcases sparseLoop_linked (s := s) (fuel := k) (N := r.n) (signs := (List.range ((min hw r.n + 7) / 8)).map (dropBytes pos s))
    (min hw r.n) 0 (List.range r.n) (pos + (min hw r.n + 7) / 8) (clk + 1) with ⟨e1, e2⟩ | ⟨ps, rest, p', c', e1, e2⟩
  · exact Or.inl ⟨by rw [e1]; rfl, e2⟩
  · exact Or.inr ⟨ps, rest, p', c', e2, by rw [e1]; rfl⟩

theorem sparseDraw_mono {mask bound : UInt64} : ∀ {k k' : ℕ} {prng : Prng} {y}, k ≤ k' → sparseDraw mask bound k prng = some y →
    sparseDraw mask bound k' prng = some y
  | 0, _, _, _, _, h => by cases h
  | _ + 1, 0, _, _, hk, _ => by omega
  | k + 1, k' + 1, prng, y, hk, h => by
    rw [sparseDraw] at h ⊢
    split
    · rename_i hj
      rw [if_pos hj] at h
      exact sparseDraw_mono (by omega) h
    · rename_i hj
      rwa [if_neg hj] at h

theorem sparseLoop_mono {k k' N : ℕ} (hk : k ≤ k') {signs : List UInt8} : ∀ (todo i : ℕ) (index : List ℕ) (prng : Prng) {y},
    sparseLoop k N signs todo i index prng = some y → sparseLoop k' N signs todo i index prng = some y
  | 0, _, _, _, _, h => h
  | todo + 1, i, index, prng, y, h => by
    rw [sparseLoop] at h ⊢
    dsimp only at h ⊢
    rw [Option.bind_eq_some_iff] at h
    obtain ⟨a, ha, h⟩ := h
    rw [Option.bind_eq_some_iff] at h
    obtain ⟨b, hb, h⟩ := h
    rw [sparseDraw_mono hk ha, Option.bind_some, sparseLoop_mono hk todo _ _ _ hb, Option.bind_some, h]

theorem ternarySparse_mono {k k' : ℕ} (hk : k ≤ k') {prng : Prng} {pol : Rows} {y} (h : ternarySparse k r false hw level prng pol = some y) :
    ternarySparse k' r false hw level prng pol = some y := by
  unfold ternarySparse at h ⊢
  dsimp only at h ⊢
  rw [Option.map_eq_some_iff] at h ⊢
  obtain ⟨a, ha, h⟩ := h
  exact ⟨a, sparseLoop_mono hk _ _ _ _ ha, h⟩

theorem sparseStep_eq {pol : Rows} {k : ℕ} {st : GaussState} {x : Rows} {st' : GaussState} : sparseStep r hw level pol k st = some (x, st') ↔
    ∃ prng', ternarySparse k r false hw level st.prng pol = some (x, prng') ∧ st' = { st with prng := prng' } := by
  rw [sparseStep, Option.map_eq_some_iff]
  constructor
  · rintro ⟨⟨y, prng'⟩, h1, h2⟩
    cases h2
    exact ⟨prng', h1, rfl⟩
  · rintro ⟨prng', h1, rfl⟩
    exact ⟨(x, prng'), h1, rfl⟩

variable (hr : r.Valid n) (hn : n < 32) (hl : level < r.subs.length) {pol : Rows} (hp : level < pol.length)
  (hlen : ∀ j ≤ level, (pol.row j).length = r.n)
include hr hn hl hp hlen

/-- every ternary polynomial of the weight has the same probability, independently of the bytes that follow -/
theorem sparseStep_step {T : ℕ → ℤ} (hT : ∀ k < r.n, T k = 0 ∨ T k = 1 ∨ T k = -1) (hc : #{k ∈ range r.n | T k ≠ 0} = min hw r.n) :
    Step (sparseStep r hw level pol) (fun x => PolyIs r level r.qs x (r.intVec T))
      ((r.n.choose (min hw r.n) * 2 ^ min hw r.n : ℕ) : ℝ≥0∞)⁻¹ := by
  have hv : ∀ x, PolyIs r level r.qs x (r.intVec T) ↔ PolyIs r level r.qs x (ternaryVec r false T) := fun x => by
    have : r.intVec T = ternaryVec r false T := by
      funext u k
      simp [Ring.intVec, ternaryVec]
    rw [this]
  constructor
  · rintro k k' st ⟨x, st'⟩ hk h
    obtain ⟨prng', h1, h2⟩ := sparseStep_eq.1 h
    exact sparseStep_eq.2 ⟨prng', ternarySparse_mono hk h1, h2⟩
  · rintro k ⟨⟨s, pos, clk⟩, buf, ptr⟩ x st' hst h
    obtain ⟨prng', h1, rfl⟩ := sparseStep_eq.1 h
    refine ⟨⟨hst.1, hst.2, hst.3⟩, ?_⟩
    rcases ternarySparse_pos (r := r) (hw := hw) (level := level) k s pos clk pol with ⟨h2, -⟩ | ⟨ps, rest, p', c', -, h2⟩
    · rw [h2] at h1; cases h1
    · rw [h2] at h1; cases h1
      rfl
  · rintro k ⟨⟨s, pos, clk⟩, buf, ptr⟩ ⟨⟨s2, pos2, clk2⟩, buf2, ptr2⟩ x st' ⟨o1, o2, hptr, hb⟩ h hx
    obtain ⟨prng', h1, rfl⟩ := sparseStep_eq.1 h
    simp only at hptr hb h1
    subst hptr
    rcases ternarySparse_pos (r := r) (hw := hw) (level := level) k s pos clk pol with ⟨h2, -⟩ | ⟨ps, rest, p', c', e1, h2⟩
    · rw [h2] at h1; cases h1
    · rw [h2] at h1
      cases h1
      rcases ternarySparse_pos (r := r) (hw := hw) (level := level) k s2 pos2 clk2 pol with ⟨-, g2⟩ | ⟨ps', rest', p2', c2', e1', g2⟩
      · rw [← hb, e1] at g2; cases g2
      · rw [← hb, e1] at e1'
        simp only [Option.some.injEq, Prod.mk.injEq] at e1'
        obtain ⟨rfl, rfl, e⟩ := e1'
        rw [← hb] at g2
        exact ⟨k, _, _, sparseStep_eq.2 ⟨_, g2, rfl⟩, hx, ⟨⟨o1.1, o1.2, o1.3⟩, ⟨o2.1, o2.2, o2.3⟩, rfl, e⟩⟩
  · intro pos clk buf ptr _ _ _ E c hE hc'
    have e : stepEvent (sparseStep r hw level pol) (fun x => PolyIs r level r.qs x (r.intVec T)) E pos clk buf ptr
        = {s | ∃ fuel out prng', ternarySparse fuel r false hw level ⟨s, pos, clk⟩ pol = some (out, prng') ∧
          PolyIs r level r.qs out (ternaryVec r false T) ∧ (fun i => s (prng'.pos + i)) ∈ E ptr} := by
      ext s
      simp only [stepEvent, Set.mem_ofPred_eq]
      constructor
      · rintro ⟨k, x, st', h, hx, he⟩
        obtain ⟨prng', h1, rfl⟩ := sparseStep_eq.1 h
        exact ⟨k, x, prng', h1, (hv x).1 hx, he⟩
      · rintro ⟨k, x, prng', h, hx, he⟩
        exact ⟨k, _, _, sparseStep_eq.2 ⟨prng', h, rfl⟩, (hv x).2 hx, he⟩
    have := sparse_event hr hn hl false rfl pos clk hp hlen hT hc (hE ptr)
    rw [e, ← hc' ptr]
    exact this

/-- the sampler returns with probability one, independently of the bytes that follow -/
theorem sparseStep_top : Step (sparseStep r hw level pol) (fun _ => True) 1 := by
  let ι := (A : {A : Finset (Fin r.n) // A ∈ powersetCard (min hw r.n) univ}) × ({k // k ∈ A.1} → Bool)
  let val : ι → ℕ → ℤ := fun i k => if h : k < r.n then if hA : (⟨k, h⟩ : Fin r.n) ∈ i.1.1 then
    (if i.2 ⟨_, hA⟩ then -1 else 1) else 0 else 0
  have hval : ∀ i k, val i k = 0 ∨ val i k = 1 ∨ val i k = -1 := fun i k => by
    simp only [val]
    split
    · split
      · split <;> simp
      · simp
    · simp
  have hsupp : ∀ i (k : Fin r.n), val i k ≠ 0 ↔ k ∈ i.1.1 := fun i k => by
    simp only [val, k.2, dif_pos, Fin.eta]
    by_cases hA : k ∈ i.1.1
    · simp only [hA, dif_pos, iff_true]
      split <;> simp
    · simp [hA]
  have hcard : ∀ i, #{k ∈ range r.n | val i k ≠ 0} = min hw r.n := fun i => by
    rw [← (mem_powersetCard.1 i.1.2).2, ← card_map Fin.valEmbedding]
    congr 1
    ext k
    simp only [mem_filter, mem_range, mem_map, Fin.valEmbedding_apply]
    constructor
    · rintro ⟨h1, h2⟩
      exact ⟨⟨k, h1⟩, (hsupp i ⟨k, h1⟩).1 h2, rfl⟩
    · rintro ⟨k', h1, rfl⟩
      exact ⟨k'.2, (hsupp i k').2 h1⟩
  have hinj : ∀ i j : ι, (∀ k < r.n, val i k = val j k) → i = j := by
    rintro ⟨⟨A, hA⟩, f⟩ ⟨⟨B, hB⟩, g⟩ h
    obtain rfl : A = B := by
      ext k
      rw [← hsupp ⟨⟨A, hA⟩, f⟩ k, ← hsupp ⟨⟨B, hB⟩, g⟩ k, h k k.2]
    congr 1
    funext ⟨k, hk⟩
    have := h k k.2
    simp only [val, k.2, dif_pos, Fin.eta, hk] at this
    have hb : ∀ a b : Bool, ((if a = true then (-1 : ℤ) else 1) = if b = true then -1 else 1) → a = b := by decide
    exact hb _ _ this
  have hcι : Fintype.card ι = r.n.choose (min hw r.n) * 2 ^ min hw r.n := by
    simp only [ι, Fintype.card_sigma, Fintype.card_fun, Fintype.card_bool, Fintype.card_coe]
    rw [sum_congr rfl fun A _ => by rw [(mem_powersetCard.1 A.2).2], sum_const, smul_eq_mul, card_univ, Fintype.card_coe, card_powersetCard,
      card_univ, Fintype.card_fin]
  have hpos : 0 < r.n.choose (min hw r.n) * 2 ^ min hw r.n := Nat.mul_pos (Nat.choose_pos (min_le_right _ _)) (by positivity)
  have : Nonempty ι := Fintype.card_pos_iff.1 (by omega)
  have h1 := Step.sum (f := sparseStep r hw level pol) (A := fun (i : ι) x => PolyIs r level r.qs x (r.intVec (val i)))
    (fun i => sparseStep_step hr hn hl hp hlen (T := val i) (fun k _ => hval i k) (hcard i))
    (by
      rintro k st x st' i j - - h1 h2
      refine hinj i j fun t ht => ?_
      have e1 := (h1.row 0 (Nat.zero_le _)).val t ht
      have e2 := (h2.row 0 (Nat.zero_le _)).val t ht
      rw [e1] at e2
      refine ternaryVec_inj (mont := false) hr (by omega) (hval i t) (hval j t) ?_
      simpa [ternaryVec, Ring.intVec] using e2)
  rw [sum_const, card_univ, hcι, nsmul_eq_mul, ENNReal.mul_inv_cancel (by exact_mod_cast hpos.ne') (ENNReal.natCast_ne_top _)] at h1
  refine h1.congr fun {k st x st'} _ h => ?_
  rw [true_iff]
  obtain ⟨prng', h3, -⟩ := sparseStep_eq.1 h
  obtain ⟨T, t1, t2, t3⟩ := C43_sparse hr hl (by omega) false hw hp hlen h3
  have hmem : (univ.filter fun k : Fin r.n => T k ≠ 0) ∈ powersetCard (min hw r.n) univ := by
    refine mem_powersetCard.2 ⟨subset_univ _, ?_⟩
    rw [← t2, ← card_map Fin.valEmbedding]
    congr 1
    ext k
    simp only [mem_filter, mem_range, mem_map, Fin.valEmbedding_apply, mem_univ, true_and]
    constructor
    · rintro ⟨k', h1, rfl⟩
      exact ⟨k'.2, h1⟩
    · rintro ⟨h1, h2⟩
      exact ⟨⟨k, h1⟩, h2, rfl⟩
  refine ⟨⟨⟨_, hmem⟩, fun k => decide (T k.1 = -1)⟩, t3.is.congr fun u _ k hk => ?_⟩
  have : T k = val ⟨⟨_, hmem⟩, fun k => decide (T k.1 = -1)⟩ k := by
    simp only [val, hk, dif_pos, mem_filter, mem_univ, true_and]
    rcases t1 k with h | h | h <;> simp [h]
  rw [Ring.intVec, ← this]
  simp

end

end FastKsw.Props
