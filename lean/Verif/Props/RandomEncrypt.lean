import Verif.Lemmas.RandomKeys
import Verif.Lemmas.CtEnc
import Verif.Model.RandomEncrypt
import Verif.Lemmas.ConstCt

/-!
# C116: the law of fresh secret-key ciphertexts
-/

namespace FastKsw.Props

open MeasureTheory Finset
open scoped ENNReal

section
variable {F : Type} (O : FloatOps F) (sigma : F) (bound : UInt64)

/-- the draws of the Gaussian sampler as a step -/
theorem drawStep_step (N : ℕ) (T : ℕ → ℤ) :
    Step (fun k st => gaussCoeffs O sigma bound k N st.clock) (fun gs => gs.map drawInt = (List.range N).map T)
      (∏ t ∈ range N, gaussLaw O sigma bound (T t)) := by
  constructor
  · rintro k k' st x hk h
    exact gaussCoeffs_mono O sigma bound hk _ h
  · rintro k ⟨⟨s, pos, clk⟩, buf, ptr⟩ x st' hst h
    obtain ⟨-, -, L, h2, -⟩ := gaussCoeffs_runs O sigma bound _ (gaussAt_clock s pos clk hst) h
    exact ⟨h2.ok, h2.stream⟩
  · rintro k ⟨⟨s, pos, clk⟩, buf, ptr⟩ ⟨⟨s2, pos2, clk2⟩, buf2, ptr2⟩ x st' ⟨o1, o2, hptr, hbt⟩ h hx
    simp only at hptr hbt
    subst hptr
    obtain ⟨k', gs', st2', c1, c2, c3, c4⟩ := gaussCoeffs_shift O sigma bound o1.1 o1.2 o1.3 h (clk' := clk2) o2.1 hbt.symm
    obtain ⟨l1, b1, L, h2, -⟩ := gaussCoeffs_runs O sigma bound _ (gaussAt_clock s pos clk o1) h
    obtain ⟨l2, b2, L', h3, -⟩ := gaussCoeffs_runs O sigma bound _ (gaussAt_clock s2 pos2 clk2 o2) c1
    refine ⟨k', _, st2', c1, c2.trans hx, ⟨h2.ok, h3.ok, c3.symm, ?_⟩⟩
    rw [h2.stream, h3.stream]
    exact c4.symm
  · intro pos clk buf ptr hlen hle hw E c hE hc
    have h := gaussCoeffs_event O sigma bound pos clk hlen hle hw ((List.range N).map T) hE hc
    rw [List.length_map, List.length_range, List.map_map] at h
    have e : ((List.range N).map (machineLaw O sigma bound ∘ T)).prod = ∏ t ∈ range N, gaussLaw O sigma bound (T t) := by
      rw [Finset.prod_range]
      simp only [gaussLaw_eq]
      rw [← List.prod_ofFn]
      congr 1
      refine List.ext_getElem (by simp) fun i h1 h2 => ?_
      simp
    rw [e] at h
    exact h

/-- the draws end with probability one -/
theorem drawStep_top (N : ℕ) (hO : O.Starts sigma bound) :
    Step (fun k st => gaussCoeffs O sigma bound k N st.clock) (fun _ => True) 1 := by
  let D := Finset.Icc (-(bound.toNat : ℤ)) bound.toNat
  let val : (Fin N → D) → ℕ → ℤ := fun T t => if h : t < N then (T ⟨t, h⟩ : ℤ) else 0
  have hv : ∀ T (t : Fin N), val T t = (T t : ℤ) := fun T t => by simp [val]
  haveI : Nonempty (Fin N → D) := ⟨fun _ => ⟨0, by simp [D]⟩⟩
  have h1 := Step.sum (f := fun k st => gaussCoeffs O sigma bound k N st.clock)
    (A := fun T gs => gs.map drawInt = (List.range N).map (val T)) (fun T => drawStep_step O sigma bound N (val T))
    (by
      rintro k st x st' T T' - - h1 h2
      refine funext fun t => Subtype.ext ?_
      have := congrArg (fun l => l.getD t 0) (h1.symm.trans h2)
      simpa [List.getD, t.2, hv] using this)
  have h2 : (∑ T : (Fin N → D), ∏ t ∈ range N, gaussLaw O sigma bound (val T t)) = 1 := by
    have h3 : ∀ T : (Fin N → D), ∏ t ∈ range N, gaussLaw O sigma bound (val T t) = ∏ t, gaussLaw O sigma bound (T t) := fun T => by
      rw [← Fin.prod_univ_eq_prod_range (fun t => gaussLaw O sigma bound (val T t))]
      exact prod_congr rfl fun t _ => by rw [hv]
    have h4 : ∑ v : D, gaussLaw O sigma bound v = 1 := by
      rw [Finset.sum_coe_sort D fun v => gaussLaw O sigma bound v]
      exact C107_total O sigma bound hO
    rw [sum_congr rfl fun T _ => h3 T]
    have h5 := Finset.prod_univ_sum (fun _ : Fin N => (Finset.univ : Finset D)) (fun _ v => gaussLaw O sigma bound (v : ℤ))
    rw [Fintype.piFinset_univ] at h5
    rw [← h5, prod_eq_one fun t _ => h4]
  rw [h2] at h1
  refine h1.congr fun {k st gs st'} hst h => ?_
  rw [true_iff]
  obtain ⟨⟨s, pos, clk⟩, buf, ptr⟩ := st
  obtain ⟨l1, b1, -⟩ := gaussCoeffs_runs O sigma bound _ (gaussAt_clock s pos clk hst) h
  refine ⟨fun t => ⟨drawInt (gs.getD t default), Finset.mem_Icc.2 (abs_le.1 (drawInt_abs bound (b1 _ ?_)))⟩, ?_⟩
  · rw [getD_lt _ _ (by omega)]
    exact List.getElem_mem _
  · refine List.ext_getElem (by simp [l1]) fun t g1 g2 => ?_
    rw [List.length_map] at g1
    simp only [List.getElem_map, List.getElem_range, val, dif_pos (show t < N by omega), getD_lt _ _ g1]

/-- every outcome of the draws -/
theorem draws_outcome {N k : ℕ} {st st' : GaussState} (hst : st.Ok) {gs : List (UInt64 × Bool)}
    (h : gaussCoeffs O sigma bound k N st.clock = some (gs, st')) :
    DrawsOK N bound.toNat gs (fun t => drawInt (gs.getD t default)) ∧ ∀ t < N, |drawInt (gs.getD t default)| ≤ bound.toNat := by
  obtain ⟨⟨s, pos, clk⟩, buf, ptr⟩ := st
  obtain ⟨l, b, -⟩ := gaussCoeffs_runs O sigma bound _ (gaussAt_clock s pos clk hst) h
  have hm : ∀ t < N, gs.getD t default ∈ gs := fun t ht => by
    rw [getD_lt _ _ (by omega)]
    exact List.getElem_mem _
  exact ⟨⟨l, fun t ht => UInt64.le_iff_toNat_le.1 (b _ (hm t ht)), fun t _ => rfl⟩, fun t ht => drawInt_abs bound (b _ (hm t ht))⟩

theorem draws_eq_iff {N : ℕ} {gs : List (UInt64 × Bool)} (hl : gs.length = N) (T : ℕ → ℤ) :
    gs.map drawInt = (List.range N).map T ↔ ∀ t < N, drawInt (gs.getD t default) = T t := by
  constructor
  · intro h t ht
    have := congrArg (fun l => l.getD t 0) h
    simpa [List.getD, hl, ht, show t < gs.length by omega] using this
  · intro h
    refine List.ext_getElem (by simp [hl]) fun t h1 h2 => ?_
    rw [List.length_map] at h1
    have := h t (by omega)
    rw [getD_lt _ _ h1] at this
    simpa using this

end

section
variable {n : ℕ} {r : Ring} (hr : r.Valid n) {level : ℕ}
include hr

/-- reduced coefficients are determined by the element -/
theorem coeffs_row_eq (hl : level < r.subs.length) {p p' : Rows} {x} (h : EltIs n r level r.qs false p x)
    (h' : EltIs n r level r.qs false p' x) {u : ℕ} (hu : u ≤ level) : p.row u = p'.row u := by
  have V := hr.subAt (show u < r.subs.length by omega)
  have := V.fact
  have h4 := hr.four_le
  have e : toR (2 ^ n) (r.qs u) (zval _ (p.row u)) = toR (2 ^ n) (r.qs u) (zval _ (p'.row u)) :=
    ((h.eltOf hr hu).trans (h'.eltOf hr hu).symm)
  refine List.ext_getElem (by rw [h.len u hu, h'.len u hu]) fun k hk hk' => ?_
  rw [h.len u hu] at hk
  have hz : zval (r.sub u).q.toNat (p.row u) k = zval (r.sub u).q.toNat (p'.row u) k :=
    toR_injective (V.psiOK (by omega)) e k hk
  have a := h.lt u hu k hk
  have b := h'.lt u hu k hk
  have hk1 : k < (p.row u).length := by rw [h.len u hu]; exact hk
  have e1 : (p.row u).at k = (p.row u)[k]'hk1 := by simp [Row.at, List.getD, hk1]
  have e2 : (p'.row u).at k = (p'.row u)[k]'hk' := by simp [Row.at, List.getD, hk']
  rw [← e1, ← e2]
  unfold zval at hz
  rw [ZMod.natCast_eq_natCast_iff'] at hz
  unfold Ring.qs at a b
  rw [Nat.mod_eq_of_lt a, Nat.mod_eq_of_lt b] at hz
  exact UInt64.toNat_inj.1 hz

theorem elt_ext {b : Bool} (hl : level < r.subs.length) {p p' : Rows} {x} (h : EltIs n r level r.qs b p x)
    (h' : EltIs n r level r.qs b p' x) (hp : p.length = level + 1) (hp' : p'.length = level + 1) : p = p' := by
  cases b with
  | true => exact h.ext hr hl h' hp hp'
  | false =>
    refine List.ext_getElem (by rw [hp, hp']) fun u hu hu' => ?_
    have := coeffs_row_eq hr hl h h' (u := u) (by omega)
    simpa [Rows.row, List.getD, hu, hu'] using this

omit hr in
theorem encrypts_unique {b : Bool} {ct : Poly × Poly} {s m m' : ∀ u, Rq (2 ^ n) (r.qs u)} (h : Encrypts n r level b ct s m)
    (h' : Encrypts n r level b ct s m') {u : ℕ} (hu : u ≤ level) : m u = m' u := by
  obtain ⟨x0, x1, h0, h1, h2⟩ := h.ex
  obtain ⟨y0, y1, g0, g1, g2⟩ := h'.ex
  rw [← h2 u hu, ← g2 u hu, ← h0.val u hu, ← h1.val u hu, ← g0.val u hu, ← g1.val u hu]

end

section
variable {n : ℕ} {r : Ring} (hr : r.Valid n) (sr : r.Small)

theorem skEncrypt_snd (sk : Rows) (g : List (UInt64 × Bool)) (pt c0 c1 : Poly) : (skEncrypt r sk g pt c0 c1).2.coeffs
    = (if c0.isNTT then c1.coeffs else r.invNttLvl (min pt.level c0.level) c1.coeffs c1.coeffs).take (min pt.level c0.level + 1) := by
  unfold skEncrypt
  dsimp only
  cases c0.isNTT <;> rfl

include hr sr

/-- the mask in the domain of the ciphertext determines what the sampler wrote -/
theorem mask_iff {level : ℕ} (hl : level < r.subs.length) (b : Bool) {old a w : Rows} (hold : level < old.length) {v}
    (ha : PolyWritten r level r.qs old a v) {x} (hw : EltIs n r level r.qs b w x) (hwl : w.length = level + 1) :
    (if b then a else r.invNttLvl level a a).take (level + 1) = w ↔
      a = (if b then w else r.nttLvl level w w) ++ old.drop (level + 1) := by
  have hX : EltIs n r level r.qs true a (r.elt n true a) := ha.is.eltIs hr fun u hu => by
    rw [Ring.elt_eq]
    exact Ring.eltOf_congr fun k hk => ((ha.is.row u hu).val k (by rw [hr.deg]; exact hk)).symm
  have hc : EltIs n r level r.qs b ((if b then a else r.invNttLvl level a a).take (level + 1)) (r.elt n true a) := by
    cases b with
    | true => exact hX.take (by omega)
    | false => exact (invNttLvl_elt hr hl sr (fun u hu => by omega) hX hX.lvl).is.take (by omega)
  have hcl : ((if b then a else r.invNttLvl level a a).take (level + 1)).length = level + 1 := by
    have := hX.lvl
    cases b with
    | true => simp; omega
    | false =>
      have := (invNttLvl_elt hr hl sr (fun u hu => by omega) hX hX.lvl).len
      simp
      omega
  have hv : EltIs n r level r.qs true (if b then w else r.nttLvl level w w) x ∧ (if b then w else r.nttLvl level w w).length = level + 1 := by
    cases b with
    | true => exact ⟨hw, hwl⟩
    | false =>
      have := nttLvl_elt hr hl sr (fun u hu => by omega) hw hw.lvl
      exact ⟨this.is, this.len.trans hwl⟩
  constructor
  · intro h
    rw [h] at hc
    have hx : ∀ u ≤ level, r.elt n true a u = x u := fun u hu => (hc.val u hu).symm.trans (hw.val u hu)
    have e1 : a.take (level + 1) = if b then w else r.nttLvl level w w :=
      elt_ext hr hl ((hX.take (by omega)).congr hx) hv.1 (by have := hX.lvl; simp; omega) hv.2
    have e2 : a.drop (level + 1) = old.drop (level + 1) := by
      refine List.ext_getElem (by simp [ha.len]) fun i h1 h2 => ?_
      rw [List.length_drop] at h1 h2
      rw [List.getElem_drop, List.getElem_drop]
      have := ha.above (level + 1 + i) (by omega)
      rwa [Rows.row, Rows.row, getD_lt _ _ (by omega), getD_lt _ _ (by omega)] at this
    rw [← e1, ← e2, List.take_append_drop]
  · intro h
    have h1 : EltIs n r level r.qs true a x := hv.1.rows hX.lvl fun u hu => by
      rw [h, Rows.row, Rows.row, List.getD, List.getD, List.getElem?_append_left (by rw [hv.2]; omega)]
    exact elt_ext hr hl (hc.congr fun u hu => h1.val u hu) hw hcl hwl

variable {F : Type} (O : FloatOps F) (sigma : F) {bound : UInt64} {sk : Rows} {pt c0 c1 : Poly} {s m : ∀ u, Rq (2 ^ n) (r.qs u)}
  (hl : min pt.level c0.level < r.subs.length) (hc : c0.coeffs ≠ []) (hc1 : min pt.level c0.level < c1.coeffs.length)
  (hs : EltIs n r (min pt.level c0.level) r.qs true sk (fun u => 2 ^ 64 * s u))
  (hm : EltIs n r (min pt.level c0.level) r.qs pt.isNTT pt.coeffs m) (hb0 : 2 * bound.toNat < r.qs 0)
  (hb : ∀ u ≤ min pt.level c0.level, bound.toNat ≤ r.qs u)
include hl hc hc1 hs hm hb0 hb

/-- what an outcome of the draws makes of the ciphertext -/
theorem skEncrypt_outcome {a : Rows} {v} (ha : PolyWritten r (min pt.level c0.level) r.qs c1.coeffs a v) {k : ℕ} {st st' : GaussState}
    (hst : st.Ok) {gs : List (UInt64 × Bool)} (h : gaussCoeffs O sigma bound k r.n st.clock = some (gs, st')) {T : ℕ → ℤ}
    (hT : ∀ t < r.n, |T t| ≤ bound.toNat) :
    (∃ G : ℕ → ℤ, (∀ t < r.n, |G t| ≤ bound.toNat) ∧ Encrypts n r (min pt.level c0.level) c0.isNTT
      (skEncrypt r sk gs pt c0 ⟨a, c1.isNTT⟩) s (fun u => m u + intR (2 ^ n) (r.qs u) G)) ∧
    (Encrypts n r (min pt.level c0.level) c0.isNTT (skEncrypt r sk gs pt c0 ⟨a, c1.isNTT⟩) s (fun u => m u + intR (2 ^ n) (r.qs u) T) ↔
      gs.map drawInt = (List.range r.n).map T) := by
  obtain ⟨d1, d2⟩ := draws_outcome O sigma bound hst h
  have hX : EltIs n r (min pt.level c0.level) r.qs true a (r.elt n true a) := ha.is.eltIs hr fun u hu => by
    rw [Ring.elt_eq]
    exact Ring.eltOf_congr fun k hk => ((ha.is.row u hu).val k (by rw [hr.deg]; exact hk)).symm
  have hE := C32_skEncrypt hr sr (c1 := ⟨a, c1.isNTT⟩) hl hc hs hm hX hb d1
  refine ⟨⟨_, d2, hE⟩, ?_⟩
  rw [draws_eq_iff d1.len]
  constructor
  · intro h' t ht
    have e := encrypts_unique hE h' (Nat.zero_le _)
    have e2 := add_left_cancel e
    have := (hr.subAt (i := 0) (by omega)).fact
    exact eq_of_residue hb0 (d2 t ht) (hT t ht) (toR_inj (by positivity) e2 t (by rw [← hr.deg]; exact ht))
  · intro h'
    refine ⟨hE.ntt, hE.lvl, ?_⟩
    obtain ⟨x0, x1, h0, h1, h2⟩ := hE.ex
    refine ⟨x0, x1, h0, h1, fun u hu => ?_⟩
    rw [h2 u hu]
    congr 1
    exact toR_congr fun k hk => congrArg _ (h' k (by rw [hr.deg]; exact hk))

omit hr sr hl hc hc1 hs hm hb0 hb in
theorem skEncryptBytes_eq : (fun k st => skEncryptBytes O k r sigma bound sk pt c0 c1 st)
    = fun k st => (seqStep (uniStep r (min pt.level c0.level) c1.coeffs) (fun k st => gaussCoeffs O sigma bound k r.n st.clock) k st).map
        fun a => (skEncrypt r sk a.1.2 pt c0 ⟨a.1.1, c1.isNTT⟩, a.2) := by
  funext k st
  rw [skEncryptBytes, seqStep, uniStep]
  cases h1 : uniformReadLvl k r (min pt.level c0.level) st.prng c1.coeffs with
  | none => simp
  | some a =>
    cases h2 : gaussCoeffs O sigma bound k r.n (GaussState.clock { st with prng := a.2 }) with
    | none => simp [h2]
    | some g => simp [h2]

/-- the general form: a condition on the mask and a value of the error -/
theorem skEncrypt_step {Aq : Rows → Prop} {pq : ℝ≥0∞} (hq : Step (uniStep r (min pt.level c0.level) c1.coeffs) Aq pq) {T : ℕ → ℤ}
    (hT : ∀ t < r.n, |T t| ≤ bound.toNat) {B : Poly × Poly → Prop}
    (hB : ∀ {a v gs}, PolyWritten r (min pt.level c0.level) r.qs c1.coeffs a v → (B (skEncrypt r sk gs pt c0 ⟨a, c1.isNTT⟩) ↔ Aq a)) :
    Step (fun k st => skEncryptBytes O k r sigma bound sk pt c0 c1 st)
      (fun ct => B ct ∧ Encrypts n r (min pt.level c0.level) c0.isNTT ct s (fun u => m u + intR (2 ^ n) (r.qs u) T))
      (pq * ∏ t ∈ range r.n, gaussLaw O sigma bound (T t)) := by
  rw [skEncryptBytes_eq]
  refine (hq.seq (drawStep_step O sigma bound r.n T)).map (fun a => skEncrypt r sk a.2 pt c0 ⟨a.1, c1.isNTT⟩) ?_
  intro k st x st' hst h
  obtain ⟨a, st1, gs, st2, h1, h2, e⟩ := seqStep_eq.1 h
  cases e
  have hst1 := (hq.keeps hst h1).1
  rw [uniStep, Option.map_eq_some_iff] at h1
  obtain ⟨⟨a', p1⟩, h3, h4⟩ := h1
  cases h4
  obtain ⟨-, v, hv⟩ := C42_uniform hr hl hc1 h3
  rw [hB hv, (skEncrypt_outcome hr sr O sigma hl hc hc1 hs hm hb0 hb hv hst1 h2 hT).2]

/-- **C116 (fresh ciphertexts).** `Encrypt` with a secret key, on random bytes: for every mask with reduced coefficients (in the domain
of the ciphertext) and every error within the bound, the probability that the ciphertext has this mask and decrypts exactly to the
message plus this error is the uniform probability of the mask times the probability of the error — whatever the message, the secret
and the old content of the ciphertext, and independently of the bytes that follow. -/
theorem C116_skEncrypt (pos : ℕ) (clk : UInt64) {buf : List UInt8} {ptr : ℕ} (hlen : buf.length = 1024) (hle : ptr ≤ 1024)
    (hw : ptr % 8 = 0) {T : ℕ → ℤ} (hT : ∀ t < r.n, |T t| ≤ bound.toNat) {w : Rows} (hwl : w.length = min pt.level c0.level + 1)
    (hwr : ∀ j ≤ min pt.level c0.level, (w.row j).length = r.n ∧ ∀ x ∈ w.row j, x < (r.sub j).q)
    {E : ℕ → Set (ℕ → UInt8)} {c : ℝ≥0∞} (hE : ∀ k, MeasurableSet (E k)) (hc' : ∀ k, randomBytes (E k) = c) :
    randomBytes {x | ∃ fuel ct st', skEncryptBytes O fuel r sigma bound sk pt c0 c1 ⟨⟨x, pos, clk⟩, buf, ptr⟩ = some (ct, st') ∧
        (ct.2.coeffs = w ∧ Encrypts n r (min pt.level c0.level) c0.isNTT ct s (fun u => m u + intR (2 ^ n) (r.qs u) T)) ∧
        (fun i => x (st'.prng.pos + i)) ∈ E st'.ptr}
      = (∏ j ∈ range (min pt.level c0.level + 1), ((r.sub j).q.toNat : ℝ≥0∞)⁻¹ ^ r.n) * (∏ t ∈ range r.n, gaussLaw O sigma bound (T t))
        * c := by
  have hwe : EltIs n r (min pt.level c0.level) r.qs c0.isNTT w (r.elt n c0.isNTT w) := by
    refine ⟨by omega, fun u hu => by rw [(hwr u hu).1, hr.deg], fun u hu k hk => ?_, fun _ _ => rfl⟩
    have hk' : k < (w.row u).length := by rw [(hwr u hu).1, hr.deg]; exact hk
    refine UInt64.lt_iff_toNat_lt.1 ((hwr u hu).2 _ ?_)
    rw [Row.at, getD_lt _ _ hk']
    exact List.getElem_mem _
  have hv : ∀ j ≤ min pt.level c0.level,
      (Rows.row (if c0.isNTT then w else r.nttLvl (min pt.level c0.level) w w) j).length = r.n ∧
      ∀ x ∈ Rows.row (if c0.isNTT then w else r.nttLvl (min pt.level c0.level) w w) j, x < (r.sub j).q := by
    cases hb : c0.isNTT with
    | true => exact hwr
    | false =>
      rw [hb] at hwe
      have h2 := (nttLvl_elt hr hl sr (fun u hu => by omega) hwe hwe.lvl).is
      intro j hj
      simp only [Bool.false_eq_true, if_false]
      refine ⟨by rw [h2.len j hj, hr.deg], fun x hx => ?_⟩
      obtain ⟨i, hi, rfl⟩ := List.getElem_of_mem hx
      have := h2.lt j hj i (by rw [← h2.len j hj]; exact hi)
      rw [Row.at, getD_lt _ _ hi] at this
      exact UInt64.lt_iff_toNat_lt.2 this
  have hvl : (if c0.isNTT then w else r.nttLvl (min pt.level c0.level) w w).length = min pt.level c0.level + 1 := by
    cases hb : c0.isNTT with
    | true => exact hwl
    | false =>
      rw [hb] at hwe
      exact (nttLvl_elt hr hl sr (fun u hu => by omega) hwe hwe.lvl).len.trans hwl
  exact ((skEncrypt_step hr sr O sigma hl hc hc1 hs hm hb0 hb (uniStep_step hr hl hc1 hvl hv) hT (B := fun ct => ct.2.coeffs = w)
    (fun {a v gs} ha => by
      rw [skEncrypt_snd]
      exact mask_iff hr sr hl c0.isNTT hc1 ha hwe hwl)).law pos clk hlen hle hw hE hc').2

/-- **C116 (noise of a fresh ciphertext).** The probability that `Decrypt` of `Encrypt` of the message is the message plus a given error
within the bound is the product of the probabilities of its coefficients under the law of the Gaussian sampler, in whatever domain
the ciphertext and the two plaintexts are. -/
theorem C116_decrypt {out : Poly} (ho : out.coeffs ≠ []) (pos : ℕ) (clk : UInt64) {buf : List UInt8} {ptr : ℕ} (hlen : buf.length = 1024)
    (hle : ptr ≤ 1024) (hw : ptr % 8 = 0) {T : ℕ → ℤ} (hT : ∀ t < r.n, |T t| ≤ bound.toNat) :
    randomBytes {x | ∃ fuel ct st', skEncryptBytes O fuel r sigma bound sk pt c0 c1 ⟨⟨x, pos, clk⟩, buf, ptr⟩ = some (ct, st') ∧
        EltIs n r (min (min pt.level c0.level) out.level) r.qs out.isNTT (decrypt r sk [ct.1, ct.2] out).coeffs
          (fun u => m u + intR (2 ^ n) (r.qs u) T)} = ∏ t ∈ range r.n, gaussLaw O sigma bound (T t) := by
  have h1 := skEncrypt_step hr sr O sigma hl hc hc1 hs hm hb0 hb (uniStep_top hr hl hc1) hT (B := fun _ => True) (fun _ => Iff.rfl)
  have h2 := h1.congr (B := fun ct => EltIs n r (min (min pt.level c0.level) out.level) r.qs out.isNTT
      (decrypt r sk [ct.1, ct.2] out).coeffs (fun u => m u + intR (2 ^ n) (r.qs u) T)) (by
    intro k st ct st' hst h
    rw [congrFun (congrFun (skEncryptBytes_eq O sigma) k) st, Option.map_eq_some_iff] at h
    obtain ⟨⟨⟨a, gs⟩, st2⟩, h3, h4⟩ := h
    cases h4
    obtain ⟨a', st1, gs', st2', g1, g2, e⟩ := seqStep_eq.1 h3
    cases e
    have hst1 := ((uniStep_top hr hl hc1).keeps hst g1).1
    rw [uniStep, Option.map_eq_some_iff] at g1
    obtain ⟨⟨a', p1⟩, g3, g4⟩ := g1
    cases g4
    obtain ⟨-, v, hv⟩ := C42_uniform hr hl hc1 g3
    obtain ⟨⟨G, hG, hE⟩, -⟩ := skEncrypt_outcome hr sr O sigma hl hc hc1 hs hm hb0 hb hv hst1 g2 hT
    have hd := (C32_decrypt hr sr hE ho (by omega) (hs.below (min_le_left _ _))).2.2
    rw [true_and]
    constructor
    · intro h'
      have e2 := add_left_cancel ((hd.val 0 (Nat.zero_le _)).symm.trans (h'.val 0 (Nat.zero_le _)))
      have := (hr.subAt (i := 0) (by omega)).fact
      have hGT : ∀ t < 2 ^ n, G t = T t := fun t ht =>
        eq_of_residue hb0 (hG t (by rw [hr.deg]; exact ht)) (hT t (by rw [hr.deg]; exact ht)) (toR_inj (by positivity) e2 t ht)
      obtain ⟨x0, x1, k0, k1, k2⟩ := hE.ex
      refine ⟨hE.ntt, hE.lvl, x0, x1, k0, k1, fun u hu => ?_⟩
      rw [k2 u hu]
      congr 1
      exact toR_congr fun k hk => by rw [hGT k hk]
    · intro h'
      exact (C32_decrypt hr sr h' ho (by omega) (hs.below (min_le_left _ _))).2.2)
  have := (h2.law pos clk hlen hle hw (E := fun _ => Set.univ) (c := 1) (fun _ => MeasurableSet.univ) (fun _ => measure_univ)).2
  rw [one_mul, mul_one] at this
  rw [← this, stepEvent]
  simp only [Set.mem_univ, and_true]

/-- **C116 (encryption ends).** With probability one `Encrypt` returns a ciphertext that decrypts to the message plus an error within
the bound. -/
theorem C116_returns (hO : O.Starts sigma bound) (pos : ℕ) (clk : UInt64) {buf : List UInt8} {ptr : ℕ} (hlen : buf.length = 1024)
    (hle : ptr ≤ 1024) (hw : ptr % 8 = 0) :
    randomBytes {x | ∃ fuel ct st', skEncryptBytes O fuel r sigma bound sk pt c0 c1 ⟨⟨x, pos, clk⟩, buf, ptr⟩ = some (ct, st') ∧
        ∃ G : ℕ → ℤ, (∀ t < r.n, |G t| ≤ bound.toNat) ∧
          Encrypts n r (min pt.level c0.level) c0.isNTT ct s (fun u => m u + intR (2 ^ n) (r.qs u) G)} = 1 := by
  have h1 := ((uniStep_top hr hl hc1).seq (drawStep_top O sigma bound r.n hO)).map
    (fun a => skEncrypt r sk a.2 pt c0 ⟨a.1, c1.isNTT⟩) (B := fun ct => ∃ G : ℕ → ℤ, (∀ t < r.n, |G t| ≤ bound.toNat) ∧
          Encrypts n r (min pt.level c0.level) c0.isNTT ct s (fun u => m u + intR (2 ^ n) (r.qs u) G)) (by
    intro k st x st' hst h
    obtain ⟨a, st1, gs, st2, g1, g2, e⟩ := seqStep_eq.1 h
    cases e
    have hst1 := ((uniStep_top hr hl hc1).keeps hst g1).1
    rw [uniStep, Option.map_eq_some_iff] at g1
    obtain ⟨⟨a', p1⟩, g3, g4⟩ := g1
    cases g4
    obtain ⟨-, v, hv⟩ := C42_uniform hr hl hc1 g3
    exact ⟨fun _ => ⟨trivial, trivial⟩, fun _ => (skEncrypt_outcome hr sr O sigma hl hc hc1 hs hm hb0 hb hv hst1 g2 (T := fun _ => 0)
      (fun _ _ => by simp)).1⟩)
  have h2 := h1.law pos clk hlen hle hw (E := fun _ => Set.univ) (c := 1) (fun _ => MeasurableSet.univ) (fun _ => measure_univ)
  have e := skEncryptBytes_eq O sigma (r := r) (bound := bound) (sk := sk) (pt := pt) (c0 := c0) (c1 := c1)
  rw [← e, stepEvent] at h2
  simp only [Set.mem_univ, and_true, mul_one] at h2
  exact h2.2

end

/-- moduli 97, 193, 641, degree 16, `sigma = 3.2`, bound 19, secret of the example keys, the message `k ↦ 5 k` given as coefficients at
level 1, a ciphertext of level 2 in either domain that held sevens: the ciphertext with all mask entries 5 and error
`2 - t mod 5` has probability `97⁻¹ ^ 16 · 193⁻¹ ^ 16` times that of the error, decryption at level 0 in the transformed domain gives this
error with its probability, and encryption ends with probability one -/
example : ∃ (rQ rP : Ring) (sk : PolyQP) (p : Rows), rQ.moduli = [97, 193, 641] ∧
    sk.IsMont 4 rQ rP 2 1 exampleS ∧ EltIs 4 rQ 1 rQ.qs false p (fun u => intR _ (rQ.qs u) fun k => 5 * k) ∧ p.length = 2 ∧ ∀ b : Bool,
    let c : Poly := ⟨List.replicate 3 [7], b⟩
    let enc := fun (fuel : ℕ) (x : ℕ → UInt8) =>
      skEncryptBytes realOps fuel rQ 3.2 19 sk.q ⟨p, false⟩ c c ⟨⟨x, 7, 0⟩, List.replicate 1024 1, 1016⟩
    randomBytes {x | ∃ fuel ct st', enc fuel x = some (ct, st') ∧ (ct.2.coeffs = List.replicate 2 (List.replicate 16 5) ∧
      Encrypts 4 rQ 1 b ct (fun u => intR _ _ exampleS)
        (fun u => intR _ (rQ.qs u) (fun k => 5 * k) + intR _ _ fun t => 2 - t % 5)) ∧
        (fun i => x (st'.prng.pos + i)) ∈ (Set.univ : Set (ℕ → UInt8))}
      = (97⁻¹ ^ 16 * 193⁻¹ ^ 16 : ℝ≥0∞) * ∏ t ∈ range 16, gaussLaw realOps 3.2 19 (2 - t % 5) ∧
    randomBytes {x | ∃ fuel ct st', enc fuel x = some (ct, st') ∧
      EltIs 4 rQ 0 rQ.qs true (decrypt rQ sk.q [ct.1, ct.2] ⟨[[7]], true⟩).coeffs
        (fun u => intR _ (rQ.qs u) (fun k => 5 * k) + intR _ _ fun t => 2 - t % 5)}
      = ∏ t ∈ range 16, gaussLaw realOps 3.2 19 (2 - t % 5) ∧
    randomBytes {x | ∃ fuel ct st', enc fuel x = some (ct, st') ∧ ∃ G : ℕ → ℤ, (∀ t < rQ.n, |G t| ≤ 19) ∧
      Encrypts 4 rQ 1 b ct (fun u => intR _ _ exampleS) (fun u => intR _ (rQ.qs u) (fun k => 5 * k) + intR _ _ G)} = 1 := by
  obtain ⟨rQ, rP, sr, tape, K, m1, m2, l3, l2, hq, q0, hsk, ht⟩ := exampleRings
  have hQ := K.rings.hQ
  have a0 := sub_of_moduli m1 0 97 rfl
  have a1 := sub_of_moduli m1 1 193 rfl
  have hn : rQ.n = 16 := hQ.deg
  have hb0 : 2 * (19 : UInt64).toNat < rQ.qs 0 := by rw [q0]; decide
  have hb : ∀ j ≤ 1, (19 : UInt64).toNat ≤ rQ.qs j := fun j hj => by
    have := hq j (by omega)
    have : (19 : UInt64).toNat = 19 := rfl
    omega
  have hT : ∀ t < rQ.n, |(2 : ℤ) - (t : ℤ) % 5| ≤ ((19 : UInt64).toNat : ℤ) := fun t _ => by
    have : ((19 : UInt64).toNat : ℤ) = 19 := rfl
    rw [this, abs_le]
    omega
  obtain ⟨p, hp⟩ := exists_poly hQ (show 1 < rQ.subs.length by omega) (fun k => 5 * k)
  have hm := (elt_intVec hQ hp).take (m := 2) (by omega)
  have hpl : (p.take 2).length = 2 := by have := hp.lvl; simp; omega
  have hs := (elt_mont hQ (by omega) hsk.q).below (l := 1) (by omega)
  have hlev : (Poly.mk (p.take 2) false).level = 1 := by rw [Poly.level, hpl]
  rw [l3, l2] at hsk
  refine ⟨rQ, rP, genSecretKey rQ rP sr, p.take 2, m1, hsk, hm, hpl, fun b => ?_⟩
  have hmin : min (Poly.mk (p.take 2) false).level (Poly.mk (List.replicate 3 [7]) b).level = 1 := by rw [hlev]; rfl
  refine ⟨?_, ?_, ?_⟩
  · have := C116_skEncrypt hQ K.rings.sQ realOps 3.2 (bound := 19) (sk := (genSecretKey rQ rP sr).q) (pt := ⟨p.take 2, false⟩)
      (c0 := ⟨List.replicate 3 [7], b⟩) (c1 := ⟨List.replicate 3 [7], b⟩) (by rw [hmin]; omega) (by simp) (by rw [hmin]; simp)
      (by rw [hmin]; exact hs) (by rw [hmin]; exact hm) hb0 (by rw [hmin]; exact hb) 7 0 (buf := List.replicate 1024 1) (ptr := 1016)
      List.length_replicate (by norm_num) rfl hT (w := List.replicate 2 (List.replicate 16 5)) (by rw [hmin]; rfl) (by
        rw [hmin]
        intro j hj
        have : Rows.row (List.replicate 2 (List.replicate 16 5)) j = List.replicate 16 5 := by
          rw [Rows.row, List.getD_eq_getElem _ _ (by simp; omega), List.getElem_replicate]
        rw [this]
        refine ⟨by rw [hn, List.length_replicate], fun x hx => ?_⟩
        rw [List.eq_of_mem_replicate hx]
        obtain rfl | rfl : j = 0 ∨ j = 1 := by omega
        · rw [a0]; decide
        · rw [a1]; decide)
      (E := fun _ => Set.univ) (fun _ => MeasurableSet.univ) (fun _ => measure_univ)
    rw [hmin, mul_one, hn] at this
    simp only [prod_range_succ (n := 1), prod_range_one, a0, a1] at this
    exact this
  · have := C116_decrypt hQ K.rings.sQ realOps 3.2 (bound := 19) (sk := (genSecretKey rQ rP sr).q) (pt := ⟨p.take 2, false⟩)
      (c0 := ⟨List.replicate 3 [7], b⟩) (c1 := ⟨List.replicate 3 [7], b⟩) (by rw [hmin]; omega) (by simp) (by rw [hmin]; simp)
      (by rw [hmin]; exact hs) (by rw [hmin]; exact hm) hb0 (by rw [hmin]; exact hb) (out := ⟨[[7]], true⟩) (by simp) 7 0
      (buf := List.replicate 1024 1) (ptr := 1016) List.length_replicate (by norm_num) rfl hT
    rw [hmin, hn] at this
    exact this
  · have := C116_returns hQ K.rings.sQ realOps 3.2 (bound := 19) (sk := (genSecretKey rQ rP sr).q) (pt := ⟨p.take 2, false⟩)
      (c0 := ⟨List.replicate 3 [7], b⟩) (c1 := ⟨List.replicate 3 [7], b⟩) (by rw [hmin]; omega) (by simp) (by rw [hmin]; simp)
      (by rw [hmin]; exact hs) (by rw [hmin]; exact hm) hb0 (by rw [hmin]; exact hb) (realOps_starts _ _) 7 0
      (buf := List.replicate 1024 1) (ptr := 1016) List.length_replicate (by norm_num) rfl
    rw [hmin] at this
    exact this

end FastKsw.Props
