import Verif.Model.SlotEncoder
import Verif.Props.Encoder
import Verif.Props.Sparse
import Verif.Props.SpecialFFT
import Verif.Props.Automorphism

/-!
# C73, C74: encoding and decoding of slots; C75: automorphisms move the slots; C76: the round trip
-/

namespace FastKsw.Props

open FastKsw Finset

variable {n : ℕ} {r : Ring} {level : ℕ}

/-- words written by `floatToFixedPointCRT` in a row -/
theorem fixedPoint_row_at {i : ℕ} (hi : i ≤ level) (values : List ℚ) (scale : ℚ) (p : Rows) (hp : level < p.length) (k : ℕ) :
    ((r.floatToFixedPointCRT level values scale p).row i).at k =
      if k < values.length then (r.sub i).fixedPoint (values.getD k 0) scale else (p.row i).at k := by
  unfold Ring.floatToFixedPointCRT
  rw [row_writeLvl hi hp]
  by_cases hk : k < values.length
  · rw [if_pos hk, setRow_at _ _ _ 0 hk]
  · rw [if_neg hk]
    unfold setRow Row.at List.getD
    rw [List.getElem?_append_right (by simpa using not_lt.1 hk)]
    simp only [List.length_map, List.getElem?_drop]
    rw [show values.length + (k - values.length) = k by omega]

/-- **C73.** `Embed` (after the inverse transform) on `2^logSlots` complex values: the real parts, scaled and
rounded, become the coefficients of `1, Y, Y^2, …` and the imaginary parts those of `Y^slots, Y^(slots+1), …`,
with `Y = X^(N/(2*slots))`, in every row, reduced, in the NTT domain and in Montgomery form if asked for.
All other coefficients are zero, whatever the plaintext held.  Missing: fewer than 8 slots on a
plaintext that holds something else than zero (then see `C73_reuse_violated`), and products of exactly `2^64`. -/
theorem C73_embed_partial {logSlots d : ℕ} (hr : r.Valid (logSlots + 1 + d)) (sr : r.Small) (hl : level < r.subs.length)
    (values : List (ℚ × ℚ)) (hv : values.length = 2 ^ logSlots) {scale : ℚ} (hs : 0 < scale)
    (h64 : ∀ v ∈ values, f64 |v.1 * scale| ≠ 2 ^ 64 ∧ f64 |v.2 * scale| ≠ 2 ^ 64) (mont : Bool) (p : Rows)
    (hp : level < p.length) (hrow : ∀ i ≤ level, (p.row i).length = r.n)
    (hz : 3 ≤ logSlots ∨ ∀ i ≤ level, ∀ k, 2 ^ (logSlots + 1) ≤ k → k < 16 → (p.row i).at k = 0) :
    ∃ z : ℕ → ℤ, Rounds (values.map Prod.fst ++ values.map Prod.snd) scale z ∧
      PolyWritten r level r.qs p (r.embedPoly level logSlots values scale mont p) (fun i k =>
        (if mont then 2 ^ 64 else 1) * evals (r.sub i).psi (logSlots + 1 + d)
          (fun k => if k % 2 ^ d = 0 then ((z (k / 2 ^ d) : ℤ) : ZMod (r.sub i).q.toNat) else 0) k) := by
  have h4 := hr.four_le
  have e2 : 2 ^ (logSlots + 1) = 2 ^ logSlots + 2 ^ logSlots := by ring
  set l := values.map Prod.fst ++ values.map Prod.snd with hlist
  have hll : l.length = 2 ^ (logSlots + 1) := by rw [hlist]; simp [hv, e2]
  have h64' : ∀ v ∈ l, f64 |v * scale| ≠ 2 ^ 64 := by
    intro v hv
    rw [hlist, List.mem_append, List.mem_map, List.mem_map] at hv
    rcases hv with ⟨c, hc, rfl⟩ | ⟨c, hc, rfl⟩
    · exact (h64 c hc).1
    · exact (h64 c hc).2
  have hmem : ∀ k, k < l.length → l.getD k 0 ∈ l := by
    intro k hk
    simp [List.getD, hk]
  refine ⟨fun k => fixedInt (l.getD k 0) scale, fun k _ => fixedInt_err _ hs, ?_⟩
  have hle : 2 ^ (logSlots + 1) ≤ 2 ^ (logSlots + 1 + d) := Nat.pow_le_pow_right (by omega) (by omega)
  set c := r.complexToFixedPointCRT level values scale p with hc
  have hcl : c.length = p.length := length_writeLvl _ _ _
  have hat : ∀ i ≤ level, ∀ k, (c.row i).at k =
      if k < 2 ^ (logSlots + 1) then (r.sub i).fixedPoint (l.getD k 0) scale else (p.row i).at k := by
    intro i hi k
    rw [hc, Ring.complexToFixedPointCRT, fixedPoint_row_at hi _ _ _ hp, ← hlist, hll]
  have hlt61 : ∀ i ≤ level, (r.sub i).q.toNat < 2 ^ 61 := fun i hi => sr _ (Ring.sub_mem (by omega))
  have hw : ∀ i ≤ level, ∀ k < 2 ^ (logSlots + 1), ((c.row i).at k).toNat < 2 ^ 61 + 1 ∧
      (((c.row i).at k).toNat : ZMod (r.sub i).q.toNat) = (fixedInt (l.getD k 0) scale : ZMod (r.sub i).q.toNat) := by
    intro i hi k hk
    have V := hr.subAt (show i < r.subs.length by omega)
    have := fixedPoint_spec V.arith (l.getD k 0) hs (h64' _ (hmem k (by omega)))
    rw [hat i hi k, if_pos hk]
    refine ⟨lt_of_lt_of_le this.1 (max_le ?_ ?_), this.2⟩
    · have := hlt61 i hi; omega
    · omega
  have hcrow : ∀ i ≤ level, (c.row i).length = 2 ^ (logSlots + 1 + d) := by
    intro i hi
    rw [hc]
    unfold Ring.complexToFixedPointCRT Ring.floatToFixedPointCRT
    rw [row_writeLvl hi hp, ← hr.deg, ← hrow i hi]
    have := hrow i hi
    rw [hr.deg] at this
    simp [setRow, hv]
    omega
  have hsp := C52_sparse_partial hr sr level hl mont c (by omega)
    (fun i hi => ⟨hcrow i hi, fun k hk => by have := (hw i hi k hk).1; omega⟩)
    (by
      rcases hz with h | h
      · exact Or.inl h
      · right
        intro i hi k h1 h2
        rw [hat i hi k, if_neg (by omega)]
        exact h i hi k h1 h2)
  unfold Ring.embedPoly
  rw [hsp]
  dsimp only
  set e : Rows := c.map fun x => embedRow (2 ^ d) (x.take (2 ^ (logSlots + 1))) with he
  have hE : PolyWritten r level r.qs c (r.nttLvl level e c) (fun i => evals (r.sub i).psi (logSlots + 1 + d)
      (fun k => if k % 2 ^ d = 0 then ((fixedInt (l.getD (k / 2 ^ d) 0) scale : ℤ) : ZMod (r.sub i).q.toNat) else 0)) := by
    unfold Ring.nttLvl
    refine writeLvl_is (by omega) (fun i hi => ?_)
    have V := hr.subAt (show i < r.subs.length by omega)
    have hei : Rows.row e i = embedRow (2 ^ d) ((c.row i).take (2 ^ (logSlots + 1))) := by
      rw [he]
      unfold Rows.row
      rw [List.getD_eq_getElem _ _ (show i < List.length (List.map _ c) by rw [List.length_map]; omega),
        List.getElem_map, List.getD_eq_getElem _ _ (show i < c.length by omega)]
    have hta : ∀ k < 2 ^ (logSlots + 1), Row.at ((c.row i).take (2 ^ (logSlots + 1))) k = (c.row i).at k := by
      intro k hk
      simp [Row.at, List.getD, List.getElem?_take, hk]
    have hrow1 : RowIs (2 ^ (logSlots + 1)) (r.sub i).q.toNat (2 ^ 61 + 1) ((c.row i).take (2 ^ (logSlots + 1)))
        (fun k => ((fixedInt (l.getD k 0) scale : ℤ) : ZMod (r.sub i).q.toNat)) := by
      refine ⟨by rw [List.length_take, hcrow i hi]; omega, fun k hk => ?_, fun k hk => ?_⟩
      · rw [hta k hk]; exact (hw i hi k hk).1
      · rw [zval, hta k hk]; exact (hw i hi k hk).2
    have := hlt61 i hi
    rw [hei, hr.deg]
    exact ntt_is V (by omega) (hlt61 i hi) (by omega) (embedRow_is (d := d) (by norm_num) hrow1)
  have habove : ∀ i, level < i → (r.nttLvl level e c).row i = p.row i := by
    intro i hi
    rw [hE.above i hi, hc]
    exact row_writeLvl_above hi
  cases mont
  · simp only [Bool.false_eq_true, if_false, one_mul]
    exact ⟨hE.is, by rw [hE.len, hcl], habove⟩
  · simp only [if_true]
    have hM : PolyWritten r level r.qs (r.nttLvl level e c) (r.mformLvl level (r.nttLvl level e c) (r.nttLvl level e c)) _ :=
      writeLvl_is hE.is.lvl (fun i hi => mformVec_is ((hr.subAt (show i < r.subs.length by omega)).arith) (hE.is.row i hi))
    refine ⟨hM.is.congr fun i _ k _ => mul_comm _ _, ?_, fun i hi => ?_⟩
    · rw [hM.len, hE.len, hcl]
    · rw [hM.above i hi, habove i hi]

theorem fixedPoint_one {s : SubRing} (hq : s.q = 193) : s.fixedPoint 1 1 = 1 ∧ s.fixedPoint 0 1 = 0 := by
  have a0 : f64 0 = 0 := by decide +kernel
  have a1 : f64 1 = 1 := by decide +kernel
  have b0 : UInt64.ofNat (f64ToNat (f64Add 0 (1 / 2))) = 0 := by decide +kernel
  have b1 : UInt64.ofNat (f64ToNat (f64Add 1 (1 / 2))) = 1 := by decide +kernel
  unfold SubRing.fixedPoint
  constructor
  · simp only [show ¬ (1 : ℚ) < 0 by norm_num, decide_false, Bool.false_eq_true, if_false, mul_one, a1, b1, hq]
    rw [if_neg (by norm_num), if_neg (by decide)]
  · simp only [show ¬ (0 : ℚ) < 0 by norm_num, decide_false, Bool.false_eq_true, if_false, mul_one, a0, b0, hq]
    rw [if_neg (by norm_num), if_neg (by decide)]

/-- **C73 fails** for fewer than 8 slots on a plaintext that was used before: degree 16, modulus 193, one slot.
The value 1 encoded over a row holding `9, 9, 5, 0, …` differs from the value 1 encoded over zeros. -/
theorem C73_reuse_violated : ∃ r : Ring, newRing 100 16 [193] = .ok r ∧
    r.embedPoly 0 0 [(1, 0)] 1 false [[9, 9, 5] ++ List.replicate 13 0] ≠
      r.embedPoly 0 0 [(1, 0)] 1 false (newPoly 16 1) := by
  obtain ⟨r, -, h1, -, ha, -⟩ := rings193
  refine ⟨r, h1, fun h => ha ?_⟩
  obtain ⟨n, hn, V, hm, -⟩ := Props.C17_newRing_valid 100 16 (by norm_num) [193] (by simp) r h1
  obtain rfl : n = 4 := Nat.pow_right_injective (le_refl 2) (show 2 ^ n = 2 ^ 4 by omega)
  have hl : 0 < r.subs.length := List.length_pos_of_ne_nil V.ne_nil
  have hq : (r.sub 0).q = 193 := by
    have : (r.sub 0).q ∈ r.moduli := List.mem_map_of_mem (Ring.sub_mem hl)
    rw [hm, List.mem_singleton] at this
    exact this
  have hsm : r.Small := by
    intro s hs
    have : s.q ∈ r.moduli := List.mem_map_of_mem hs
    rw [hm, List.mem_singleton] at this
    rw [this]; decide
  obtain ⟨f1, f0⟩ := fixedPoint_one hq
  have e1 : r.complexToFixedPointCRT 0 [(1, 0)] 1 [[9, 9, 5] ++ List.replicate 13 0] = [[1, 0, 5] ++ List.replicate 13 0] := by
    simp [Ring.complexToFixedPointCRT, Ring.floatToFixedPointCRT, writeLvl, setRow, Rows.row, f1, f0]
  have e2 : r.complexToFixedPointCRT 0 [(1, 0)] 1 (newPoly 16 1) = [[1, 0] ++ List.replicate 14 0] := by
    simp [Ring.complexToFixedPointCRT, Ring.floatToFixedPointCRT, writeLvl, setRow, Rows.row, newPoly, f1, f0]
  unfold Ring.embedPoly at h
  rw [e1, e2, C52_sparse_partial (logSlots := 0) (d := 3) V hsm 0 hl false [[1, 0] ++ List.replicate 14 0] (by simp)
    (fun i hi => by
      obtain rfl : i = 0 := by omega
      refine ⟨rfl, ?_⟩
      decide +kernel)
    (Or.inr fun i hi => by
      obtain rfl : i = 0 := by omega
      decide +kernel)] at h
  have hroot : r.nthRoot = 32 := V.root
  have d1 : r.n = 16 := V.deg
  unfold Ring.nttAndMontgomeryLvl at h
  rw [hroot, if_neg (by norm_num)] at h
  simpa [Ring.nttLvl, writeLvl, d1, Rows.row] using h

/-! ### C74 -/

/-- the buffer of the decoder after the inverse NTT -/
theorem invPool_row (hr : r.Valid n) (sr : r.Small) (hl : level < r.subs.length) (z : ℕ → ℤ) (pt pool : Rows)
    (hpool : pool.length = r.subs.length)
    (hp : PolyIs r level r.qs pt (fun i => evals (r.sub i).psi n (fun k => ((z k : ℤ) : ZMod (r.sub i).q.toNat)))) :
    ∀ i ≤ level, RowIs r.n (r.sub i).q.toNat (r.sub i).q.toNat ((r.invNttLvl level pt pool).row i)
      (fun k => ((z k : ℤ) : ZMod (r.sub i).q.toNat)) := by
  have h4 := hr.four_le
  intro i hi
  have V := hr.subAt (show i < r.subs.length by omega)
  have hlt := sr _ (Ring.sub_mem (show i < r.subs.length by omega))
  have h1 := hp.row i hi
  unfold Ring.invNttLvl
  rw [row_writeLvl hi (by omega)]
  rw [hr.deg] at h1 ⊢
  refine (invNtt_is V (by omega) hlt (h1.mono (by unfold Ring.qs; omega))).congr (fun k hk => ?_)
  exact coeffsOf_evals V (by omega) _ k hk

/-- reading one coefficient with one modulus -/
theorem word_decode {q c : UInt64} (hodd : q.toNat % 2 = 1) {z : ℤ} (hz : -((q.toNat : ℤ) + 1) ≤ 2 * z ∧ 2 * z + 1 < q.toNat)
    (hb : c.toNat < q.toNat) (hval : (c.toNat : ZMod q.toNat) = (z : ZMod q.toNat)) :
    (if c ≥ q >>> 1 then -f64OfNat (q - c).toNat else f64OfNat c.toNat) = f64 z := by
  have hc : (c.toNat : ℤ) = z % q.toNat := by
    have : ((c.toNat : ℤ) : ZMod q.toNat) = ((z : ℤ) : ZMod q.toNat) := by
      rw [Int.cast_natCast]; exact hval
    have := (ZMod.intCast_eq_intCast_iff _ _ q.toNat).1 this
    rw [Int.ModEq, Int.emod_eq_of_lt (by omega) (by omega)] at this
    exact this
  have hcen := center_emod (Q := (q.toNat : ℤ)) (by omega) hz.1 hz.2
  rw [← hc] at hcen
  have hsh : (q >>> 1).toNat = q.toNat / 2 := by
    rw [UInt64.toNat_shiftRight]; simp [Nat.shiftRight_eq_div_pow]
  unfold f64OfNat
  by_cases hge : c ≥ q >>> 1
  · have hge' : q.toNat / 2 ≤ c.toNat := by rw [← hsh]; exact hge
    rw [if_pos (by omega)] at hcen
    rw [if_pos hge, toNat_sub_of_le' hb.le, ← f64_neg, ← hcen]
    congr 1
    push_cast [hb.le]
    ring
  · have hge' : ¬ q.toNat / 2 ≤ c.toNat := by rw [← hsh]; exact hge
    rw [if_neg (by omega)] at hcen
    rw [if_neg hge, ← hcen]
    norm_cast

/-- reading one coefficient with the CRT reconstruction -/
theorem big_decode (hr : r.Valid n) (hl : level < r.subs.length) (pool : Rows) (hpool : pool.length = r.subs.length) {z : ℤ}
    (hz : -((r.prodQ level : ℤ) + 1) ≤ 2 * z ∧ 2 * z + 1 < r.prodQ level) {i gap : ℕ} (hg : 0 < gap) (hi : i * gap < r.n)
    (hval : ∀ j ≤ level, (((pool.row j).at (i * gap)).toNat : ZMod (r.sub j).q.toNat) = (z : ZMod (r.sub j).q.toNat)) :
    (let c := (r.polyToBigintLvl (pool.length - 1) pool gap).getD i 0 % r.bigintChain level
     if c ≥ r.bigintChain level / 2 then c - r.bigintChain level else c) = z := by
  have hodd := prodQ_odd hr hl
  have hpos := prodQ_pos hr hl
  obtain ⟨-, hex⟩ := C18_export hr (show r.subs.length - 1 < r.subs.length by omega) pool gap hg
  obtain ⟨y, e1, y0, -, y2⟩ := hex i hi
  have e : (r.polyToBigintLvl (pool.length - 1) pool gap).getD i 0 = y := by
    rw [hpool, List.getD, e1, Option.getD_some]
  have hy : y % r.prodQ level = z % r.prodQ level := by
    refine eq_emod_of_cong hr hl (Int.emod_nonneg _ (by omega)) (Int.emod_lt_of_pos _ (by omega)) (fun j hj => ?_)
    have e3 := Int.emod_emod_of_dvd y (Int.natCast_dvd_natCast.2 (prodQ_cast_dvd (r := r) hj))
    rw [(ZMod.intCast_eq_intCast_iff _ _ (r.sub j).q.toNat).2 e3, y2 j (by omega)]
    exact hval j hj
  unfold Ring.bigintChain
  dsimp only
  rw [e, modulusLvl_eq, hy, center_emod (by omega) hz.1 hz.2]

/-- `z` is in the range that the decoder reads back -/
def InRange (r : Ring) (level : ℕ) (z : ℕ → ℤ) : Prop :=
  ∀ k < r.n, -((r.prodQ level : ℤ) + 1) ≤ 2 * z k ∧ 2 * z k + 1 < r.prodQ level

/-- `pt` holds the integer polynomial `z` in the NTT domain -/
def Holds (r : Ring) (n level : ℕ) (pt : Rows) (z : ℕ → ℤ) : Prop :=
  PolyIs r level r.qs pt (fun i => evals (r.sub i).psi n (fun k => ((z k : ℤ) : ZMod (r.sub i).q.toNat)))

/-- **C74 (coefficients).** What the decoder feeds to the transform for `2^logSlots` slots, at any level and with any
content of its buffer: the coefficients at the multiples of `gap = N/(2*slots)`, divided by the scale in
float64; those of the upper half become imaginary parts. -/
theorem C74_toComplex_partial {logSlots d : ℕ} (hr : r.Valid (logSlots + 1 + d)) (sr : r.Small) (hl : level < r.subs.length)
    (scale : ℚ) (z : ℕ → ℤ) (hz : InRange r level z) (pt pool : Rows) (hpool : pool.length = r.subs.length)
    (hp : Holds r (logSlots + 1 + d) level pt z) :
    r.decodeToComplex true level scale logSlots pt pool = some ((List.range (2 ^ logSlots)).map fun i =>
      (f64Div (f64 (z (i * 2 ^ d))) scale, f64Div (f64 (z ((2 ^ logSlots + i) * 2 ^ d))) scale)) := by
  have hroot : r.nthRoot / 4 = 2 ^ logSlots * 2 ^ d := by
    rw [hr.root, show 2 ^ (logSlots + 1 + d + 1) = 4 * (2 ^ logSlots * 2 ^ d) by ring]; omega
  have hN : r.n = 2 * (2 ^ logSlots * 2 ^ d) := by rw [hr.deg]; ring
  have hgap : r.nthRoot / 4 / 2 ^ logSlots = 2 ^ d := by
    rw [hroot, Nat.mul_div_cancel_left _ (Nat.two_pow_pos _)]
  have hd := Nat.two_pow_pos d
  have hinv := invPool_row hr sr hl z pt pool hpool hp
  have hlt : ∀ i < 2 ^ logSlots, i * 2 ^ d < r.n ∧ (2 ^ logSlots + i) * 2 ^ d < r.n := by
    intro i hi
    rw [hN, ← mul_assoc]
    exact ⟨Nat.mul_lt_mul_of_pos_right (by omega) hd, Nat.mul_lt_mul_of_pos_right (by omega) hd⟩
  have hlen : (r.invNttLvl level pt pool).length = r.subs.length := by
    unfold Ring.invNttLvl; rw [length_writeLvl, hpool]
  unfold Ring.decodeToComplex
  rw [if_neg (by rw [hroot]; exact not_lt.2 (Nat.le_mul_of_pos_right _ hd))]
  simp only [if_true]
  by_cases h0 : level = 0
  · subst h0
    rw [if_pos rfl]
    unfold Ring.polyToComplexNoCRT
    dsimp only
    congr 1
    apply List.map_congr_left
    intro i hi
    have hi := List.mem_range.1 hi
    rw [hgap, hroot, ← add_mul]
    have key : ∀ k < r.n, (if ((r.invNttLvl 0 pt pool).row 0).at k ≥ (r.sub 0).q >>> 1 then
        -f64OfNat ((r.sub 0).q - ((r.invNttLvl 0 pt pool).row 0).at k).toNat
        else f64OfNat (((r.invNttLvl 0 pt pool).row 0).at k).toNat) = f64 (z k) := by
      intro k hk
      have hzk := hz k hk
      have hodd := prodQ_odd hr hl
      rw [prodQ_zero] at hzk hodd
      exact word_decode hodd hzk ((hinv 0 le_rfl).lt k hk) ((hinv 0 le_rfl).val k hk)
    rw [key _ (hlt i hi).1, key _ (hlt i hi).2]
  · rw [if_neg h0]
    unfold Ring.polyToComplexCRT
    dsimp only
    congr 1
    apply List.map_congr_left
    intro i hi
    have hi := List.mem_range.1 hi
    rw [hgap]
    have b1 := big_decode hr hl _ hlen (hz _ (hlt i hi).1) hd (hlt i hi).1
      (fun j hj => (hinv j hj).val _ (hlt i hi).1)
    have b2 := big_decode hr hl _ hlen (hz _ (hlt i hi).2) hd (hlt i hi).2
      (fun j hj => (hinv j hj).val _ (hlt i hi).2)
    dsimp only at b1 b2
    rw [b1, b2]
    rfl

theorem fftCap_le {logSlots len : ℕ} (h1 : 2 ^ logSlots ≤ len) (h2 : 3 ≤ logSlots → 16 ≤ len) :
    fftCap (decide (3 ≤ logSlots)) (2 ^ logSlots) ≤ len := by
  unfold fftCap
  split
  · rename_i h
    have h3 : 3 ≤ logSlots := by simpa using h
    rcases Nat.lt_or_ge logSlots 4 with h4 | h4
    · obtain rfl : logSlots = 3 := by omega
      exact h2 h3
    · have : 16 ∣ 2 ^ logSlots := pow_dvd_pow 2 h4
      omega
  · omega

section
variable {K : Type} [Field K] {roots : ℕ → K} {ζ : K}

/-- the decoded slots as values of the polynomial with the complex coefficients that are fed to the transform -/
theorem decodeSlots_eval {logSlots d : ℕ} (hr : r.Valid (logSlots + 1 + d)) (sr : r.Small) (hl : level < r.subs.length)
    (T : RootTable (2 ^ (logSlots + 2 + d)) roots ζ) (im : K) (mem : List K)
    (hmem : 2 ^ logSlots ≤ mem.length ∧ (3 ≤ logSlots → 16 ≤ mem.length))
    (scale : ℚ) (z : ℕ → ℤ) (hz : InRange r level z) (pt pool : Rows) (hpool : pool.length = r.subs.length)
    (hp : Holds r (logSlots + 1 + d) level pt z) :
    ∃ s, r.decodeSlots roots im mem true level scale logSlots pt pool = some s ∧
      s.length = 2 ^ logSlots ∧
      ∀ j < 2 ^ logSlots, s.getD j 0 = ∑ k ∈ range (2 ^ logSlots),
        (((f64Div (f64 (z (k * 2 ^ d))) scale : ℚ) : K) +
          ((f64Div (f64 (z ((2 ^ logSlots + k) * 2 ^ d))) scale : ℚ) : K) * im) * (ζ ^ 2 ^ d) ^ (5 ^ j * k) := by
  have hM : r.nthRoot = 2 ^ (logSlots + 2 + d) := by
    rw [hr.root]; congr 1; omega
  unfold Ring.decodeSlots
  rw [C74_toComplex_partial hr sr hl scale z hz pt pool hpool hp, Option.map_some, hM]
  refine ⟨_, rfl, ?_, ?_⟩
  all_goals set x : List K := _ ++ List.drop (2 ^ logSlots) mem with hx
  all_goals have hxl : x.length = mem.length := by rw [hx]; simp; omega
  · rw [List.length_take, specialFFT_length _ _ (by omega), hxl]; omega
  · intro j hj
    have hcap : fftCap (decide (3 ≤ logSlots)) (2 ^ logSlots) ≤ x.length := by
      rw [hxl]
      exact fftCap_le hmem.1 hmem.2
    have htake : ∀ (y : List K), (y.take (2 ^ logSlots)).getD j 0 = y.getD j 0 := by
      intro y; simp [List.getD, List.getElem?_take, hj]
    rw [htake, specialFFT_at T _ x hcap j hj]
    refine Finset.sum_congr rfl fun k hk => ?_
    have hk := Finset.mem_range.1 hk
    congr 1
    rw [hx]
    simp [List.getD, hk, List.getElem?_append_left]

/-- **C74 (slots).** Slot `j` of the decoded vector is the value at `ζ^(5^j)` of the polynomial whose coefficients are the
decoded ones at the multiples of `gap` (all other coefficients are ignored). -/
theorem C74_decodeSlots_partial {logSlots d : ℕ} (hr : r.Valid (logSlots + 1 + d)) (sr : r.Small) (hl : level < r.subs.length)
    (T : RootTable (2 ^ (logSlots + 2 + d)) roots ζ) (mem : List K)
    (hmem : 2 ^ logSlots ≤ mem.length ∧ (3 ≤ logSlots → 16 ≤ mem.length))
    (scale : ℚ) (z : ℕ → ℤ) (hz : InRange r level z) (pt pool : Rows) (hpool : pool.length = r.subs.length)
    (hp : Holds r (logSlots + 1 + d) level pt z) :
    ∃ s, r.decodeSlots roots (ζ ^ 2 ^ (logSlots + d)) mem true level scale logSlots pt pool = some s ∧
      s.length = 2 ^ logSlots ∧
      ∀ j < 2 ^ logSlots, s.getD j 0 = ∑ k ∈ range (2 * 2 ^ logSlots),
        ((f64Div (f64 (z (k * 2 ^ d))) scale : ℚ) : K) * (ζ ^ 5 ^ j) ^ (k * 2 ^ d) := by
  obtain ⟨s, h1, h2, h3⟩ := decodeSlots_eval hr sr hl T (ζ ^ 2 ^ (logSlots + d)) mem hmem scale z hz pt pool hpool hp
  refine ⟨s, h1, h2, fun j hj => ?_⟩
  rw [h3 j hj, two_mul, Finset.sum_range_add, ← Finset.sum_add_distrib]
  refine Finset.sum_congr rfl fun k hk => ?_
  have hI : (ζ ^ 5 ^ j) ^ (2 ^ logSlots * 2 ^ d) = ζ ^ 2 ^ (logSlots + d) := by
    have h1 : ζ ^ (4 * 2 ^ (logSlots + d)) = 1 := by
      have := T.half
      rw [show 4 * 2 ^ (logSlots + d) = 2 ^ (logSlots + 2 + d) / 2 * 2 by
        rw [show 2 ^ (logSlots + 2 + d) = 2 * (2 * 2 ^ (logSlots + d)) by ring,
          Nat.mul_div_cancel_left _ (by norm_num)]; ring, pow_mul, this]
      norm_num
    have h5 : 5 ^ j % 4 = 1 := by rw [Nat.pow_mod]; norm_num
    rw [← pow_mul, ← pow_add, ← pow_mod_of h1 (5 ^ j * 2 ^ (logSlots + d)), Nat.mul_mod_mul_right, h5, one_mul]
  have hE : (ζ ^ 2 ^ d) ^ (5 ^ j * k) = (ζ ^ 5 ^ j) ^ (k * 2 ^ d) := by
    rw [← pow_mul, ← pow_mul]; congr 1; ring
  have hS : (ζ ^ 5 ^ j) ^ ((2 ^ logSlots + k) * 2 ^ d) = ζ ^ 2 ^ (logSlots + d) * (ζ ^ 5 ^ j) ^ (k * 2 ^ d) := by
    rw [add_mul, pow_add, hI]
  rw [hE, hS]
  ring

/-! ### C75 -/

/-- `z'` is the image of the integer polynomial `z` of degree below `N` under `X ↦ X^g` modulo `X^N + 1` -/
def IsAut (N g : ℕ) (z z' : ℕ → ℤ) : Prop :=
  ∀ i < N, z' (i * g % N) = if i * g / N % 2 = 0 then z i else -z i

theorem exists_aut {m g : ℕ} (hg : g % 2 = 1) (z : ℕ → ℤ) : ∃ z', IsAut (2 ^ m) g z z' := by
  refine ⟨fun k => ∑ i ∈ range (2 ^ m), if i * g % 2 ^ m = k then (if i * g / 2 ^ m % 2 = 0 then z i else -z i) else 0,
    fun i hi => ?_⟩
  beta_reduce
  rw [Finset.sum_eq_single i, if_pos rfl]
  · intro j hj hji
    exact if_neg fun h => hji (mul_odd_inj hg (Finset.mem_range.1 hj) hi h)
  · intro h; exact absurd (Finset.mem_range.2 hi) h

/-- evaluation of the image at an element with `e^N = -1`, also through a ring homomorphism -/
theorem aut_eval {A : Type*} [CommRing A] {m g : ℕ} (hg : g % 2 = 1) {z z' : ℕ → ℤ} (h : IsAut (2 ^ m) g z z')
    (f : ℤ → A) (hf : ∀ a, f (-a) = -f a) (e : A) (he : e ^ 2 ^ m = -1) :
    ∑ k ∈ range (2 ^ m), f (z' k) * e ^ k = ∑ i ∈ range (2 ^ m), f (z i) * e ^ (i * g) := by
  rw [sum_mul_odd hg]
  refine Finset.sum_congr rfl fun i hi => ?_
  rw [h i (Finset.mem_range.1 hi)]
  have : e ^ (i * g) = (-1) ^ (i * g / 2 ^ m) * e ^ (i * g % 2 ^ m) := by
    conv_lhs => rw [← Nat.div_add_mod (i * g) (2 ^ m), pow_add, pow_mul, he]
  rw [this]
  split
  · rw [Even.neg_one_pow (Nat.even_iff.2 (by assumption)), one_mul]
  · rw [Odd.neg_one_pow (Nat.odd_iff.2 (by omega)), hf]; ring

/-- the multiples of a power of two are permuted among themselves -/
theorem IsAut.gap {m d g : ℕ} {z z' : ℕ → ℤ} (h : IsAut (2 ^ (m + d)) g z z') :
    IsAut (2 ^ m) g (fun k => z (k * 2 ^ d)) (fun k => z' (k * 2 ^ d)) := by
  intro i hi
  have hd := Nat.two_pow_pos d
  have h1 := h (i * 2 ^ d) (by rw [pow_add]; exact Nat.mul_lt_mul_of_pos_right hi hd)
  rw [show i * 2 ^ d * g = i * g * 2 ^ d by ring, pow_add, Nat.mul_mod_mul_right,
    Nat.mul_div_mul_right _ _ hd] at h1
  exact h1

/-- `PermuteNTT` on a plaintext that holds `z`: it holds the image of `z` -/
theorem permute_holds (hr : r.Valid n) (hl : level < r.subs.length) (gen : UInt64) (hg : gen.toNat % 2 = 1) (z z' : ℕ → ℤ)
    (hz : IsAut (2 ^ n) gen.toNat z z') (pt out : Rows) (hp : Holds r n level pt z) (ho : level < out.length) :
    Holds r n level (r.permuteNTTLvl level pt gen out) z' := by
  have h4 := hr.four_le
  obtain ⟨w, hw, hw2⟩ := C24_permuteNTT hr level hl pt out ho gen hg _ _ hp
  refine hw.is.congr fun i hi k hk => ?_
  have V := hr.subAt (show i < r.subs.length by omega)
  have := V.fact
  have e := hw2 i hi
  rw [ofNtt_evals V (by omega)] at e
  have e2 : aut (2 ^ n) (r.sub i).q.toNat hg (toR (2 ^ n) (r.sub i).q.toNat fun k => ((z k : ℤ) : ZMod (r.sub i).q.toNat)) =
      toR (2 ^ n) (r.sub i).q.toNat fun k => ((z' k : ℤ) : ZMod (r.sub i).q.toNat) := by
    rw [aut_toR, toR]
    have := aut_eval hg hz (fun a : ℤ => AdjoinRoot.of ((Polynomial.X : Polynomial (ZMod (r.sub i).q.toNat)) ^ 2 ^ n + 1)
      ((a : ℤ) : ZMod (r.sub i).q.toNat)) (fun a => by rw [Int.cast_neg, map_neg])
      (AdjoinRoot.root _) root_pow
    rw [this]
    exact Finset.sum_congr rfl fun j _ => by rw [mul_comm j]
  rw [e2, ← ofNtt_evals V (by omega)] at e
  exact ofNtt_injective (V.psiOK (by omega)) e k (by rw [← hr.deg]; exact hk)

/-- symmetric bound on the coefficients of a plaintext -/
def Bounded (r : Ring) (level : ℕ) (z : ℕ → ℤ) : Prop := ∀ k < r.n, 2 * |z k| + 1 < r.prodQ level

theorem Bounded.inRange {z : ℕ → ℤ} (h : Bounded r level z) : InRange r level z := by
  intro k hk
  have := h k hk
  have a := abs_le.1 (le_refl |z k|)
  omega

theorem Bounded.aut {z z' : ℕ → ℤ} {g : ℕ} (hr : r.Valid n) (h : Bounded r level z) (hg : g % 2 = 1)
    (hz : IsAut (2 ^ n) g z z') : Bounded r level z' := by
  intro k hk
  rw [hr.deg] at hk
  -- `k` is a multiple of `g` modulo `N`
  have hsurj : ∃ i < 2 ^ n, i * g % 2 ^ n = k := by
    have hmaps : Set.MapsTo (fun i => i * g % 2 ^ n) (range (2 ^ n) : Set ℕ) (range (2 ^ n) : Set ℕ) := by
      intro i _
      simpa using Nat.mod_lt _ (Nat.two_pow_pos n)
    have hinj : Set.InjOn (fun i => i * g % 2 ^ n) (range (2 ^ n) : Set ℕ) := by
      intro i hi j hj h
      exact mul_odd_inj hg (by simpa using hi) (by simpa using hj) h
    obtain ⟨i, hi, he⟩ := surjOn_of_injOn_of_card_le _ hmaps hinj le_rfl (by simpa using hk : k ∈ (range (2 ^ n) : Set ℕ))
    exact ⟨i, by simpa using hi, he⟩
  obtain ⟨i, hi, rfl⟩ := hsurj
  rw [hz i hi]
  have := h i (by rw [hr.deg]; exact hi)
  split
  · exact this
  · rw [abs_neg]; exact this

/-- decoding after an automorphism `X ↦ X^g` evaluates at the `g`-th powers -/
theorem decode_permuted {logSlots d : ℕ} (hr : r.Valid (logSlots + 1 + d)) (sr : r.Small) (hl : level < r.subs.length)
    (T : RootTable (2 ^ (logSlots + 2 + d)) roots ζ) (mem : List K)
    (hmem : 2 ^ logSlots ≤ mem.length ∧ (3 ≤ logSlots → 16 ≤ mem.length))
    (scale : ℚ) (z : ℕ → ℤ) (hz : Bounded r level z) (gen : UInt64) (hg : gen.toNat % 2 = 1)
    (pt out pool : Rows) (hpool : pool.length = r.subs.length) (ho : level < out.length)
    (hp : Holds r (logSlots + 1 + d) level pt z) :
    ∃ s, r.decodeSlots roots (ζ ^ 2 ^ (logSlots + d)) mem true level scale logSlots
        (r.permuteNTTLvl level pt gen out) pool = some s ∧ s.length = 2 ^ logSlots ∧
      ∀ j < 2 ^ logSlots, s.getD j 0 = ∑ k ∈ range (2 * 2 ^ logSlots),
        ((f64Div (f64 (z (k * 2 ^ d))) scale : ℚ) : K) * (ζ ^ (5 ^ j * gen.toNat)) ^ (k * 2 ^ d) := by
  obtain ⟨z', hz'⟩ := exists_aut (m := logSlots + 1 + d) hg z
  have hb := hz.aut hr hg hz'
  obtain ⟨s, h1, h2, h3⟩ := C74_decodeSlots_partial hr sr hl T mem hmem scale z' hb.inRange
    (r.permuteNTTLvl level pt gen out) pool hpool (permute_holds hr hl gen hg z z' hz' pt out hp ho)
  refine ⟨s, h1, h2, fun j hj => ?_⟩
  have hw : ((ζ ^ 5 ^ j) ^ 2 ^ d) ^ 2 ^ (logSlots + 1) = -1 := by
    have h5 : Odd (5 ^ j) := Odd.pow (by decide)
    have := T.half
    rw [show 2 ^ (logSlots + 2 + d) / 2 = 2 ^ d * 2 ^ (logSlots + 1) by
      rw [show 2 ^ (logSlots + 2 + d) = 2 * (2 ^ d * 2 ^ (logSlots + 1)) by ring, Nat.mul_div_cancel_left _ (by norm_num)]] at this
    rw [← pow_mul, ← pow_mul, mul_comm (5 ^ j), pow_mul, this,
      h5.neg_one_pow]
  have := aut_eval hg hz'.gap (fun a : ℤ => ((f64Div (f64 a) scale : ℚ) : K))
    (fun a => by
      unfold f64Div
      rw [Int.cast_neg, f64_neg, neg_div, f64_neg, Rat.cast_neg]) _ hw
  rw [h3 j hj, ← pow_succ']
  calc _ = ∑ k ∈ range (2 ^ (logSlots + 1)), ((f64Div (f64 (z' (k * 2 ^ d))) scale : ℚ) : K) * ((ζ ^ 5 ^ j) ^ 2 ^ d) ^ k :=
        Finset.sum_congr rfl fun k _ => by rw [← pow_mul (ζ ^ 5 ^ j), mul_comm k]
    _ = _ := this
    _ = _ := Finset.sum_congr rfl fun k _ => by
        simp only [← pow_mul]; congr 2; ring

/-- **C75 (rotation).** Decoding a plaintext after the automorphism of the Galois element of a rotation by `k` gives the
decoded vector rotated by `k` positions to the left, for every integer `k`, every number of slots, exactly, the rounding of
the coefficients included. -/
theorem C75_rotation {logSlots d : ℕ} (hr : r.Valid (logSlots + 1 + d)) (sr : r.Small) (hl : level < r.subs.length)
    (T : RootTable (2 ^ (logSlots + 2 + d)) roots ζ) (mem mem' : List K)
    (hmem : 2 ^ logSlots ≤ mem.length ∧ (3 ≤ logSlots → 16 ≤ mem.length))
    (hmem' : 2 ^ logSlots ≤ mem'.length ∧ (3 ≤ logSlots → 16 ≤ mem'.length))
    (scale : ℚ) (z : ℕ → ℤ) (hz : Bounded r level z) (k : ℤ)
    (pt out pool pool' : Rows) (hpool : pool.length = r.subs.length) (hpool' : pool'.length = r.subs.length) (ho : level < out.length)
    (hp : Holds r (logSlots + 1 + d) level pt z) :
    ∃ s s', r.decodeSlots roots (ζ ^ 2 ^ (logSlots + d)) mem true level scale logSlots pt pool = some s ∧
      r.decodeSlots roots (ζ ^ 2 ^ (logSlots + d)) mem' true level scale logSlots
        (r.permuteNTTLvl level pt (r.galoisElementForColumnRotationBy k) out) pool' = some s' ∧
      s.length = 2 ^ logSlots ∧ s'.length = 2 ^ logSlots ∧
      ∀ j < 2 ^ logSlots, s'.getD j 0 = s.getD ((j + k) % 2 ^ logSlots).toNat 0 := by
  obtain ⟨s, a1, a2, a3⟩ := C74_decodeSlots_partial hr sr hl T mem hmem scale z hz.inRange pt pool hpool hp
  obtain ⟨s', b1, b2, b3⟩ := decode_permuted hr sr hl T mem' hmem' scale z hz (r.galoisElementForColumnRotationBy k)
    (C25_rotation_odd hr k).1 pt out pool' hpool' ho hp
  refine ⟨s, s', a1, b1, a2, b2, fun j hj => ?_⟩
  have hpos : (0 : ℤ) < 2 ^ logSlots := by positivity
  have hnn := Int.emod_nonneg (j + k) hpos.ne'
  have hlt : ((j + k) % 2 ^ logSlots).toNat < 2 ^ logSlots := by
    have := Int.emod_lt_of_pos ((j : ℤ) + k) hpos
    zify
    rw [Int.toNat_of_nonneg hnn]
    exact this
  rw [b3 j hj, a3 _ hlt]
  refine Finset.sum_congr rfl fun i _ => ?_
  congr 1
  -- both powers of `ζ^gap` have exponents of the form `5^e`, `e` modulo `slots`
  have hone : ζ ^ 2 ^ (logSlots + 2 + d) = 1 := by
    have := T.half
    rw [show 2 ^ (logSlots + 2 + d) = 2 ^ (logSlots + 2 + d) / 2 * 2 by
      rw [show 2 ^ (logSlots + 2 + d) = 2 * 2 ^ (logSlots + 1 + d) by ring, Nat.mul_div_cancel_left _ (by norm_num)]; ring,
      pow_mul, this]
    norm_num
  set e := (k % (2 ^ (logSlots + 1 + d + 1) : ℕ)).toNat with he
  have hM : 2 ^ (logSlots + 1 + d + 1) = 2 ^ (logSlots + 2 + d) := by congr 1; omega
  have g1 : ζ ^ (5 ^ j * (r.galoisElementForColumnRotationBy k).toNat) = ζ ^ 5 ^ (j + e) := by
    rw [galEl_eq hr, hM, ← pow_mod_of hone, Nat.mul_mod_mod, pow_mod_of hone, ← pow_add, ← hM]
  have hz1 : ∀ a b, ((ζ ^ 5 ^ a) ^ (2 ^ d)) = ((ζ ^ 5 ^ (a + b * 2 ^ logSlots)) ^ (2 ^ d)) := by
    intro a b
    induction b with
    | zero => simp
    | succ b ih =>
      have hper := zRoot_period T (le_refl logSlots) (a + b * 2 ^ logSlots)
      unfold zRoot at hper
      rw [gap_eq le_rfl, Nat.sub_self, zero_add, ← pow_mul, ← pow_mul] at hper
      rw [ih, ← pow_mul, ← pow_mul, mul_comm _ (2 ^ d), mul_comm _ (2 ^ d), ← hper]
      congr 3
      ring
  have hz2 : ∀ a, ((ζ ^ 5 ^ a) ^ (2 ^ d)) = ((ζ ^ 5 ^ (a % 2 ^ logSlots)) ^ (2 ^ d)) := by
    intro a
    rw [hz1 (a % 2 ^ logSlots) (a / 2 ^ logSlots), Nat.mod_add_div']
  have hmod : (j + e) % 2 ^ logSlots = ((j + k) % 2 ^ logSlots).toNat := by
    have hM0 : (0 : ℤ) < ((2 ^ (logSlots + 1 + d + 1) : ℕ) : ℤ) := by positivity
    have hk0 := Int.emod_nonneg k hM0.ne'
    zify
    rw [Int.toNat_of_nonneg hnn, he, Int.toNat_of_nonneg hk0, Int.add_emod, Int.add_emod (j : ℤ) k]
    congr 2
    refine Int.emod_emod_of_dvd k ⟨2 ^ (d + 2), ?_⟩
    push_cast
    ring
  rw [g1, mul_comm i, pow_mul, pow_mul, hz2 (j + e), hmod]

end

/-- the roots of unity of the encoder, without rounding: `cos(2πi/M) + sin(2πi/M)·I`, ckks/encoder.go:164-170 -/
noncomputable def encRoots (M : ℕ) (i : ℕ) : ℂ :=
  ((Real.cos (2 * Real.pi * i / M) : ℝ) : ℂ) + (Real.sin (2 * Real.pi * i / M) : ℝ) * Complex.I

/-- the first of them -/
noncomputable def encZeta (M : ℕ) : ℂ := Complex.exp (2 * Real.pi / M * Complex.I)

theorem encRoots_table {M : ℕ} (hM : 0 < M) (heven : 2 ∣ M) : RootTable M (encRoots M) (encZeta M) :=
  C71_encoder_table hM heven

theorem encZeta_im {e : ℕ} : encZeta (2 ^ (e + 2)) ^ 2 ^ e = Complex.I := by
  unfold encZeta
  rw [← Complex.exp_nat_mul]
  have : ((2 ^ e : ℕ) : ℂ) * (2 * Real.pi / ((2 ^ (e + 2) : ℕ) : ℂ) * Complex.I) = Real.pi / 2 * Complex.I := by
    have h : (2 : ℂ) ^ e ≠ 0 := pow_ne_zero _ two_ne_zero
    push_cast
    rw [pow_add]
    field_simp
  rw [this, Complex.exp_pi_div_two_mul_I]

theorem encZeta_conj (M : ℕ) : (starRingEnd ℂ) (encZeta M) = (encZeta M)⁻¹ := by
  unfold encZeta
  rw [← Complex.exp_conj, ← Complex.exp_neg]
  congr 1
  simp only [map_mul, map_div₀, Complex.conj_ofReal, Complex.conj_I, map_ofNat, map_natCast]
  ring

/-- **C75 (conjugation).** Decoding after the automorphism of the row rotation conjugates every slot. -/
theorem C75_conjugation {logSlots d : ℕ} (hr : r.Valid (logSlots + 1 + d)) (sr : r.Small) (hl : level < r.subs.length)
    (mem mem' : List ℂ) (hmem : 2 ^ logSlots ≤ mem.length ∧ (3 ≤ logSlots → 16 ≤ mem.length))
    (hmem' : 2 ^ logSlots ≤ mem'.length ∧ (3 ≤ logSlots → 16 ≤ mem'.length))
    (scale : ℚ) (z : ℕ → ℤ) (hz : Bounded r level z)
    (pt out pool pool' : Rows) (hpool : pool.length = r.subs.length) (hpool' : pool'.length = r.subs.length) (ho : level < out.length)
    (hp : Holds r (logSlots + 1 + d) level pt z) :
    ∃ g s s', r.galoisElementForRowRotation = some g ∧
      r.decodeSlots (encRoots r.nthRoot) Complex.I mem true level scale logSlots pt pool = some s ∧
      r.decodeSlots (encRoots r.nthRoot) Complex.I mem' true level scale logSlots
        (r.permuteNTTLvl level pt g out) pool' = some s' ∧
      s.length = 2 ^ logSlots ∧ s'.length = 2 ^ logSlots ∧
      ∀ j < 2 ^ logSlots, s'.getD j 0 = (starRingEnd ℂ) (s.getD j 0) := by
  have hM : r.nthRoot = 2 ^ (logSlots + 2 + d) := by
    rw [hr.root]; congr 1; omega
  have T : RootTable (2 ^ (logSlots + 2 + d)) (encRoots (2 ^ (logSlots + 2 + d))) (encZeta (2 ^ (logSlots + 2 + d))) :=
    encRoots_table (by positivity) (dvd_pow_self 2 (by omega))
  have hI : encZeta (2 ^ (logSlots + 2 + d)) ^ 2 ^ (logSlots + d) = Complex.I := by
    rw [show logSlots + 2 + d = (logSlots + d) + 2 by omega]; exact encZeta_im
  obtain ⟨g, g1, -, g3, -⟩ := C25_row_rotation hr
  have hgn : g.toNat + 1 = 2 ^ (logSlots + 2 + d) := by
    rw [Ring.galoisElementForRowRotation, hr.type, if_neg (by decide)] at g1
    obtain rfl := Option.some.inj g1
    have e := nthRoot_toNat hr
    have h2 := two_le_pow (logSlots + 1 + d)
    rw [UInt64.toNat_sub_of_le _ _ (UInt64.le_iff_toNat_le.2 (by rw [e]; show 1 ≤ _; omega)), e]
    show 2 ^ (logSlots + 1 + d + 1) - 1 + 1 = _
    rw [Nat.sub_add_cancel (by omega)]
    congr 1; omega
  obtain ⟨s, a1, a2, a3⟩ := C74_decodeSlots_partial hr sr hl T mem hmem scale z hz.inRange pt pool hpool hp
  obtain ⟨s', b1, b2, b3⟩ := decode_permuted hr sr hl T mem' hmem' scale z hz g g3 pt out pool' hpool' ho hp
  rw [hI] at a1 b1
  rw [hM]
  refine ⟨g, s, s', g1, a1, b1, a2, b2, fun j hj => ?_⟩
  have hone : encZeta (2 ^ (logSlots + 2 + d)) ^ 2 ^ (logSlots + 2 + d) = 1 := by
    have := T.half
    rw [show 2 ^ (logSlots + 2 + d) = 2 ^ (logSlots + 2 + d) / 2 * 2 by
      rw [show 2 ^ (logSlots + 2 + d) = 2 * 2 ^ (logSlots + 1 + d) by ring, Nat.mul_div_cancel_left _ (by norm_num)]; ring,
      pow_mul]
    rw [show 2 ^ (logSlots + 2 + d) / 2 * 2 = 2 ^ (logSlots + 2 + d) by
      rw [show 2 ^ (logSlots + 2 + d) = 2 * 2 ^ (logSlots + 1 + d) by ring, Nat.mul_div_cancel_left _ (by norm_num)]; ring,
      this]
    norm_num
  rw [a3 j hj, b3 j hj, map_sum]
  refine Finset.sum_congr rfl fun k _ => ?_
  rw [map_mul, map_pow, map_pow, encZeta_conj, map_ratCast]
  congr 2
  rw [inv_pow]
  refine eq_inv_of_mul_eq_one_left ?_
  rw [← pow_add, show 5 ^ j * g.toNat + 5 ^ j = (g.toNat + 1) * 5 ^ j by ring, hgn, pow_mul, hone, one_pow]

/-! ### C76 -/

/-- the error of one coefficient: rounded to an integer by the encoder and divided by the scale by the decoder -/
theorem coeff_roundtrip {x scale B : ℚ} (hs : 0 < scale) {z : ℤ} (hx : |x * scale| ≤ B)
    (e3 : |(z : ℚ) - x * scale| ≤ 1 / 2 + |x * scale| / 2 ^ 51 + 1 / 2 ^ 53) :
    |f64Div (f64 z) scale - x| ≤ (1 / 2 + (B + 1) / 2 ^ 50) / scale := by
  have e1 := f64_err (z : ℚ)
  have e2 := f64_err (f64 (z : ℚ) / scale)
  have hm : |f64Div (f64 z) scale * scale - x * scale| ≤ 1 / 2 + (|x * scale| + 1) / 2 ^ 50 := by
    generalize x * scale = x at *
    generalize (z : ℚ) = y at *
    have hx := abs_nonneg x
    have hy : |y| ≤ 1 / 2 + |x| / 2 ^ 51 + 1 / 2 ^ 53 + |x| := by
      have := abs_add_le (y - x) x
      rw [sub_add_cancel] at this
      linarith
    have hfy : |f64 y| ≤ (1 + uro) * |y| := by
      have := abs_add_le (f64 y - y) y
      rw [sub_add_cancel] at this
      linarith
    have hfd : |f64Div (f64 y) scale * scale - f64 y| ≤ uro * |f64 y| := by
      have h := mul_le_mul_of_nonneg_right e2 hs.le
      rw [← abs_of_pos hs, ← abs_mul, mul_assoc, ← abs_mul, abs_of_pos hs, sub_mul, div_mul_cancel₀ _ hs.ne'] at h
      exact h
    have t1 := abs_add_le (f64Div (f64 y) scale * scale - f64 y) (f64 y - x)
    have t2 := abs_add_le (f64 y - y) (y - x)
    rw [sub_add_sub_cancel] at t1 t2
    unfold uro at *
    linarith
  rw [le_div_iff₀ hs, ← abs_of_pos hs, ← abs_mul, abs_of_pos hs, sub_mul]
  linarith

/-- **C76.** `Decode(Encode(values))` with the same number of slots on a fresh plaintext: every slot comes back, and the missing
values as 0, with an error of at most `2 * slots` times the error of one coefficient: `δ` for the
inverse transform in float64 (`w` is its result, at a distance `δ` of the exact one), half a unit of the scale for the rounding and
the relative error `2^-50` of the conversions.  Missing: products of exactly `2^64` and the floating point error of the
transform of the decoder. -/
theorem C76_roundtrip_partial {logSlots d : ℕ} (hr : r.Valid (logSlots + 1 + d)) (sr : r.Small) (hl : level < r.subs.length)
    (mem mem' : List ℂ) (hmem : 2 ^ (logSlots + d) ≤ mem.length ∧ (3 ≤ logSlots → 16 ≤ mem.length))
    (hmem' : 2 ^ (logSlots + d) ≤ mem'.length ∧ (3 ≤ logSlots → 16 ≤ mem'.length))
    (values : List ℂ) (hv : values.length ≤ 2 ^ logSlots) {scale : ℚ} (hs : 0 < scale) :
    ∃ y, encodeFFT r.nthRoot (encRoots r.nthRoot) mem values logSlots = some y ∧ y.length = 2 ^ logSlots ∧
    ∀ (w : List (ℚ × ℚ)) (δ : ℝ) (B : ℚ), w.length = 2 ^ logSlots →
    (∀ k < 2 ^ logSlots, |((w.getD k 0).1 : ℝ) - (y.getD k 0).re| ≤ δ ∧ |((w.getD k 0).2 : ℝ) - (y.getD k 0).im| ≤ δ) →
    (∀ v ∈ w, f64 |v.1 * scale| ≠ 2 ^ 64 ∧ f64 |v.2 * scale| ≠ 2 ^ 64) →
    (∀ v ∈ w, |v.1 * scale| ≤ B ∧ |v.2 * scale| ≤ B) → 2 * B + B / 2 ^ 49 + 3 < r.prodQ level →
    ∀ pool : Rows, pool.length = r.subs.length →
    ∃ s, r.decodeSlots (encRoots r.nthRoot) Complex.I mem' true level scale logSlots
        (r.embedPoly level logSlots w scale false (newPoly r.n (level + 1))) pool = some s ∧ s.length = 2 ^ logSlots ∧
      ∀ j < 2 ^ logSlots, ‖s.getD j 0 - values.getD j 0‖ ≤
        2 * 2 ^ logSlots * (δ + ((1 / 2 + (B + 1) / 2 ^ 50) / scale : ℚ)) := by
  have hM : r.nthRoot = 2 ^ (logSlots + 2 + d) := by
    rw [hr.root]; congr 1; omega
  have hMq : r.nthRoot / 4 = 2 ^ (logSlots + d) := by
    rw [hM, show 2 ^ (logSlots + 2 + d) = 4 * 2 ^ (logSlots + d) by ring, Nat.mul_div_cancel_left _ (by norm_num)]
  have hle : 2 ^ logSlots ≤ 2 ^ (logSlots + d) := Nat.pow_le_pow_right (by norm_num) (by omega)
  have T : RootTable (2 ^ (logSlots + 2 + d)) (encRoots (2 ^ (logSlots + 2 + d))) (encZeta (2 ^ (logSlots + 2 + d))) :=
    encRoots_table (Nat.two_pow_pos _) (dvd_pow_self 2 (by omega))
  have hI : encZeta (2 ^ (logSlots + 2 + d)) ^ 2 ^ (logSlots + d) = Complex.I := by
    rw [show logSlots + 2 + d = logSlots + d + 2 by omega]; exact encZeta_im
  set ζ := encZeta (2 ^ (logSlots + 2 + d)) with hζ
  have hnorm : ‖ζ‖ = 1 := by
    have h4 : ‖ζ‖ ^ (2 ^ (logSlots + d)) = 1 := by rw [← norm_pow, hI, Complex.norm_I]
    exact (pow_eq_one_iff_of_nonneg (norm_nonneg _) (Nat.two_pow_pos _).ne').1 h4
  unfold encodeFFT
  dsimp only
  rw [hMq, if_neg (by omega)]
  refine ⟨_, rfl, ?_⟩
  set buf : List ℂ := values ++ List.replicate (2 ^ logSlots - values.length) 0 ++ mem.drop (2 ^ logSlots) with hbuf
  have hbl : buf.length = mem.length := by rw [hbuf]; simp; omega
  have hcap : ifftCap (decide (3 ≤ logSlots)) (2 ^ logSlots) (2 ^ (logSlots + d)) ≤ buf.length := by
    unfold ifftCap
    refine max_le (by rw [hbl]; exact fftCap_le (by omega) hmem.2) ?_
    split
    · rename_i h
      have h3 : 3 ≤ logSlots := by simpa using h
      have : 8 ∣ 2 ^ (logSlots + d) := pow_dvd_pow 2 (show 3 ≤ logSlots + d by omega)
      omega
    · omega
  rw [hM]
  set f : List ℂ := specialiFFT (decide (3 ≤ logSlots)) (2 ^ logSlots) (2 ^ (logSlots + 2 + d))
    (encRoots (2 ^ (logSlots + 2 + d))) (2 ^ (logSlots + d)) buf with hf
  have hfl : f.length = buf.length := (specialiFFT_at _ _ hle buf hcap).1
  refine ⟨by rw [List.length_take]; omega, fun w δ B hw hδ h64 hB hQ pool hpool => ?_⟩
  have hft : ∀ k < 2 ^ logSlots, (f.take (2 ^ logSlots)).getD k 0 = f.getD k 0 := by
    intro k hk; simp [List.getD, List.getElem?_take, hk]
  -- the exact values are those of the polynomial with the coefficients `f`
  have hval : ∀ j < 2 ^ logSlots, values.getD j 0 = ∑ k ∈ range (2 ^ logSlots), f.getD k 0 * (ζ ^ 2 ^ d) ^ (5 ^ j * k) := by
    intro j hj
    have h1 := (C72_inverse T two_ne_zero (decide (3 ≤ logSlots)) (decide (3 ≤ logSlots)) (2 ^ (logSlots + d)) hle buf
      (by omega) (fun h => by
        have h3 : 3 ≤ logSlots := by simpa using h
        have e1 := fftCap_le (logSlots := logSlots) (len := buf.length) (by omega) (by rw [hbl]; exact hmem.2)
        unfold fftCap at e1
        rw [if_pos (by simpa using h3)] at e1
        have : 8 ∣ 2 ^ (logSlots + d) := pow_dvd_pow 2 (show 3 ≤ logSlots + d by omega)
        exact ⟨e1, by omega⟩)).2 j hj
    rw [← hf, specialFFT_at T _ f (by rw [hfl, hbl]; exact fftCap_le (by omega) hmem.2) j hj] at h1
    rw [h1, hbuf]
    by_cases hjv : j < values.length
    · simp [List.getD, hjv, List.getElem?_append_left]
    · rw [List.append_assoc, List.getD_append_right _ _ _ _ (by omega), List.getD_append _ _ _ _ (by simp; omega),
        List.getD_eq_default _ _ (by omega)]
      simp [List.getD]
  obtain ⟨z0, hz0, hP⟩ := C73_embed_partial (level := level) hr sr hl w hw hs h64 false (newPoly r.n (level + 1))
    (by rw [length_newPoly]; omega) (fun i hi => by rw [row_newPoly (by omega)]; simp)
    (Or.inr fun i hi k _ _ => by
      rw [row_newPoly (by omega)]
      unfold Row.at
      simp [List.getD, List.getElem?_replicate]
      split <;> rfl)
  set l : List ℚ := w.map Prod.fst ++ w.map Prod.snd with hl'
  have hd := Nat.two_pow_pos d
  have hN : r.n = 2 * 2 ^ logSlots * 2 ^ d := by rw [hr.deg]; ring
  have hll : l.length = 2 * 2 ^ logSlots := by rw [hl']; simp [hw]; ring
  have hl1 : ∀ k < 2 ^ logSlots, l.getD k 0 = (w.getD k 0).1 := by
    intro k hk
    rw [hl']
    simp [List.getD, hw, hk, List.getElem?_append_left]
  have hl2 : ∀ k < 2 ^ logSlots, l.getD (2 ^ logSlots + k) 0 = (w.getD k 0).2 := by
    intro k hk
    rw [hl', List.getD_append_right _ _ _ _ (by simp [hw]), List.length_map, hw, Nat.add_sub_cancel_left]
    simp [List.getD, hw, hk]
  have hmem : ∀ k < 2 ^ logSlots, w.getD k 0 ∈ w := by
    intro k hk; simp [List.getD, hw, hk]
  have hBl : ∀ k < 2 * 2 ^ logSlots, |l.getD k 0 * scale| ≤ B := by
    intro k hk
    rcases lt_or_ge k (2 ^ logSlots) with h | h
    · rw [hl1 k h]; exact (hB _ (hmem k h)).1
    · have := hl2 (k - 2 ^ logSlots) (by omega)
      rw [show 2 ^ logSlots + (k - 2 ^ logSlots) = k by omega] at this
      rw [this]; exact (hB _ (hmem _ (by omega))).2
  have hB0 : 0 ≤ B := le_trans (abs_nonneg _) (hBl 0 (by have := Nat.two_pow_pos logSlots; omega))
  set z : ℕ → ℤ := fun k => if k % 2 ^ d = 0 then z0 (k / 2 ^ d) else 0 with hz
  have hzk : ∀ k, z (k * 2 ^ d) = z0 k := by
    intro k
    simp only [hz, Nat.mul_mod_left, if_true, Nat.mul_div_cancel _ hd]
  have hrange : InRange r level z := by
    have hb : ∀ k < 2 * 2 ^ logSlots, -((r.prodQ level : ℤ) + 1) ≤ 2 * z0 k ∧ 2 * z0 k + 1 < r.prodQ level := by
      intro k hk
      have e := abs_le.1 (hz0 k (by omega))
      have b := hBl k hk
      have a1 := abs_le.1 b
      have a3 : |l.getD k 0 * scale| / 2 ^ 51 ≤ B / 2 ^ 51 := by
        apply div_le_div_of_nonneg_right b; positivity
      constructor
      · have : -((r.prodQ level : ℚ) + 1) ≤ 2 * (z0 k : ℚ) := by linarith [e.1]
        exact_mod_cast this
      · have : 2 * (z0 k : ℚ) + 1 < (r.prodQ level : ℚ) := by linarith [e.2]
        exact_mod_cast this
    intro k hk
    simp only [hz]
    split
    · exact hb _ (Nat.div_lt_of_lt_mul (by rw [hN] at hk; rw [mul_comm]; exact hk))
    · have h3 : (3 : ℚ) < r.prodQ level := by
        have : 0 ≤ B / 2 ^ 49 := by positivity
        linarith
      have h3' : 3 < r.prodQ level := by exact_mod_cast h3
      omega
  have hH : Holds r (logSlots + 1 + d) level
      (r.embedPoly level logSlots w scale false (newPoly r.n (level + 1))) z := by
    refine hP.is.congr fun i _ k _ => ?_
    rw [if_neg (by simp), one_mul]
    congr 1
    funext k
    simp only [hz]
    split <;> simp
  obtain ⟨s, h1, h2, h3⟩ := decodeSlots_eval hr sr hl T Complex.I mem' ⟨by omega, hmem'.2⟩ scale z hrange _ pool hpool hH
  refine ⟨s, h1, h2, fun j hj => ?_⟩
  rw [h3 j hj, hval j hj, ← Finset.sum_sub_distrib]
  set ε : ℝ := δ + ((1 / 2 + (B + 1) / 2 ^ 50) / scale : ℚ) with hε
  refine le_trans (norm_sum_le_of_le (n := fun _ => 2 * ε) _ fun k hk => ?_) (by simp; ring_nf; rfl)
  have hk := Finset.mem_range.1 hk
  rw [← sub_mul, norm_mul, norm_pow, norm_pow, hnorm, one_pow, one_pow, mul_one, hzk, hzk]
  obtain ⟨d1, d2⟩ := hδ k hk
  rw [hft k hk] at d1 d2
  have r1 := coeff_roundtrip hs (hBl k (by omega)) (hz0 k (by omega))
  have r2 := coeff_roundtrip hs (hBl (2 ^ logSlots + k) (by omega)) (hz0 (2 ^ logSlots + k) (by omega))
  rw [hl1 k hk] at r1
  rw [hl2 k hk] at r2
  have key : ∀ (a x : ℚ) (y : ℝ) (e : ℚ), |a - x| ≤ e → |(x : ℝ) - y| ≤ δ → |(a : ℝ) - y| ≤ δ + (e : ℝ) := by
    intro a x y e h h'
    have : |(a : ℝ) - x| ≤ (e : ℝ) := by exact_mod_cast h
    have t := abs_add_le ((a : ℝ) - x) (x - y)
    rw [sub_add_sub_cancel] at t
    linarith
  have k1 := key _ _ _ _ r1 d1
  have k2 := key _ _ _ _ r2 d2
  refine le_trans (Complex.norm_le_abs_re_add_abs_im _) ?_
  have q1 : ∀ a : ℚ, ((a : ℂ)).re = (a : ℝ) := fun a => by simp
  have q2 : ∀ a : ℚ, ((a : ℂ)).im = 0 := fun a => by simp
  simp only [Complex.sub_re, Complex.sub_im, Complex.add_re, Complex.add_im, Complex.mul_re, Complex.mul_im, Complex.I_re,
    Complex.I_im, q1, q2]
  simp only [mul_zero, mul_one, zero_mul, add_zero, zero_add, sub_zero, sub_self]
  rw [hε]
  linarith

/-- the hypotheses of C74 and C75 on a concrete plaintext: the coefficients `3, -2, 7` in a ring of degree 16 with the moduli
97 and 193, decoded to 4 slots before and after a rotation by 1 -/
example : ∃ (r : Ring) (pt : Rows) (s s' : List ℂ), r.Valid (2 + 1 + 1) ∧
    r.decodeSlots (encRoots 32) Complex.I (List.replicate 8 0) true 1 1 2 pt (newPoly 16 2) = some s ∧
    r.decodeSlots (encRoots 32) Complex.I (List.replicate 8 0) true 1 1 2
      (r.permuteNTTLvl 1 pt (r.galoisElementForColumnRotationBy 1) (newPoly 16 2)) (newPoly 16 2) = some s' ∧
    s'.getD 3 0 = s.getD 0 0 := by
  obtain ⟨r, -, hv, sr, hl, hn, h0, h1⟩ := exists_small_ring
  have h64 : ∀ v ∈ ([3, -2, 7] : List ℚ), f64 |v * 1| ≠ 2 ^ 64 := by
    intro v hv
    simp only [List.mem_cons, List.not_mem_nil, or_false] at hv
    rcases hv with rfl | rfl | rfl <;> decide +kernel
  obtain ⟨pt, z, e1, e2, e3, e4, e5⟩ := C69_encodeCoeffsNew_partial (level := 1) hv sr (by omega) [3, -2, 7] (by simp [hn])
    one_pos h64
  have hb : Bounded r 1 z := by
    intro k hk
    have hQ : r.prodQ 1 = 97 * 193 := by
      rw [prodQ_succ, prodQ_zero, h0, h1]; rfl
    rw [hQ]
    rcases lt_or_ge k 3 with hk3 | hk3
    · have := e3 k hk3
      have h7 : |(z k : ℚ)| ≤ 20 := by
        interval_cases k <;> norm_num [abs_le] at this ⊢ <;> constructor <;> linarith [this.1, this.2]
      have h8 : |z k| ≤ 20 := by exact_mod_cast h7
      push_cast
      omega
    · rw [e4 k hk3]; norm_num
  have T : RootTable (2 ^ (2 + 2 + 1)) (encRoots 32) (encZeta 32) := encRoots_table (by norm_num) (by norm_num)
  have hI : encZeta 32 ^ 2 ^ (2 + 1) = Complex.I := encZeta_im (e := 3)
  have hnp : (newPoly 16 2).length = 2 := length_newPoly _ _
  obtain ⟨s, s', a1, a2, -, -, a5⟩ := C75_rotation (logSlots := 2) (d := 1) hv sr (show 1 < r.subs.length by omega) T
    (List.replicate 8 0) (List.replicate 8 0) (by norm_num) (by norm_num) 1 z hb 1 pt (newPoly 16 2) (newPoly 16 2) (newPoly 16 2)
    (by omega) (by omega) (by omega) e5
  rw [hI] at a1 a2
  exact ⟨r, pt, s, s', hv, a1, a2, a5 3 (by norm_num)⟩

/-- the hypotheses of C73 and C76 on a concrete value: `3 + 4i` in one slot, with the scale 16 -/
example : ∃ (r : Ring) (s : List ℂ), r.Valid (0 + 1 + 3) ∧
    r.decodeSlots (encRoots r.nthRoot) Complex.I (List.replicate 8 0) true 1 16 0
      (r.embedPoly 1 0 [(3, 4)] 16 false (newPoly r.n 2)) (newPoly 16 2) = some s ∧
    ‖s.getD 0 0 - (3 + 4 * Complex.I)‖ ≤ 1 / 8 := by
  obtain ⟨r, -, hv, sr, hl, hn, h0, h1⟩ := exists_small_ring
  have hQ : r.prodQ 1 = 97 * 193 := by
    rw [prodQ_succ, prodQ_zero, h0, h1]; rfl
  obtain ⟨y, e1, -, e3⟩ := C76_roundtrip_partial (logSlots := 0) (d := 3) (level := 1) hv sr (by omega) (List.replicate 8 0)
    (List.replicate 8 0) (by norm_num) (by norm_num) [3 + 4 * Complex.I] (by norm_num) (scale := 16) (by norm_num)
  have hy : y = [3 + 4 * Complex.I] := by
    have hM : r.nthRoot / 4 = 8 := by rw [hv.root]; norm_num
    have hc : ∀ x : List ℂ, cSliceBitReverse 1 x = x := fun x => rfl
    have hlen : len64 1 = 1 := by decide
    unfold encodeFFT specialiFFT at e1
    rw [hM] at e1
    simp [hlen, ifftLayers, hc] at e1
    exact e1.symm
  subst hy
  obtain ⟨s, a1, -, a3⟩ := e3 [(3, 4)] 0 64 rfl
    (by
      intro k hk
      obtain rfl : k = 0 := by omega
      simp)
    (by
      intro v hv
      obtain rfl := List.mem_singleton.1 hv
      decide +kernel)
    (by
      intro v hv
      obtain rfl := List.mem_singleton.1 hv
      norm_num)
    (by rw [hQ]; norm_num) (newPoly 16 2) (by rw [length_newPoly]; omega)
  refine ⟨r, s, hv, a1, le_trans (a3 0 (by norm_num)) ?_⟩
  norm_num

end FastKsw.Props
