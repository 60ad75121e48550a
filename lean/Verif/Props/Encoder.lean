import Verif.Lemmas.Encoder
import Verif.Lemmas.FKeySwitchBuild
import Verif.Props.CRT

/-!
# C69: encoding of coefficients; C70: decoding of coefficients

`evals psi n v` are the evaluations that the NTT computes (C15); `r.prodQ level` is the product of the
first `level + 1` moduli.
-/

namespace FastKsw.Props

variable {n : ℕ} {r : Ring} {level : ℕ}

/-- `z` is the vector of the values times the scale, rounded to the nearest integer up to the
error of two float64 operations -/
def Rounds (values : List ℚ) (scale : ℚ) (z : ℕ → ℤ) : Prop :=
  ∀ k < values.length, |(z k : ℚ) - values.getD k 0 * scale| ≤
    1 / 2 + |values.getD k 0 * scale| / 2 ^ 51 + 1 / 2 ^ 53

/-- **C69.** `EncodeCoeffs` on a plaintext with reduced words: the same integers, the rounded values, are
written in every row, and the rows are put in the NTT domain, reduced, although the words written before
the transform can be as large as `2^61` for a small modulus.  Missing: the coefficients from
`len(values)` on keep the old words of the plaintext (see `C69_reuse_violated`), and a product of exactly
`2^64` is left out. -/
theorem C69_encodeCoeffs_partial (hr : r.Valid n) (sr : r.Small) (hl : level < r.subs.length)
    (values : List ℚ) (hv : values.length ≤ r.n) {scale : ℚ} (hs : 0 < scale)
    (h64 : ∀ v ∈ values, f64 |v * scale| ≠ 2 ^ 64) (pt : Rows)
    (w : ∀ i, ℕ → ZMod (r.sub i).q.toNat) (hp : PolyIs r level r.qs pt w) :
    ∃ (out : Rows) (z : ℕ → ℤ), r.encodeCoeffs values scale level pt = some out ∧ Rounds values scale z ∧
      PolyWritten r level r.qs pt out (fun i => evals (r.sub i).psi n
        (fun k => if k < values.length then ((z k : ℤ) : ZMod (r.sub i).q.toNat) else w i k)) := by
  have h4 := hr.four_le
  refine ⟨_, fun k => fixedInt (values.getD k 0) scale, if_neg (by omega), fun k _ => fixedInt_err _ hs, ?_⟩
  have hlen : (r.floatToFixedPointCRT level values scale pt).length = pt.length := length_writeLvl _ _ _
  refine ⟨?_, ?_, ?_⟩
  · refine (writeLvl_is (A := r.qs) (by rw [hlen]; exact hp.lvl) (fun i hi => ?_)).is
    have V := hr.subAt (show i < r.subs.length by omega)
    have hlt := sr _ (Ring.sub_mem (show i < r.subs.length by omega))
    have hrow := hp.row i hi
    have h1 : RowIs r.n (r.sub i).q.toNat (max ((r.sub i).q.toNat + 1) (2 ^ 61))
        ((r.floatToFixedPointCRT level values scale pt).row i)
        (fun k => if k < values.length then ((fixedInt (values.getD k 0) scale : ℤ) : ZMod (r.sub i).q.toNat)
          else w i k) := by
      unfold Ring.floatToFixedPointCRT
      rw [row_writeLvl hi hp.lvl]
      have hat : ∀ k, Row.at (setRow (fun v => (r.sub i).fixedPoint v scale) values (pt.row i)) k =
          if k < values.length then (r.sub i).fixedPoint (values.getD k 0) scale else (pt.row i).at k := by
        intro k
        by_cases hk : k < values.length
        · rw [if_pos hk, setRow_at _ _ _ 0 hk]
        · rw [if_neg hk]
          unfold setRow Row.at List.getD
          rw [List.getElem?_append_right (by simpa using not_lt.1 hk)]
          simp only [List.length_map, List.getElem?_drop]
          rw [show values.length + (k - values.length) = k by omega]
      have hmem : ∀ k, k < values.length → values.getD k 0 ∈ values := by
        intro k hk
        simp [List.getD, hk]
      refine ⟨?_, fun k hk => ?_, fun k hk => ?_⟩
      · have := hrow.len
        simp [setRow]; omega
      · rw [hat]
        split
        · rename_i hk'
          exact (fixedPoint_spec V.arith _ hs (h64 _ (hmem k hk'))).1
        · have := hrow.lt k hk
          exact lt_max_of_lt_left (Nat.lt_succ_of_lt this)
      · rw [zval, hat]
        split
        · rename_i hk'
          exact (fixedPoint_spec V.arith _ hs (h64 _ (hmem k hk'))).2
        · exact hrow.val k hk
    rw [hr.deg] at h1 ⊢
    exact ntt_is V (by omega) hlt (by omega) h1
  · unfold Ring.nttLvl
    rw [length_writeLvl, hlen]
  · intro i hi
    unfold Ring.nttLvl
    rw [row_writeLvl_above hi]
    exact row_writeLvl_above hi

/-- **C69.** `EncodeCoeffsNew`: the remaining coefficients are zero. -/
theorem C69_encodeCoeffsNew_partial (hr : r.Valid n) (sr : r.Small) (hl : level < r.subs.length)
    (values : List ℚ) (hv : values.length ≤ r.n) {scale : ℚ} (hs : 0 < scale)
    (h64 : ∀ v ∈ values, f64 |v * scale| ≠ 2 ^ 64) :
    ∃ (out : Rows) (z : ℕ → ℤ), r.encodeCoeffsNew values level scale = some out ∧
      out.length = level + 1 ∧ Rounds values scale z ∧ (∀ k ≥ values.length, z k = 0) ∧
      PolyIs r level r.qs out (fun i => evals (r.sub i).psi n (fun k => ((z k : ℤ) : ZMod (r.sub i).q.toNat))) := by
  have h0 : PolyIs r level r.qs (newPoly r.n (level + 1)) (fun _ _ => 0) := by
    refine ⟨by rw [length_newPoly]; omega, fun i hi => ?_⟩
    rw [row_newPoly (by omega)]
    refine ⟨by simp, fun k hk => ?_, fun k hk => ?_⟩
    · have := (hr.subAt (show i < r.subs.length by omega)).prime.pos
      simpa [Row.at, List.getD, hk] using this
    · simp [zval, Row.at, List.getD, hk]
  obtain ⟨out, z, h1, h2, h3⟩ := C69_encodeCoeffs_partial hr sr hl values hv hs h64 _ _ h0
  refine ⟨out, fun k => if k < values.length then z k else 0, h1, by rw [h3.len, length_newPoly], ?_, ?_, ?_⟩
  · intro k hk
    have := h2 k hk
    simpa only [if_pos hk] using this
  · intro k hk
    exact if_neg (by omega)
  · refine h3.is.congr (fun i hi k hk => ?_)
    congr 1
    funext j
    beta_reduce
    by_cases hj : j < values.length
    · rw [if_pos hj, if_pos hj]
    · rw [if_neg hj, if_neg hj, Int.cast_zero]

/-- **C69**: too many values are refused. -/
theorem C69_tooMany (values : List ℚ) (scale : ℚ) (pt : Rows) (hv : r.n < values.length) :
    r.encodeCoeffs values scale level pt = none := if_pos hv

/-- the ring of the examples: degree 16, moduli 97 and 193 -/
theorem exists_small_ring : ∃ r, newRing 100 16 [97, 193] = .ok r ∧ r.Valid 4 ∧ r.Small ∧ r.subs.length = 2 ∧
    r.n = 16 ∧ (r.sub 0).q = 97 ∧ (r.sub 1).q = 193 := by
  obtain ⟨r, h, hv, hl, hn, h0, h1⟩ := exists_ring
  refine ⟨r, h, hv, fun s hs => ?_, hl, hn, h0, h1⟩
  obtain ⟨i, hi, rfl⟩ := List.getElem_of_mem hs
  have e : r.subs[i] = r.sub i := by simp [Ring.sub, List.getD, hi]
  rw [e]
  have : i ≤ 1 := by omega
  interval_cases i
  · rw [h0]; decide
  · rw [h1]; decide

/-- **C69 is violated on a plaintext that is used again**: the encoding of one value depends on what the
plaintext held. -/
theorem C69_reuse_violated : ∃ (r : Ring) (pt : Rows) (w : ∀ i, ℕ → ZMod (r.sub i).q.toNat) (values : List ℚ),
    r.Valid 4 ∧ r.Small ∧ 1 < r.subs.length ∧ values.length ≤ r.n ∧ PolyIs r 1 r.qs pt w ∧
    pt.length = 2 ∧ r.encodeCoeffs values 1 1 pt ≠ r.encodeCoeffsNew values 1 1 := by
  obtain ⟨r, -, hv, sr, hl, hn, h0, h1⟩ := exists_small_ring
  have hq : ∀ (c : UInt64), c.toNat < 97 → ∀ i ≤ 1, c.toNat < r.qs i := by
    intro c hc i hi
    interval_cases i
    · rw [Ring.qs, h0]; exact hc
    · rw [Ring.qs, h1]; exact lt_trans hc (by decide)
  have hc := cpoly_is hn r.qs 5 (hq 5 (by decide))
  refine ⟨r, cpoly 5, _, [1], hv, sr, by omega, by simp [hn], hc, by simp [cpoly], fun H => ?_⟩
  have h64 : ∀ v ∈ ([1] : List ℚ), f64 |v * 1| ≠ 2 ^ 64 := by
    intro v hv
    obtain rfl := List.mem_singleton.1 hv
    decide +kernel
  obtain ⟨o1, z1, a1, a2, a3⟩ := C69_encodeCoeffs_partial hv sr (by omega) [1] (by simp [hn]) one_pos h64 _ _ hc
  obtain ⟨o2, z2, b1, b2, b3, b4, b5⟩ := C69_encodeCoeffsNew_partial (level := 1) hv sr (by omega) [1] (by simp [hn])
    one_pos h64
  rw [a1, b1] at H
  obtain rfl := Option.some.inj H
  have V := hv.subAt (show 0 < r.subs.length by omega)
  have e : ∀ i < 2 ^ 4, evals (r.sub 0).psi 4
      (fun k => if k < ([1] : List ℚ).length then ((z1 k : ℤ) : ZMod (r.sub 0).q.toNat) else (5 : UInt64).toNat) i
      = evals (r.sub 0).psi 4 (fun k => ((z2 k : ℤ) : ZMod (r.sub 0).q.toNat)) i := by
    intro i hi
    have := (a3.is.row 0 (by omega)).val i (by omega)
    rw [← (b5.row 0 (by omega)).val i (by omega)]
    exact this.symm
  have e2 := coeffsOf_unique V (by omega) e 1 (by norm_num)
  rw [coeffsOf_evals V (by omega) _ 1 (by norm_num), b4 1 (by simp)] at e2
  simp only [List.length_singleton, lt_irrefl, if_false, Int.cast_zero] at e2
  have key : ∀ q : UInt64, q = 97 → ((5 : UInt64).toNat : ZMod q.toNat) = 0 → False := by
    intro q hq he
    subst hq
    revert he
    decide
  exact key _ h0 e2

/-- the centring of the decoder returns the representative in `[-(Q+1)/2, (Q-1)/2)` -/
theorem center_emod {Q z : ℤ} (hQ : Q % 2 = 1) (h1 : -(Q + 1) ≤ 2 * z) (h2 : 2 * z + 1 < Q) :
    (if z % Q ≥ Q / 2 then z % Q - Q else z % Q) = z := by
  rcases lt_or_ge z 0 with hz | hz
  · have e : z % Q = z + Q := by
      rw [← Int.add_emod_right, Int.emod_eq_of_lt (by omega) (by omega)]
    rw [e, if_pos (by omega)]; omega
  · rw [Int.emod_eq_of_lt hz (by omega), if_neg (by omega)]

/-- **C70.** `DecodeCoeffs` of a plaintext in the NTT domain that holds the integers `z`, at any level, with any
content of the encoder's buffer: coefficient `k` is `z k` divided by the scale, in float64, for `z k` in
`[-(Q+1)/2, (Q-1)/2)`.  Missing: `(Q-1)/2` is taken for `-(Q+1)/2`, see `C70_boundary_violated`. -/
theorem C70_decodeCoeffs_partial (hr : r.Valid n) (sr : r.Small) (hl : level < r.subs.length) (scale : ℚ)
    (z : ℕ → ℤ) (hz : ∀ k < r.n, -((r.prodQ level : ℤ) + 1) ≤ 2 * z k ∧ 2 * z k + 1 < r.prodQ level) (pt pool : Rows)
    (hpool : pool.length = r.subs.length)
    (hp : PolyIs r level r.qs pt (fun i => evals (r.sub i).psi n (fun k => ((z k : ℤ) : ZMod (r.sub i).q.toNat)))) :
    r.decodeCoeffs true level scale pt pool = (List.range r.n).map fun k => f64Div (f64 (z k)) scale := by
  have h4 := hr.four_le
  have hinv : ∀ i ≤ level, RowIs r.n (r.sub i).q.toNat (r.sub i).q.toNat ((r.invNttLvl level pt pool).row i)
      (fun k => ((z k : ℤ) : ZMod (r.sub i).q.toNat)) := by
    intro i hi
    have V := hr.subAt (show i < r.subs.length by omega)
    have hlt := sr _ (Ring.sub_mem (show i < r.subs.length by omega))
    have h1 := hp.row i hi
    unfold Ring.invNttLvl
    rw [row_writeLvl hi (by omega)]
    rw [hr.deg] at h1 ⊢
    refine (invNtt_is V (by omega) hlt (h1.mono (by unfold Ring.qs; omega))).congr (fun k hk => ?_)
    exact coeffsOf_evals V (by omega) _ k hk
  have hlen : (r.invNttLvl level pt pool).length = r.subs.length := by
    unfold Ring.invNttLvl; rw [length_writeLvl, hpool]
  unfold Ring.decodeCoeffs
  simp only [if_true]
  apply List.map_congr_left
  intro k hk
  have hk := List.mem_range.1 hk
  have hzk := hz k hk
  have hodd := prodQ_odd hr hl
  by_cases h0 : level > 0
  · rw [if_pos h0]
    have hfull : r.subs.length - 1 < r.subs.length := by omega
    obtain ⟨-, hex⟩ := C18_export hr hfull (r.invNttLvl level pt pool) 1 one_pos
    obtain ⟨y, e1, y0, -, y2⟩ := hex k (by omega)
    rw [mul_one] at y2
    have e : (r.polyToBigintLvl ((r.invNttLvl level pt pool).length - 1) (r.invNttLvl level pt pool) 1).getD k 0 = y := by
      rw [hlen, List.getD, e1, Option.getD_some]
    have hpos := prodQ_pos hr hl
    have hy : y % r.prodQ level = z k % r.prodQ level := by
      refine eq_emod_of_cong hr hl (Int.emod_nonneg _ (by omega)) (Int.emod_lt_of_pos _ (by omega)) (fun i hi => ?_)
      have e3 := Int.emod_emod_of_dvd y (Int.natCast_dvd_natCast.2 (prodQ_cast_dvd (r := r) hi))
      rw [(ZMod.intCast_eq_intCast_iff _ _ (r.sub i).q.toNat).2 e3, y2 i (by omega)]
      exact (hinv i hi).val k hk
    rw [e]
    unfold Ring.bigintChain scaleDown
    rw [modulusLvl_eq, hy, center_emod (by omega) hzk.1 hzk.2]
  · rw [if_neg h0]
    obtain rfl : level = 0 := by omega
    have hb := (hinv 0 le_rfl).lt k hk
    have hval := (hinv 0 le_rfl).val k hk
    rw [zval] at hval
    have hq1 := (hr.subAt hl).prime.pos
    rw [prodQ_zero] at hzk hodd
    generalize ((r.invNttLvl 0 pt pool).row 0).at k = c at hb hval ⊢
    generalize (r.sub 0).q = q at *
    have hc : (c.toNat : ℤ) = z k % q.toNat := by
      have : ((c.toNat : ℤ) : ZMod q.toNat) = ((z k : ℤ) : ZMod q.toNat) := by
        rw [Int.cast_natCast]; exact hval
      have := (ZMod.intCast_eq_intCast_iff _ _ q.toNat).1 this
      rw [Int.ModEq, Int.emod_eq_of_lt (by omega) (by omega)] at this
      exact this
    have hcen := center_emod (Q := (q.toNat : ℤ)) (by omega) hzk.1 hzk.2
    rw [← hc] at hcen
    have hsh : (q >>> 1).toNat = q.toNat / 2 := by
      rw [UInt64.toNat_shiftRight]; simp [Nat.shiftRight_eq_div_pow]
    unfold f64OfNat
    by_cases hge : c ≥ q >>> 1
    · have hge' : q.toNat / 2 ≤ c.toNat := by rw [← hsh]; exact hge
      rw [if_pos (by omega)] at hcen
      rw [if_pos hge, toNat_sub_of_le' hb.le, ← f64_neg, ← hcen]
      congr 2
      push_cast [hb.le]
      ring
    · have hge' : ¬ q.toNat / 2 ≤ c.toNat := by rw [← hsh]; exact hge
      rw [if_neg (by omega)] at hcen
      rw [if_neg hge, ← hcen]
      norm_cast

/-- **C70 (round trip).** `DecodeCoeffs(EncodeCoeffsNew(values))`: every value smaller than `Q/2` after scaling
comes back with an error of half a unit of the scale, up to float64 errors, and the missing values as 0.
Missing: as for C69 and `C70_decodeCoeffs_partial`. -/
theorem C70_roundtrip_partial (hr : r.Valid n) (sr : r.Small) (hl : level < r.subs.length)
    (values : List ℚ) (hv : values.length ≤ r.n) {scale : ℚ} (hs : 0 < scale)
    (h64 : ∀ v ∈ values, f64 |v * scale| ≠ 2 ^ 64)
    (hQ : ∀ v ∈ values, 2 * |v * scale| + |v * scale| / 2 ^ 49 + 3 < r.prodQ level)
    (pool : Rows) (hpool : pool.length = r.subs.length) :
    ∃ (out : Rows) (res : List ℚ), r.encodeCoeffsNew values level scale = some out ∧
      r.decodeCoeffs true level scale out pool = res ∧ res.length = r.n ∧
      (∀ k < values.length, |res.getD k 0 * scale - values.getD k 0 * scale| ≤
        1 / 2 + (|values.getD k 0 * scale| + 1) / 2 ^ 50) ∧
      ∀ k ≥ values.length, res.getD k 0 = 0 := by
  obtain ⟨out, z, h1, -, h3, h4, h5⟩ := C69_encodeCoeffsNew_partial hr sr hl values hv hs h64
  have hQ1 : 1 < r.prodQ level :=
    lt_of_lt_of_le (hr.subAt (show 0 < r.subs.length by omega)).prime.one_lt
      (Nat.le_of_dvd (prodQ_pos hr hl) (prodQ_cast_dvd (Nat.zero_le _)))
  have hz : ∀ k < r.n, -((r.prodQ level : ℤ) + 1) ≤ 2 * z k ∧ 2 * z k + 1 < r.prodQ level := by
    intro k hk
    rcases lt_or_ge k values.length with hk' | hk'
    · have e := abs_le.1 (h3 k hk')
      have b := hQ _ (show values.getD k 0 ∈ values by simp [List.getD, hk'])
      have a1 := le_abs_self (values.getD k 0 * scale)
      have a2 := neg_abs_le (values.getD k 0 * scale)
      have a3 := abs_nonneg (values.getD k 0 * scale)
      constructor
      · have : -((r.prodQ level : ℚ) + 1) ≤ 2 * (z k : ℚ) := by linarith [e.1]
        exact_mod_cast this
      · have : 2 * (z k : ℚ) + 1 < (r.prodQ level : ℚ) := by linarith [e.2]
        exact_mod_cast this
    · rw [h4 k hk']; omega
  have hd := C70_decodeCoeffs_partial hr sr hl scale z hz out pool hpool h5
  refine ⟨out, _, h1, hd, by simp, fun k hk => ?_, fun k hk => ?_⟩
  · have hkn : k < r.n := by omega
    have e : ((List.range r.n).map fun k => f64Div (f64 (z k)) scale).getD k 0 = f64Div (f64 (z k)) scale := by
      simp [List.getD, hkn]
    rw [e]
    have e3 := h3 k hk
    have e1 := f64_err (z k : ℚ)
    have e2 := f64_err (f64 (z k : ℚ) / scale)
    generalize values.getD k 0 * scale = x at *
    generalize (z k : ℚ) = y at *
    have hx := abs_nonneg x
    have hy : |y| ≤ 1 / 2 + |x| / 2 ^ 51 + 1 / 2 ^ 53 + |x| := by
      have := abs_sub_abs_le_abs_sub y x
      linarith
    have e2' : |f64Div (f64 y) scale * scale - f64 y| ≤ uro * |f64 y| := by
      have hm : f64Div (f64 y) scale * scale - f64 y = (f64 (f64 y / scale) - f64 y / scale) * scale := by
        unfold f64Div; field_simp
      rw [hm, abs_mul, abs_of_pos hs]
      calc _ ≤ uro * |f64 y / scale| * scale := by gcongr
        _ = uro * |f64 y| := by rw [abs_div, abs_of_pos hs]; field_simp
    have hf : |f64 y| ≤ |y| + uro * |y| := by
      have := abs_sub_abs_le_abs_sub (f64 y) y
      linarith
    have ht : |f64Div (f64 y) scale * scale - x| ≤
        |f64Div (f64 y) scale * scale - f64 y| + (|f64 y - y| + |y - x|) := by
      have t1 := abs_sub_le (f64Div (f64 y) scale * scale) (f64 y) x
      have t2 := abs_sub_le (f64 y) y x
      linarith
    rw [uro_eq] at *
    linarith
  · rcases lt_or_ge k r.n with hkn | hkn
    · have e : ((List.range r.n).map fun k => f64Div (f64 (z k)) scale).getD k 0 = f64Div (f64 (z k)) scale := by
        simp [List.getD, hkn]
      rw [e, h4 k hk]
      simp [f64Div, f64]
    · simp [List.getD, hkn]

/-- **C70 is violated at the boundary**: `48 = (97-1)/2`, below `97/2`, encoded exactly at scale 1 and level 0
with the modulus 97, is decoded as `-49`. -/
theorem C70_boundary_violated : ∃ (r : Ring) (out : Rows), r.Valid 4 ∧ r.Small ∧ (r.sub 0).q = 97 ∧
    r.encodeCoeffsNew [48] 0 1 = some out ∧
    ∀ pool : Rows, pool.length = r.subs.length → (r.decodeCoeffs true 0 1 out pool).getD 0 0 = -49 := by
  obtain ⟨r, -, hv, sr, hl, hn, h0, h1⟩ := exists_small_ring
  have h64 : ∀ v ∈ ([48] : List ℚ), f64 |v * 1| ≠ 2 ^ 64 := by
    intro v hv
    obtain rfl := List.mem_singleton.1 hv
    decide +kernel
  obtain ⟨out, z, b1, b2, b3, b4, b5⟩ := C69_encodeCoeffsNew_partial (level := 0) hv sr (by omega) [48] (by simp [hn])
    one_pos h64
  have hz0 : z 0 = 48 := by
    have := abs_le.1 (b3 0 (by simp))
    simp only [List.getD_cons_zero, mul_one, abs_of_pos (show (0 : ℚ) < 48 by norm_num)] at this
    have l : (47 : ℚ) < z 0 := by norm_num at this ⊢; linarith [this.1]
    have u : (z 0 : ℚ) < 49 := by norm_num at this ⊢; linarith [this.2]
    have l' : (47 : ℤ) < z 0 := by exact_mod_cast l
    have u' : z 0 < (49 : ℤ) := by exact_mod_cast u
    omega
  refine ⟨r, out, hv, sr, h0, b1, fun pool hpool => ?_⟩
  have h97 : (r.sub 0).q.toNat = 97 := by rw [h0]; rfl
  have hd := C70_decodeCoeffs_partial (level := 0) hv sr (by omega) 1 (fun k => if k = 0 then -49 else 0)
    (fun k hk => by
      rw [prodQ_zero, h97]
      beta_reduce
      split <;> omega) out pool hpool
    (b5.congr (fun i hi k hk => by
      obtain rfl : i = 0 := by omega
      congr 1
      funext j
      by_cases hj : j = 0
      · subst hj
        beta_reduce
        rw [if_pos rfl, hz0, ZMod.intCast_eq_intCast_iff, h97]
        rfl
      · beta_reduce
        rw [if_neg hj, b4 j (by simp; omega)]))
  rw [hd, hn]
  decide +kernel

/-- a case of the hypotheses of the round trip: three values at scale 8, level 1 -/
example : ∃ r : Ring, r.Valid 4 ∧ r.Small ∧ 1 < r.subs.length ∧ ([1 / 3, -2, 5 / 7] : List ℚ).length ≤ r.n ∧
    (∀ v ∈ ([1 / 3, -2, 5 / 7] : List ℚ), f64 |v * 8| ≠ 2 ^ 64) ∧
    ∀ v ∈ ([1 / 3, -2, 5 / 7] : List ℚ), 2 * |v * 8| + |v * 8| / 2 ^ 49 + 3 < r.prodQ 1 := by
  obtain ⟨r, -, hv, sr, hl, hn, h0, h1⟩ := exists_small_ring
  have hQ : r.prodQ 1 = 18721 := by rw [prodQ_succ, prodQ_zero, h0, h1]; rfl
  refine ⟨r, hv, sr, by omega, by simp [hn], by decide +kernel, ?_⟩
  rw [hQ]
  decide +kernel

end FastKsw.Props
