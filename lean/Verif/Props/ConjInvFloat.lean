import Verif.Props.ConjInvEncoder
import Verif.Props.FloatFFT

/-!
# C94: the round trip through real slots in complex128 arithmetic
-/

namespace FastKsw.Props

open FastKsw Finset

variable {logSlots d : ℕ} {δ : ℝ} {roots : ℕ → ℚ × ℚ} {r rS : Ring} {level : ℕ}

/-- the decoder in complex128 arithmetic against the exact one -/
theorem decodeRealF_near (hr : CIPair (logSlots + d) r rS) (hroot : r.nthRoot = 4 * r.n) (sr : r.Small)
    (hl : level < r.subs.length) (hroots : RootsNear r.nthRoot roots δ) (mem : List (ℚ × ℚ))
    (hmem : 2 ^ logSlots ≤ mem.length ∧ (3 ≤ logSlots → 16 ≤ mem.length))
    {scale : ℚ} (hs : 0 < scale) (z : ℕ → ℤ) (hz : InRange r level z) {B : ℚ}
    (hB : ∀ k < 2 ^ logSlots, |(z (k * 2 ^ d) : ℚ)| ≤ B) (pt pool : Rows) (hpool : pool.length = r.subs.length)
    (hp : HoldsReal r (logSlots + d) level pt z) :
    ∃ s s', r.decodeRealSlotsF roots mem true level scale logSlots pt pool = some s ∧
      r.decodeRealSlots (encRoots r.nthRoot) Complex.I (mem.map fC) true level scale logSlots pt pool = some s' ∧
      s.length = 2 ^ logSlots ∧ ∀ j < 2 ^ logSlots, ‖fC (s.getD j 0) - s'.getD j 0‖ ≤
        fftErr δ logSlots ((2 * (B + B / 2 ^ 51) / scale : ℚ) : ℝ) := by
  have hM : r.nthRoot = 2 ^ (logSlots + 2 + d) := by
    rw [hroot, hr.ci.deg]; ring
  obtain ⟨s', b1, b2, b3⟩ := decodeRealSlots_eval hr hroot sr hl (encZeta_table logSlots d) Complex.I (mem.map fC)
    (by rw [List.length_map]; exact hmem) scale z hz pt pool hpool hp
  unfold Ring.decodeRealSlotsF
  rw [C94_toComplex_partial hr hroot sr hl scale z hz pt pool hpool hp, Option.map_some, hM]
  refine ⟨_, s', rfl, b1, ?_⟩
  set x : List (ℚ × ℚ) := _ ++ List.drop (2 ^ logSlots) mem with hx
  have hxl : x.length = mem.length := by rw [hx]; simp; omega
  have hat : ∀ k < 2 ^ logSlots, x.getD k 0 =
      (f64Div (f64 (z (k * 2 ^ d))) scale, if 1 ≤ k then -f64Div (f64 (z ((2 ^ logSlots - k) * 2 ^ d))) scale else 0) := by
    intro k hk
    rw [hx, List.getD_append _ _ _ _ (by simpa using hk)]
    simp [List.getD, hk]
  have hB0 : 0 ≤ B := (abs_nonneg _).trans (hB 0 (Nat.two_pow_pos _))
  have hco : ∀ k < 2 ^ logSlots, |((f64Div (f64 (z (k * 2 ^ d))) scale : ℚ) : ℝ)| ≤ (((B + B / 2 ^ 51) / scale : ℚ) : ℝ) := by
    intro k hk
    have h1 := f64Div_err (z (k * 2 ^ d)) hs
    have h2 := abs_add_le (f64Div (f64 (z (k * 2 ^ d))) scale - z (k * 2 ^ d) / scale) (z (k * 2 ^ d) / scale)
    rw [sub_add_cancel, abs_div _ scale, abs_of_pos hs] at h2
    have h3 := hB k hk
    have h4 : |(z (k * 2 ^ d) : ℚ)| / 2 ^ 51 / scale ≤ B / 2 ^ 51 / scale := by gcongr
    have h5 : |(z (k * 2 ^ d) : ℚ)| / scale ≤ B / scale := by gcongr
    have : |f64Div (f64 (z (k * 2 ^ d))) scale| ≤ (B + B / 2 ^ 51) / scale := by
      rw [add_div]; linarith
    exact_mod_cast this
  rw [hM] at hroots
  obtain ⟨c1, c2⟩ := C92_fft (d := d) (decide (3 ≤ logSlots)) hroots x (by rw [hxl]; exact fftCap_le hmem.1 hmem.2)
    (B := ((2 * (B + B / 2 ^ 51) / scale : ℚ) : ℝ)) (fun k hk => by
      rw [hat k hk]
      refine (norm_fC_le (c := (((B + B / 2 ^ 51) / scale : ℚ) : ℝ)) (hco k hk) ?_).trans (le_of_eq (by push_cast; ring))
      dsimp only
      split
      · push_cast
        rw [abs_neg]
        have := hco (2 ^ logSlots - k) (by omega)
        push_cast at this
        exact this
      · rw [Rat.cast_zero, abs_zero]
        have : 0 ≤ (B + B / 2 ^ 51) / scale := by positivity
        exact_mod_cast this)
  refine ⟨by rw [List.length_take, c1, hxl]; omega, fun j hj => ?_⟩
  rw [take_getD _ hj]
  have e1 := c2 j hj
  rw [show (∑ k ∈ range (2 ^ logSlots), fC (x.getD k 0) * (encZeta (2 ^ (logSlots + 2 + d)) ^ 2 ^ d) ^ (5 ^ j * k)) = s'.getD j 0 by
    rw [b3 j hj]
    refine Finset.sum_congr rfl fun k hk => ?_
    rw [hat k (Finset.mem_range.1 hk)]
    congr 1
    apply Complex.ext <;> simp [fC, ← Complex.ofReal_ratCast]] at e1
  exact e1

/-- **C94 (complex128).** `Decode` after `Encode` in a conjugate-invariant ring with all transforms in complex128 arithmetic: for at
least 16 slots neither fails, and every slot that comes back is the real part of the value that was encoded, missing values as 0, up to an
explicit error.  `V` bounds the real parts, `B` the scaled ones, `C` the coefficients.  Missing: fewer than 16 slots (the code panics,
`C94_panics`) and scaled values beyond `2^63`. -/
theorem C94_float_partial {lp : ℕ} (hr : CIPair (logSlots + d) r rS) (hroot : r.nthRoot = 4 * r.n) (sr : r.Small)
    (hl : lp < r.subs.length) (h4 : 4 ≤ logSlots)
    (hroots : RootsNear r.nthRoot roots δ) (hδ4 : δ ≤ 1 / 4) {mem mem' : List (ℚ × ℚ)}
    (hmem : 2 ^ (logSlots + d) ≤ mem.length) (hmem' : 2 ^ (logSlots + d) ≤ mem'.length) {values : List (ℚ × ℚ)}
    (hv : values.length ≤ 2 ^ logSlots) {V : ℝ} (hV0 : 0 ≤ V) (hV : ∀ v ∈ values, |(v.1 : ℝ)| ≤ V) {pt : Pt} (hp : PoolOK r.n lp pt)
    (hscale : 0 < pt.scale)
    {B C : ℚ} (hB : (V + ifftErr δ logSlots V) * pt.scale ≤ B) (hB64 : B ≤ 2 ^ 63) (hC : B + (B + 1) / 2 ^ 51 + 1 / 2 ≤ C)
    (hsize : 2 * B + B / 2 ^ 49 + 3 < r.prodQ lp) {polypool : Rows} (hpool : polypool.length = r.subs.length) :
    ∃ pt' s, r.encodeRealSlotsF roots mem values logSlots pt = some pt' ∧
      r.decodeRealSlotsF roots mem' pt'.value.isNTT pt'.value.level pt'.scale logSlots pt'.value.coeffs polypool = some s ∧
      s.length = 2 ^ logSlots ∧ ∀ j < 2 ^ logSlots, ‖fC (s.getD j 0) - (((values.getD j 0).1 : ℝ) : ℂ)‖ ≤
        2 * 2 ^ logSlots * (ifftErr δ logSlots V + ((1 / 2 + (B + 1) / 2 ^ 50) / pt.scale : ℚ)) +
          fftErr δ logSlots ((2 * (C + C / 2 ^ 51) / pt.scale : ℚ) : ℝ) := by
  have hM : r.nthRoot = 2 ^ (logSlots + 2 + d) := by
    rw [hroot, hr.ci.deg]; ring
  have h16 : 2 ^ 4 ≤ 2 ^ logSlots := Nat.pow_le_pow_right (by norm_num) h4
  have hle : 2 ^ logSlots ≤ 2 ^ (logSlots + d) := Nat.pow_le_pow_right (by norm_num) (by omega)
  set rv : List (ℚ × ℚ) := values.map fun v => (v.1, 0) with hrv
  obtain ⟨y', w, hy', hw, hwl, hnear⟩ := C92_encode (by rw [← hM]; exact hroots) hδ4 mem ⟨hmem, by omega⟩ rv
    (by rw [hrv, List.length_map]; exact hv) hV0 (by
      intro v hvm
      rw [hrv, List.mem_map] at hvm
      obtain ⟨u, hu, rfl⟩ := hvm
      refine (Complex.norm_le_abs_re_add_abs_im _).trans ?_
      simpa [fC] using hV u hu)
  obtain ⟨y, hy, -, henc⟩ := C94_roundtrip_partial (level := lp) hr hroot sr hl h4 (mem.map fC) (mem'.map fC)
    (by rw [List.length_map]; exact hmem) (by rw [List.length_map]; exact hmem') (values.map fC) (by rw [List.length_map]; exact hv)
    hscale
  have hmm : ((values.map fC).map fun v => ((v.re : ℝ) : ℂ)) = rv.map fC := by
    rw [hrv, List.map_map, List.map_map]
    refine List.map_congr_left fun v _ => ?_
    apply Complex.ext <;> simp [fC]
  unfold encodeRealFFT at hy
  rw [hmm, hM, hy'] at hy
  obtain rfl : y' = y := by simpa using hy
  have F := floatOK_of hscale hwl hnear hB hB64
  obtain ⟨p, s', e1, e2, -, e4⟩ := henc w _ B F.len (fun k hk => (F.close k hk).1) (fun v hv => (F.ne64 v hv).1)
    (fun v hv => (F.le v hv).1) hsize polypool hpool pt.value.coeffs (by rw [hp.len]; omega) hp.row
  obtain ⟨p', z, f1, f2, f3, f4, f5⟩ := embedReal_holds (level := lp) hr hroot sr hl h4 hscale w B hwl (fun v hv => (F.ne64 v hv).1)
    (fun v hv => (F.le v hv).1) hsize pt.value.coeffs (by rw [hp.len]; omega) hp.row
  rw [e1] at f1
  obtain rfl : p = p' := by simpa using f1
  have hZ : ∀ k < 2 ^ logSlots, |(z (k * 2 ^ d) : ℚ)| ≤ C := by
    intro k hk
    obtain ⟨g1, g2⟩ := f5 k hk
    have t := abs_add_le ((z (k * 2 ^ d) : ℚ) - (w.getD k 0).1 * pt.scale) ((w.getD k 0).1 * pt.scale)
    rw [sub_add_cancel] at t
    have : |(w.getD k 0).1 * pt.scale| / 2 ^ 51 ≤ B / 2 ^ 51 := by gcongr
    have h0 := abs_nonneg ((w.getD k 0).1 * pt.scale)
    rw [add_div] at hC
    linarith
  obtain ⟨s, s'', a1, a2, a3, a4⟩ := decodeRealF_near hr hroot sr hl hroots mem' ⟨by omega, by omega⟩ hscale z f4 hZ p polypool
    hpool f3
  rw [a2] at e2
  obtain rfl : s'' = s' := by simpa using e2
  have hlev := hp.level
  have hlev' : Poly.level ⟨p, pt.value.isNTT⟩ = lp := by
    unfold Poly.level at hlev ⊢
    dsimp only
    omega
  refine ⟨_, s, by unfold Ring.encodeRealSlotsF; rw [hM, hw, Option.bind_some, hlev, e1, Option.map_some], ?_, a3, fun j hj => ?_⟩
  · dsimp only
    rw [hlev', hp.ntt]
    exact a1
  · obtain ⟨i1, i2⟩ := e4 j hj
    have hre : (((values.map fC).getD j 0).re : ℝ) = ((values.getD j 0).1 : ℝ) := by
      rw [fC_getD]; rfl
    rw [hre] at i2
    have hsj : s''.getD j 0 = (((s''.getD j 0).re : ℝ) : ℂ) := by
      apply Complex.ext
      · rw [Complex.ofReal_re]
      · rw [Complex.ofReal_im, i1]
    have n1 : ‖s''.getD j 0 - (((values.getD j 0).1 : ℝ) : ℂ)‖ ≤
        2 * 2 ^ logSlots * (ifftErr δ logSlots V + ((1 / 2 + (B + 1) / 2 ^ 50) / pt.scale : ℚ)) := by
      rw [hsj, ← Complex.ofReal_sub, Complex.norm_real, Real.norm_eq_abs]
      exact i2
    have n2 := norm_add_le (fC (s.getD j 0) - s''.getD j 0) (s''.getD j 0 - (((values.getD j 0).1 : ℝ) : ℂ))
    rw [sub_add_sub_cancel] at n2
    have := a4 j hj
    linarith

/-- degree 16, modulus 193, 16 slots, scale 64, the values `1/2 + i/2` and `1`: slot 0 is `1/2`, slot 1 is `1`, slot 2 is 0, all up to 0.26 -/
example : ∃ (r : Ring) (cosF sinF : ℚ → ℚ) (pt' : Pt) (s : List (ℚ × ℚ)), newRingConjugateInvariant 100 16 [193] = .ok r ∧
    r.encodeRealSlotsF (encRootsF cosF sinF r.nthRoot) (List.replicate 16 (5, 7)) [(1 / 2, 1 / 2), (1, 0)] 4 (newPlaintext r.n 0 64) =
      some pt' ∧
    r.decodeRealSlotsF (encRootsF cosF sinF r.nthRoot) (List.replicate 16 (5, 7)) pt'.value.isNTT pt'.value.level pt'.scale 4
      pt'.value.coeffs (newPoly r.n 1) = some s ∧ ‖fC (s.getD 0 0) - ((1 / 2 : ℝ) : ℂ)‖ ≤ 26 / 100 ∧
        ‖fC (s.getD 1 0) - ((1 : ℝ) : ℂ)‖ ≤ 26 / 100 ∧ ‖fC (s.getD 2 0)‖ ≤ 26 / 100 := by
  obtain ⟨-, rS, -, h2, -⟩ := rings193
  obtain ⟨r, hr⟩ := ci_of_std (fuel := 100) (N := 16) (by decide) (moduli := [193]) h2
  obtain ⟨n, hn, hP⟩ := C67_rings (by simp) (by norm_num) hr h2
  obtain rfl : n = 4 + 0 := (Nat.pow_right_injective le_rfl (show 2 ^ 4 = 2 ^ n from hn)).symm
  have hroot : r.nthRoot = 4 * r.n := by rw [ci_root hr, hP.ci.deg]; rfl
  obtain ⟨hm, -⟩ := newRingCustom_valid (fuel := 100) (n := 4) (m := 5) (by omega) (by omega) rfl (by simp) hr
  have hl : r.subs.length = 1 := by
    have := congrArg List.length hm
    simpa [Ring.moduli] using this
  have hsub : ∀ s ∈ r.subs, s.q = 193 := by
    intro s hs
    have : s.q ∈ r.moduli := List.mem_map.2 ⟨s, hs, rfl⟩
    rwa [hm, List.mem_singleton] at this
  have sr : r.Small := fun s hs => by rw [hsub s hs]; decide
  have hQ : r.prodQ 0 = 193 := by
    rw [prodQ_zero, hsub _ (Ring.sub_mem (by omega))]; rfl
  obtain ⟨cosF, sinF, hc, hs⟩ := exists_trig
  have hM : 0 < r.nthRoot := by rw [hroot, hP.ci.deg]; norm_num
  have T := C92_table hc hs hM
  have hu : eta ≤ 1 / 2 ^ 100 := eta_le.trans (by unfold uf; norm_num)
  have hI1 : ifftErr (1 / 2 ^ 48) 4 1 ≤ 1 / 2 ^ 40 :=
    ((C92_size (by norm_num) le_rfl (show 4 < 2 ^ 20 by norm_num) (by norm_num)).1).trans (by push_cast; linarith)
  have hF1 : fftErr (1 / 2 ^ 48) 4 ((2 * ((67 : ℚ) + 67 / 2 ^ 51) / 64 : ℚ) : ℝ) ≤ 1 / 2 ^ 30 :=
    ((C92_size (by norm_num) le_rfl (show 4 < 2 ^ 20 by norm_num) (by positivity)).2).trans (by push_cast; linarith)
  obtain ⟨pt', s, a1, a2, -, a4⟩ := C94_float_partial (logSlots := 4) (d := 0) (lp := 0) (V := 1) (B := 65) (C := 67) hP hroot sr
    (by omega) le_rfl T (by norm_num) (mem := List.replicate 16 (5, 7)) (mem' := List.replicate 16 (5, 7)) (by norm_num) (by norm_num)
    (values := [(1 / 2, 1 / 2), (1, 0)]) (by norm_num) (by norm_num) (fun v hv => by
      simp only [List.mem_cons, List.not_mem_nil, or_false] at hv
      rcases hv with rfl | rfl <;> norm_num [abs_of_pos])
    (newPlaintext_ok r.n 0 64) (by norm_num [newPlaintext])
    (by show (1 + ifftErr (1 / 2 ^ 48) 4 1) * ((64 : ℚ) : ℝ) ≤ ((65 : ℚ) : ℝ); push_cast; linarith) (by norm_num) (by norm_num)
    (by rw [hQ]; norm_num) (polypool := newPoly r.n 1) (by rw [length_newPoly, hl])
  have hb : ∀ j < 2 ^ 4, ‖fC (s.getD j 0) - (((([(1 / 2, 1 / 2), (1, 0)] : List (ℚ × ℚ)).getD j 0).1 : ℝ) : ℂ)‖ ≤ 26 / 100 := by
    intro j hj
    refine (a4 j hj).trans ?_
    change 2 * 2 ^ 4 * (ifftErr (1 / 2 ^ 48) 4 1 + ((1 / 2 + (65 + 1) / 2 ^ 50) / 64 : ℚ)) +
        fftErr (1 / 2 ^ 48) 4 ((2 * (67 + 67 / 2 ^ 51) / 64 : ℚ) : ℝ) ≤ 26 / 100
    push_cast at hF1 ⊢
    linarith
  refine ⟨r, cosF, sinF, pt', s, hr, a1, a2, ?_, ?_, ?_⟩
  · simpa using hb 0 (by norm_num)
  · simpa using hb 1 (by norm_num)
  · simpa using hb 2 (by norm_num)

end FastKsw.Props
