import Verif.Spec.Msg
import Verif.Props.EndToEnd
import Verif.Props.FEvaluator
import Verif.Props.RescaleExact
import Verif.Props.FusedMul

/-!
# C85: what the operations of `fckks` do to messages

Each operation on ciphertexts of degree 1, at the level of the complex values they hold (`CtMsg`), with explicit bounds on the size
of the plaintext, the noise and the error of the slots.
-/

namespace FastKsw.Props

open FastKsw Finset

/-- the bound of `KeySwitched.noise` for one key switch at level `level` of `fckks`: digits below `digit`, key errors
below `Be`, a ternary secret -/
def ksErr (p : FParams) (n digit Be level : ℕ) : ℚ :=
  (1 + 1 / 2 ^ 42) * (((level + p.alpha) / p.alpha : ℕ) * (2 ^ n * (digit * Be)) / p.ringP.prodQ (p.alpha - 1) + (1 + 2 ^ n))

/-- Parameters, evaluator and keys as the constructors of the library return them: the relinearization key is generated from
the tape `tape none`, the key of the rotation by `k` from `tape (some k)`. -/
structure HomEnv (fuel logSlots d : ℕ) (p : FParams) (ev : FEvaluator) (kg : FKeyGenerator) (sk : PolyQP) (S : ℕ → ℤ)
    (tape : Option ℤ → ℕ → KeyTape) (e : Option ℤ → ℕ → ℕ → ℤ) (digit Be : ℕ) : Prop where
  ok : p.OK fuel (logSlots + 1 + d)
  fits : p.Fits
  ov : p.alpha ≤ 16 ∨ ∀ t ≤ p.levelT, 10 * p.ringT.qs t + 2 ^ 15 ≤ 2 ^ 64
  hev : ∃ pool, newFEvaluator fuel p pool = some ev
  hg : newFKeyGenerator fuel p = some kg
  hs : sk.IsMont (logSlots + 1 + d) p.ringQ p.ringP p.maxLevel (p.alpha - 1) S
  small : ∀ k < 2 ^ (logSlots + 1 + d), |S k| ≤ 1
  ht : ∀ o, TapeOK (logSlots + 1 + d) p.ringQ p.ringP p.maxLevel (p.alpha - 1) (tape o) (e o)
  he : ∀ o i, i * p.alpha ≤ p.maxLevel → ∀ k < 2 ^ (logSlots + 1 + d), |e o i k| ≤ Be
  hd : ∀ level ≤ p.maxLevel, ∀ i, i * p.alpha ≤ level → p.ringQ.blockQ p.alpha (level + 1) i ≤ digit

theorem intR_zero {N q : ℕ} : intR N q (fun _ => 0) = 0 := by simp [intR, toR]

theorem zero_elt {n : ℕ} {r : Ring} (hr : r.Valid n) {level : ℕ} (hl : level < r.subs.length) :
    EltIs n r level r.qs true (newPoly r.n (level + 1)) (fun _ => 0) := by
  have hrow : ∀ u ≤ level, Rows.row (newPoly r.n (level + 1)) u = List.replicate r.n 0 := fun u hu => row_newPoly (by omega)
  have hat : ∀ k < 2 ^ n, Row.at (List.replicate r.n (0 : UInt64)) k = 0 := fun k hk => by
    rw [Row.at, List.getD, List.getElem?_replicate, if_pos (by rw [hr.deg]; exact hk)]
    rfl
  refine ⟨by rw [length_newPoly]; omega, fun u hu => by rw [hrow u hu, List.length_replicate, hr.deg], fun u hu k hk => ?_,
    fun u hu => ?_⟩
  · rw [hrow u hu, hat k hk]
    exact (hr.subAt (show u < r.subs.length by omega)).prime.pos
  · have hu' : u < r.subs.length := by omega
    rw [Ring.elt_eq]
    have e : r.eltOf n true u (zval _ (Rows.row (newPoly r.n (level + 1)) u)) = r.eltOf n true u (r.nttVec n (fun _ => 0) u) :=
      Ring.eltOf_congr fun k hk => by
        unfold zval
        rw [hrow u hu, hat k hk]
        simp [Ring.nttVec, Ring.intVec, evals]
    rw [e, ← intR_zero (N := 2 ^ n) (q := r.qs u)]
    have := ofNtt_nttVec hr hu' (fun _ => 0)
    simpa [Ring.eltOf] using this

section
variable {logSlots d : ℕ} {r : Ring} {S : ℕ → ℤ}

theorem _root_.FastKsw.CtMsg.shape {ct : Ct} {I : Info} (h : CtMsg logSlots d r S ct I) : CtShape 1 I.level ct := by
  obtain ⟨z, D, -, -, -, -, x, hx, -⟩ := h.enc
  exact hx.shape

/-- **C85 (new ciphertext).** `NewCiphertext` holds zero, at any scale. -/
theorem C85_newCiphertext (hr : r.Valid (logSlots + 1 + d)) {level : ℕ} (hl : level < r.subs.length) {scale : ℚ}
    (hp : 0 < scale) (hf : f64 scale = scale) : CtMsg logSlots d r S (newCiphertext r.n 1 level scale) (Info.zero level scale) := by
  refine ⟨hl, rfl, hp, hf, fun j _ => by simp [Info.zero], fun _ => 0, fun _ => 0, fun _ _ _ => rfl, fun k _ => by simp [Info.zero],
    fun k _ => by simp [Info.zero], fun j _ => by simp [Info.zero, slotVal], fun _ _ => 0, ⟨newCiphertext_shape _ _ _ _, fun i hi => ?_⟩,
    fun u _ => ?_⟩
  · have e : (newCiphertext r.n 1 level scale).rows i = newPoly r.n (level + 1) := by
      simp only [Ct.rows, newCiphertext, List.getD, List.getElem?_replicate, if_pos (show i < 1 + 1 by omega)]
      rfl
    rw [e]
    exact (zero_elt hr hl).mono fun u _ => by omega
  · simp [intR_zero]

/-- **C85 (decryption).** `DecryptToMsg` of a ciphertext that holds `v`, by a decryptor whose pool is at level `lp`, returns `v` up to
the noise and the error of the slots divided by the scale and the rounding to float64, provided that plaintext and noise are
smaller than half the modulus.  Missing: as in `C81_decryptToMsg_partial`, that modulus is the one at the level of the pool if it is
lower. -/
theorem C85_decrypt_partial (hr : r.Valid (logSlots + 1 + d)) (sr : r.Small) {sk : Rows} {ct : Ct} {I : Info}
    (h : CtMsg logSlots d r S ct I) {pool : Pt} {lp : ℕ} (hp : PoolOK r.n lp pool)
    (hs : EltIs (logSlots + 1 + d) r (min I.level lp) r.qs true sk (fun u => 2 ^ 64 * intR _ _ S))
    (hsize : 2 * (I.M + I.β) + 1 < r.prodQ (min I.level lp)) {mem : List ℂ}
    (hmem : 2 ^ logSlots ≤ mem.length ∧ (3 ≤ logSlots → 16 ≤ mem.length)) {polypool : Rows}
    (hpool : polypool.length = r.subs.length) :
    ∃ s pool', decryptToMsg r (encRoots r.nthRoot) Complex.I mem polypool logSlots sk ct pool = some (s, pool') ∧
      PoolOK r.n (min I.level lp) pool' ∧ s.length = 2 ^ logSlots ∧
      ∀ j < 2 ^ logSlots, ‖s.getD j 0 - I.v j‖ ≤ 2 ^ (logSlots + 1) * (((I.M + I.β) / 2 ^ 51 / I.scale : ℚ) : ℝ) +
        (I.ε + 2 ^ (logSlots + 1) * I.β) / I.scale := by
  obtain ⟨z, D, hz1, hz2, hD, hz3, henc⟩ := h.enc
  have hl := h.lvl
  have hb := hz2.add hD
  obtain ⟨s, pool', a1, a2, a3, a4⟩ := decryptToMsg_is (Z := fun k => z k + D k) hr sr henc
    (Or.inr ⟨fun u hu => by
      have := (hr.subAt (show u < r.subs.length by omega)).prime.one_le
      show r.qs u + 1 ≤ 6 * r.qs u
      unfold Ring.qs
      omega, by norm_num⟩) hp (fun _ _ => rfl) (by omega) hs (by rw [h.scale]; exact h.pos) (bounded_of hr hb hsize) (B := I.M + I.β)
    (fun k hk => hb _ (gap_lt hk)) hmem hpool
  refine ⟨s, pool', a1, a2, a3, fun j hj => ?_⟩
  have h1 := a4 j hj
  rw [h.scale] at h1
  exact msg_close h.pos h1 (slotVal_noise (hz3 j hj) hD)

end

section
variable {logSlots d : ℕ} {rQ rP : Ring} (K : KeyParams (logSlots + 1 + d) rQ rP)
include K

/-- **C85 (encryption).** `EncryptMsg` at a scale that is a float64 yields a ciphertext that holds the message.  Missing: as in
`C81_encryptMsg_partial`. -/
theorem C85_encrypt_partial {S E : ℕ → ℤ} {pk : PolyQP × PolyQP} {bound : ℕ}
    (hpk : IsPublicKey (logSlots + 1 + d) rQ rP (rQ.subs.length - 1) 0 pk S E)
    (hS : ∀ k, |S k| ≤ 1) (hE : ∀ k < 2 ^ (logSlots + 1 + d), |E k| ≤ bound)
    (hb : ∀ u < rQ.subs.length, bound ≤ rQ.qs u) (hb0 : 2 * bound < rQ.qs 0) (hbp : bound ≤ rP.qs 0)
    {t : EncTape} {U G0 G1 : ℕ → ℤ} (ht : TapeIs (logSlots + 1 + d) rQ bound t U G0 G1)
    {mem : List ℂ} (hmem : 2 ^ (logSlots + d) ≤ mem.length ∧ (3 ≤ logSlots → 16 ≤ mem.length))
    {msg : List ℂ} (hmsg : msg.length ≤ 2 ^ logSlots) {V : ℝ} (hV : ∀ j < 2 ^ logSlots, ‖msg.getD j 0‖ ≤ V)
    {pool : Pt} {lp lc : ℕ} (hp : PoolOK rQ.n lp pool)
    (hlp : lp < rQ.subs.length) (hscale : 0 < pool.scale) (hf : f64 pool.scale = pool.scale)
    (hzero : 3 ≤ logSlots ∨ ∀ i ≤ lp, ∀ k, 2 ^ (logSlots + 1) ≤ k → k < 16 → (pool.value.coeffs.row i).at k = 0)
    {fl : List ℂ → List (ℚ × ℚ)} {δ : ℝ} {B : ℚ}
    (hfl : ∀ y, encodeFFT rQ.nthRoot (encRoots rQ.nthRoot) mem msg logSlots = some y →
      FloatOK (2 ^ logSlots) pool.scale δ B (fl y) y) {ct : Ct} (hc : CtShape 1 lc ct) :
    ∃ pool' ct', encryptMsg rQ rP (encRoots rQ.nthRoot) fl mem logSlots pk t msg pool ct = some (pool', ct') ∧
      PoolOK rQ.n lp pool' ∧ pool'.scale = pool.scale ∧
      CtMsg logSlots d rQ S ct' ⟨min lp lc, pool.scale, fun j => msg.getD j 0, V, B + (B + 1) / 2 ^ 51 + 1 / 2,
        encBound (2 ^ (logSlots + 1 + d)) (rP.qs 0) bound,
        2 ^ (logSlots + 1) * (δ * pool.scale + ((1 / 2 + (B + 1) / 2 ^ 51 : ℚ) : ℝ))⟩ := by
  obtain ⟨pool', ct', a1, a2, a3, a4, z, D, hz, hzb, hD, hct⟩ :=
    C81_encryptMsg_partial K hpk hS hE hb hb0 hbp ht hmem hmsg hp hlp hscale hzero hfl hc
  refine ⟨pool', ct', a1, a2, a3, by dsimp only; omega, a4, hscale, hf, hV, z, D, fun k _ => hz.sparse k, fun k hk => hzb k ?_, hD, hz.close,
    hct.mono fun u _ => by omega⟩
  rw [K.rings.hQ.deg]; exact hk

end

section
variable {fuel logSlots d : ℕ} {p : FParams} {ev : FEvaluator} {kg : FKeyGenerator} {sk : PolyQP} {S : ℕ → ℤ}
  {tape : Option ℤ → ℕ → KeyTape} {e : Option ℤ → ℕ → ℕ → ℤ} {digit Be : ℕ}

theorem norm_ratCast (s : ℚ) : ‖((s : ℚ) : ℂ)‖ = |(s : ℝ)| := by
  rw [show ((s : ℚ) : ℂ) = ((s : ℝ) : ℂ) by push_cast; rfl, Complex.norm_real]
  rfl

/-- interpreting slots at another scale -/
theorem rescaled_close {a v : ℂ} {s s' : ℚ} {ε V : ℝ} (h : ‖a - ((s : ℚ) : ℂ) * v‖ ≤ ε) (hv : ‖v‖ ≤ V) :
    ‖a - ((s' : ℚ) : ℂ) * v‖ ≤ ε + |(s : ℝ) - s'| * V := by
  rw [show a - ((s' : ℚ) : ℂ) * v = (a - ((s : ℚ) : ℂ) * v) + ((s - s' : ℚ) : ℂ) * v by push_cast; ring]
  refine (norm_add_le _ _).trans (add_le_add h ?_)
  rw [norm_mul, norm_ratCast]
  push_cast
  exact mul_le_mul_of_nonneg_left hv (abs_nonneg _)

theorem addMsg_of_eq {ev : Evaluator} {r : Ring} (he : ev.ringQ = r) (hr : r.Valid (logSlots + 1 + d)) {H : Heap}
    {a b out : Ref} {I J : Info} (h0 : CtMsg logSlots d r S (H a) I) (h1 : CtMsg logSlots d r S (H b) J) {dd lo : ℕ}
    (ho : CtShape dd lo (H out)) (hdd : 1 ≤ dd) (hsc : SameScale I.scale J.scale) :
    ∃ H', ev.add H a b out = some H' ∧ (∀ c ≠ out, H' c = H c) ∧ CtMsg logSlots d r S (H' out) (I.add J lo) := by
  subst he
  obtain ⟨z, D, g1, g2, g3, g4, x, hx, ex⟩ := h0.enc
  obtain ⟨z', D', g1', g2', g3', g4', y, hy, ey⟩ := h1.enc
  have hl := h0.lvl
  obtain ⟨H', a1, a2, a3, a4⟩ := C34_add (level := min (min I.level J.level) lo) hr (Or.inr rfl) hx hy ho (by omega) hdd rfl
    (by omega) (by rw [h0.scale, h1.scale]; exact hsc)
  rw [h0.scale, h1.scale] at a3
  refine ⟨H', a1, a2, by dsimp only [Info.add]; omega, a3, lt_max_of_lt_left h0.pos, ?_, fun j hj => ?_, fun k => z k + z' k, fun k => D k + D' k,
    fun k hk hne => by simp only [g1 k hk hne, g1' k hk hne, add_zero], g2.add g2', g3.add g3', fun j hj => ?_, _, a4, fun u hu => ?_⟩
  · dsimp only [Info.add]
    rcases max_choice I.scale J.scale with h | h <;> rw [h]
    · exact h0.flt
    · exact h1.flt
  · exact (norm_add_le _ _).trans (add_le_add (h0.val j hj) (h1.val j hj))
  · have k1 := rescaled_close (s' := max I.scale J.scale) (g4 j hj) (h0.val j hj)
    have k2 := rescaled_close (s' := max I.scale J.scale) (g4' j hj) (h1.val j hj)
    have m1 : ((I.scale : ℚ) : ℝ) ≤ ((max I.scale J.scale : ℚ) : ℝ) := by exact_mod_cast le_max_left _ _
    have m2 : ((J.scale : ℚ) : ℝ) ≤ ((max I.scale J.scale : ℚ) : ℝ) := by exact_mod_cast le_max_right _ _
    rw [abs_sub_comm, abs_of_nonneg (sub_nonneg.2 m1)] at k1
    rw [abs_sub_comm, abs_of_nonneg (sub_nonneg.2 m2)] at k2
    dsimp only [Info.add]
    rw [slotVal_add, show slotVal logSlots d z j + slotVal logSlots d z' j - ((max I.scale J.scale : ℚ) : ℂ) * (I.v j + J.v j) =
      (slotVal logSlots d z j - ((max I.scale J.scale : ℚ) : ℂ) * I.v j) +
      (slotVal logSlots d z' j - ((max I.scale J.scale : ℚ) : ℂ) * J.v j) by ring]
    refine (norm_add_le _ _).trans ((add_le_add k1 k2).trans (le_of_eq ?_))
    simp only [Rat.cast_sub]
    ring
  · dsimp only [Info.add] at hu
    have e1 := ex u (by omega)
    have e2 := ey u (by omega)
    have e3 : intR (2 ^ (logSlots + 1 + d)) (ev.ringQ.qs u) (fun k => (z k + z' k) + (D k + D' k)) =
        intR (2 ^ (logSlots + 1 + d)) (ev.ringQ.qs u) (fun k => z k + D k) +
        intR (2 ^ (logSlots + 1 + d)) (ev.ringQ.qs u) (fun k => z' k + D' k) := by
      rw [intR_add]
      exact intR_congr fun k _ => by push_cast; ring
    rw [sum_range_succ, sum_range_one] at e1 e2
    show ∑ i ∈ range (1 + 1), _ = _
    rw [sum_range_succ, sum_range_one, pad_of_le (by omega), pad_of_le (by omega), pad_of_le (by omega), pad_of_le (by omega)]
    dsimp only at e1 e2 ⊢
    rw [e3]
    linear_combination e1 + e2

theorem subMsg_of_eq {ev : Evaluator} {r : Ring} (he : ev.ringQ = r) (hr : r.Valid (logSlots + 1 + d)) {H : Heap}
    {a b out : Ref} {I J : Info} (h0 : CtMsg logSlots d r S (H a) I) (h1 : CtMsg logSlots d r S (H b) J) {dd lo : ℕ}
    (ho : CtShape dd lo (H out)) (hdd : 1 ≤ dd) (hsc : SameScale I.scale J.scale) :
    ∃ H', ev.sub H a b out = some H' ∧ (∀ c ≠ out, H' c = H c) ∧ CtMsg logSlots d r S (H' out) (I.sub J lo) := by
  subst he
  obtain ⟨z, D, g1, g2, g3, g4, x, hx, ex⟩ := h0.enc
  obtain ⟨z', D', g1', g2', g3', g4', y, hy, ey⟩ := h1.enc
  have hl := h0.lvl
  obtain ⟨H', a1, a2, a3, a4⟩ := C34_sub (level := min (min I.level J.level) lo) hr hx hy ho (by omega) hdd rfl
    (by omega) (by rw [h0.scale, h1.scale]; exact hsc)
  rw [h0.scale, h1.scale] at a3
  refine ⟨H', a1, a2, by dsimp only [Info.sub, Info.add]; omega, a3, lt_max_of_lt_left h0.pos, ?_, fun j hj => ?_, fun k => z k - z' k,
    fun k => D k - D' k, fun k hk hne => by simp only [g1 k hk hne, g1' k hk hne, sub_zero], g2.sub g2', g3.sub g3', fun j hj => ?_, _, a4,
    fun u hu => ?_⟩
  · dsimp only [Info.sub, Info.add]
    rcases max_choice I.scale J.scale with h | h <;> rw [h]
    · exact h0.flt
    · exact h1.flt
  · exact (norm_sub_le _ _).trans (add_le_add (h0.val j hj) (h1.val j hj))
  · have k1 := rescaled_close (s' := max I.scale J.scale) (g4 j hj) (h0.val j hj)
    have k2 := rescaled_close (s' := max I.scale J.scale) (g4' j hj) (h1.val j hj)
    have m1 : ((I.scale : ℚ) : ℝ) ≤ ((max I.scale J.scale : ℚ) : ℝ) := by exact_mod_cast le_max_left _ _
    have m2 : ((J.scale : ℚ) : ℝ) ≤ ((max I.scale J.scale : ℚ) : ℝ) := by exact_mod_cast le_max_right _ _
    rw [abs_sub_comm, abs_of_nonneg (sub_nonneg.2 m1)] at k1
    rw [abs_sub_comm, abs_of_nonneg (sub_nonneg.2 m2)] at k2
    dsimp only [Info.sub, Info.add]
    rw [slotVal_sub, show slotVal logSlots d z j - slotVal logSlots d z' j - ((max I.scale J.scale : ℚ) : ℂ) * (I.v j - J.v j) =
      (slotVal logSlots d z j - ((max I.scale J.scale : ℚ) : ℂ) * I.v j) -
      (slotVal logSlots d z' j - ((max I.scale J.scale : ℚ) : ℂ) * J.v j) by ring]
    refine (norm_sub_le _ _).trans ((add_le_add k1 k2).trans (le_of_eq ?_))
    simp only [Rat.cast_sub]
    ring
  · dsimp only [Info.sub, Info.add] at hu
    have e1 := ex u (by omega)
    have e2 := ey u (by omega)
    have e3 : intR (2 ^ (logSlots + 1 + d)) (ev.ringQ.qs u) (fun k => (z k - z' k) + (D k - D' k)) =
        intR (2 ^ (logSlots + 1 + d)) (ev.ringQ.qs u) (fun k => z k + D k) -
        intR (2 ^ (logSlots + 1 + d)) (ev.ringQ.qs u) (fun k => z' k + D' k) := by
      rw [intR_sub]
      exact intR_congr fun k _ => by push_cast; ring
    rw [sum_range_succ, sum_range_one] at e1 e2
    show ∑ i ∈ range (1 + 1), _ = _
    rw [sum_range_succ, sum_range_one, pad_of_le (by omega), pad_of_le (by omega), pad_of_le (by omega), pad_of_le (by omega)]
    dsimp only at e1 e2 ⊢
    rw [e3]
    linear_combination e1 - e2

theorem negMsg_of_eq {ev : Evaluator} {r : Ring} (he : ev.ringQ = r) (hr : r.Valid (logSlots + 1 + d)) {H : Heap}
    {a out : Ref} {I : Info} (h0 : CtMsg logSlots d r S (H a) I) {lo : ℕ}
    (ho : CtShape 1 lo (H out)) (hlo : lo ≤ I.level) :
    ∃ H', ev.neg H a out = some H' ∧ (∀ c ≠ out, H' c = H c) ∧ CtMsg logSlots d r S (H' out) (I.neg lo) := by
  subst he
  obtain ⟨z, D, g1, g2, g3, g4, x, hx, ex⟩ := h0.enc
  have hl := h0.lvl
  obtain ⟨H', a1, a2, a3, a4⟩ := C34_neg hr hx ho hlo (by omega)
  refine ⟨H', a1, a2, by dsimp only [Info.neg]; omega, a3.trans h0.scale, h0.pos, h0.flt, fun j hj => ?_, fun k => -z k, fun k => -D k,
    fun k hk hne => by simp only [g1 k hk hne, neg_zero], g2.neg, g3.neg, fun j hj => ?_, _, a4, fun u hu => ?_⟩
  · dsimp only [Info.neg]
    rw [norm_neg]
    exact h0.val j hj
  · dsimp only [Info.neg]
    rw [slotVal_neg, mul_neg, ← neg_add', norm_neg, ← sub_eq_add_neg]
    exact g4 j hj
  · simp only [neg_mul, sum_neg_distrib]
    dsimp only [Info.neg] at hu
    rw [ex u (by omega)]
    dsimp only
    rw [← zero_sub, ← intR_zero, intR_sub]
    exact intR_congr fun k _ => by push_cast; ring

theorem rescaleMsg_of_eq {ev : Evaluator} {r : Ring} (he : ev.ringQ = r) (hr : r.Valid (logSlots + 1 + d)) (sr : r.Small) {H : Heap}
    {a out : Ref} {I : Info} (hS : ∀ k < 2 ^ (logSlots + 1 + d), |S k| ≤ 1) (h0 : CtMsg logSlots d r S (H a) I)
    (ho : CtShape 1 I.level (H out)) (hlev : 0 < I.level) {minScale : ℚ} (hm : 0 < minScale)
    (hlast : scaleAfter r I.level I.scale (I.level + 1) < f64Div minScale 2) :
    ∃ nb ≤ I.level, (∀ j, 0 < j → (f64Div minScale 2 ≤ scaleAfter r I.level I.scale j ↔ j ≤ nb)) ∧
    ∃ H', ev.rescale H a minScale out = some (.ok H') ∧ (∀ c ≠ out, H' c = H c) ∧
      CtMsg logSlots d r S (H' out) (I.rescale logSlots d (scaleAfter r I.level I.scale nb) (topQ r I.level nb) nb) := by
  subst he
  obtain ⟨z, D, g1, g2, g3, g4, henc⟩ := h0.enc
  have hl := h0.lvl
  obtain ⟨nb, b1, b2, H', Z', δ, b3, b4, b5, b6, b7, b8⟩ := C37_rescale_exact_partial (A := fun u => ev.ringQ.qs u + 1) hr sr hl
    (fun u => by omega) (fun u hu => by
      have := (hr.subAt (show u < ev.ringQ.subs.length by omega)).prime.one_le
      show ev.ringQ.qs u + 1 ≤ 2 * ev.ringQ.qs u
      unfold Ring.qs
      omega) henc ho hm (by rw [h0.scale]; exact h0.pos) (by rw [h0.scale]; exact h0.flt) hlev (by rw [h0.scale]; exact hlast)
  rw [h0.scale] at b2 b5
  refine ⟨nb, b1, b2, H', b3, b4, ?_⟩
  set P := topQ ev.ringQ I.level nb with hPd
  have hP : 0 < P := prod_pos fun i hi => (hr.subAt (show I.level - i < _ by omega)).prime.pos
  have hPq : (0 : ℚ) < P := by exact_mod_cast hP
  have hPr : (0 : ℝ) < P := by exact_mod_cast hP
  have hpos : ∀ j ≤ nb, 0 < scaleAfter ev.ringQ I.level I.scale j ∧
      f64 (scaleAfter ev.ringQ I.level I.scale j) = scaleAfter ev.ringQ I.level I.scale j := by
    intro j hj
    induction j with
    | zero => exact ⟨h0.pos, h0.flt⟩
    | succ j ih =>
      have h1 := (ih (by omega)).1
      have h2 : 0 < f64OfNat (ev.ringQ.qs (I.level - j)) := by
        have := (hr.subAt (show I.level - j < ev.ringQ.subs.length by omega)).prime.pos
        exact f64_pos (by exact_mod_cast this)
      have h3 : 0 < scaleAfter ev.ringQ I.level I.scale j / f64OfNat (ev.ringQ.qs (I.level - j)) := div_pos h1 h2
      exact ⟨f64_pos h3, f64_idem _ h3⟩
  refine ⟨by dsimp only [Info.rescale]; omega, b5, (hpos nb le_rfl).1, (hpos nb le_rfl).2, h0.val, roundDiv P z, fun k => Z' k - roundDiv P z k,
    g1.roundDiv hP, g2.roundDiv hP, fun k hk => ?_, fun j hj => ?_, ?_⟩
  · have e1 := b7 k hk
    have e2 : convSum (2 ^ (logSlots + 1 + d)) (1 + 1) δ (negPow (2 ^ (logSlots + 1 + d)) S) k =
        negConv (2 ^ (logSlots + 1 + d)) (δ 0) (negPow (2 ^ (logSlots + 1 + d)) S 0) k +
        negConv (2 ^ (logSlots + 1 + d)) (δ 1) (negPow (2 ^ (logSlots + 1 + d)) S 1) k := by
      unfold convSum
      rw [sum_range_succ, sum_range_one]
    have hδ : ∀ i, AbsLe (logSlots + 1 + d) (δ i) (P / 2) := fun i k _ => by
      have h : 2 * |(δ i k : ℚ)| ≤ P := by exact_mod_cast b8 i k
      linarith
    have p0 : negConv (2 ^ (logSlots + 1 + d)) (δ 0) (negPow (2 ^ (logSlots + 1 + d)) S 0) k = δ 0 k := by
      unfold negConv
      rw [sum_eq_single_of_mem k (mem_range.2 hk)]
      · simp [negPow]
      · intro i hi hne
        have hi := mem_range.1 hi
        split
        · simp only [negPow, if_neg (show ¬ k - i = 0 by omega), mul_zero]
        · simp only [negPow, if_neg (show ¬ 2 ^ (logSlots + 1 + d) + k - i = 0 by omega), mul_zero, neg_zero]
    have p1 : AbsLe (logSlots + 1 + d) (negPow (2 ^ (logSlots + 1 + d)) S 1) 1 := by
      intro i hi
      have e : negPow (2 ^ (logSlots + 1 + d)) S 1 i = S i := by
        rw [negPow]
        unfold negConv
        rw [sum_eq_single_of_mem 0 (mem_range.2 (Nat.two_pow_pos _))]
        · simp [negPow]
        · intro j hj hne
          simp [negPow, hne]
      rw [e]
      exact_mod_cast hS i hi
    have n0 := hδ 0 k hk
    have n1 := (hδ 1).mul p1 k hk
    have nz : |(P : ℚ) * roundDiv P z k - z k| ≤ P / 2 := by
      have h : 2 * |(P : ℚ) * roundDiv P z k - z k| ≤ P := by exact_mod_cast roundDiv_err hP z k
      linarith
    have nD := g3 k hk
    have key : (P : ℚ) * ((Z' k - roundDiv P z k : ℤ) : ℚ) = D k - (P * roundDiv P z k - z k) + δ 0 k +
        ((negConv (2 ^ (logSlots + 1 + d)) (δ 1) (negPow (2 ^ (logSlots + 1 + d)) S 1) k : ℤ) : ℚ) := by
      rw [e2, p0] at e1
      have e1' : (P : ℚ) * Z' k = z k + D k + (δ 0 k +
        ((negConv (2 ^ (logSlots + 1 + d)) (δ 1) (negPow (2 ^ (logSlots + 1 + d)) S 1) k : ℤ) : ℚ)) := by exact_mod_cast e1
      push_cast
      linear_combination e1'
    have bound : (P : ℚ) * |((Z' k - roundDiv P z k : ℤ) : ℚ)| ≤ I.β + P / 2 + P / 2 + 2 ^ (logSlots + 1 + d) * (P / 2 * 1) := by
      rw [← abs_of_pos hPq, ← abs_mul, abs_of_pos hPq, key]
      refine (abs_add_le _ _).trans (add_le_add ((abs_add_le _ _).trans (add_le_add ((abs_sub _ _).trans (add_le_add nD nz)) n0)) n1)
    dsimp only [Info.rescale]
    rw [show I.β / P + 1 + 2 ^ (logSlots + 1 + d) / 2 = (I.β + P / 2 + P / 2 + 2 ^ (logSlots + 1 + d) * (P / 2 * 1)) / P by
      field_simp; ring, le_div_iff₀ hPq]
    linarith
  · dsimp only [Info.rescale]
    have k1 := slotVal_roundDiv (logSlots := logSlots) (d := d) hP z j
    have k2 : ‖slotVal logSlots d z j / (P : ℂ) - ((I.scale / P : ℚ) : ℂ) * I.v j‖ ≤ I.ε / P := by
      have hne : (P : ℂ) ≠ 0 := by exact_mod_cast hP.ne'
      rw [show slotVal logSlots d z j / (P : ℂ) - ((I.scale / P : ℚ) : ℂ) * I.v j =
        (slotVal logSlots d z j - ((I.scale : ℚ) : ℂ) * I.v j) / (P : ℂ) by push_cast; field_simp, norm_div, Complex.norm_natCast]
      exact div_le_div_of_nonneg_right (g4 j hj) hPr.le
    have k3 := norm_add_le (slotVal logSlots d (roundDiv P z) j - slotVal logSlots d z j / (P : ℂ))
      (slotVal logSlots d z j / (P : ℂ) - ((I.scale / P : ℚ) : ℂ) * I.v j)
    rw [sub_add_sub_cancel] at k3
    have k4 := rescaled_close (s' := scaleAfter ev.ringQ I.level I.scale nb) (k3.trans (add_le_add k1 k2)) (h0.val j hj)
    refine k4.trans (le_of_eq ?_)
    push_cast
    ring
  · dsimp only [Info.rescale]
    simpa only [add_sub_cancel] using b6

theorem gapped_mul_abs {logSlots d : ℕ} {a b : ℕ → ℤ} {A B : ℚ} (ha : Gapped (logSlots + 1 + d) d a) (hb : Gapped (logSlots + 1 + d) d b)
    (hA : AbsLe (logSlots + 1 + d) a A) (hB : AbsLe (logSlots + 1 + d) b B) :
    AbsLe (logSlots + 1 + d) (negConv (2 ^ (logSlots + 1 + d)) a b) (2 ^ (logSlots + 1) * (A * B)) := by
  intro k hk
  by_cases h : k % 2 ^ d = 0
  · obtain ⟨i, rfl⟩ := Nat.dvd_of_mod_eq_zero h
    have hi : i < 2 ^ (logSlots + 1) := by
      rw [pow_add, mul_comm (2 ^ (logSlots + 1))] at hk
      exact Nat.lt_of_mul_lt_mul_left hk
    rw [mul_comm (2 ^ d), negConv_gap ha hi]
    exact AbsLe.mul (n := logSlots + 1) (a := fun i => a (i * 2 ^ d)) (b := fun i => b (i * 2 ^ d)) (fun i hi => hA _ (gap_lt hi))
      (fun i hi => hB _ (gap_lt hi)) i hi
  · rw [ha.mul (by omega) hb k hk h]
    have := hA.nonneg
    have := hB.nonneg
    simp only [Int.cast_zero, abs_zero]
    positivity

section
variable (Q : HomEnv fuel logSlots d p ev kg sk S tape e digit Be)
include Q

theorem _root_.FastKsw.Props.HomEnv.ring : ev.ckks.ringQ = p.ringQ := by
  obtain ⟨pool, h⟩ := Q.hev
  exact (newFEvaluator_eq h).1

/-- the error of one key switch -/
theorem _root_.FastKsw.Props.HomEnv.noise {level : ℕ} (hl : level < p.ringQ.subs.length) {o : Option ℤ}
    {a d0 d1 : ∀ u, Rq (2 ^ (logSlots + 1 + d)) (p.ringQ.qs u)} {sIn sOut E : ℕ → ℤ}
    (h : KeySwitched (logSlots + 1 + d) p.ringQ p.ringP level (p.alpha - 1) a d0 d1 sIn sOut (e o) E)
    (hs : ∀ k < 2 ^ (logSlots + 1 + d), |sOut k| ≤ 1) :
    AbsLe (logSlots + 1 + d) E (ksErr p (logSlots + 1 + d) digit Be level) := by
  intro k hk
  have ha : 0 < p.alpha := Q.ok.lenP
  have ha' : p.alpha - 1 + 1 = p.alpha := by omega
  have hml : level ≤ p.maxLevel := by unfold FParams.maxLevel; omega
  have := h.noise (M := digit) (Be := Be) (Bs := 1) (fun i hi => by rw [ha'] at hi ⊢; exact Q.hd level hml i hi)
    (fun i hi => Q.he o i (by rw [ha'] at hi; omega)) hs hk
  rw [ha', show level + (p.alpha - 1) + 1 = level + p.alpha by omega] at this
  have hP : (0 : ℚ) < (p.ringP.prodQ (p.alpha - 1) : ℚ) := by
    exact_mod_cast prodQ_pos Q.ok.hP (show p.alpha - 1 < p.ringP.subs.length by unfold FParams.alpha at ha ⊢; omega)
  have h2 : (2 : ℚ) ^ 42 * ((p.ringP.prodQ (p.alpha - 1) : ℚ) * |(E k : ℚ)|) ≤ (2 ^ 42 + 1) *
      ((((level + p.alpha) / p.alpha : ℕ) : ℚ) * (2 ^ (logSlots + 1 + d) * (digit * Be)) +
        (p.ringP.prodQ (p.alpha - 1) : ℚ) * (1 + 2 ^ (logSlots + 1 + d) * 1)) := by
    generalize (level + p.alpha) / p.alpha = c at this ⊢
    have := (Int.cast_le (R := ℚ)).2 this
    push_cast at this ⊢
    norm_num at this ⊢
    exact this
  unfold ksErr
  generalize (((level + p.alpha) / p.alpha : ℕ) : ℚ) = c at *
  generalize (p.ringP.prodQ (p.alpha - 1) : ℚ) = P at *
  rw [show (1 + 1 / 2 ^ 42) * (c * (2 ^ (logSlots + 1 + d) * (digit * Be)) / P + (1 + 2 ^ (logSlots + 1 + d))) =
    ((2 ^ 42 + 1) * (c * (2 ^ (logSlots + 1 + d) * (digit * Be)) + P * (1 + 2 ^ (logSlots + 1 + d) * 1))) / (2 ^ 42 * P) by
      field_simp, le_div_iff₀ (by positivity)]
  linarith

/-- **C85 (`Add`).** Two ciphertexts whose scales differ by less than a factor 2, any receiver of degree at least 1, operands and
receiver in any aliasing: the receiver holds the sum; where the scales differ, the operand of the smaller scale
enters with a relative error. -/
theorem C85_add {H : Heap} {a b out : Ref} {I J : Info} (h0 : CtMsg logSlots d p.ringQ S (H a) I)
    (h1 : CtMsg logSlots d p.ringQ S (H b) J) {dd lo : ℕ} (ho : CtShape dd lo (H out)) (hdd : 1 ≤ dd)
    (hsc : SameScale I.scale J.scale) :
    ∃ H', ev.ckks.add H a b out = some H' ∧ (∀ c ≠ out, H' c = H c) ∧ CtMsg logSlots d p.ringQ S (H' out) (I.add J lo) :=
  addMsg_of_eq Q.ring Q.ok.hQ h0 h1 ho hdd hsc

/-- **C85 (`Sub`).** -/
theorem C85_sub {H : Heap} {a b out : Ref} {I J : Info} (h0 : CtMsg logSlots d p.ringQ S (H a) I)
    (h1 : CtMsg logSlots d p.ringQ S (H b) J) {dd lo : ℕ} (ho : CtShape dd lo (H out)) (hdd : 1 ≤ dd)
    (hsc : SameScale I.scale J.scale) :
    ∃ H', ev.ckks.sub H a b out = some H' ∧ (∀ c ≠ out, H' c = H c) ∧ CtMsg logSlots d p.ringQ S (H' out) (I.sub J lo) :=
  subMsg_of_eq Q.ring Q.ok.hQ h0 h1 ho hdd hsc

/-- **C85 (`Neg`).** -/
theorem C85_neg {H : Heap} {a out : Ref} {I : Info} (h0 : CtMsg logSlots d p.ringQ S (H a) I) {lo : ℕ}
    (ho : CtShape 1 lo (H out)) (hlo : lo ≤ I.level) :
    ∃ H', ev.ckks.neg H a out = some H' ∧ (∀ c ≠ out, H' c = H c) ∧ CtMsg logSlots d p.ringQ S (H' out) (I.neg lo) :=
  negMsg_of_eq Q.ring Q.ok.hQ h0 ho hlo

/-- **C85 (`Rescale`; partial: the scale must fall below `minScale/2` before the last modulus is consumed).** The values stay, the scale is
divided; rounding adds at most `1 + N/2` to the noise and `2^logSlots` to the error of the slots.  Missing: as in
`C37_rescale_partial`. -/
theorem C85_rescale_partial {H : Heap} {a out : Ref} {I : Info} (h0 : CtMsg logSlots d p.ringQ S (H a) I)
    (ho : CtShape 1 I.level (H out)) (hlev : 0 < I.level) {minScale : ℚ} (hm : 0 < minScale)
    (hlast : scaleAfter p.ringQ I.level I.scale (I.level + 1) < f64Div minScale 2) :
    ∃ nb ≤ I.level, (∀ j, 0 < j → (f64Div minScale 2 ≤ scaleAfter p.ringQ I.level I.scale j ↔ j ≤ nb)) ∧
    ∃ H', ev.ckks.rescale H a minScale out = some (.ok H') ∧ (∀ c ≠ out, H' c = H c) ∧ CtMsg logSlots d p.ringQ S (H' out)
      (I.rescale logSlots d (scaleAfter p.ringQ I.level I.scale nb) (topQ p.ringQ I.level nb) nb) :=
  rescaleMsg_of_eq Q.ring Q.ok.hQ Q.ok.sQ Q.small h0 ho hlev hm hlast

/-- **C85 (`Rotate`).** With the key of the rotation by `k`, into a receiver of the same scale, possibly the input: slot `j` of
the result holds the value of slot `j + k`; the noise grows by the error of one key switch. -/
theorem C85_rotate (k : ℤ) {H : Heap} {a out : Ref} {I : Info} (h0 : CtMsg logSlots d p.ringQ S (H a) I) {lo : ℕ}
    (ho : CtShape 1 lo (H out)) (hlo : lo ≤ I.level) (hsc : (H out).scale = I.scale) :
    ∃ H', ev.rotate H a (kg.genRotKey k sk (tape (some k))) out = some H' ∧ (∀ c ≠ out, H' c = H c) ∧
      CtMsg logSlots d p.ringQ S (H' out) (I.rotate logSlots k (ksErr p (logSlots + 1 + d) digit Be lo) lo) := by
  obtain ⟨pool, hev⟩ := Q.hev
  obtain ⟨z, D, g1, g2, g3, g4, x, hx, ex⟩ := h0.enc
  have hl := h0.lvl
  have hN := Nat.two_pow_pos (logSlots + 1 + d)
  obtain ⟨H', a1, a2, a3, g', hg', -, d0, d1, E, hE, y, hy, ey⟩ := C31_rotate Q.ok Q.fits Q.ov hev Q.hg Q.hs (Q.ht (some k)) k hx ho
    hlo (by omega)
  have hS1 : AbsLe (logSlots + 1 + d) S 1 := fun i hi => by exact_mod_cast Q.small i hi
  have hE' := Q.noise (show lo < p.ringQ.subs.length by omega) hE (fun i hi => by exact_mod_cast hS1.aut hg' i hi)
  have hgo := (C25_rotation_odd Q.ok.hQ k).1
  set g := (p.ringQ.galoisElementForColumnRotationBy k).toNat with hg
  have hpos : (0 : ℤ) < 2 ^ logSlots := by positivity
  have hidx : ∀ j : ℕ, ((j + k) % 2 ^ logSlots).toNat < 2 ^ logSlots := fun j => by
    have h1 := Int.emod_nonneg (j + k) hpos.ne'
    have h2 := Int.emod_lt_of_pos (j + k) hpos
    have : (((j + k) % 2 ^ logSlots).toNat : ℤ) < 2 ^ logSlots := by rw [Int.toNat_of_nonneg h1]; exact h2
    exact_mod_cast this
  refine ⟨H', a1, a2, by dsimp only [Info.rotate]; omega, a3.trans hsc, h0.pos, h0.flt, fun j hj => h0.val _ (hidx j),
    autInt (2 ^ (logSlots + 1 + d)) g z, autInt (2 ^ (logSlots + 1 + d)) g (fun k => D k + E k), g1.aut (by omega) hgo, g2.aut hgo,
    (g3.add hE').aut hgo, fun j hj => ?_, y, hy.mono fun u _ => by omega, fun u hu => ?_⟩
  · rw [slotVal_rotate Q.ok.hQ k z j]
    exact g4 _ (hidx j)
  · dsimp only [Info.rotate] at hu
    rw [ey u hu]
    have e1 := ex u (by omega)
    rw [sum_range_succ, sum_range_one, pow_zero, mul_one, pow_one] at e1
    dsimp only at e1 ⊢
    rw [e1, intR_add, ← intR_add (N := 2 ^ (logSlots + 1 + d)) (autInt _ _ _) (autInt _ _ _), intR_autInt hN hgo, intR_autInt hN hgo,
      ← map_add, intR_add]
    congr 1
    exact intR_congr fun k _ => by push_cast; ring

/-- **C85 (`MulRelin`).** Any two ciphertexts of degree 1, any receiver of degree at least 1, any aliasing: the receiver holds the product
of the values, at the product of the scales rounded to float64. -/
theorem C85_mulRelin {H : Heap} {a b out : Ref} {I J : Info} (h0 : CtMsg logSlots d p.ringQ S (H a) I)
    (h1 : CtMsg logSlots d p.ringQ S (H b) J) {dd lo : ℕ} (ho : CtShape dd lo (H out)) (hdd : 1 ≤ dd) :
    ∃ H', ev.mulRelin H a b (kg.genRelinKey sk (tape none)) out = some H' ∧ (∀ c ≠ out, H' c = H c) ∧
      CtMsg logSlots d p.ringQ S (H' out) (I.mul logSlots d (ksErr p (logSlots + 1 + d) digit Be) J lo) := by
  obtain ⟨pool, hev⟩ := Q.hev
  obtain ⟨z, D, g1, g2, g3, g4, x, hx, ex⟩ := h0.enc
  obtain ⟨z', D', g1', g2', g3', g4', y, hy, ey⟩ := h1.enc
  have hl := h0.lvl
  obtain ⟨H', a1, a2, a3, d0, d1, E, hE, w, hw, ew⟩ := C30_mulRelin Q.ok Q.fits Q.ov hev Q.hg Q.hs (Q.ht none) hx.any hy.any ho hdd
    (level := min (min I.level J.level) lo) rfl (by omega)
  have hE' := Q.noise (show min (min I.level J.level) lo < p.ringQ.subs.length by omega) hE Q.small
  have hp := mul_pos h0.pos h1.pos
  rw [h0.scale, h1.scale] at a3
  refine ⟨H', a1, a2, by dsimp only [Info.mul]; omega, a3, f64_pos hp, f64_idem _ hp, fun j hj => ?_, negConv (2 ^ (logSlots + 1 + d)) z z',
    fun k => negConv (2 ^ (logSlots + 1 + d)) z D' k + negConv (2 ^ (logSlots + 1 + d)) D z' k + negConv (2 ^ (logSlots + 1 + d)) D D' k + E k, g1.mul (by omega) g1', gapped_mul_abs g1 g1' g2 g2', ?_,
    fun j hj => ?_, w, hw.mono fun u _ => by omega, fun u hu => ?_⟩
  · dsimp only [Info.mul]
    rw [norm_mul]
    exact mul_le_mul (h0.val j hj) (h1.val j hj) (norm_nonneg _) ((norm_nonneg _).trans (h0.val j hj))
  · refine ((((g2.mul g3').add (g3.mul g2')).add (g3.mul g3')).add hE').mono (le_of_eq ?_)
    dsimp only [Info.mul]
    ring
  · dsimp only [Info.mul]
    rw [slotVal_mul g1]
    have k0 := g4 j hj
    have k1 := g4' j hj
    have v0 := h0.val j hj
    have v1 := h1.val j hj
    set α := slotVal logSlots d z j
    set α' := slotVal logSlots d z' j
    have n0 : 0 ≤ I.V := (norm_nonneg _).trans v0
    have e0 : 0 ≤ I.ε := (norm_nonneg _).trans k0
    have s0 : (0 : ℝ) < I.scale := by exact_mod_cast h0.pos
    have s1 : (0 : ℝ) < J.scale := by exact_mod_cast h1.pos
    have key : ‖α * α' - ((I.scale * J.scale : ℚ) : ℂ) * (I.v j * J.v j)‖ ≤
        I.ε * J.ε + I.scale * I.V * J.ε + J.scale * J.V * I.ε := by
      rw [show α * α' - ((I.scale * J.scale : ℚ) : ℂ) * (I.v j * J.v j) =
        (α - ((I.scale : ℚ) : ℂ) * I.v j) * (α' - ((J.scale : ℚ) : ℂ) * J.v j) +
        (((I.scale : ℚ) : ℂ) * I.v j) * (α' - ((J.scale : ℚ) : ℂ) * J.v j) +
        (((J.scale : ℚ) : ℂ) * J.v j) * (α - ((I.scale : ℚ) : ℂ) * I.v j) by push_cast; ring]
      refine (norm_add_le _ _).trans (add_le_add ((norm_add_le _ _).trans (add_le_add ?_ ?_)) ?_)
      · rw [norm_mul]
        exact mul_le_mul k0 k1 (norm_nonneg _) e0
      · rw [norm_mul, norm_mul, norm_ratCast, abs_of_pos s0]
        exact mul_le_mul (mul_le_mul_of_nonneg_left v0 s0.le) k1 (norm_nonneg _) (by positivity)
      · rw [norm_mul, norm_mul, norm_ratCast, abs_of_pos s1]
        exact mul_le_mul (mul_le_mul_of_nonneg_left v1 s1.le) k0 (norm_nonneg _)
          (mul_nonneg s1.le ((norm_nonneg _).trans v1))
    have vv : ‖I.v j * J.v j‖ ≤ I.V * J.V := by
      rw [norm_mul]
      exact mul_le_mul v0 v1 (norm_nonneg _) n0
    refine (rescaled_close (s' := f64 (I.scale * J.scale)) key vv).trans (le_of_eq ?_)
    rw [abs_sub_comm]
    push_cast
    ring
  · dsimp only [Info.mul] at hu
    rw [ew u hu]
    have e1 := ex u (by omega)
    have e2 := ey u (by omega)
    rw [sum_range_succ, sum_range_one, pow_zero, mul_one, pow_one] at e1 e2
    dsimp only at e1 e2 ⊢
    rw [e1, e2, intR_mul, intR_add]
    refine intR_congr fun k _ => ?_
    have : negConv (2 ^ (logSlots + 1 + d)) (fun k => z k + D k) (fun k => z' k + D' k) k =
        negConv (2 ^ (logSlots + 1 + d)) z z' k + negConv (2 ^ (logSlots + 1 + d)) z D' k + negConv (2 ^ (logSlots + 1 + d)) D z' k + negConv (2 ^ (logSlots + 1 + d)) D D' k := by
      unfold negConv
      rw [← sum_add_distrib, ← sum_add_distrib, ← sum_add_distrib]
      refine sum_congr rfl fun i _ => ?_
      split <;> ring
    rw [this]
    push_cast
    ring

end
end

end FastKsw.Props
