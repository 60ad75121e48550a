import Verif.Model.ConjInvEncoder
import Verif.Props.ConjInv
import Verif.Props.SlotEncoder

/-!
# C94: encoding and decoding of real slots in a conjugate-invariant ring
-/

namespace FastKsw

open Finset

/-- spreading the compressed form spreads the symmetric polynomial -/
theorem symm_spread {R : Type*} [CommRing R] (m d : ℕ) (v : ℕ → R) {k : ℕ} (hk : k < 2 ^ (m + 1 + d)) :
    symm (2 ^ (m + d)) (spread (2 ^ d) v) k = spread (2 ^ d) (symm (2 ^ m) v) k := by
  have hd := Nat.two_pow_pos d
  have e1 : 2 ^ (m + d) = 2 ^ d * 2 ^ m := by ring
  have e2 : 2 ^ (m + 1 + d) = 2 * (2 ^ d * 2 ^ m) := by ring
  rw [e2] at hk
  unfold symm spread
  rw [e1]
  generalize 2 ^ d = g at *
  generalize 2 ^ m = M at *
  by_cases h0 : k % g = 0
  · obtain ⟨c, rfl⟩ := Nat.dvd_of_mod_eq_zero h0
    have e : 2 * (g * M) - g * c = g * (2 * M - c) := by
      rw [Nat.mul_sub, show g * (2 * M) = 2 * (g * M) by ring]
    simp only [e, Nat.mul_mod_right, if_true, Nat.mul_div_cancel_left _ hd, Nat.mul_lt_mul_left hd, Nat.mul_right_inj hd.ne']
  · have h1 : k ≠ g * M := fun h => h0 (by rw [h, Nat.mul_mod_right])
    have h2 : (2 * (g * M) - k) % g ≠ 0 := by
      intro h
      apply h0
      obtain ⟨c, hc⟩ := Nat.dvd_of_mod_eq_zero h
      have : k = g * (2 * M - c) := by
        rw [Nat.mul_sub, ← hc, show g * (2 * M) = 2 * (g * M) by ring]; omega
      rw [this, Nat.mul_mod_right]
    rw [if_neg h0, if_neg h0, if_neg h1, if_neg h2]
    split <;> simp

/-- One row of the sparse conjugate-invariant transform. -/
theorem ciSparseRow_is {s : SubRing} {m d : ℕ} (V : s.Valid (m + d + 1)) (hm : 4 ≤ m) (hq : s.q.toNat < 2 ^ 61) {B : ℕ}
    (hB2 : B + 4 * s.q.toNat ≤ 2 ^ 64) (mont : Bool) {x : Row} (hx : x.length = 2 ^ (m + d))
    {v : ℕ → ZMod s.q.toNat} (hb : ∀ k < 2 ^ m, (x.at k).toNat < B) (hv : ∀ k < 2 ^ m, zval s.q.toNat x k = v k) :
    RowIs (2 ^ (m + d)) s.q.toNat s.q.toNat (s.ciSparseRow (2 ^ (m + d)) (2 ^ m) mont x)
      (fun k => evals s.psi (m + d + 1) (symm (2 ^ (m + d)) (spread (2 ^ d) v)) k * (if mont then 2 ^ 64 else 1)) := by
  have hle : 2 ^ m ≤ 2 ^ (m + d) := Nat.pow_le_pow_right (by omega) (by omega)
  have hgap : 2 ^ (m + d) / 2 ^ m = 2 ^ d := by
    rw [pow_add, mul_comm, Nat.mul_div_cancel _ (by positivity)]
  have hmul : 2 ^ m * 2 ^ d = 2 ^ (m + d) := (pow_add 2 m d).symm
  have V' : s.Valid (m + 1 + d) := by rw [show m + 1 + d = m + d + 1 by omega]; exact V
  have A := V.arith
  have e2 : 2 ^ (m + 1) = 2 * 2 ^ m := by ring
  -- the transform on the first entries
  have htk : ∀ k < 2 ^ m, Row.at (x.take (2 ^ m)) k = x.at k := fun k hk => by rw [Row.at_take, if_pos hk]
  have htl : (x.take (2 ^ m)).length = 2 ^ m := by rw [List.length_take]; omega
  have hM : RowIs (2 ^ m) s.q.toNat s.q.toNat (s.ciNtt (2 ^ m) (x.take (2 ^ m)))
      (evals (s.psi ^ 2 ^ d) (m + 1) (symm (2 ^ m) v)) := by
    have htab := table_small V'
    have htw := twLaw_of_psi (psi_small_pow V')
    rw [e2] at htab htw
    obtain ⟨B', h1, h2, h3⟩ : ∃ B', B ≤ B' ∧ 4 * s.q.toNat ≤ B' ∧ B' + 4 * s.q.toNat ≤ 2 ^ 64 :=
      ⟨max B (4 * s.q.toNat), le_max_left _ _, le_max_right _ _, by omega⟩
    obtain ⟨z1, z2⟩ := ciNttLazy_spec V.mred (by omega) rfl htab htw h2 h3 (x.take (2 ^ m)) htl
      (fun k hk => by rw [htk k hk]; exact lt_of_lt_of_le (hb k hk) h1)
    have key : RowIs (2 ^ m) s.q.toNat (2 ^ 64) (ciNttLazy (x.take (2 ^ m)) (2 ^ m) s.nttPsi s.q s.mred)
        (evals (s.psi ^ 2 ^ d) (m + 1) (symm (2 ^ m) v)) := by
      refine ⟨z1, fun k _ => UInt64.toNat_lt _, fun i hi => ?_⟩
      rw [z2 i hi]
      unfold evals
      rw [e2]
      apply sum_congr rfl
      intro j hj
      have hp := evalPt_psi (psi_small_pow V') (by omega) (i := i) (by omega)
      rw [e2] at hp
      rw [hp]
      congr 1
      have hj := mem_range.1 hj
      have hz : ∀ k < 2 ^ m, zval s.q.toNat (x.take (2 ^ m)) k = v k := by
        intro k hk; rw [← hv k hk]; unfold zval; rw [htk k hk]
      unfold symm
      split
      · rename_i h; exact hz j h
      · split
        · rfl
        · rw [hz _ (by omega)]
    exact reduceVec_is A key
  generalize hM' : s.ciNtt (2 ^ m) (x.take (2 ^ m)) = M at hM
  have hYl : (M ++ x.drop (2 ^ m)).length = 2 ^ (m + d) := by
    rw [List.length_append, hM.len, List.length_drop]; omega
  have hYat : ∀ k < 2 ^ m, Row.at (M ++ x.drop (2 ^ m)) k = M.at k := by
    intro k hk
    unfold Row.at
    rw [List.getD_append _ _ _ _ (by rw [hM.len]; exact hk)]
  generalize hY' : M ++ x.drop (2 ^ m) = Y at hYl hYat
  -- Montgomery form
  have hP : ∃ P, P = (if mont then onPrefix (2 ^ m) (fun z => mformVec z s.q s.bred) Y else Y) ∧
      P.length = 2 ^ (m + d) ∧ ∀ k < 2 ^ m, (Row.at P k).toNat < s.q.toNat ∧
        zval s.q.toNat P k = evals (s.psi ^ 2 ^ d) (m + 1) (symm (2 ^ m) v) k * (if mont then 2 ^ 64 else 1) := by
    refine ⟨_, rfl, ?_⟩
    have hMat : ∀ k < 2 ^ m, (Row.at Y k).toNat < s.q.toNat ∧
        zval s.q.toNat Y k = evals (s.psi ^ 2 ^ d) (m + 1) (symm (2 ^ m) v) k := by
      intro k hk
      unfold zval
      rw [hYat k hk]
      exact ⟨hM.lt k hk, hM.val k hk⟩
    cases mont with
    | false => simpa using ⟨hYl, hMat⟩
    | true =>
      simp only [if_true]
      have hf : onPrefix (2 ^ m) (fun z => mformVec z s.q s.bred) Y =
          onPrefix (2 ^ m) (fun z => z.map (fun x => mform x s.q s.bred)) Y := rfl
      rw [hf]
      refine ⟨by rw [onPrefix_length, hYl], fun k hk => ?_⟩
      unfold zval
      rw [onPrefix_at _ _ _ _ hk (by rw [hYl]; exact hle), A.bred, ← (hMat k hk).2]
      have h := mform_zmod A.one_lt A.lt.le (Row.at Y k)
      exact ⟨h.1, h.2⟩
  obtain ⟨P, hPd, hPl, hPv⟩ := hP
  obtain ⟨s1, s2⟩ := spreadRow_spec (2 ^ m) (2 ^ d) P (by positivity) (by rw [hPl, hmul])
  have hdef : s.ciSparseRow (2 ^ (m + d)) (2 ^ m) mont x = spreadRow (2 ^ m) (2 ^ d) P := by
    unfold SubRing.ciSparseRow
    simp only [hM', hY', hgap]
    rw [hPd]
  rw [hdef]
  have hdiv : ∀ k < 2 ^ (m + d), k / 2 ^ d < 2 ^ m := by
    intro k hk
    rw [Nat.div_lt_iff_lt_mul (by positivity), hmul]; exact hk
  refine ⟨by rw [s1, hPl], fun k hk => ?_, fun k hk => ?_⟩
  · rw [s2 k (by rw [hmul]; exact hk)]
    exact (hPv _ (hdiv k hk)).1
  · have := (hPv _ (hdiv k hk)).2
    have hev : evals s.psi (m + d + 1) (symm (2 ^ (m + d)) (spread (2 ^ d) v)) k =
        evals (s.psi ^ 2 ^ d) (m + 1) (symm (2 ^ m) v) (k / 2 ^ d) := by
      rw [← evals_spread V'.psi_pow]
      unfold evals
      rw [show m + d + 1 = m + 1 + d by omega]
      refine sum_congr rfl fun j hj => ?_
      rw [symm_spread m d v (mem_range.1 hj)]
    unfold zval at this ⊢
    rw [s2 k (by rw [hmul]; exact hk), this, hev]

namespace Props

variable {n : ℕ} {r rS : Ring} {level : ℕ}

/-- `NewRingConjugateInvariant` asks for roots of order `4N` -/
theorem ci_root {fuel N : ℕ} {moduli : List UInt64} (h : newRingConjugateInvariant fuel N moduli = .ok r) :
    r.nthRoot = 4 * N := by
  unfold newRingConjugateInvariant at h
  obtain ⟨h1, ⟨n, hn⟩, a, b, c, hd, e, ht, f, hf⟩ := newRingCustom_ok h
  first | exact e | exact f

/-- `pt` holds the integer polynomial `z₀ + Σ zₖ(X^k + X^-k)` of the conjugate-invariant ring in the NTT domain -/
def HoldsReal (r : Ring) (n level : ℕ) (pt : Rows) (z : ℕ → ℤ) : Prop :=
  PolyIs r level r.qs pt (fun i => evals (r.sub i).psi (n + 1) (symm (2 ^ n) fun k => ((z k : ℤ) : ZMod (r.sub i).q.toNat)))

/-- **C94 (encoding).** `Embed` (after the inverse transform) on `2^logSlots` values: the real parts, scaled and
rounded, become the coefficients of `1, Y + Y^-1, Y^2 + Y^-2, …` with `Y = X^(N/slots)`, in every row, reduced, in the NTT
domain and in Montgomery form if asked for; the imaginary parts are not used.  All other coefficients are
zero, whatever the plaintext held.  Missing: fewer than 16 slots (see `C94_violated`) and products of exactly `2^64`. -/
theorem C94_embed_partial {logSlots d : ℕ} (hr : CIValid (logSlots + d) r) (hroot : r.nthRoot = 4 * r.n) (sr : r.Small)
    (hl : level < r.subs.length) (h4 : 4 ≤ logSlots)
    (values : List (ℚ × ℚ)) (hv : values.length = 2 ^ logSlots) {scale : ℚ} (hs : 0 < scale)
    (h64 : ∀ v ∈ values, f64 |v.1 * scale| ≠ 2 ^ 64) (mont : Bool) (p : Rows)
    (hp : level < p.length) (hrow : ∀ i ≤ level, (p.row i).length = r.n) :
    ∃ (p' : Rows) (z : ℕ → ℤ), r.embedPolyReal level logSlots values scale mont p = some p' ∧
      Rounds (values.map Prod.fst) scale z ∧
      PolyWritten r level r.qs p p' (fun i k =>
        (if mont then 2 ^ 64 else 1) * evals (r.sub i).psi (logSlots + d + 1) (symm (2 ^ (logSlots + d))
          (fun k => if k % 2 ^ d = 0 then ((z (k / 2 ^ d) : ℤ) : ZMod (r.sub i).q.toNat) else 0)) k) := by
  set l := values.map Prod.fst with hlist
  have hll : l.length = 2 ^ logSlots := by rw [hlist]; simp [hv]
  have h64' : ∀ v ∈ l, f64 |v * scale| ≠ 2 ^ 64 := by
    intro v hv
    rw [hlist, List.mem_map] at hv
    obtain ⟨c, hc, rfl⟩ := hv
    exact h64 c hc
  have hmem : ∀ k, k < l.length → l.getD k 0 ∈ l := by
    intro k hk
    simp [List.getD, hk]
  have hle : 2 ^ logSlots ≤ 2 ^ (logSlots + d) := Nat.pow_le_pow_right (by omega) (by omega)
  have h16 : 2 ^ 4 ≤ 2 ^ logSlots := Nat.pow_le_pow_right (by omega) h4
  set c := r.realToFixedPointCRT level values scale p with hc
  have hcl : c.length = p.length := length_writeLvl _ _ _
  have hlt61 : ∀ i ≤ level, (r.sub i).q.toNat < 2 ^ 61 := fun i hi => sr _ (Ring.sub_mem (by omega))
  have hV : ∀ i ≤ level, (r.sub i).Valid (logSlots + d + 1) := fun i hi => hr.sub _ (Ring.sub_mem (by omega))
  have hw : ∀ i ≤ level, ∀ k < 2 ^ logSlots, ((c.row i).at k).toNat < 2 ^ 61 + 1 ∧
      (((c.row i).at k).toNat : ZMod (r.sub i).q.toNat) = (fixedInt (l.getD k 0) scale : ZMod (r.sub i).q.toNat) := by
    intro i hi k hk
    have := fixedPoint_spec (hV i hi).arith (l.getD k 0) hs (h64' _ (hmem k (by omega)))
    rw [hc, Ring.realToFixedPointCRT, fixedPoint_row_at hi _ _ _ hp, ← hlist, hll, if_pos hk]
    refine ⟨lt_of_lt_of_le this.1 (max_le ?_ ?_), this.2⟩
    · have := hlt61 i hi; omega
    · omega
  have hcrow : ∀ i ≤ level, (c.row i).length = 2 ^ (logSlots + d) := by
    intro i hi
    rw [hc]
    unfold Ring.realToFixedPointCRT Ring.floatToFixedPointCRT
    rw [row_writeLvl hi hp, ← hr.deg, ← hrow i hi]
    have := hrow i hi
    rw [hr.deg] at this
    simp [setRow, hv]
    omega
  have hroot4 : r.nthRoot / 4 = 2 ^ (logSlots + d) := by rw [hroot, hr.deg]; omega
  have habove : ∀ i > level, c.row i = p.row i := fun i hi => by rw [hc]; exact row_writeLvl_above hi
  unfold Ring.embedPolyReal Ring.ciNttAndMontgomeryLvl
  rw [← hc, hroot4]
  by_cases hd : d = 0
  · subst hd
    rw [if_pos (show 2 ^ logSlots = 2 ^ (logSlots + 0) from rfl)]
    refine ⟨_, fun k => fixedInt (l.getD k 0) scale, rfl, fun k _ => fixedInt_err _ hs, ?_⟩
    dsimp only
    have hE : PolyWritten r level r.qs c (r.ciNttLvl level c c) (fun i => evals (r.sub i).psi (logSlots + 0 + 1)
        (symm (2 ^ (logSlots + 0)) (fun k => ((fixedInt (l.getD k 0) scale : ℤ) : ZMod (r.sub i).q.toNat)))) := by
      unfold Ring.ciNttLvl
      refine writeLvl_is (by omega) (fun i hi => ?_)
      have h61 := hlt61 i hi
      rw [hr.deg]
      exact ciNtt_is (hV i hi) h61 (B := 2 ^ 61 + 1) (by omega)
        ⟨hcrow i hi, fun k hk => (hw i hi k hk).1, fun k hk => (hw i hi k hk).2⟩
    have hfun : ∀ i k, (if k % 2 ^ 0 = 0 then ((fixedInt (l.getD (k / 2 ^ 0) 0) scale : ℤ) : ZMod (r.sub i).q.toNat) else 0) =
        ((fixedInt (l.getD k 0) scale : ℤ) : ZMod (r.sub i).q.toNat) := by
      intro i k
      rw [pow_zero, Nat.mod_one, if_pos rfl, Nat.div_one]
    simp only [hfun]
    cases mont
    · simp only [Bool.false_eq_true, if_false, one_mul]
      exact ⟨hE.is, by rw [hE.len, hcl], fun i hi => by rw [hE.above i hi, habove i hi]⟩
    · simp only [if_true]
      have hM : PolyWritten r level r.qs (r.ciNttLvl level c c)
          (r.mformLvl level (r.ciNttLvl level c c) (r.ciNttLvl level c c)) _ :=
        writeLvl_is hE.is.lvl (fun i hi => mformVec_is (hV i hi).arith (hE.is.row i hi))
      refine ⟨hM.is.congr fun i _ k _ => mul_comm _ _, ?_, fun i hi => ?_⟩
      · rw [hM.len, hE.len, hcl]
      · rw [hM.above i hi, hE.above i hi, habove i hi]
  · rw [if_neg fun h => hd (by have := Nat.pow_right_injective le_rfl h; omega)]
    dsimp only
    rw [if_neg (by omega)]
    refine ⟨_, fun k => fixedInt (l.getD k 0) scale, rfl, fun k _ => fixedInt_err _ hs, ?_⟩
    have hE : PolyWritten r level r.qs c _ _ :=
      writeLvl_is (r := r) (A := r.qs) (f := fun i => (r.sub i).ciSparseRow r.n (2 ^ logSlots) mont (c.row i))
        (v := fun i k => evals (r.sub i).psi (logSlots + d + 1) (symm (2 ^ (logSlots + d))
          (spread (2 ^ d) fun k => ((fixedInt (l.getD k 0) scale : ℤ) : ZMod (r.sub i).q.toNat))) k * (if mont then 2 ^ 64 else 1))
        (by omega : level < c.length) (fun i hi => by
          have h61 := hlt61 i hi
          rw [hr.deg]
          exact ciSparseRow_is (hV i hi) h4 h61 (B := 2 ^ 61 + 1) (by omega) mont (hcrow i hi)
            (fun k hk => (hw i hi k hk).1) (fun k hk => (hw i hi k hk).2))
    exact ⟨hE.is.congr fun i _ k _ => mul_comm _ _, by rw [hE.len, hcl], fun i hi => by rw [hE.above i hi, habove i hi]⟩

/-- **C94 fails** for 1, 2, 4 and 8 slots in a larger ring, although these pass the checks of `Embed` and its comment asks for
8 slots or more: the transform of the values is computed, then the code panics. -/
theorem C94_panics {logSlots d : ℕ} (hr : CIValid (logSlots + d) r) (hroot : r.nthRoot = 4 * r.n) (h3 : logSlots ≤ 3)
    (roots : ℕ → ℂ) (mem vals : List ℂ) (hvals : vals.length ≤ 2 ^ logSlots) (values : List (ℚ × ℚ)) (scale : ℚ) (mont : Bool)
    (p : Rows) :
    (∃ y, encodeRealFFT r.nthRoot roots mem vals logSlots = some y) ∧
      r.embedPolyReal level logSlots values scale mont p = none := by
  have hroot4 : r.nthRoot / 4 = 2 ^ (logSlots + d) := by rw [hroot, hr.deg]; omega
  have hle : 2 ^ logSlots ≤ 2 ^ (logSlots + d) := Nat.pow_le_pow_right (by omega) (by omega)
  have h8 : 2 ^ logSlots ≤ 2 ^ 3 := Nat.pow_le_pow_right (by omega) h3
  have h4 := hr.four_le
  constructor
  · unfold encodeRealFFT encodeFFT
    dsimp only
    rw [hroot4, if_neg (by rw [List.length_map]; omega)]
    exact ⟨_, rfl⟩
  · unfold Ring.embedPolyReal Ring.ciNttAndMontgomeryLvl
    rw [hroot4, if_neg fun h => by have := Nat.pow_right_injective le_rfl h; omega]
    dsimp only
    rw [if_pos (by omega)]

/-- **C94, violated**: degree 16, modulus 193, the value 1 in each of 8 slots. -/
theorem C94_violated : ∃ r : Ring, newRingConjugateInvariant 100 16 [193] = .ok r ∧
    (∃ y, encodeRealFFT r.nthRoot (encRoots r.nthRoot) (List.replicate 16 0) (List.replicate 8 1) 3 = some y) ∧
    r.embedPolyReal 0 3 (List.replicate 8 (1, 0)) 1 false (newPoly 16 1) = none := by
  obtain ⟨-, rS, -, h2, -⟩ := rings193
  obtain ⟨r, hr⟩ := ci_of_std (fuel := 100) (N := 16) (by decide) (moduli := [193]) h2
  obtain ⟨n, hn, hP⟩ := C67_rings (by simp) (by norm_num) hr h2
  obtain rfl : n = 3 + 1 := (Nat.pow_right_injective le_rfl (show 2 ^ 4 = 2 ^ n from hn)).symm
  have hroot := ci_root hr
  exact ⟨r, hr, C94_panics hP.ci (by rw [hroot, hP.ci.deg]; rfl) le_rfl _ _ _ (by simp) _ _ _ _⟩

/-! ### Decoding -/

/-- the buffer of the decoder after the inverse transform -/
theorem ciInvPool_row (hr : CIValid n r) (sr : r.Small) (hl : level < r.subs.length) (z : ℕ → ℤ) (pt pool : Rows)
    (hpool : pool.length = r.subs.length) (hp : HoldsReal r n level pt z) :
    ∀ i ≤ level, RowIs r.n (r.sub i).q.toNat (r.sub i).q.toNat ((r.ciInvNttLvl level pt pool).row i)
      (fun k => ((z k : ℤ) : ZMod (r.sub i).q.toNat)) := by
  have h4 := hr.four_le
  intro i hi
  have V := hr.sub _ (Ring.sub_mem (show i < r.subs.length by omega))
  have hlt := sr _ (Ring.sub_mem (show i < r.subs.length by omega))
  have h1 := hp.row i hi
  unfold Ring.ciInvNttLvl
  rw [row_writeLvl hi (by omega)]
  rw [hr.deg] at h1 ⊢
  obtain ⟨c, c1, c2⟩ := ciInvNtt_is V (by omega) hlt (h1.mono (by unfold Ring.qs; omega))
  exact c1.congr fun k hk => symm_injective V (by omega) c2 k hk

/-- what depends on the moduli only is the same in the two rings -/
theorem CIPair.crt (h : CIPair n r rS) (L : ℕ) :
    (∀ j, rS.sub j = r.sub j) ∧ rS.prodQ L = r.prodQ L ∧ rS.bigintChain L = r.bigintChain L ∧
      ∀ (pool : Rows) (gap i : ℕ), 0 < gap → i * gap < r.n →
        (r.polyToBigintLvl L pool gap).getD i 0 = (rS.polyToBigintLvl L pool gap).getD i 0 := by
  have hs : ∀ j, rS.sub j = r.sub j := fun j => by unfold Ring.sub; rw [h.subs]
  have hm : rS.modulusLvl L = r.modulusLvl L := by unfold Ring.modulusLvl; simp only [hs]
  refine ⟨hs, by unfold Ring.prodQ; simp only [hs], hm, fun pool gap i hg hi => ?_⟩
  have hc : rS.coeffBigint L pool (i * gap) = r.coeffBigint L pool (i * gap) := by
    unfold Ring.coeffBigint
    rw [hm]
    congr 3
    funext acc k
    congr 2
    unfold Ring.crtReconstruction Ring.modulusBigint Ring.moduli
    simp only [hs, h.subs]
  have hn : r.n ≤ rS.n := by rw [h.ci.deg, h.std.deg]; exact Nat.pow_le_pow_right (by omega) (by omega)
  have k1 : i < (r.n + gap - 1) / gap := by rw [Nat.lt_div_iff_mul_lt hg]; omega
  have k2 : i < (rS.n + gap - 1) / gap := by rw [Nat.lt_div_iff_mul_lt hg]; omega
  unfold Ring.polyToBigintLvl
  simp [List.getD, k1, k2, hc]

/-- **C94 (coefficients).** What the decoder feeds to the transform for `2^logSlots` slots, at any level and with any
content of its buffer: the coefficients `cₖ` at the multiples of `gap = N/slots`, divided by the scale in float64, as real parts,
and `-c_(slots-k)` as imaginary parts for `k > 0`. -/
theorem C94_toComplex_partial {logSlots d : ℕ} (hr : CIPair (logSlots + d) r rS) (hroot : r.nthRoot = 4 * r.n) (sr : r.Small)
    (hl : level < r.subs.length) (scale : ℚ) (z : ℕ → ℤ) (hz : InRange r level z) (pt pool : Rows)
    (hpool : pool.length = r.subs.length) (hp : HoldsReal r (logSlots + d) level pt z) :
    r.decodeRealToComplex true level scale logSlots pt pool = some ((List.range (2 ^ logSlots)).map fun i =>
      (f64Div (f64 (z (i * 2 ^ d))) scale,
        if 1 ≤ i then -f64Div (f64 (z ((2 ^ logSlots - i) * 2 ^ d))) scale else 0)) := by
  have hroot4 : r.nthRoot / 4 = 2 ^ logSlots * 2 ^ d := by rw [hroot, hr.ci.deg, pow_add]; omega
  have hN : r.n = 2 ^ logSlots * 2 ^ d := by rw [hr.ci.deg, pow_add]
  have hgap : r.nthRoot / 4 / 2 ^ logSlots = 2 ^ d := by
    rw [hroot4, Nat.mul_div_cancel_left _ (Nat.two_pow_pos _)]
  have hd := Nat.two_pow_pos d
  have hinv := ciInvPool_row hr.ci sr hl z pt pool hpool hp
  have hlt : ∀ i < 2 ^ logSlots, i * 2 ^ d < r.n := by
    intro i hi
    rw [hN]
    exact Nat.mul_lt_mul_of_pos_right hi hd
  have hlen : (r.ciInvNttLvl level pt pool).length = r.subs.length := by
    unfold Ring.ciInvNttLvl; rw [length_writeLvl, hpool]
  obtain ⟨hs, hQ, hB, -⟩ := hr.crt level
  have hlS : level < rS.subs.length := by rw [hr.subs]; exact hl
  have hre : (if level = 0 then r.polyToRealNoCRT ((r.ciInvNttLvl level pt pool).row 0) scale logSlots
      else r.polyToRealCRT (r.ciInvNttLvl level pt pool) scale logSlots (r.bigintChain level)) =
      (List.range (2 ^ logSlots)).map fun i => f64Div (f64 (z (i * 2 ^ d))) scale := by
    by_cases h0 : level = 0
    · subst h0
      rw [if_pos rfl]
      unfold Ring.polyToRealNoCRT
      dsimp only
      apply List.map_congr_left
      intro i hi
      have hi := List.mem_range.1 hi
      rw [hgap]
      have hzk := hz _ (hlt i hi)
      have hodd := prodQ_odd hr.std hlS
      rw [hQ] at hodd
      rw [prodQ_zero] at hzk hodd
      rw [word_decode hodd hzk ((hinv 0 le_rfl).lt _ (hlt i hi)) ((hinv 0 le_rfl).val _ (hlt i hi))]
    · rw [if_neg h0]
      unfold Ring.polyToRealCRT
      dsimp only
      apply List.map_congr_left
      intro i hi
      have hi := List.mem_range.1 hi
      rw [hgap, (hr.crt _).2.2.2 _ _ _ hd (hlt i hi)]
      have hnS : i * 2 ^ d < rS.n := by
        have h1 := hlt i hi
        rw [hr.ci.deg] at h1
        rw [hr.std.deg, pow_succ]
        omega
      have b1 := big_decode hr.std hlS (r.ciInvNttLvl level pt pool) (by rw [hlen, hr.subs]) (z := z (i * 2 ^ d))
        (by rw [hQ]; exact hz _ (hlt i hi)) hd hnS (fun j hj => by
          rw [hs]
          exact (hinv j hj).val _ (hlt i hi))
      rw [hB] at b1
      dsimp only at b1
      rw [b1]
      rfl
  unfold Ring.decodeRealToComplex
  rw [if_neg (by rw [hroot4]; exact not_lt.2 (Nat.le_mul_of_pos_right _ hd))]
  simp only [if_true]
  rw [hre]
  congr 1
  apply List.map_congr_left
  intro i hi
  have hi := List.mem_range.1 hi
  have hg : ∀ k < 2 ^ logSlots, ((List.range (2 ^ logSlots)).map fun i => f64Div (f64 (z (i * 2 ^ d))) scale).getD k 0 =
      f64Div (f64 (z (k * 2 ^ d))) scale := by
    intro k hk; simp [List.getD, hk]
  rw [hg i hi]
  congr 1
  split
  · rw [hg _ (by omega), zero_sub]
  · rfl

/-- the decoded slots as values of the polynomial with the complex coefficients that are fed to the transform -/
theorem decodeRealSlots_eval {K : Type} [Field K] {roots : ℕ → K} {ζ : K} {logSlots d : ℕ} (hr : CIPair (logSlots + d) r rS)
    (hroot : r.nthRoot = 4 * r.n) (sr : r.Small) (hl : level < r.subs.length)
    (T : RootTable (2 ^ (logSlots + 2 + d)) roots ζ) (im : K) (mem : List K)
    (hmem : 2 ^ logSlots ≤ mem.length ∧ (3 ≤ logSlots → 16 ≤ mem.length))
    (scale : ℚ) (z : ℕ → ℤ) (hz : InRange r level z) (pt pool : Rows) (hpool : pool.length = r.subs.length)
    (hp : HoldsReal r (logSlots + d) level pt z) :
    ∃ s, r.decodeRealSlots roots im mem true level scale logSlots pt pool = some s ∧
      s.length = 2 ^ logSlots ∧
      ∀ j < 2 ^ logSlots, s.getD j 0 = ∑ k ∈ range (2 ^ logSlots),
        (((f64Div (f64 (z (k * 2 ^ d))) scale : ℚ) : K) +
          ((if 1 ≤ k then -f64Div (f64 (z ((2 ^ logSlots - k) * 2 ^ d))) scale else 0 : ℚ) : K) * im) *
            (ζ ^ 2 ^ d) ^ (5 ^ j * k) := by
  have hM : r.nthRoot = 2 ^ (logSlots + 2 + d) := by
    rw [hroot, hr.ci.deg]; ring
  unfold Ring.decodeRealSlots
  rw [C94_toComplex_partial hr hroot sr hl scale z hz pt pool hpool hp, Option.map_some, hM]
  refine ⟨_, rfl, ?_, ?_⟩
  all_goals set x : List K := _ ++ List.drop (2 ^ logSlots) mem with hx
  all_goals have hxl : x.length = mem.length := by rw [hx]; simp; omega
  · rw [List.length_take, specialFFT_length _ _ (by omega), hxl]; omega
  · intro j hj
    have hcap : fftCap (decide (3 ≤ logSlots)) (2 ^ logSlots) ≤ x.length := by
      rw [hxl]
      exact fftCap_le hmem.1 hmem.2
    have htake : ∀ (y : List K), (y.take (2 ^ logSlots)).getD j 0 = y.getD j 0 := by
      intro y; simp [List.getD, List.getElem?_take, hj]
    rw [htake, specialFFT_at T _ x hcap j hj]
    refine Finset.sum_congr rfl fun k hk => ?_
    have hk := Finset.mem_range.1 hk
    congr 1
    rw [hx, List.getD_append _ _ _ _ (by simp [hk])]
    simp [List.getD, hk]

/-- the points at which the transform evaluates -/
theorem encZeta_point (logSlots d j k : ℕ) : (encZeta (2 ^ (logSlots + 2 + d)) ^ 2 ^ d) ^ (5 ^ j * k) =
    Complex.exp (((2 * Real.pi * (5 ^ j * k) / (4 * 2 ^ logSlots) : ℝ) : ℂ) * Complex.I) := by
  unfold encZeta
  rw [← Complex.exp_nat_mul, ← Complex.exp_nat_mul]
  congr 1
  have h1 : (2 : ℂ) ^ d ≠ 0 := pow_ne_zero _ two_ne_zero
  have h2 : (2 : ℂ) ^ logSlots ≠ 0 := pow_ne_zero _ two_ne_zero
  push_cast
  rw [pow_add, pow_add]
  field_simp
  ring

/-- a vector with the imaginary part `-c_(m-k)` at `k` has the real values `c₀ + 2Σ cₖ cos(kθ)` -/
theorem real_eval {m : ℕ} (hm : 0 < m) (c : ℕ → ℝ) (w : ℂ) (hw : w ^ m = Complex.I) :
    ∑ k ∈ range m, ((c k : ℂ) + ((if 1 ≤ k then -c (m - k) else 0 : ℝ) : ℂ) * Complex.I) * w ^ k =
      (c 0 : ℂ) + ∑ k ∈ Finset.Ico 1 m, (c k : ℂ) * (w ^ k + (w ^ k)⁻¹) := by
  have hw0 : w ≠ 0 := by
    rintro rfl
    rw [zero_pow hm.ne'] at hw
    exact Complex.I_ne_zero hw.symm
  have hinv : Complex.I⁻¹ = -Complex.I := Complex.inv_I
  have key : ∑ k ∈ Finset.Ico 1 m, ((-c (m - k) : ℝ) : ℂ) * Complex.I * w ^ k = ∑ k ∈ Finset.Ico 1 m, (c k : ℂ) * (w ^ k)⁻¹ := by
    have hr := Finset.sum_Ico_reflect (fun k => (c k : ℂ) * (w ^ k)⁻¹) 1 (show m ≤ m + 1 by omega)
    rw [show m + 1 - m = 1 by omega, show m + 1 - 1 = m by omega] at hr
    rw [← hr]
    refine Finset.sum_congr rfl fun k hk => ?_
    have hk := Finset.mem_Ico.1 hk
    have : (w ^ (m - k))⁻¹ = -Complex.I * w ^ k := by
      rw [← hinv, ← hw, show m = (m - k) + k by omega, pow_add, Nat.add_sub_cancel]
      field_simp
    rw [this]
    push_cast
    ring
  rw [Finset.range_eq_Ico, Finset.sum_eq_sum_Ico_succ_bot hm]
  simp only [show ¬ (1 ≤ 0) by omega, if_false, Complex.ofReal_zero, zero_mul, add_zero, pow_zero, mul_one]
  congr 1
  rw [show (0 : ℕ) + 1 = 1 from rfl]
  simp only [mul_add]
  rw [Finset.sum_add_distrib, ← key, ← Finset.sum_add_distrib]
  refine Finset.sum_congr rfl fun k hk => ?_
  rw [if_pos (Finset.mem_Ico.1 hk).1]
  ring

/-- the powers of a point: its `slots`-th power is the imaginary unit -/
theorem point_pow (logSlots d j : ℕ) :
    ((encZeta (2 ^ (logSlots + 2 + d)) ^ 2 ^ d) ^ 5 ^ j) ^ 2 ^ logSlots = Complex.I := by
  have h5 : 5 ^ j % 4 = 1 := by rw [Nat.pow_mod]; norm_num
  have hI : encZeta (2 ^ (logSlots + 2 + d)) ^ 2 ^ (logSlots + d) = Complex.I := by
    rw [show logSlots + 2 + d = logSlots + d + 2 by omega]; exact encZeta_im
  rw [← pow_mul, ← pow_mul, show 2 ^ d * (5 ^ j * 2 ^ logSlots) = 2 ^ (logSlots + d) * 5 ^ j by ring, pow_mul, hI,
    ← Nat.div_add_mod (5 ^ j) 4, h5, pow_add, pow_mul, Complex.I_pow_four, one_pow, one_mul, pow_one]

/-- **C94 (decoding).** Slot `j` of the decoded vector is the real number `c₀ + 2 Σ cₖ cos(2π 5^j k / (4 slots))`, the value of
`c₀ + Σ cₖ(Y^k + Y^-k)` at a `4 slots`-th root of unity, with the coefficients `cₖ` at the multiples of `gap`, divided by
the scale in float64; all other coefficients are ignored.  Missing: the floating point error of the transform. -/
theorem C94_decodeSlots_partial {logSlots d : ℕ} (hr : CIPair (logSlots + d) r rS) (hroot : r.nthRoot = 4 * r.n) (sr : r.Small)
    (hl : level < r.subs.length) (mem : List ℂ) (hmem : 2 ^ logSlots ≤ mem.length ∧ (3 ≤ logSlots → 16 ≤ mem.length))
    (scale : ℚ) (z : ℕ → ℤ) (hz : InRange r level z) (pt pool : Rows) (hpool : pool.length = r.subs.length)
    (hp : HoldsReal r (logSlots + d) level pt z) :
    ∃ s, r.decodeRealSlots (encRoots r.nthRoot) Complex.I mem true level scale logSlots pt pool = some s ∧
      s.length = 2 ^ logSlots ∧
      ∀ j < 2 ^ logSlots, s.getD j 0 = (((f64Div (f64 (z 0)) scale : ℚ) + 2 * ∑ k ∈ Finset.Ico 1 (2 ^ logSlots),
        (f64Div (f64 (z (k * 2 ^ d))) scale : ℚ) * Real.cos (2 * Real.pi * (5 ^ j * k) / (4 * 2 ^ logSlots)) : ℝ) : ℂ) := by
  have hM : r.nthRoot = 2 ^ (logSlots + 2 + d) := by
    rw [hroot, hr.ci.deg]; ring
  have T : RootTable (2 ^ (logSlots + 2 + d)) (encRoots (2 ^ (logSlots + 2 + d))) (encZeta (2 ^ (logSlots + 2 + d))) :=
    encRoots_table (by positivity) (dvd_pow_self 2 (by omega))
  obtain ⟨s, h1, h2, h3⟩ := decodeRealSlots_eval hr hroot sr hl T Complex.I mem hmem scale z hz pt pool hpool hp
  rw [hM]
  refine ⟨s, h1, h2, fun j hj => ?_⟩
  have e := real_eval (Nat.two_pow_pos logSlots) (fun k => ((f64Div (f64 (z (k * 2 ^ d))) scale : ℚ) : ℝ)) _ (point_pow logSlots d j)
  rw [h3 j hj]
  simp only [pow_mul]
  have e' : ∀ k, (((if 1 ≤ k then -f64Div (f64 (z ((2 ^ logSlots - k) * 2 ^ d))) scale else 0 : ℚ) : ℂ)) =
      ((if 1 ≤ k then -((f64Div (f64 (z ((2 ^ logSlots - k) * 2 ^ d))) scale : ℚ) : ℝ) else 0 : ℝ) : ℂ) := by
    intro k
    split <;> push_cast <;> rfl
  simp only [e']
  push_cast at e ⊢
  refine e.trans ?_
  rw [zero_mul]
  congr 1
  rw [Finset.mul_sum]
  refine Finset.sum_congr rfl fun k _ => ?_
  rw [← pow_mul, encZeta_point, ← Complex.exp_neg, ← neg_mul, ← Complex.two_cos]
  push_cast
  ring

/-! ### The round trip -/

/-- if all values of a vector under the transform are real, its imaginary parts are determined by its real parts -/
theorem real_coeffs (logSlots d : ℕ) (f : ℕ → ℂ)
    (h : ∀ j < 2 ^ logSlots, (∑ k ∈ range (2 ^ logSlots), f k * (encZeta (2 ^ (logSlots + 2 + d)) ^ 2 ^ d) ^ (5 ^ j * k)).im = 0) :
    ∀ k < 2 ^ logSlots, (f k).im = if 1 ≤ k then -(f (2 ^ logSlots - k)).re else 0 := by
  have T : RootTable (2 ^ (logSlots + 2 + d)) (encRoots (2 ^ (logSlots + 2 + d))) (encZeta (2 ^ (logSlots + 2 + d))) :=
    encRoots_table (by positivity) (dvd_pow_self 2 (by omega))
  set m := 2 ^ logSlots with hm
  have hm0 : 0 < m := Nat.two_pow_pos _
  let f' : ℕ → ℂ := fun k => if 1 ≤ k then -Complex.I * (starRingEnd ℂ) (f (m - k)) else (starRingEnd ℂ) (f 0)
  have hsum : ∀ j < m, ∑ k ∈ range m, f' k * (encZeta (2 ^ (logSlots + 2 + d)) ^ 2 ^ d) ^ (5 ^ j * k) =
      ∑ k ∈ range m, f k * (encZeta (2 ^ (logSlots + 2 + d)) ^ 2 ^ d) ^ (5 ^ j * k) := by
    intro j hj
    have hw := point_pow logSlots d j
    have hc : (starRingEnd ℂ) ((encZeta (2 ^ (logSlots + 2 + d)) ^ 2 ^ d) ^ 5 ^ j) =
        ((encZeta (2 ^ (logSlots + 2 + d)) ^ 2 ^ d) ^ 5 ^ j)⁻¹ := by
      rw [map_pow, map_pow, encZeta_conj, inv_pow, inv_pow]
    have hreal := Complex.conj_eq_iff_im.2 (h j hj)
    rw [← hreal]
    simp only [pow_mul _ (5 ^ j)]
    rw [← hm] at hw
    generalize (encZeta (2 ^ (logSlots + 2 + d)) ^ 2 ^ d) ^ 5 ^ j = w at *
    have hw0 : w ≠ 0 := by
      rintro rfl
      rw [zero_pow hm0.ne'] at hw
      exact Complex.I_ne_zero hw.symm
    rw [map_sum]
    simp only [map_mul, map_pow, hc]
    rw [Finset.range_eq_Ico, Finset.sum_eq_sum_Ico_succ_bot hm0, Finset.sum_eq_sum_Ico_succ_bot hm0]
    simp only [show (0 : ℕ) + 1 = 1 from rfl, pow_zero, mul_one]
    congr 1
    have hr := Finset.sum_Ico_reflect (fun k => (starRingEnd ℂ) (f k) * w⁻¹ ^ k) 1 (show m ≤ m + 1 by omega)
    rw [show m + 1 - m = 1 by omega, show m + 1 - 1 = m by omega] at hr
    rw [← hr]
    refine Finset.sum_congr rfl fun k hk => ?_
    have hk := Finset.mem_Ico.1 hk
    have : w⁻¹ ^ (m - k) = -Complex.I * w ^ k := by
      rw [← Complex.inv_I, ← hw, show m = (m - k) + k by omega, pow_add, Nat.add_sub_cancel, inv_pow]
      field_simp
    show (if 1 ≤ k then _ else _) * _ = _
    rw [if_pos hk.1, this]
    ring
  have hat : ∀ (g : ℕ → ℂ), ∀ k < m, ((List.range m).map g).getD k 0 = g k := by
    intro g k hk; simp [List.getD, hk]
  have hF : ∀ (g : ℕ → ℂ), ∀ j < m, (specialFFT false (2 ^ logSlots) (2 ^ (logSlots + 2 + d)) (encRoots (2 ^ (logSlots + 2 + d)))
      ((List.range m).map g)).getD j 0 = ∑ k ∈ range m, g k * (encZeta (2 ^ (logSlots + 2 + d)) ^ 2 ^ d) ^ (5 ^ j * k) := by
    intro g j hj
    rw [specialFFT_at T _ _ (by simp [fftCap, hm]) j hj]
    exact Finset.sum_congr rfl fun k hk => by rw [hat g k (Finset.mem_range.1 hk)]
  have hlist : specialFFT false (2 ^ logSlots) (2 ^ (logSlots + 2 + d)) (encRoots (2 ^ (logSlots + 2 + d)))
      ((List.range m).map f) = specialFFT false (2 ^ logSlots) (2 ^ (logSlots + 2 + d)) (encRoots (2 ^ (logSlots + 2 + d)))
      ((List.range m).map f') := by
    have l1 : ∀ g : ℕ → ℂ, (specialFFT false (2 ^ logSlots) (2 ^ (logSlots + 2 + d)) (encRoots (2 ^ (logSlots + 2 + d)))
        ((List.range m).map g)).length = m := by
      intro g
      rw [specialFFT_length _ _ (by simp [hm])]
      simp
    refine List.ext_getElem (by rw [l1, l1]) fun j h1 h2 => ?_
    have := (hF f j (by rwa [l1] at h1)).trans ((hsum j (by rwa [l1] at h1)).symm.trans (hF f' j (by rwa [l1] at h1)).symm)
    rwa [List.getD_eq_getElem _ _ h1, List.getD_eq_getElem _ _ h2] at this
  have heq : ∀ k < m, f k = f' k := by
    intro k hk
    have a := (C72_inverse T two_ne_zero false false (2 ^ logSlots) le_rfl ((List.range m).map f) (by simp [hm]) (by simp)).1 k hk
    have b := (C72_inverse T two_ne_zero false false (2 ^ logSlots) le_rfl ((List.range m).map f') (by simp [hm]) (by simp)).1 k hk
    rw [hlist, b, hat f' k hk, hat f k hk] at a
    exact a.symm
  intro k hk
  have := congrArg Complex.im (heq k hk)
  rw [this]
  show (if 1 ≤ k then _ else _ : ℂ).im = _
  split
  · simp
  · rename_i h0
    obtain rfl : k = 0 := by omega
    have h0 := congrArg Complex.im (heq 0 hk)
    change _ = ((starRingEnd ℂ) (f 0)).im at h0
    rw [Complex.conj_im] at h0 ⊢
    linarith

/-- the plaintext made by the encoder, with bounds -/
theorem embedReal_holds {logSlots d : ℕ} (hr : CIPair (logSlots + d) r rS) (hroot : r.nthRoot = 4 * r.n) (sr : r.Small)
    (hl : level < r.subs.length) (h4 : 4 ≤ logSlots) {scale : ℚ} (hs : 0 < scale) (w : List (ℚ × ℚ)) (B : ℚ)
    (hw : w.length = 2 ^ logSlots) (h64 : ∀ v ∈ w, f64 |v.1 * scale| ≠ 2 ^ 64)
    (hB : ∀ v ∈ w, |v.1 * scale| ≤ B) (hQ : 2 * B + B / 2 ^ 49 + 3 < r.prodQ level) (p0 : Rows) (hp0 : level < p0.length)
    (hrow : ∀ i ≤ level, (p0.row i).length = r.n) :
    ∃ (p : Rows) (z : ℕ → ℤ), r.embedPolyReal level logSlots w scale false p0 = some p ∧
      p.length = p0.length ∧ HoldsReal r (logSlots + d) level p z ∧ InRange r level z ∧ ∀ k < 2 ^ logSlots,
        |(w.getD k 0).1 * scale| ≤ B ∧ |(z (k * 2 ^ d) : ℚ) - (w.getD k 0).1 * scale| ≤
          1 / 2 + |(w.getD k 0).1 * scale| / 2 ^ 51 + 1 / 2 ^ 53 := by
  obtain ⟨p, z0, hp1, hz0, hP⟩ := C94_embed_partial (level := level) hr.ci hroot sr hl h4 w hw hs h64 false p0 hp0 hrow
  set l : List ℚ := w.map Prod.fst with hl'
  have hd := Nat.two_pow_pos d
  have hN : r.n = 2 ^ logSlots * 2 ^ d := by rw [hr.ci.deg]; ring
  have hll : l.length = 2 ^ logSlots := by rw [hl']; simp [hw]
  have hl1 : ∀ k < 2 ^ logSlots, l.getD k 0 = (w.getD k 0).1 := by
    intro k hk
    rw [hl']
    simp [List.getD, hw, hk]
  have hmemw : ∀ k < 2 ^ logSlots, w.getD k 0 ∈ w := by
    intro k hk; simp [List.getD, hw, hk]
  have hBl : ∀ k < 2 ^ logSlots, |l.getD k 0 * scale| ≤ B := by
    intro k hk
    rw [hl1 k hk]; exact hB _ (hmemw k hk)
  have hB0 : 0 ≤ B := le_trans (abs_nonneg _) (hBl 0 (Nat.two_pow_pos _))
  set z : ℕ → ℤ := fun k => if k % 2 ^ d = 0 then z0 (k / 2 ^ d) else 0 with hz
  have hzk : ∀ k, z (k * 2 ^ d) = z0 k := by
    intro k
    simp only [hz, Nat.mul_mod_left, if_true, Nat.mul_div_cancel _ hd]
  have hrange : InRange r level z := by
    have hb : ∀ k < 2 ^ logSlots, -((r.prodQ level : ℤ) + 1) ≤ 2 * z0 k ∧ 2 * z0 k + 1 < r.prodQ level := by
      intro k hk
      have e := abs_le.1 (hz0 k (by omega))
      have b := hBl k hk
      have a1 := abs_le.1 b
      have a3 : |l.getD k 0 * scale| / 2 ^ 51 ≤ B / 2 ^ 51 := by
        apply div_le_div_of_nonneg_right b; positivity
      constructor
      · have : -((r.prodQ level : ℚ) + 1) ≤ 2 * (z0 k : ℚ) := by linarith [e.1]
        exact_mod_cast this
      · have : 2 * (z0 k : ℚ) + 1 < (r.prodQ level : ℚ) := by linarith [e.2]
        exact_mod_cast this
    intro k hk
    simp only [hz]
    split
    · exact hb _ (Nat.div_lt_of_lt_mul (by rw [hN] at hk; rw [mul_comm]; exact hk))
    · have h3 : (3 : ℚ) < r.prodQ level := by
        have : 0 ≤ B / 2 ^ 49 := by positivity
        linarith
      have h3' : 3 < r.prodQ level := by exact_mod_cast h3
      omega
  have hH : HoldsReal r (logSlots + d) level p z := by
    refine hP.is.congr fun i _ k _ => ?_
    rw [if_neg (by simp), one_mul]
    congr 2
    funext k
    simp only [hz]
    split <;> simp
  refine ⟨p, z, hp1, hP.len, hH, hrange, fun k hk => ⟨hB _ (hmemw k hk), ?_⟩⟩
  rw [hzk, ← hl1 k hk]
  exact hz0 k (by omega)

/-- **C94.** `Decode(Encode(values))` with the same number of slots on a plaintext of a conjugate-invariant ring, whatever it held: the real
part of every slot comes back, and the missing values as 0, with an error of at most `2 * slots` times the error of one
coefficient (as in `C76_roundtrip_partial`); the imaginary part that comes back is 0.  Missing: fewer than 16 slots (the code panics), products of
exactly `2^64` and the floating point error of the transform of the decoder. -/
theorem C94_roundtrip_partial {logSlots d : ℕ} (hr : CIPair (logSlots + d) r rS) (hroot : r.nthRoot = 4 * r.n) (sr : r.Small)
    (hl : level < r.subs.length) (h4 : 4 ≤ logSlots)
    (mem mem' : List ℂ) (hmem : 2 ^ (logSlots + d) ≤ mem.length) (hmem' : 2 ^ (logSlots + d) ≤ mem'.length)
    (values : List ℂ) (hv : values.length ≤ 2 ^ logSlots) {scale : ℚ} (hs : 0 < scale) :
    ∃ y, encodeRealFFT r.nthRoot (encRoots r.nthRoot) mem values logSlots = some y ∧ y.length = 2 ^ logSlots ∧
    ∀ (w : List (ℚ × ℚ)) (δ : ℝ) (B : ℚ), w.length = 2 ^ logSlots →
    (∀ k < 2 ^ logSlots, |((w.getD k 0).1 : ℝ) - (y.getD k 0).re| ≤ δ) →
    (∀ v ∈ w, f64 |v.1 * scale| ≠ 2 ^ 64) →
    (∀ v ∈ w, |v.1 * scale| ≤ B) → 2 * B + B / 2 ^ 49 + 3 < r.prodQ level →
    ∀ pool : Rows, pool.length = r.subs.length → ∀ p0 : Rows, level < p0.length → (∀ i ≤ level, (p0.row i).length = r.n) →
    ∃ p s, r.embedPolyReal level logSlots w scale false p0 = some p ∧
      r.decodeRealSlots (encRoots r.nthRoot) Complex.I mem' true level scale logSlots p pool = some s ∧ s.length = 2 ^ logSlots ∧
      ∀ j < 2 ^ logSlots, (s.getD j 0).im = 0 ∧ |(s.getD j 0).re - (values.getD j 0).re| ≤
        2 * 2 ^ logSlots * (δ + ((1 / 2 + (B + 1) / 2 ^ 50) / scale : ℚ)) := by
  have hM : r.nthRoot = 2 ^ (logSlots + 2 + d) := by
    rw [hroot, hr.ci.deg]; ring
  have hMq : r.nthRoot / 4 = 2 ^ (logSlots + d) := by
    rw [hM, show 2 ^ (logSlots + 2 + d) = 4 * 2 ^ (logSlots + d) by ring, Nat.mul_div_cancel_left _ (by norm_num)]
  have hle : 2 ^ logSlots ≤ 2 ^ (logSlots + d) := Nat.pow_le_pow_right (by norm_num) (by omega)
  have h16 : 2 ^ 4 ≤ 2 ^ logSlots := Nat.pow_le_pow_right (by norm_num) h4
  have T : RootTable (2 ^ (logSlots + 2 + d)) (encRoots (2 ^ (logSlots + 2 + d))) (encZeta (2 ^ (logSlots + 2 + d))) :=
    encRoots_table (Nat.two_pow_pos _) (dvd_pow_self 2 (by omega))
  have hI : encZeta (2 ^ (logSlots + 2 + d)) ^ 2 ^ (logSlots + d) = Complex.I := by
    rw [show logSlots + 2 + d = logSlots + d + 2 by omega]; exact encZeta_im
  set ζ := encZeta (2 ^ (logSlots + 2 + d)) with hζ
  have hnorm : ‖ζ‖ = 1 := by
    have h4 : ‖ζ‖ ^ (2 ^ (logSlots + d)) = 1 := by rw [← norm_pow, hI, Complex.norm_I]
    exact (pow_eq_one_iff_of_nonneg (norm_nonneg _) (Nat.two_pow_pos _).ne').1 h4
  unfold encodeRealFFT encodeFFT
  dsimp only
  set rv : List ℂ := values.map fun v => (v.re : ℂ) with hrv
  have hrvl : rv.length = values.length := by rw [hrv, List.length_map]
  have hrvat : ∀ j, rv.getD j 0 = (((values.getD j 0).re : ℝ) : ℂ) := by
    intro j
    rw [hrv]
    simp only [List.getD, List.getElem?_map]
    cases values[j]? <;> simp
  rw [hMq, if_neg (by omega)]
  refine ⟨_, rfl, ?_⟩
  set buf : List ℂ := rv ++ List.replicate (2 ^ logSlots - rv.length) 0 ++ mem.drop (2 ^ logSlots) with hbuf
  have hbl : buf.length = mem.length := by rw [hbuf]; simp; omega
  have hcap : ifftCap (decide (3 ≤ logSlots)) (2 ^ logSlots) (2 ^ (logSlots + d)) ≤ buf.length := by
    unfold ifftCap
    refine max_le (by rw [hbl]; exact fftCap_le (by omega) (by omega)) ?_
    split
    · have : 8 ∣ 2 ^ (logSlots + d) := pow_dvd_pow 2 (show 3 ≤ logSlots + d by omega)
      omega
    · omega
  rw [hM]
  set f : List ℂ := specialiFFT (decide (3 ≤ logSlots)) (2 ^ logSlots) (2 ^ (logSlots + 2 + d))
    (encRoots (2 ^ (logSlots + 2 + d))) (2 ^ (logSlots + d)) buf with hf
  have hfl : f.length = buf.length := (specialiFFT_at _ _ hle buf hcap).1
  refine ⟨by rw [List.length_take]; omega, fun w δ B hw hδ h64 hB hQ pool hpool p0 hp0 hrow => ?_⟩
  have hft : ∀ k < 2 ^ logSlots, (f.take (2 ^ logSlots)).getD k 0 = f.getD k 0 := by
    intro k hk; simp [List.getD, List.getElem?_take, hk]
  -- the exact values are those of the polynomial with the coefficients `f`
  have hval : ∀ j < 2 ^ logSlots, rv.getD j 0 = ∑ k ∈ range (2 ^ logSlots), f.getD k 0 * (ζ ^ 2 ^ d) ^ (5 ^ j * k) := by
    intro j hj
    have h1 := (C72_inverse T two_ne_zero (decide (3 ≤ logSlots)) (decide (3 ≤ logSlots)) (2 ^ (logSlots + d)) hle buf
      (by omega) (fun h => by
        have e1 := fftCap_le (logSlots := logSlots) (len := buf.length) (by omega) (by omega)
        unfold fftCap at e1
        rw [if_pos (by simp; omega)] at e1
        have : 8 ∣ 2 ^ (logSlots + d) := pow_dvd_pow 2 (show 3 ≤ logSlots + d by omega)
        exact ⟨e1, by omega⟩)).2 j hj
    rw [← hf, specialFFT_at T _ f (by rw [hfl, hbl]; exact fftCap_le (by omega) (by omega)) j hj] at h1
    rw [h1, hbuf]
    by_cases hjv : j < rv.length
    · simp [List.getD, hjv, List.getElem?_append_left]
    · rw [List.append_assoc, List.getD_append_right _ _ _ _ (by omega), List.getD_append _ _ _ _ (by simp; omega),
        List.getD_eq_default _ _ (by omega)]
      simp [List.getD]
  have hfim : ∀ k < 2 ^ logSlots, (f.getD k 0).im = if 1 ≤ k then -(f.getD (2 ^ logSlots - k) 0).re else 0 := by
    refine real_coeffs logSlots d (fun k => f.getD k 0) fun j hj => ?_
    rw [← hζ, ← hval j hj, hrvat]
    exact Complex.ofReal_im _
  obtain ⟨p, z, hp1, -, hH, hrange, hzk⟩ := embedReal_holds (level := level) hr hroot sr hl h4 hs w B hw h64 hB hQ
    p0 hp0 hrow
  obtain ⟨s, h1, h2, h3⟩ := decodeRealSlots_eval hr hroot sr hl T Complex.I mem' ⟨by omega, by omega⟩ scale z hrange _ pool hpool hH
  obtain ⟨s', h1', -, h3'⟩ := C94_decodeSlots_partial hr hroot sr hl mem' ⟨by omega, by omega⟩ scale z hrange _ pool hpool hH
  rw [hM] at h1'
  obtain rfl : s = s' := Option.some.inj (h1.symm.trans h1')
  refine ⟨p, s, hp1, h1, h2, fun j hj => ⟨by rw [h3' j hj]; exact Complex.ofReal_im _, ?_⟩⟩
  have hre : |(s.getD j 0).re - (values.getD j 0).re| ≤ ‖s.getD j 0 - rv.getD j 0‖ := by
    rw [hrvat]
    refine le_trans (le_of_eq ?_) (Complex.abs_re_le_norm _)
    rw [Complex.sub_re, Complex.ofReal_re]
  refine le_trans hre ?_
  rw [h3 j hj, hval j hj, ← Finset.sum_sub_distrib]
  set ε : ℝ := δ + ((1 / 2 + (B + 1) / 2 ^ 50) / scale : ℚ) with hε
  have key : ∀ k < 2 ^ logSlots, |((f64Div (f64 (z (k * 2 ^ d))) scale : ℚ) : ℝ) - (f.getD k 0).re| ≤ ε := by
    intro k hk
    have d1 := hδ k hk
    rw [hft k hk] at d1
    have r1 := coeff_roundtrip hs (hzk k hk).1 (hzk k hk).2
    have h' : |((f64Div (f64 (z (k * 2 ^ d))) scale : ℚ) : ℝ) - (w.getD k 0).1| ≤ (((1 / 2 + (B + 1) / 2 ^ 50) / scale : ℚ) : ℝ) := by
      exact_mod_cast r1
    have t := abs_add_le (((f64Div (f64 (z (k * 2 ^ d))) scale : ℚ) : ℝ) - (w.getD k 0).1) ((w.getD k 0).1 - (f.getD k 0).re)
    rw [sub_add_sub_cancel] at t
    rw [hε]
    linarith
  have hε0 : 0 ≤ ε := le_trans (abs_nonneg _) (key 0 (by omega))
  refine le_trans (norm_sum_le_of_le (n := fun _ => 2 * ε) _ fun k hk => ?_) (by simp; ring_nf; rfl)
  have hk := Finset.mem_range.1 hk
  rw [← sub_mul, norm_mul, norm_pow, norm_pow, hnorm, one_pow, one_pow, mul_one]
  refine le_trans (Complex.norm_le_abs_re_add_abs_im _) ?_
  have q1 : ∀ a : ℚ, ((a : ℂ)).re = (a : ℝ) := fun a => by simp
  have q2 : ∀ a : ℚ, ((a : ℂ)).im = 0 := fun a => by simp
  simp only [Complex.sub_re, Complex.sub_im, Complex.add_re, Complex.add_im, Complex.mul_re, Complex.mul_im, Complex.I_re,
    Complex.I_im, q1, q2]
  simp only [mul_zero, mul_one, zero_mul, add_zero, zero_add, sub_zero, sub_self]
  rw [hfim k hk]
  have k1 := key k hk
  by_cases hk1 : 1 ≤ k
  · rw [if_pos hk1, if_pos hk1]
    have k2 := key (2 ^ logSlots - k) (by omega)
    rw [abs_sub_comm] at k2
    push_cast
    rw [neg_sub_neg]
    linarith
  · rw [if_neg hk1, if_neg hk1]
    simp only [Rat.cast_zero, sub_zero, abs_zero]
    linarith

end Props

end FastKsw
