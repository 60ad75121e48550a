import Verif.Lemmas.Encrypt
import Verif.Props.KeyGen
import Verif.Props.Scaling
import Verif.Props.Samplers
import Verif.Lemmas.FSwitch

/-!
# C51, C32: encryption and decryption
-/

namespace FastKsw.Props

open Finset

/-! ## C51 -/

/-- The full claim of C51: for a ciphertext `(c_0, …, c_d)` at some level, all components in one domain and reduced,
and a secret key `s` in NTT and Montgomery form, `Decrypt` returns `∑ c_i s^i`, reduced, in the domain and with the
level announced. -/
def Decrypts (n : ℕ) (r : Ring) (sk : Rows) (ct : List Poly) (pt : Poly) : Prop :=
  ∀ (s : ∀ u, Rq (2 ^ n) (r.qs u)) (c : ℕ → ∀ u, Rq (2 ^ n) (r.qs u)),
    EltIs n r (min (ct.getD 0 default).level pt.level) r.qs true sk (fun u => 2 ^ 64 * s u) →
    (∀ j < ct.length, EltIs n r (min (ct.getD 0 default).level pt.level) r.qs (ct.getD 0 default).isNTT
      (ct.getD j default).coeffs (c j)) →
    (decrypt r sk ct pt).isNTT = pt.isNTT ∧
    (decrypt r sk ct pt).level = min (ct.getD 0 default).level pt.level ∧
    EltIs n r (min (ct.getD 0 default).level pt.level) r.qs pt.isNTT (decrypt r sk ct pt).coeffs
      (fun u => ∑ j ∈ range ct.length, c j u * s u ^ j)

section
variable {n : ℕ} {r : Ring} (hr : r.Valid n) (sr : r.Small)
include hr sr

/-- Components below `B` in the NTT domain, reduced in the coefficient domain.  The last reduction is skipped in
degrees congruent to 7 modulo 8. -/
theorem decrypt_core {sk : Rows} {ct : List Poly} {pt : Poly} (h0 : ct ≠ []) (hp : pt.coeffs ≠ [])
    (hl : min (ct.getD 0 default).level pt.level < r.subs.length) {B : ℕ → ℕ}
    (hB : ∀ u ≤ min (ct.getD 0 default).level pt.level, r.qs u ≤ B u ∧ B u ≤ 6 * r.qs u)
    (hd : (ct.getD 0 default).isNTT = true ∧ B = r.qs ∨ (ct.length - 1) % 8 ≠ 7)
    (s : ∀ u, Rq (2 ^ n) (r.qs u)) (c : ℕ → ∀ u, Rq (2 ^ n) (r.qs u))
    (hs : EltIs n r (min (ct.getD 0 default).level pt.level) r.qs true sk (fun u => 2 ^ 64 * s u))
    (hc : ∀ j < ct.length, EltIs n r (min (ct.getD 0 default).level pt.level)
      (fun u => if (ct.getD 0 default).isNTT then B u else r.qs u) (ct.getD 0 default).isNTT
      (ct.getD j default).coeffs (c j)) :
    (decrypt r sk ct pt).isNTT = pt.isNTT ∧
    (decrypt r sk ct pt).level = min (ct.getD 0 default).level pt.level ∧
    EltIs n r (min (ct.getD 0 default).level pt.level) r.qs pt.isNTT (decrypt r sk ct pt).coeffs
      (fun u => ∑ j ∈ range ct.length, c j u * s u ^ j) := by
  set level := min (ct.getD 0 default).level pt.level with hlev
  have hpl : 0 < pt.coeffs.length := List.length_pos_iff.2 hp
  have hple : level < pt.coeffs.length := by
    have : level ≤ pt.level := min_le_right _ _
    unfold Poly.level at this
    omega
  have htake : (pt.coeffs.take (level + 1)).length = level + 1 := by simp; omega
  obtain ⟨f, g⟩ := decryptCore_elt hr hl sr hs hB h0 hc (acc := pt.coeffs.take (level + 1)) (by omega)
  rw [htake] at g
  generalize hacc : decryptLoop r level sk (ct.getD 0 default).isNTT (fun i => (ct.getD i default).coeffs)
    (ct.length - 1) (if (ct.getD 0 default).isNTT = true
      then writeLvl level (fun u => (ct.getD (ct.length - 1) default).coeffs.row u) (pt.coeffs.take (level + 1))
      else r.nttLazyLvl level (ct.getD (ct.length - 1) default).coeffs (pt.coeffs.take (level + 1))) = acc at f g
  have e : decrypt r sk ct pt = ⟨(if !pt.isNTT then
      r.invNttLvl level (if (ct.length - 1) % 8 ≠ 7 then r.reduceLvl level acc acc else acc)
        (if (ct.length - 1) % 8 ≠ 7 then r.reduceLvl level acc acc else acc)
      else (if (ct.length - 1) % 8 ≠ 7 then r.reduceLvl level acc acc else acc)), pt.isNTT⟩ := by
    rw [← hacc]
    rfl
  have R : EltIs n r level r.qs true (if (ct.length - 1) % 8 ≠ 7 then r.reduceLvl level acc acc else acc)
      (fun u => ∑ j ∈ range ct.length, c j u * s u ^ j) ∧
      (if (ct.length - 1) % 8 ≠ 7 then r.reduceLvl level acc acc else acc).length = level + 1 := by
    by_cases h7 : (ct.length - 1) % 8 ≠ 7
    · rw [if_pos h7]
      have q := reduceLvl_elt hr hl f f.lvl
      exact ⟨q.is, q.len.trans g⟩
    · rw [if_neg h7]
      rcases hd with hd | hd
      · rw [hd.1, hd.2] at f
        exact ⟨by simpa using f, g⟩
      · exact absurd hd h7
  generalize (if (ct.length - 1) % 8 ≠ 7 then r.reduceLvl level acc acc else acc) = acc' at e R
  rw [e]
  refine ⟨rfl, ?_, ?_⟩
  · simp only [Poly.level]
    cases pt.isNTT with
    | false =>
      have q := invNttLvl_elt hr hl sr (fun u hu => by omega) R.1 R.1.lvl
      have := q.len
      simp only [Bool.not_false, if_true]
      omega
    | true =>
      have := R.2
      simp only [Bool.not_true, Bool.false_eq_true, if_false]
      omega
  · cases pt.isNTT with
    | false => simpa using (invNttLvl_elt hr hl sr (fun u hu => by omega) R.1 R.1.lvl).is
    | true => simpa using R.1

/-- **C51.** The claim holds in the NTT domain for every degree, and in the coefficient domain for every degree not
congruent to 7 modulo 8.  Missing: coefficient domain, degree congruent to 7 modulo 8, where the code skips the last
reduction, see `C51_violated` and `C51_decrypt_lazy_partial`. -/
theorem C51_decrypt_partial {sk : Rows} {ct : List Poly} {pt : Poly} (h0 : ct ≠ []) (hp : pt.coeffs ≠ [])
    (hl : min (ct.getD 0 default).level pt.level < r.subs.length)
    (hd : (ct.getD 0 default).isNTT = true ∨ (ct.length - 1) % 8 ≠ 7) : Decrypts n r sk ct pt := by
  intro s c hs hc
  exact decrypt_core hr sr h0 hp hl (B := r.qs) (fun u _ => by omega) (hd.imp (fun h => ⟨h, rfl⟩) id) s c hs
    fun j hj => (hc j hj).mono fun u _ => by split <;> omega

/-- **C51 (lazily reduced components).** In the NTT domain, components with entries below `6 q` (such as
`MulRelin` of `ckks` leaves) are decrypted too, in every degree not congruent to 7 modulo 8. -/
theorem C51_decrypt_unreduced {sk : Rows} {ct : List Poly} {pt : Poly} (h0 : ct ≠ []) (hp : pt.coeffs ≠ [])
    (hl : min (ct.getD 0 default).level pt.level < r.subs.length) (hn : (ct.getD 0 default).isNTT = true)
    (hd : (ct.length - 1) % 8 ≠ 7) (s : ∀ u, Rq (2 ^ n) (r.qs u)) (c : ℕ → ∀ u, Rq (2 ^ n) (r.qs u))
    (hs : EltIs n r (min (ct.getD 0 default).level pt.level) r.qs true sk (fun u => 2 ^ 64 * s u))
    (hc : ∀ j < ct.length, EltIs n r (min (ct.getD 0 default).level pt.level) (fun u => 6 * r.qs u) true
      (ct.getD j default).coeffs (c j)) :
    (decrypt r sk ct pt).isNTT = pt.isNTT ∧
    (decrypt r sk ct pt).level = min (ct.getD 0 default).level pt.level ∧
    EltIs n r (min (ct.getD 0 default).level pt.level) r.qs pt.isNTT (decrypt r sk ct pt).coeffs
      (fun u => ∑ j ∈ range ct.length, c j u * s u ^ j) :=
  decrypt_core hr sr h0 hp hl (B := fun u => 6 * r.qs u) (fun u _ => by omega) (Or.inr hd) s c hs
    fun j hj => by rw [hn]; simpa using hc j hj

/-- **C51.** In the coefficient domain and for every degree, an NTT-domain plaintext gets the right value, with
entries below `6 q`.  Missing: the entries need not be reduced. -/
theorem C51_decrypt_lazy_partial {sk : Rows} {ct : List Poly} {pt : Poly} (h0 : ct ≠ []) (hp : pt.coeffs ≠ [])
    (hl : min (ct.getD 0 default).level pt.level < r.subs.length) (hi : pt.isNTT = true)
    {s : ∀ u, Rq (2 ^ n) (r.qs u)} {c : ℕ → ∀ u, Rq (2 ^ n) (r.qs u)}
    (hs : EltIs n r (min (ct.getD 0 default).level pt.level) r.qs true sk (fun u => 2 ^ 64 * s u))
    (hc : ∀ j < ct.length, EltIs n r (min (ct.getD 0 default).level pt.level) r.qs (ct.getD 0 default).isNTT
      (ct.getD j default).coeffs (c j)) :
    EltIs n r (min (ct.getD 0 default).level pt.level) (fun u => 6 * r.qs u) true (decrypt r sk ct pt).coeffs
      (fun u => ∑ j ∈ range ct.length, c j u * s u ^ j) := by
  by_cases hd : (ct.getD 0 default).isNTT = true ∨ (ct.length - 1) % 8 ≠ 7
  · have := (C51_decrypt_partial hr sr h0 hp hl hd s c hs hc).2.2
    rw [hi] at this
    exact this.mono fun u _ => by omega
  · rw [not_or, not_not] at hd
    obtain ⟨hb, h7⟩ := hd
    rw [Bool.not_eq_true] at hb
    have hpl : 0 < pt.coeffs.length := List.length_pos_iff.2 hp
    have hple : min (ct.getD 0 default).level pt.level < pt.coeffs.length := by
      have : min (ct.getD 0 default).level pt.level ≤ pt.level := min_le_right _ _
      unfold Poly.level at this ⊢
      omega
    have f := (decryptCore_elt hr hl sr hs (B := r.qs) (fun u _ => by omega) h0
      (fun j hj => (hc j hj).mono fun u _ => by split <;> omega)
      (acc := pt.coeffs.take (min (ct.getD 0 default).level pt.level + 1)) (by rw [List.length_take]; omega)).1
    unfold decrypt
    simp only [h7, hi, ne_eq, not_true, if_false, Bool.not_true, Bool.false_eq_true]
    exact f.mono fun u _ => by split <;> omega

end

/-- secret key `1` modulo 97: `2^64 mod 97` at every point -/
def badSk : Rows := [List.replicate 16 61]

/-- `-X^4` modulo 97 -/
def badRow : Row := [0, 0, 0, 0, 96, 0, 0, 0, 0, 0, 0, 0, 0, 0, 0, 0]

/-- `(-X^4, 0, …, 0)`, of degree 7, in the coefficient domain -/
def badCt : List Poly := ⟨[badRow], false⟩ :: List.replicate 7 ⟨newPoly 16 1, false⟩

def badPt : Poly := ⟨newPoly 16 1, false⟩

set_option maxRecDepth 1000000 in
theorem badCt_decrypts : (match newRing 100 16 [97, 193] with
    | .ok r => decide (((decrypt r badSk badCt badPt).coeffs.row 0).at 4 ≠ 96)
    | .error _ => false) = true := by
  decide +kernel

/-- **C51 is violated**: with the first modulus 97 of a ring returned by `NewRing`, the ciphertext
`(-X^4, 0, …, 0)` of degree 7 in the coefficient domain does not decrypt to `-X^4`. -/
theorem C51_violated : ∃ r : Ring, newRing 100 16 [97, 193] = .ok r ∧ ¬ Decrypts 4 r badSk badCt badPt := by
  obtain ⟨r, h, hv, hl, hn, h0, h1⟩ := exists_ring
  refine ⟨r, h, fun H => ?_⟩
  have hb := badCt_decrypts
  rw [h] at hb
  replace hb := of_decide_eq_true hb
  have hsub : (0 : ℕ) < r.subs.length := by omega
  have qs0 : r.qs 0 = 97 := by unfold Ring.qs; rw [h0]; rfl
  have mk : ∀ (b : Bool) (x : Row), x.length = 16 → (∀ k < 16, (x.at k).toNat < 97) →
      EltIs 4 r 0 r.qs b [x] (r.elt 4 b [x]) := by
    intro b x hx hk
    refine ⟨by simp, fun u hu => ?_, fun u hu k hk' => ?_, fun _ _ => rfl⟩
    · rw [Nat.le_zero.1 hu]; exact hx
    · rw [Nat.le_zero.1 hu, qs0]; exact hk k hk'
  have hsk := mk true (List.replicate 16 61) (by simp) (by decide)
  have hc0 := mk false badRow (by decide) (by decide)
  have hz : EltIs 4 r 0 r.qs false (newPoly 16 1) 0 := by
    refine (mk false (List.replicate 16 0) (by simp) (by decide)).congr fun u hu => ?_
    obtain rfl := Nat.le_zero.1 hu
    simp only [Ring.elt, Bool.false_eq_true, if_false, rowR, toR, Pi.zero_apply]
    refine Finset.sum_eq_zero fun j hj => ?_
    have hj' : j < 16 := by simpa using hj
    have : zval (r.qs 0) (Rows.row [List.replicate 16 0] 0) j = 0 := by
      unfold zval
      rw [show Rows.row [List.replicate 16 0] 0 = List.replicate 16 0 from rfl, replicate_at 16 0 hj']
      simp
    rw [this, map_zero, zero_mul]
  obtain ⟨-, -, hd⟩ := H (fun u => AdjoinRoot.of _ (rinv (r.sub u).q.toNat) * r.elt 4 true badSk u)
    (fun j => if j = 0 then r.elt 4 false [badRow] else 0)
    (hsk.congr fun u hu => by
      have := two64_unit hv hsub (Nat.le_trans hu (Nat.zero_le 0))
      rw [← mul_assoc, mul_comm (2 ^ 64), this, one_mul]
      rfl)
    (fun j hj => by
      have hj' : j < 8 := hj
      interval_cases j
      · exact hc0
      all_goals exact hz)
  have hval := hd.val 0 (Nat.zero_le _)
  rw [Finset.sum_eq_single_of_mem 0 (by simp [badCt]) (fun j _ hj => by simp [hj])] at hval
  simp only [if_true, pow_zero, mul_one, Ring.elt, show badPt.isNTT = false from rfl, Bool.false_eq_true,
    if_false, rowR] at hval
  have := (hv.subAt hsub).fact
  have key := toR_injective (n := 4) ((hv.subAt hsub).psiOK (by omega)) hval 4 (by norm_num)
  have hlt := hd.lt 0 (Nat.zero_le _) 4 (by norm_num)
  rw [qs0] at hlt
  unfold zval at key
  rw [ZMod.natCast_eq_natCast_iff', qs0, Nat.mod_eq_of_lt hlt] at key
  exact hb (UInt64.toNat_inj.1 key)

/-! ## C32 -/

/-- `ct` is a pair of polynomials of the given level in the given domain, with reduced rows, that decrypts to `m`
under the secret `s`: `c_0 + c_1 s = m` modulo every prime -/
structure Encrypts (n : ℕ) (r : Ring) (level : ℕ) (isNTT : Bool) (ct : Poly × Poly) (s m : ∀ u, Rq (2 ^ n) (r.qs u)) :
    Prop where
  ntt : ct.1.isNTT = isNTT ∧ ct.2.isNTT = isNTT
  lvl : ct.1.level = level ∧ ct.2.level = level
  ex : ∃ x0 x1 : ∀ u, Rq (2 ^ n) (r.qs u), EltIs n r level r.qs isNTT ct.1.coeffs x0 ∧
    EltIs n r level r.qs isNTT ct.2.coeffs x1 ∧ ∀ u ≤ level, x0 u + x1 u * s u = m u

theorem Encrypts.mk' {n : ℕ} {r : Ring} {level : ℕ} {b : Bool} {v0 v1 : Rows} {s m x0 x1 : ∀ u, Rq (2 ^ n) (r.qs u)}
    (h0 : EltIs n r level r.qs b v0 x0) (h1 : EltIs n r level r.qs b v1 x1)
    (h : ∀ u ≤ level, x0 u + x1 u * s u = m u) :
    Encrypts n r level b (Poly.trunc ⟨v0, b⟩ level, Poly.trunc ⟨v1, b⟩ level) s m := by
  have l0 := h0.lvl
  have l1 := h1.lvl
  refine ⟨⟨rfl, rfl⟩, ⟨?_, ?_⟩, x0, x1, h0.take (by omega), h1.take (by omega), h⟩ <;>
  · simp only [Poly.level, Poly.trunc, List.length_take]
    omega

section
variable {n : ℕ} {r : Ring} (hr : r.Valid n) (sr : r.Small)
include hr sr

/-- **C32 (decryption).** `Decrypt` of an encryption of `m` gives `m`, reduced, at the lower of the two levels and
in the domain of the output plaintext. -/
theorem C32_decrypt {level : ℕ} {b : Bool} {ct : Poly × Poly} {s m : ∀ u, Rq (2 ^ n) (r.qs u)}
    (h : Encrypts n r level b ct s m) {sk : Rows} {pt : Poly} (hp : pt.coeffs ≠ [])
    (hl : min level pt.level < r.subs.length)
    (hs : EltIs n r (min level pt.level) r.qs true sk (fun u => 2 ^ 64 * s u)) :
    (decrypt r sk [ct.1, ct.2] pt).isNTT = pt.isNTT ∧
    (decrypt r sk [ct.1, ct.2] pt).level = min level pt.level ∧
    EltIs n r (min level pt.level) r.qs pt.isNTT (decrypt r sk [ct.1, ct.2] pt).coeffs m := by
  obtain ⟨⟨n0, n1⟩, ⟨l0, l1⟩, x0, x1, h0, h1, hm⟩ := h
  have e : min (([ct.1, ct.2] : List Poly).getD 0 default).level pt.level = min level pt.level := by
    simp only [List.getD_cons_zero, l0]
  obtain ⟨a1, a2, a3⟩ := C51_decrypt_partial hr sr (sk := sk) (ct := [ct.1, ct.2]) (pt := pt) (by simp) hp
    (by rw [e]; exact hl) (Or.inr (by simp)) s (fun j => if j = 0 then x0 else x1) (by rw [e]; exact hs)
    (by
      intro j hj
      have hj' : j < 2 := hj
      rw [e]
      interval_cases j
      · simpa [n0] using h0.below (min_le_left _ _)
      · simpa [n0] using h1.below (min_le_left _ _))
  rw [e] at a2 a3
  refine ⟨a1, a2, a3.congr fun u hu => ?_⟩
  rw [← hm u (hu.trans (min_le_left _ _))]
  simp [Finset.sum_range_succ]

/-- **C32 (secret-key encryption).** For a mask `a` already in `ct.Value[1]` and draws `G` of the Gaussian sampler,
the ciphertext decrypts to `m + G` exactly, in either domain of the ciphertext and of the plaintext. -/
theorem C32_skEncrypt {sk : Rows} {pt c0 c1 : Poly} {s m a : ∀ u, Rq (2 ^ n) (r.qs u)}
    (hl : min pt.level c0.level < r.subs.length) (hc : c0.coeffs ≠ [])
    (hs : EltIs n r (min pt.level c0.level) r.qs true sk (fun u => 2 ^ 64 * s u))
    (hm : EltIs n r (min pt.level c0.level) r.qs pt.isNTT pt.coeffs m)
    (ha : EltIs n r (min pt.level c0.level) r.qs true c1.coeffs a)
    {g : List (UInt64 × Bool)} {G : ℕ → ℤ} {bound : ℕ} (hb : ∀ u ≤ min pt.level c0.level, bound ≤ r.qs u)
    (hg : DrawsOK r.n bound g G) :
    Encrypts n r (min pt.level c0.level) c0.isNTT (skEncrypt r sk g pt c0 c1) s
      (fun u => m u + intR (2 ^ n) (r.qs u) G) := by
  have hcl : 0 < c0.coeffs.length := List.length_pos_iff.2 hc
  have hle : min pt.level c0.level ≤ c0.level := min_le_right _ _
  have hlc : c0.level < c0.coeffs.length := by unfold Poly.level; omega
  unfold skEncrypt
  dsimp only
  generalize min pt.level c0.level = level at *
  have hpos : ∀ u ≤ level, 1 ≤ r.qs u := fun u hu => (hr.subAt (show u < r.subs.length by omega)).prime.one_le
  have w := mulMont_elt hr hl (p3 := c0.coeffs) (z := fun u => a u * s u) ha hs (fun u hu => by
    have := six_lt hr hl sr hu
    exact Nat.mul_le_mul_left _ (by omega)) (fun u _ => by ring) (by omega)
  have v := negLvl_elt hr hl (w.is.mono fun u hu => Nat.le_succ _) w.is.lvl
  have vlen : (r.negLvl level (r.mulCoeffsMontgomeryLvl level c1.coeffs sk c0.coeffs)
      (r.mulCoeffsMontgomeryLvl level c1.coeffs sk c0.coeffs)).length = c0.coeffs.length := v.len.trans w.len
  generalize r.negLvl level (r.mulCoeffsMontgomeryLvl level c1.coeffs sk c0.coeffs)
      (r.mulCoeffsMontgomeryLvl level c1.coeffs sk c0.coeffs) = v0 at *
  have pool := elt_intVec hr (gaussWrite_is hr hl hb hg (p := newPoly r.n r.subs.length)
    (by rw [length_newPoly]; exact hl)).is
  cases hcn : c0.isNTT with
  | true =>
    simp only [if_true]
    cases hpn : pt.isNTT with
    | true =>
      rw [hpn] at hm
      simp only [if_true]
      have p := nttLvl_elt hr hl sr (fun u hu => by have := hpos u hu; omega) pool pool.lvl
      have v1 := addLvl_elt hr hl v.is p.is (fun u hu => by omega) v.is.lvl
      have v2 := addLvl_elt hr hl v1.is hm (fun u hu => by omega) v1.is.lvl
      exact Encrypts.mk' v2.is ha fun u hu => by ring
    | false =>
      rw [hpn] at hm
      simp only [Bool.false_eq_true, if_false]
      have p1 := addLvl_elt hr hl pool hm (fun u hu => by omega) pool.lvl
      have p2 := nttLvl_elt hr hl sr (fun u hu => by omega) p1.is p1.is.lvl
      have v1 := addLvl_elt hr hl v.is p2.is (fun u hu => by omega) v.is.lvl
      exact Encrypts.mk' v1.is ha fun u hu => by ring
  | false =>
    simp only [Bool.false_eq_true, if_false]
    have a' := invNttLvl_elt hr hl sr (fun u hu => by omega) ha ha.lvl
    cases hpn : pt.isNTT with
    | true =>
      rw [hpn] at hm
      simp only [if_true]
      have v1 := addLvl_elt hr hl v.is hm (fun u hu => by omega) v.is.lvl
      have v2 := invNttLvl_elt hr hl sr (fun u hu => by omega) v1.is v1.is.lvl
      have v3 := gaussAdd_is hr hl hle hb hg (by rw [v2.len, v1.len]; omega) v2.is
      exact Encrypts.mk' v3 a'.is fun u hu => by ring
    | false =>
      rw [hpn] at hm
      simp only [Bool.false_eq_true, if_false]
      have v1 := invNttLvl_elt hr hl sr (fun u hu => by have := hpos u hu; omega) v.is v.is.lvl
      have v2 := addLvl_elt hr hl v1.is hm (fun u hu => by omega) v1.is.lvl
      have v3 := gaussAdd_is hr hl hle hb hg (by rw [v2.len, v1.len]; omega) v2.is
      exact Encrypts.mk' v3 a'.is fun u hu => by ring

/-- **C32 (public-key encryption, no `P`).** For a public key `b + a s = e`, a sampled `U` and draws `G0`, `G1`, the
ciphertext decrypts to `m + U e + G0 + G1 s` exactly. -/
theorem C32_pkEncryptNoP {pk : Rows × Rows} {pt c0 c1 : Poly} {s m a b e : ∀ u, Rq (2 ^ n) (r.qs u)}
    (hl : min pt.level c0.level < r.subs.length) (hc : c0.coeffs ≠ []) (hc1 : c0.level < c1.coeffs.length)
    (hk0 : EltIs n r (min pt.level c0.level) r.qs true pk.1 b)
    (hk1 : EltIs n r (min pt.level c0.level) r.qs true pk.2 a)
    (hk : ∀ u ≤ min pt.level c0.level, b u + a u * s u = e u)
    (hm : EltIs n r (min pt.level c0.level) r.qs pt.isNTT pt.coeffs m) {x : Rows} {U : ℕ → ℤ}
    (hu : PolyIs r (min pt.level c0.level) (fun u => r.qs u + 1) x (r.intVec U))
    {g0 g1 : List (UInt64 × Bool)} {G0 G1 : ℕ → ℤ} {bound : ℕ} (hb : ∀ u ≤ min pt.level c0.level, bound ≤ r.qs u)
    (hg0 : DrawsOK r.n bound g0 G0) (hg1 : DrawsOK r.n bound g1 G1) :
    Encrypts n r (min pt.level c0.level) c0.isNTT (pkEncryptNoP r pk x g0 g1 pt c0 c1) s
      (fun u => m u + (intR (2 ^ n) (r.qs u) U * e u + intR (2 ^ n) (r.qs u) G0
        + intR (2 ^ n) (r.qs u) G1 * s u)) := by
  have hcl : 0 < c0.coeffs.length := List.length_pos_iff.2 hc
  have hle : min pt.level c0.level ≤ c0.level := min_le_right _ _
  have hlc : c0.level < c0.coeffs.length := by unfold Poly.level; omega
  unfold pkEncryptNoP
  dsimp only
  generalize min pt.level c0.level = level at *
  have hpos : ∀ u ≤ level, 1 ≤ r.qs u := fun u hu => (hr.subAt (show u < r.subs.length by omega)).prime.one_le
  have u0 := elt_intVec hr hu
  have u1 := nttLvl_elt hr hl sr (fun u hu => by have := hpos u hu; omega) u0 u0.lvl
  have u2 := mformLvl_elt hr hl u1.is u1.is.lvl
  have hq : ∀ u ≤ level, r.qs u * r.qs u ≤ r.qs u * 2 ^ 64 := fun u hu => by
    have := six_lt hr hl sr hu
    exact Nat.mul_le_mul_left _ (by omega)
  have w0 := mulMont_elt hr hl (p3 := c0.coeffs) (z := fun u => intR (2 ^ n) (r.qs u) U * b u) u2.is hk0 hq
    (fun u _ => by ring) (by omega)
  have w1 := mulMont_elt hr hl (p3 := c1.coeffs) (z := fun u => intR (2 ^ n) (r.qs u) U * a u) u2.is hk1 hq
    (fun u _ => by ring) (by omega)
  have fin : ∀ u ≤ level, intR (2 ^ n) (r.qs u) U * e u
      = intR (2 ^ n) (r.qs u) U * b u + intR (2 ^ n) (r.qs u) U * a u * s u := fun u hu => by
    rw [← hk u hu]; ring
  have upool := u2.is.lvl
  have w0l := w0.len
  have w1l := w1.len
  replace w0 := w0.is
  replace w1 := w1.is
  generalize r.mformLvl level (r.nttLvl level x x) (r.nttLvl level x x) = up at *
  generalize r.mulCoeffsMontgomeryLvl level up pk.1 c0.coeffs = v0 at *
  generalize r.mulCoeffsMontgomeryLvl level up pk.2 c1.coeffs = v1 at *
  cases hcn : c0.isNTT with
  | true =>
    simp only [if_true]
    have p1w := gaussWrite_is hr hl hb hg1 (p := up) upool
    have p1 := elt_intVec hr p1w.is
    have p2 := nttLvl_elt hr hl sr (fun u hu => by have := hpos u hu; omega) p1 p1.lvl
    have y1 := addLvl_elt hr hl w1 p2.is (fun u hu => by omega) w1.lvl
    have p3 := elt_intVec hr (gaussWrite_is hr hl hb hg0 p2.is.lvl).is
    cases hpn : pt.isNTT with
    | true =>
      rw [hpn] at hm
      simp only [Bool.not_true, Bool.false_eq_true, if_false]
      have p4 := nttLvl_elt hr hl sr (fun u hu => by have := hpos u hu; omega) p3 p3.lvl
      have y0 := addLvl_elt hr hl w0 p4.is (fun u hu => by omega) w0.lvl
      have z0 := addLvl_elt hr hl y0.is hm (fun u hu => by omega) y0.is.lvl
      exact Encrypts.mk' z0.is y1.is fun u hu => by rw [fin u hu]; ring
    | false =>
      rw [hpn] at hm
      simp only [Bool.not_false, if_true]
      have p4 := addLvl_elt hr hl p3 hm (fun u hu => by omega) p3.lvl
      have p5 := nttLvl_elt hr hl sr (fun u hu => by omega) p4.is p4.is.lvl
      have y0 := addLvl_elt hr hl w0 p5.is (fun u hu => by omega) w0.lvl
      exact Encrypts.mk' y0.is y1.is fun u hu => by rw [fin u hu]; ring
  | false =>
    simp only [Bool.false_eq_true, if_false]
    have y0 := invNttLvl_elt hr hl sr (fun u hu => by omega) w0 w0.lvl
    have y1 := invNttLvl_elt hr hl sr (fun u hu => by omega) w1 w1.lvl
    have z0 := gaussAdd_is hr hl hle hb hg0 (by rw [y0.len]; omega) y0.is
    have z1 := gaussAdd_is hr hl hle hb hg1 (by rw [y1.len]; omega) y1.is
    cases hpn : pt.isNTT with
    | true =>
      rw [hpn] at hm
      simp only [Bool.not_true, Bool.false_eq_true, if_false]
      have p := invNttLvl_elt hr hl sr (fun u hu => by omega) hm upool
      have t := addLvl_elt hr hl z0 p.is (fun u hu => by omega) z0.lvl
      exact Encrypts.mk' t.is z1 fun u hu => by rw [fin u hu]; ring
    | false =>
      rw [hpn] at hm
      simp only [Bool.not_false, if_true]
      have t := addLvl_elt hr hl z0 hm (fun u hu => by omega) z0.lvl
      exact Encrypts.mk' t.is z1 fun u hu => by rw [fin u hu]; ring

end

section
variable {n : ℕ} {rQ rP : Ring}

/-- **C32 (public-key encryption).** For a public key of `S` with error `E`, a sampled `U` and draws `G0`, `G1`, the
ciphertext decrypts to `m + D`, where `P D = U E + G0 + G1 S - Z0 - Z1 S` for the first prime `P` and rounding terms
`Z0`, `Z1`. -/
theorem C32_pkEncrypt {pk : PolyQP × PolyQP} {pt c0 c1 : Poly} {m : ∀ u, Rq (2 ^ n) (rQ.qs u)} {S E : ℕ → ℤ}
    (K : KeyRings n rQ rP (min pt.level c0.level) 0) (hc : c0.coeffs ≠ [])
    (hc1 : min pt.level c0.level < c1.coeffs.length)
    (hk : IsPublicKey n rQ rP (min pt.level c0.level) 0 pk S E)
    (hm : EltIs n rQ (min pt.level c0.level) rQ.qs pt.isNTT pt.coeffs m) {x : Rows} {U : ℕ → ℤ}
    (hu : Sampled rQ (min pt.level c0.level) x U) (hup : ∀ k < 2 ^ n, |U k| ≤ rP.qs 0)
    {g0 g1 : List (UInt64 × Bool)} {G0 G1 : ℕ → ℤ} {bound : ℕ} (hb : ∀ u ≤ min pt.level c0.level, bound ≤ rQ.qs u)
    (hb0 : 2 * bound < rQ.qs 0) (hbp : bound ≤ rP.qs 0)
    (hg0 : DrawsOK rQ.n bound g0 G0) (hg1 : DrawsOK rQ.n bound g1 G1) :
    ∃ D : ℕ → ℤ, PkNoise (2 ^ n) (rP.qs 0) U E G0 G1 S D ∧
      Encrypts n rQ (min pt.level c0.level) c0.isNTT (pkEncrypt rQ rP pk x g0 g1 pt c0 c1)
        (fun u => intR (2 ^ n) (rQ.qs u) S) (fun u => m u + intR (2 ^ n) (rQ.qs u) D) := by
  have hcl : 0 < c0.coeffs.length := List.length_pos_iff.2 hc
  have hle : min pt.level c0.level ≤ c0.level := min_le_right _ _
  have hlc : c0.level < c0.coeffs.length := by unfold Poly.level; omega
  unfold pkEncrypt
  dsimp only
  generalize min pt.level c0.level = level at *
  obtain ⟨hr, sr, hP, sP, hd, hl, lP⟩ := K
  have hpos : ∀ u ≤ level, 1 ≤ rQ.qs u := fun u hu => (hr.subAt (show u < rQ.subs.length by omega)).prime.one_le
  have hposP : ∀ u ≤ 0, 1 ≤ rP.qs u := fun u hu => (hP.subAt (show u < rP.subs.length by omega)).prime.one_le
  obtain ⟨B, A, kb, ka, kbP, kaP, relQ, relP⟩ := hk.ex
  have hqq : ∀ u ≤ level, rQ.qs u * rQ.qs u ≤ rQ.qs u * 2 ^ 64 := fun u hu => by
    have := six_lt hr hl sr hu
    exact Nat.mul_le_mul_left _ (by omega)
  have hpp : ∀ u ≤ 0, rP.qs u * rP.qs u ≤ rP.qs u * 2 ^ 64 := fun u hu => by
    have := six_lt hP lP sP hu
    exact Nat.mul_le_mul_left _ (by omega)
  have hpool : 0 < (newPoly rP.n rP.subs.length).length := by rw [length_newPoly]; exact lP
  -- `u` over `Q` and `P`
  have uQ0 := elt_intVec hr hu.is
  have uP0 := elt_intVec hP (extendBasisSmallNorm_is hr hP (lP := 0) hu
    (fun k hk u hu' => by rw [Nat.le_zero.1 hu']; exact hup k hk) hpool)
  have uQ1 := nttLvl_elt hr hl sr (fun u hu => by have := hpos u hu; omega) uQ0 uQ0.lvl
  have uP1 := nttLvl_elt hP lP sP (fun u hu => by have := hposP u hu; omega) uP0 uP0.lvl
  have uQ2 := mformLvl_elt hr hl uQ1.is uQ1.is.lvl
  have uP2 := mformLvl_elt hP lP uP1.is uP1.is.lvl
  -- times the key, back to coefficients
  have q0 := mulMont_elt hr hl (p3 := c0.coeffs) (z := fun u => intR (2 ^ n) (rQ.qs u) U * intR (2 ^ n) (rQ.qs u) B)
    uQ2.is kb hqq (fun u _ => by ring) (by omega)
  have q1 := mulMont_elt hr hl (p3 := c1.coeffs) (z := fun u => intR (2 ^ n) (rQ.qs u) U * intR (2 ^ n) (rQ.qs u) A)
    uQ2.is ka hqq (fun u _ => by ring) (by omega)
  have p0 := mulMont_elt hP lP (p3 := newPoly rP.n rP.subs.length)
    (z := fun u => intR (2 ^ n) (rP.qs u) U * intR (2 ^ n) (rP.qs u) B) uP2.is kbP hpp (fun u _ => by ring) hpool
  have p1 := mulMont_elt hP lP (p3 := newPoly rP.n rP.subs.length)
    (z := fun u => intR (2 ^ n) (rP.qs u) U * intR (2 ^ n) (rP.qs u) A) uP2.is kaP hpp (fun u _ => by ring) hpool
  have q0' := invNttLvl_elt hr hl sr (fun u hu => by omega) q0.is q0.is.lvl
  have q1' := invNttLvl_elt hr hl sr (fun u hu => by omega) q1.is q1.is.lvl
  have p0' := invNttLvl_elt hP lP sP (fun u hu => by omega) p0.is p0.is.lvl
  have p1' := invNttLvl_elt hP lP sP (fun u hu => by omega) p1.is p1.is.lvl
  -- errors
  have small : ∀ {g : List (UInt64 × Bool)} {G : ℕ → ℤ}, DrawsOK rQ.n bound g G → ∀ k < rQ.n, |G k| ≤ bound := by
    intro g G hg k hk
    have h1 := hg.le k hk
    rw [hg.val k hk]
    split <;> rw [abs_le] <;> omega
  have e0w := gaussWrite_is hr hl hb hg0 uQ2.is.lvl
  have e0S : Sampled rQ level (gaussWrite rQ level g0 (rQ.mformLvl level (rQ.nttLvl level x x) (rQ.nttLvl level x x))) G0 :=
    ⟨e0w.is, fun k hk => by have := small hg0 k hk; omega⟩
  have e0P := extendBasisSmallNorm_is hr hP (lP := 0) e0S (fun k hk u hu' => by
    rw [Nat.le_zero.1 hu']
    have := small hg0 k (by rw [hr.deg]; exact hk)
    omega) uP2.is.lvl
  have e1w := gaussWrite_is hr hl hb hg1 e0w.is.lvl
  have e1S : Sampled rQ level (gaussWrite rQ level g1 (gaussWrite rQ level g0
      (rQ.mformLvl level (rQ.nttLvl level x x) (rQ.nttLvl level x x)))) G1 :=
    ⟨e1w.is, fun k hk => by have := small hg1 k hk; omega⟩
  have e1P := extendBasisSmallNorm_is hr hP (lP := 0) e1S (fun k hk u hu' => by
    rw [Nat.le_zero.1 hu']
    have := small hg1 k (by rw [hr.deg]; exact hk)
    omega) e0P.lvl
  have a0 := addLvl_elt hr hl q0'.is (elt_intVec hr e0w.is) (fun u hu => by omega) q0'.is.lvl
  have a1 := addLvl_elt hr hl q1'.is (elt_intVec hr e1w.is) (fun u hu => by omega) q1'.is.lvl
  have b0 := addLvl_elt hP lP p0'.is (elt_intVec hP e0P) (fun u hu => by omega) p0'.is.lvl
  have b1 := addLvl_elt hP lP p1'.is (elt_intVec hP e1P) (fun u hu => by omega) p1'.is.lvl
  have lift : ∀ (V G : ℕ → ℤ) (q : ℕ), intR (2 ^ n) q U * intR (2 ^ n) q V + intR (2 ^ n) q G
      = intR (2 ^ n) q (fun k => negConv (2 ^ n) U V k + G k) := fun V G q => by
    rw [intR_mul, intR_add]
  have a0' := (a0.is.congr fun u _ => lift B G0 (rQ.qs u)).intVec hr hl
  have a1' := (a1.is.congr fun u _ => lift A G1 (rQ.qs u)).intVec hr hl
  have b0' := (b0.is.congr fun u _ => lift B G0 (rP.qs u)).intVec hP lP
  have b1' := (b1.is.congr fun u _ => lift A G1 (rP.qs u)).intVec hP lP
  have mono : ∀ {p X}, PolyIs rQ level rQ.qs p (rQ.intVec X) →
      PolyIs rQ level (fun i => 2 * rQ.qs i + 1) p (rQ.intVec X) := fun h => h.mono fun u _ => by omega
  obtain ⟨Z0, Y0, z0, m0⟩ := C20_modDownQPtoQ hr sr hP sP hd hl lP (by omega) _ _ _ _ _ (mono a0') b0' a0.is.lvl
  obtain ⟨Z1, Y1, z1, m1⟩ := C20_modDownQPtoQ hr sr hP sP hd hl lP (by omega) _ _ _ _ _ (mono a1') b1' a1.is.lvl
  have rel : ∀ q, intR (2 ^ n) q B + intR (2 ^ n) q A * intR (2 ^ n) q S = intR (2 ^ n) q E →
      intR (2 ^ n) q (fun k => negConv (2 ^ n) U B k + G0 k)
        + intR (2 ^ n) q (fun k => negConv (2 ^ n) U A k + G1 k) * intR (2 ^ n) q S
      = intR (2 ^ n) q (fun k => negConv (2 ^ n) U E k + G0 k + negConv (2 ^ n) G1 S k) := by
    intro q h
    rw [← intR_add _ (negConv (2 ^ n) G1 S), ← lift, ← lift, ← lift, ← intR_mul, ← h]
    ring
  obtain ⟨D, hD, hY⟩ := divided_relation hr hP hd hl lP (fun u hu => rel _ (relQ u hu)) (fun u hu => rel _ (relP u hu))
    (fun k hk => (z0 k (by rw [hr.deg]; exact hk)).1) (fun k hk => (z1 k (by rw [hr.deg]; exact hk)).1)
  have hp0 : rP.prodQ 0 = rP.qs 0 := prodQ_zero ..
  rw [hp0] at hD z0 z1
  refine ⟨D, ⟨Z0, Z1, fun k hk => ⟨(z0 k (by rw [hr.deg]; exact hk)).2.1, (z0 k (by rw [hr.deg]; exact hk)).2.2⟩,
    fun k hk => ⟨(z1 k (by rw [hr.deg]; exact hk)).2.1, (z1 k (by rw [hr.deg]; exact hk)).2.2⟩, hD⟩, ?_⟩
  have y0 := elt_intVec hr m0.is
  have y1 := elt_intVec hr m1.is
  have elvl := e1w.is.lvl
  generalize (newBasisExtender rQ rP).modDownQPtoQ _ _ _ _ _ = v0 at y0
  generalize (newBasisExtender rQ rP).modDownQPtoQ _ _ _ _ _ = v1 at y1
  generalize gaussWrite rQ level g1 _ = pool at elvl
  cases hcn : c0.isNTT with
  | true =>
    simp only [if_true]
    have t1 := nttLvl_elt hr hl sr (fun u hu => by omega) y1 y1.lvl
    cases hpn : pt.isNTT with
    | true =>
      rw [hpn] at hm
      simp only [Bool.not_true, Bool.false_eq_true, if_false, if_true]
      have t0 := nttLvl_elt hr hl sr (fun u hu => by omega) y0 y0.lvl
      have w0 := addLvl_elt hr hl t0.is hm (fun u hu => by omega) t0.is.lvl
      exact Encrypts.mk' w0.is t1.is fun u hu => by rw [← hY u hu]; ring
    | false =>
      rw [hpn] at hm
      simp only [Bool.not_false, if_true, Bool.false_eq_true, if_false]
      have t0 := addLvl_elt hr hl y0 hm (fun u hu => by omega) y0.lvl
      have w0 := nttLvl_elt hr hl sr (fun u hu => by omega) t0.is t0.is.lvl
      exact Encrypts.mk' w0.is t1.is fun u hu => by rw [← hY u hu]; ring
  | false =>
    simp only [Bool.false_eq_true, if_false]
    cases hpn : pt.isNTT with
    | true =>
      rw [hpn] at hm
      simp only [Bool.not_true, Bool.false_eq_true, if_false]
      have p := invNttLvl_elt hr hl sr (fun u hu => by omega) hm elvl
      have w0 := addLvl_elt hr hl y0 p.is (fun u hu => by omega) y0.lvl
      exact Encrypts.mk' w0.is y1 fun u hu => by rw [← hY u hu]; ring
    | false =>
      rw [hpn] at hm
      simp only [Bool.not_false, if_true]
      have w0 := addLvl_elt hr hl y0 hm (fun u hu => by omega) y0.lvl
      exact Encrypts.mk' w0.is y1 fun u hu => by rw [← hY u hu]; ring

end

/-- **C32 (bound).** With coefficients of `U` and `S` in `{-1, 0, 1}` and errors of size at most `bound`, the noise
of public-key encryption satisfies `|D_k| ≤ (2 N + 1) bound / P + (N + 1) (1 + 2^-42)`. -/
theorem C32_noise_bound {N P : ℕ} {U E E0 E1 S D : ℕ → ℤ} (h : PkNoise N P U E E0 E1 S D) {bound : ℕ}
    (hU : ∀ k < N, |U k| ≤ 1) (hS : ∀ k < N, |S k| ≤ 1) (hE : ∀ k < N, |E k| ≤ bound)
    (hE0 : ∀ k < N, |E0 k| ≤ bound) (hE1 : ∀ k < N, |E1 k| ≤ bound) {k : ℕ} (hk : k < N) :
    2 ^ 42 * (P * |D k|) ≤ 2 ^ 42 * ((2 * N + 1) * bound) + (N + 1) * ((2 ^ 42 + 1) * P) := by
  obtain ⟨Z0, Z1, h0, h1, hD⟩ := h
  have z : ∀ {Z : ℕ → ℤ}, (∀ k < N, NearRep P (Z k)) → ∀ k < N, |(2 : ℤ) ^ 42 * Z k| ≤ (2 ^ 42 + 1) * (P : ℤ) := by
    intro Z hZ k hk
    have a := (hZ k hk).lo
    have b := (hZ k hk).hi
    rw [abs_le]
    constructor <;> nlinarith
  have c1 := abs_negConv_le hU hE hk
  have c2 := abs_negConv_le hE1 hS hk
  have c3 := abs_negConv_le (z h1) hS hk
  have e3 : negConv N (fun k => 2 ^ 42 * Z1 k) S k = 2 ^ 42 * negConv N Z1 S k := by
    unfold negConv
    rw [Finset.mul_sum]
    refine Finset.sum_congr rfl fun i _ => ?_
    split <;> ring
  rw [e3] at c3
  have c0 := z h0 k hk
  have d0 := hE0 k hk
  have key : (2 : ℤ) ^ 42 * (P * |D k|) = |2 ^ 42 * (P * D k)| := by
    rw [abs_mul, abs_mul, abs_of_nonneg (by positivity : (0 : ℤ) ≤ 2 ^ 42), Nat.abs_cast]
  rw [key, hD k hk]
  rw [abs_le] at c0 c1 c2 c3 d0 ⊢
  constructor <;> linarith [c0.1, c0.2, c1.1, c1.2, c2.1, c2.2, c3.1, c3.2, d0.1, d0.2]

/-- **C32 (sampler).** The accepted draws of the Gaussian sampler meet the hypothesis of the encryption theorems. -/
theorem C32_draws {fuel : ℕ} {bound : UInt64} {cand : ℕ → UInt64 × Bool} {N k : ℕ} {a : List (UInt64 × Bool) × ℕ}
    (h : gaussDraws fuel bound cand N k = some a) :
    ∃ G : ℕ → ℤ, DrawsOK N bound.toNat a.1 G ∧ ∀ k < N, |G k| ≤ bound.toNat := by
  obtain ⟨hlen, e, e0, hP, hv, -⟩ := gaussDraws_is _ (show _ = some (a.1, a.2) from h)
  have hle : ∀ k < N, (a.1.getD k default).1.toNat ≤ bound.toNat := fun k hk => by
    rw [hv k hk]
    exact UInt64.le_iff_toNat_le.1 (hP.first k hk).acc
  refine ⟨_, ⟨hlen, hle, fun k _ => rfl⟩, fun k hk => ?_⟩
  have := hle k hk
  split <;> rw [abs_le] <;> omega

section
variable {n : ℕ} {rQ rP : Ring} (K : KeyParams n rQ rP)
include K

/-- **C32 (key generation).** `GenPublicKey` yields a public key at every level. -/
theorem C32_publicKey {sk : PolyQP} {S : ℕ → ℤ}
    (hs : sk.IsMont n rQ rP (rQ.subs.length - 1) (rP.subs.length - 1) S) {e : Rows} {E : ℕ → ℤ}
    (he : Sampled rQ (rQ.subs.length - 1) e E) (hE : ∀ k < 2 ^ n, ∀ u < rP.subs.length, |E k| ≤ rP.qs u)
    {a : PolyQP} {v : ∀ u, ℕ → ZMod (rQ.sub u).q.toNat} {w : ∀ u, ℕ → ZMod (rP.sub u).q.toNat}
    (hq : PolyIs rQ (rQ.subs.length - 1) rQ.qs a.q v) (hp : PolyIs rP (rP.subs.length - 1) rP.qs a.p w)
    {lQ lP : ℕ} (hlQ : lQ < rQ.subs.length) (hlP : lP < rP.subs.length) :
    IsPublicKey n rQ rP lQ lP (genPublicKey rQ rP sk e a) S E := by
  have R := K.rings
  obtain ⟨h2, bq, bp, hbq, hbp, relQ, relP⟩ := C33_publicKey K hs he hE hq hp
  obtain ⟨A, hAQ, hAP⟩ := exists_lift R.hQ R.hP R.hd v w
  obtain ⟨B, hBQ, hBP⟩ := exists_lift R.hQ R.hP R.hd bq bp
  have mk : ∀ {r : Ring} (hr : r.Valid n) {p : Rows} {x : ∀ u, ℕ → ZMod (r.sub u).q.toNat} {X : ℕ → ℤ} {l : ℕ},
      l < r.subs.length → PolyIs r (r.subs.length - 1) r.qs p x → (∀ u < r.subs.length, ∀ k < 2 ^ n, r.nttVec n X u k = x u k) →
      EltIs n r l r.qs true p (fun u => intR (2 ^ n) (r.qs u) X) := by
    intro r hr p x X l hl h hX
    exact (elt_nttVec hr (level := r.subs.length - 1) (by omega) (h.congr fun u hu k hk =>
      (hX u (by omega) k (hr.deg ▸ hk)).symm)).below (by omega)
  refine ⟨B, A, mk R.hQ hlQ hbq hBQ, ?_, mk R.hP hlP hbp hBP, ?_, fun u hu => ?_, fun u hu => ?_⟩
  · rw [h2]; exact mk R.hQ hlQ hq hAQ
  · rw [h2]; exact mk R.hP hlP hp hAP
  · rw [← relQ u (by omega), ← ofNtt_nttVec R.hQ (by omega) B, ← ofNtt_nttVec R.hQ (by omega) A,
      ofNtt_congr (hBQ u (by omega)), ofNtt_congr (hAQ u (by omega))]
  · rw [← relP u (by omega), ← ofNtt_nttVec R.hP (by omega) B, ← ofNtt_nttVec R.hP (by omega) A,
      ofNtt_congr (hBP u (by omega)), ofNtt_congr (hAP u (by omega))]

/-- **C32 (round trip).** Generated secret key, generated public key, public-key encryption, decryption: for every
message `m`, ternary secret `S` and `U`, errors of size at most `bound`, and masks, decryption returns `m + D`
modulo every prime of the lower level, with `D` as in `C32_pkEncrypt` and bounded as in `C32_noise_bound`. -/
theorem C32_roundtrip {sRows e x : Rows} {S E U : ℕ → ℤ} {bound : ℕ} {a : PolyQP}
    {v : ∀ u, ℕ → ZMod (rQ.sub u).q.toNat} {w : ∀ u, ℕ → ZMod (rP.sub u).q.toNat}
    (hb : ∀ u < rQ.subs.length, bound ≤ rQ.qs u) (hb0 : 2 * bound < rQ.qs 0) (hbp : ∀ u < rP.subs.length, bound ≤ rP.qs u)
    (hS : Sampled rQ (rQ.subs.length - 1) sRows S) (hS1 : ∀ k, |S k| ≤ 1)
    (hE : Sampled rQ (rQ.subs.length - 1) e E) (hE1 : ∀ k < 2 ^ n, |E k| ≤ bound)
    (hq : PolyIs rQ (rQ.subs.length - 1) rQ.qs a.q v) (hp : PolyIs rP (rP.subs.length - 1) rP.qs a.p w)
    {pt c0 c1 out : Poly} {m : ∀ u, Rq (2 ^ n) (rQ.qs u)} (hl : min pt.level c0.level < rQ.subs.length)
    (hc : c0.coeffs ≠ []) (hc1 : min pt.level c0.level < c1.coeffs.length) (ho : out.coeffs ≠ [])
    (hm : EltIs n rQ (min pt.level c0.level) rQ.qs pt.isNTT pt.coeffs m)
    (hU : Sampled rQ (min pt.level c0.level) x U) (hU1 : ∀ k, |U k| ≤ 1)
    {g0 g1 : List (UInt64 × Bool)} {G0 G1 : ℕ → ℤ} (hg0 : DrawsOK rQ.n bound g0 G0) (hg1 : DrawsOK rQ.n bound g1 G1) :
    let sk := genSecretKey rQ rP sRows
    let ct := pkEncrypt rQ rP (genPublicKey rQ rP sk e a) x g0 g1 pt c0 c1
    let level := min (min pt.level c0.level) out.level
    ∃ D : ℕ → ℤ,
      (∀ k < 2 ^ n, 2 ^ 42 * (rP.qs 0 * |D k|) ≤ 2 ^ 42 * ((2 * 2 ^ n + 1) * bound)
        + (2 ^ n + 1) * ((2 ^ 42 + 1) * rP.qs 0)) ∧
      (decrypt rQ sk.q [ct.1, ct.2] out).isNTT = out.isNTT ∧
      (decrypt rQ sk.q [ct.1, ct.2] out).level = level ∧
      EltIs n rQ level rQ.qs out.isNTT (decrypt rQ sk.q [ct.1, ct.2] out).coeffs
        (fun u => m u + intR (2 ^ n) (rQ.qs u) D) := by
  intro sk ct level
  have R := K.rings
  have hlP := R.lP
  have one : ∀ u < rP.subs.length, 1 ≤ rP.qs u := fun u hu => (R.hP.subAt hu).prime.one_le
  have one' : ∀ {X : ℕ → ℤ}, (∀ k, |X k| ≤ 1) → ∀ k < 2 ^ n, ∀ u < rP.subs.length, |X k| ≤ rP.qs u := by
    intro X hX k _ u hu
    have := hX k
    have := one u hu
    omega
  have hsk := C33_secretKey K hS (one' hS1)
  have hpk := C32_publicKey K hsk hE (fun k hk u hu => by have := hE1 k hk; have := hbp u hu; omega) hq hp hl
    (show 0 < rP.subs.length by omega)
  obtain ⟨D, hD, hct⟩ := C32_pkEncrypt (K.at hl (show 0 < rP.subs.length by omega)) hc hc1 hpk hm hU
    (fun k hk => one' hU1 k hk 0 (by omega)) (fun u hu => hb u (by omega)) hb0 (hbp 0 (by omega)) hg0 hg1
  have small : ∀ {g : List (UInt64 × Bool)} {G : ℕ → ℤ}, DrawsOK rQ.n bound g G → ∀ k < 2 ^ n, |G k| ≤ bound := by
    intro g G hg k hk
    rw [← R.hQ.deg] at hk
    have h1 := hg.le k hk
    rw [hg.val k hk]
    split <;> rw [abs_le] <;> omega
  have hlev : level < rQ.subs.length := lt_of_le_of_lt (min_le_left _ _) hl
  refine ⟨D, fun k hk => ?_, C32_decrypt R.hQ R.sQ hct ho hlev
    ((elt_mont R.hQ R.lQ hsk.q).below (show level ≤ rQ.subs.length - 1 by omega))⟩
  have := C32_noise_bound hD (fun k _ => hU1 k) (fun k _ => hS1 k) hE1 (small hg0) (small hg1) hk
  push_cast at this
  exact this

end

/-- hypotheses of `C32_roundtrip`: rings returned by `NewRing`, secret `1 - X`, error bound 3, message `k ↦ k` given in
the coefficient domain at level 1 -/
example : ∃ (rQ rP : Ring) (sRows e x : Rows) (S E U : ℕ → ℤ) (a : PolyQP) (X : ℕ → ℤ) (pt : Poly)
    (g : List (UInt64 × Bool)) (G : ℕ → ℤ), KeyParams 4 rQ rP ∧ (∀ u < rQ.subs.length, 3 ≤ rQ.qs u) ∧
    2 * 3 < rQ.qs 0 ∧ (∀ u < rP.subs.length, 3 ≤ rP.qs u) ∧
    Sampled rQ (rQ.subs.length - 1) sRows S ∧ (∀ k, |S k| ≤ 1) ∧ S 1 = -1 ∧ Sampled rQ (rQ.subs.length - 1) e E ∧
    (∀ k < 2 ^ 4, |E k| ≤ 3) ∧ E 0 = -2 ∧ PolyIs rQ (rQ.subs.length - 1) rQ.qs a.q (rQ.intVec X) ∧
    PolyIs rP (rP.subs.length - 1) rP.qs a.p (rP.intVec X) ∧
    EltIs 4 rQ 1 rQ.qs pt.isNTT pt.coeffs (fun u => intR (2 ^ 4) (rQ.qs u) (fun k => k)) ∧
    Sampled rQ 1 x U ∧ (∀ k, |U k| ≤ 1) ∧ DrawsOK rQ.n 3 g G := by
  obtain ⟨rQ, rP, e1, e2, hQ, sQ, hP, sP, lQ, lP, nQ, nP, q0, q1, p0, p1, hd⟩ := exists_rings
  have qs0 : rQ.qs 0 = 97 := by unfold Ring.qs; rw [q0]; rfl
  have qs1 : rQ.qs 1 = 193 := by unfold Ring.qs; rw [q1]; rfl
  have ps0 : rP.qs 0 = 257 := by unfold Ring.qs; rw [p0]; rfl
  have ps1 : rP.qs 1 = 353 := by unfold Ring.qs; rw [p1]; rfl
  have samp : ∀ {X : ℕ → ℤ}, (∀ k, |X k| ≤ 3) → ∃ x, Sampled rQ (rQ.subs.length - 1) x X := by
    intro X hX
    obtain ⟨x, hx⟩ := exists_poly hQ (show rQ.subs.length - 1 < rQ.subs.length by omega) X
    exact ⟨x, hx.mono fun u _ => by omega, fun k _ => by have := hX k; omega⟩
  let S : ℕ → ℤ := fun k => if k = 0 then 1 else if k = 1 then -1 else 0
  have hS : ∀ k, |S k| ≤ 1 := fun k => by
    change |if k = 0 then (1 : ℤ) else if k = 1 then -1 else 0| ≤ 1
    split
    · decide
    · split <;> decide
  obtain ⟨sRows, hs⟩ := samp (X := S) (fun k => by have := hS k; omega)
  obtain ⟨e, he⟩ := samp (X := fun _ => -2) (fun _ => by decide)
  obtain ⟨aq, haq⟩ := exists_poly hQ (show rQ.subs.length - 1 < rQ.subs.length by omega) (fun k => 5 * k)
  obtain ⟨ap, hap⟩ := exists_poly hP (show rP.subs.length - 1 < rP.subs.length by omega) (fun k => 5 * k)
  obtain ⟨p, hp⟩ := exists_poly hQ (show 1 < rQ.subs.length by omega) (fun k => k)
  have two : ∀ {r : Ring}, r.subs.length = 2 → 3 ≤ r.qs 0 → 3 ≤ r.qs 1 → ∀ u < r.subs.length, 3 ≤ r.qs u := by
    intro r h a b u hu
    rcases (by omega : u = 0 ∨ u = 1) with rfl | rfl <;> assumption
  refine ⟨rQ, rP, sRows, e, sRows, S, fun _ => -2, S, ⟨aq, ap⟩, fun k => 5 * k, ⟨p, false⟩, List.replicate 16 (2, false),
    fun _ => -2, ⟨⟨hQ, sQ, hP, sP, hd, by omega, by omega⟩, by omega, by omega⟩, two lQ (by omega) (by omega), by omega,
    two lP (by omega) (by omega), hs, hS, rfl, he, fun _ _ => by simp, rfl, haq, hap, elt_intVec hQ hp, ?_, hS,
    ⟨by simp [nQ], fun k hk => ?_, fun k hk => ?_⟩⟩
  · rw [lQ] at hs; exact hs
  · rw [nQ] at hk
    revert k
    decide
  · rw [nQ] at hk
    revert k
    decide

set_option maxRecDepth 1000000 in
/-- a run of the model: secret-key encryption of the constant 10 with error `X ↦ -2` everywhere, decrypted -/
example : (match newRing 100 16 [97, 193] with
    | .ok r =>
      let sk : Rows := [List.replicate 16 61, List.replicate 16 (UInt64.ofNat (2 ^ 64 % 193))]
      let ct := skEncrypt r sk (List.replicate 16 (2, false)) ⟨cpoly 10, false⟩ ⟨cpoly 3, true⟩ ⟨cpoly 7, true⟩
      decide ((decrypt r sk [ct.1, ct.2] ⟨cpoly 0, false⟩).coeffs = cpoly 8)
    | .error _ => false) = true := by
  decide +kernel

end FastKsw.Props
