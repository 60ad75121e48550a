import Verif.Lemmas.MulCt
import Verif.Props.Encrypt

/-!
# Decryption of ciphertexts; elements with reduced rows determine the rows
-/

namespace FastKsw

open Props Finset

section
variable {n : ℕ} {r : Ring} (hr : r.Valid n) {level : ℕ}
include hr

/-- reduced rows in the NTT domain are determined by the element -/
theorem EltIs.row_eq (hl : level < r.subs.length) {p p' : Rows} {x} (h : EltIs n r level r.qs true p x)
    (h' : EltIs n r level r.qs true p' x) {u : ℕ} (hu : u ≤ level) : p.row u = p'.row u := by
  have V := hr.subAt (show u < r.subs.length by omega)
  have := V.fact
  have h4 := hr.four_le
  have e : ofNtt (r.sub u).psi n (zval _ (p.row u)) = ofNtt (r.sub u).psi n (zval _ (p'.row u)) :=
    ((h.eltOf hr hu).trans (h'.eltOf hr hu).symm)
  refine List.ext_getElem (by rw [h.len u hu, h'.len u hu]) fun k hk hk' => ?_
  rw [h.len u hu] at hk
  have hz : zval (r.sub u).q.toNat (p.row u) k = zval (r.sub u).q.toNat (p'.row u) k := by
    have := congrArg (evalAt (V.psiOK (by omega)) hk) e
    rwa [evalAt_ofNtt, evalAt_ofNtt] at this
  have a := h.lt u hu k hk
  have b := h'.lt u hu k hk
  have hk1 : k < (p.row u).length := by rw [h.len u hu]; exact hk
  have e1 : (p.row u).at k = (p.row u)[k]'hk1 := by simp [Row.at, List.getD, hk1]
  have e2 : (p'.row u).at k = (p'.row u)[k]'hk' := by simp [Row.at, List.getD, hk']
  rw [← e1, ← e2]
  unfold zval at hz
  rw [ZMod.natCast_eq_natCast_iff'] at hz
  unfold Ring.qs at a b
  rw [Nat.mod_eq_of_lt a, Nat.mod_eq_of_lt b] at hz
  exact UInt64.toNat_inj.1 hz

theorem EltIs.ext (hl : level < r.subs.length) {p p' : Rows} {x} (h : EltIs n r level r.qs true p x)
    (h' : EltIs n r level r.qs true p' x) (hp : p.length = level + 1) (hp' : p'.length = level + 1) : p = p' := by
  refine List.ext_getElem (by rw [hp, hp']) fun u hu hu' => ?_
  have := h.row_eq hr hl h' (u := u) (by omega)
  simpa [Rows.row, List.getD, hu, hu'] using this

/-- `Decrypt` of a ciphertext that decrypts to `m` returns `m` -/
theorem CtEnc.decrypt (sr : r.Small) {deg : ℕ} {c : Ct} {s m : ∀ u, Rq (2 ^ n) (r.qs u)} {A : ℕ → ℕ}
    (h : CtEnc n r level A deg c s m) (hA : (∀ u ≤ level, A u ≤ r.qs u) ∨ (∀ u ≤ level, A u ≤ 6 * r.qs u) ∧ deg % 8 ≠ 7)
    {sk : Rows} {pt : Poly} (hp : pt.coeffs ≠ []) (hl : min level pt.level < r.subs.length)
    (hs : EltIs n r (min level pt.level) r.qs true sk (fun u => 2 ^ 64 * s u)) :
    (FastKsw.decrypt r sk c.value pt).isNTT = pt.isNTT ∧
    (FastKsw.decrypt r sk c.value pt).level = min level pt.level ∧
    EltIs n r (min level pt.level) r.qs pt.isNTT (FastKsw.decrypt r sk c.value pt).coeffs m := by
  obtain ⟨x, hx, hm⟩ := h
  have hlen := hx.shape.len
  have e : (c.value.getD 0 default).level = level := hx.shape.level
  have e2 := hx.shape.ntt 0 (by omega)
  have key : (FastKsw.decrypt r sk c.value pt).isNTT = pt.isNTT ∧
    (FastKsw.decrypt r sk c.value pt).level = min (c.value.getD 0 default).level pt.level ∧
    EltIs n r (min (c.value.getD 0 default).level pt.level) r.qs pt.isNTT (FastKsw.decrypt r sk c.value pt).coeffs
      (fun u => ∑ j ∈ range c.value.length, x j u * s u ^ j) := by
    rcases hA with hA | ⟨hA, h7⟩
    · exact C51_decrypt_partial hr sr (sk := sk) (ct := c.value) (pt := pt)
        (by intro h; rw [h] at hlen; simp at hlen) hp (by rw [e]; exact hl) (Or.inl e2) s x (by rw [e]; exact hs)
        (fun j hj => by
          rw [e, e2]
          exact ((hx.elt j (by omega)).mono hA).below (by omega))
    · exact C51_decrypt_unreduced hr sr (sk := sk) (ct := c.value) (pt := pt)
        (by intro h; rw [h] at hlen; simp at hlen) hp (by rw [e]; exact hl) e2 (by rw [hlen]; exact h7) s x
        (by rw [e]; exact hs)
        (fun j hj => by
          rw [e]
          exact ((hx.elt j (by omega)).mono hA).below (by omega))
  obtain ⟨a1, a2, a3⟩ := key
  rw [e] at a2 a3
  refine ⟨a1, a2, a3.congr fun u hu => ?_⟩
  rw [hlen]
  exact hm u (by omega)

end

theorem KeySwitched.congr {n : ℕ} {rQ rP : Ring} {lQ lP : ℕ} {a a' d0 d1 : ∀ u, Rq (2 ^ n) (rQ.qs u)}
    {sIn sOut : ℕ → ℤ} {e : ℕ → ℕ → ℤ} {E : ℕ → ℤ} (h : KeySwitched n rQ rP lQ lP a d0 d1 sIn sOut e E)
    (ha : ∀ u ≤ lQ, a u = a' u) : KeySwitched n rQ rP lQ lP a' d0 d1 sIn sOut e E := by
  obtain ⟨A, Z0, Z1, h1, h2, h3, h4, h5⟩ := h
  exact ⟨A, Z0, Z1, fun i hi => ⟨(h1 i hi).1, fun u hu hd => ((h1 i hi).2 u hu hd).trans (ha u hu)⟩, h2, h3, h4,
    fun u hu => by rw [h5 u hu, ha u hu]⟩

theorem KeySwitched.rel {n : ℕ} {rQ rP : Ring} {lQ lP : ℕ} {a d0 d1 : ∀ u, Rq (2 ^ n) (rQ.qs u)}
    {sIn sOut : ℕ → ℤ} {e : ℕ → ℕ → ℤ} {E : ℕ → ℤ} (h : KeySwitched n rQ rP lQ lP a d0 d1 sIn sOut e E) :
    ∀ u ≤ lQ, d0 u + d1 u * intR (2 ^ n) (rQ.qs u) sOut
      = a u * intR (2 ^ n) (rQ.qs u) sIn + intR (2 ^ n) (rQ.qs u) E := by
  obtain ⟨A, Z0, Z1, h1, h2, h3, h4, h5⟩ := h
  exact h5

theorem intR_negPow_two {N q : ℕ} (hN : 0 < N) (S : ℕ → ℤ) : intR N q (negPow N S 2) = intR N q S * intR N q S := by
  have e1 : intR N q (negPow N S 0) = 1 := by
    unfold intR toR
    rw [sum_eq_single 0]
    · simp [negPow]
    · intro j _ hj
      simp [negPow, hj]
    · intro h
      exact absurd (mem_range.2 hN) h
  rw [show negPow N S 2 = negConv N (negConv N (negPow N S 0) S) S from rfl, ← intR_mul, ← intR_mul, e1, one_mul]

end FastKsw
