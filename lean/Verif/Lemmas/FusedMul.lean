import Verif.Model.EvaluatorMore
import Verif.Props.Constants

/-!
# Fused products by constants
-/

namespace FastKsw

open Props Finset

theorem at_zip_halves {h : ℕ} {f g : UInt64 → UInt64 → UInt64} {x z : Row} {k : ℕ} (hl : x.length = z.length)
    (hk : k < x.length) :
    Row.at (List.zipWith f (x.take h) (z.take h) ++ List.zipWith g (x.drop h) (z.drop h)) k =
      if k < h then f (x.at k) (z.at k) else g (x.at k) (z.at k) := by
  unfold Row.at
  have hz : k < z.length := by omega
  rw [List.getD_eq_getElem?_getD, List.getD_eq_getElem?_getD, List.getD_eq_getElem?_getD, List.getElem?_append,
    List.length_zipWith, List.length_take, List.length_take]
  by_cases hh : k < h
  · rw [if_pos (by omega), if_pos hh, List.getElem?_zipWith]
    simp [hh, hk, hz]
  · rw [if_neg (by omega), if_neg hh, List.getElem?_zipWith, List.getElem?_drop, List.getElem?_drop]
    rw [show h + (k - min (min h x.length) (min h z.length)) = k by omega]
    simp [hk, hz]

theorem length_zip_halves {h : ℕ} {f g : UInt64 → UInt64 → UInt64} {x z : Row} (hl : x.length = z.length) :
    (List.zipWith f (x.take h) (z.take h) ++ List.zipWith g (x.drop h) (z.drop h)).length = x.length := by
  simp only [List.length_append, List.length_zipWith, List.length_take, List.length_drop]
  omega

/-- `CRed(z + MRed(x, c))` for `z ≤ q` -/
theorem word_mulAdd {s : SubRing} (hs : s.Arith) {c : UInt64} (hc : c.toNat ≤ s.q.toNat) (x z : UInt64)
    (hz : z.toNat < s.q.toNat + 1) :
    (cred (z + mred x c s.q s.mred) s.q).toNat < s.q.toNat ∧
      ((cred (z + mred x c s.q s.mred) s.q).toNat : ZMod s.q.toNat) =
        z.toNat + x.toNat * c.toNat * rinv s.q.toNat := by
  obtain ⟨h1, h2⟩ := mred_any hs hc x
  have hq := hs.lt
  generalize mred x c s.q s.mred = w at h1 h2 ⊢
  have e : (z + w).toNat = z.toNat + w.toNat := by rw [UInt64.toNat_add, Nat.mod_eq_of_lt (by omega)]
  refine ⟨?_, by rw [cast_cred rfl, e, ← h2]; push_cast; ring⟩
  rw [toNat_cred, e]
  split <;> omega

theorem mulAddPairRow_is {n : ℕ} (hn : 1 ≤ n) {s : SubRing} (hs : s.Arith) {c : UInt64 × UInt64} {a b : ℤ} (hc : GaussPair s n c a b)
    {A : ℕ} {x z : Row} {v t : ℕ → ZMod s.q.toNat} (hx : RowIs (2 ^ n) s.q.toNat A x v)
    (hz : RowIs (2 ^ n) s.q.toNat (s.q.toNat + 1) z t) :
    RowIs (2 ^ n) s.q.toNat s.q.toNat (mulAddPairRow (2 ^ n) s c.1 c.2 x z)
      (fun k => t k + (if k < 2 ^ (n - 1) then (a : ZMod s.q.toNat) + b * s.psi ^ 2 ^ (n - 1)
        else a - b * s.psi ^ 2 ^ (n - 1)) * v k) := by
  have e : (2 ^ n) >>> 1 = 2 ^ (n - 1) := by
    rw [Nat.shiftRight_eq_div_pow, pow_one]
    have e : 2 ^ n = 2 * 2 ^ (n - 1) := by rw [← pow_succ', show n - 1 + 1 = n by omega]
    omega
  have hl : x.length = z.length := hx.len.trans hz.len.symm
  have hR : (2 : ZMod s.q.toNat) ^ 64 * rinv s.q.toNat = 1 := mul_rinv hs.odd
  unfold mulAddPairRow mulScalarMontgomeryAndAddVec
  refine ⟨(length_zip_halves hl).trans hx.len, fun k hk => ?_, fun k hk => ?_⟩
  · rw [at_zip_halves hl (by rw [hx.len]; exact hk), e]
    split
    · exact (word_mulAdd hs hc.le1 _ _ (hz.lt k hk)).1
    · exact (word_mulAdd hs hc.le2 _ _ (hz.lt k hk)).1
  · rw [zval, at_zip_halves hl (by rw [hx.len]; exact hk), e, ← hx.val k hk, ← hz.val k hk, zval, zval]
    split
    · rw [(word_mulAdd hs hc.le1 _ _ (hz.lt k hk)).2, hc.val1]
      linear_combination (((x.at k).toNat : ZMod s.q.toNat) * (a + b * s.psi ^ 2 ^ (n - 1))) * hR
    · rw [(word_mulAdd hs hc.le2 _ _ (hz.lt k hk)).2, hc.val2]
      linear_combination (((x.at k).toNat : ZMod s.q.toNat) * (a - b * s.psi ^ 2 ^ (n - 1))) * hR

/-- **fused product of a polynomial by `a + b X^(N/2)`** -/
theorem mulAddPairLvl_elt {n : ℕ} {r : Ring} (hr : r.Valid n) {level : ℕ} (hl : level < r.subs.length) {A : ℕ → ℕ}
    {c : ℕ → UInt64 × UInt64} {a b : ℤ} (hc : ∀ u ≤ level, GaussPair (r.sub u) n (c u) a b) {p0 p1 : Rows} {x y}
    (h0 : EltIs n r level A true p0 x) (h1 : EltIs n r level (fun u => r.qs u + 1) true p1 y) :
    EltWritten n r level r.qs true p1 (r.mulAddPairLvl level c p0 p1) (fun u => y u + gauss n (r.qs u) a b * x u) := by
  have h4 := hr.four_le
  unfold Ring.mulAddPairLvl
  rw [hr.deg]
  refine (writeLvl_is (A := r.qs) (v := fun u k => zval _ (p1.row u) k + (if k < 2 ^ (n - 1) then
        (a : ZMod (r.sub u).q.toNat) + b * (r.sub u).psi ^ 2 ^ (n - 1)
        else a - b * (r.sub u).psi ^ 2 ^ (n - 1)) * zval _ (p0.row u) k) h1.lvl fun u hu => ?_).eltWritten hr fun u hu => ?_
  · have hx := (h0.polyIs hr).row u hu
    have hy := (h1.polyIs hr).row u hu
    rw [hr.deg] at hx hy ⊢
    exact mulAddPairRow_is (by omega) (hr.subAt (show u < r.subs.length by omega)).arith (hc u hu) hx hy
  · have := (hr.subAt (show u < r.subs.length by omega)).fact
    rw [← h0.eltOf hr hu, ← h1.eltOf hr hu, eltOf_add hr hl hu]
    congr 1
    simp only [Ring.eltOf, if_true]
    exact ofNtt_gauss ((hr.subAt (show u < r.subs.length by omega)).psiOK (by omega)) a b _

/-- the loops of the fused products -/
theorem mulAddPair_is {n : ℕ} {ev : Evaluator} (hr : ev.ringQ.Valid n) {A : ℕ → ℕ} {H : Heap} {ct0 out : Ref}
    {d0 d1 l0 lo : ℕ} {x y : ℕ → ∀ u, Rq (2 ^ n) (ev.ringQ.qs u)} {level : ℕ}
    (h0 : CtIs n ev.ringQ l0 A d0 (H ct0) x) (ho : CtIs n ev.ringQ lo (fun u => ev.ringQ.qs u + 1) d1 (H out) y)
    (hd : d0 ≤ d1) (hl0 : level ≤ l0) (hlo : level = lo) (hl : level < ev.ringQ.subs.length)
    {c : ℕ → UInt64 × UInt64} {a b : ℤ} (hc : ∀ u ≤ level, GaussPair (ev.ringQ.sub u) n (c u) a b) :
    ∃ H', ev.mulAddPair H ct0 level c out = some H' ∧ (∀ b ≠ out, H' b = H b) ∧ (H' out).scale = (H out).scale ∧
      CtIs n ev.ringQ level (fun u => ev.ringQ.qs u + 1) d1 (H' out)
        (fun i u => y i u + if i ≤ d0 then gauss n (ev.ringQ.qs u) a b * x i u else 0) := by
  subst hlo
  have L := overComponents_is0 (out := out)
      (F := fun i h => ev.ringQ.mulAddPairLvl level c (h.rows ct0 i) (h.rows out i))
      (fun u h h' hh => by rw [hh, hh]) (d0 + 1) H
  unfold Evaluator.mulAddPair
  rw [h0.shape.len, ho.shape.len, if_neg (by omega)]
  refine ⟨_, rfl, L.frame, L.scale, L.shape ho.shape fun u hu hud => ?_, fun i hi => ?_⟩
  · have W := mulAddPairLvl_elt hr hl hc ((h0.elt u (by omega)).below hl0) (ho.elt u (by omega))
    exact W.len.trans (ho.shape.size u (by omega))
  · by_cases hi0 : i ≤ d0
    · have := L.row i (by omega) (by rw [ho.shape.len]; omega)
      rw [Nat.zero_add] at this
      rw [this]
      have W := mulAddPairLvl_elt hr hl hc ((h0.elt i hi0).below hl0) (ho.elt i hi)
      refine (W.is.mono fun u _ => by omega).congr fun u _ => ?_
      rw [if_pos hi0]
    · rw [L.other i (by omega)]
      refine (ho.elt i hi).congr fun u _ => ?_
      rw [if_neg hi0, add_zero]

end FastKsw
