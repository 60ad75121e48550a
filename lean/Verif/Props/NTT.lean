import Verif.Lemmas.SubNTT
import Verif.Lemmas.NoWrap
import Verif.Props.Ring

/-!
# C13, C14, C15: the number theoretic transform

`s.Valid n` holds of every modulus of a ring returned by `NewRing` (C17).
-/

namespace FastKsw.Props

open Finset

variable {n : ℕ} {s : SubRing}

/-- **C15 (evaluation).** `NTT(p)[i]` is the evaluation of `p` at
`ψ^(2·bitrev(i)+1)`; the output is reduced.  Input coefficients may be any values
below `2^64 - 4q`. -/
theorem C15_ntt_evaluates (V : s.Valid n) (hn : 4 ≤ n) (hq : s.q.toNat < 2 ^ 61) (x : Row)
    (hx : x.length = 2 ^ n) (hb : ∀ k < 2 ^ n, (x.at k).toNat + 4 * s.q.toNat < 2 ^ 64) :
    (s.ntt (2 ^ n) x).length = 2 ^ n ∧
    ∀ i < 2 ^ n, ((s.ntt (2 ^ n) x).at i).toNat < s.q.toNat ∧
      (((s.ntt (2 ^ n) x).at i).toNat : ZMod s.q.toNat)
        = ∑ j ∈ range (2 ^ n), ((x.at j).toNat : ZMod s.q.toNat)
            * (s.psi ^ (2 * revBits n i + 1)) ^ j := by
  have h := ntt_is V (by omega) hq (B := 2 ^ 64 - 4 * s.q.toNat) (by omega)
    (RowIs.refl (q := s.q.toNat) x hx (fun k hk => by have := hb k hk; omega))
  exact ⟨h.len, fun i hi => ⟨h.lt i hi, h.val i hi⟩⟩

/-- **C13.** `InvNTT(NTT(p)) = p`. -/
theorem C13_invNtt_ntt (V : s.Valid n) (hn : 4 ≤ n) (hq : s.q.toNat < 2 ^ 61) (x : Row)
    (hx : x.length = 2 ^ n) (hb : ∀ k < 2 ^ n, (x.at k).toNat < s.q.toNat) :
    s.invNtt (2 ^ n) (s.ntt (2 ^ n) x) = x := by
  have h0 := RowIs.refl (q := s.q.toNat) x hx hb
  have h1 := ntt_is V (by omega) hq (by omega) h0
  have h2 := invNtt_is V (by omega) hq (h1.mono (by omega))
  exact RowIs.ext (h2.congr (coeffsOf_evals V (by omega) _)) h0

/-- **C13.** `NTT(InvNTT(p)) = p`. -/
theorem C13_ntt_invNtt (V : s.Valid n) (hn : 4 ≤ n) (hq : s.q.toNat < 2 ^ 61) (x : Row)
    (hx : x.length = 2 ^ n) (hb : ∀ k < 2 ^ n, (x.at k).toNat < s.q.toNat) :
    s.ntt (2 ^ n) (s.invNtt (2 ^ n) x) = x := by
  have h0 := RowIs.refl (q := s.q.toNat) x hx hb
  have h1 := invNtt_is V (by omega) hq (h0.mono (by omega))
  have h2 := ntt_is V (by omega) hq (by omega) h1
  exact RowIs.ext (h2.congr (evals_coeffsOf V (by omega) _)) h0

/-- **C13 (lazy).** The lazy transforms undo each other up to congruence, after
reduction of the lazy forward output to `[0,2q)` where the inverse needs it. -/
theorem C13_lazy (V : s.Valid n) (hn : 4 ≤ n) (hq : s.q.toNat < 2 ^ 61) (x : Row)
    (hx : x.length = 2 ^ n) (hb : ∀ k < 2 ^ n, (x.at k).toNat < 2 * s.q.toNat) :
    (∀ k < 2 ^ n, ((s.nttLazy (2 ^ n) (s.invNttLazy (2 ^ n) x)).at k).toNat
        ≡ (x.at k).toNat [MOD s.q.toNat]) ∧
    (∀ k < 2 ^ n, ((s.invNttLazy (2 ^ n) (s.ntt (2 ^ n) x)).at k).toNat
        ≡ (x.at k).toNat [MOD s.q.toNat]) := by
  have h0 := RowIs.refl (q := s.q.toNat) x hx hb
  constructor
  · have h1 := invNttLazy_is V (by omega) hq h0
    have h2 := nttLazy_is V (by omega) hq le_rfl (by omega) (h1.mono (by omega))
    intro k hk
    have e := (h2.val k hk).trans (evals_coeffsOf V (by omega) _ k hk)
    exact (ZMod.natCast_eq_natCast_iff _ _ _).1 e
  · have h1 := ntt_is V (by omega) hq (by omega) h0
    have h2 := invNttLazy_is V (by omega) hq (h1.mono (by omega))
    intro k hk
    have e := (h2.val k hk).trans (coeffsOf_evals V (by omega) _ k hk)
    exact (ZMod.natCast_eq_natCast_iff _ _ _).1 e

/-- **C15 (multiplication).** `InvNTT(MulCoeffs(NTT(a), NTT(b)))` is the product in
`Z_q[X]/(X^N+1)`. -/
theorem C15_product (V : s.Valid n) (hn : 4 ≤ n) (hq : s.q.toNat < 2 ^ 61) (a b : Row)
    (ha : a.length = 2 ^ n) (hb : b.length = 2 ^ n)
    (ha' : ∀ k < 2 ^ n, (a.at k).toNat < s.q.toNat)
    (hb' : ∀ k < 2 ^ n, (b.at k).toNat < s.q.toNat) :
    rowR (2 ^ n) s.q.toNat (s.invNtt (2 ^ n) (mulCoeffsVec (s.ntt (2 ^ n) a) (s.ntt (2 ^ n) b)
        s.q s.bred))
      = rowR (2 ^ n) s.q.toNat a * rowR (2 ^ n) s.q.toNat b := by
  have : Fact s.q.toNat.Prime := ⟨V.prime⟩
  have h1 := ntt_is V (by omega) hq (by omega) (RowIs.refl (q := s.q.toNat) a ha ha')
  have h2 := ntt_is V (by omega) hq (by omega) (RowIs.refl (q := s.q.toNat) b hb hb')
  have h3 := mulCoeffsVec_is V.arith h1 h2
  have h4 := invNtt_is V (by omega) hq (h3.mono (by omega))
  unfold rowR
  rw [toR_congr h4.val, toR_coeffsOf, ← ofNtt_mul (V.psiOK (by omega)), ofNtt_evals V (by omega),
    ofNtt_evals V (by omega)]

/-- **C15 (coefficients).** The same in coefficients: the result is the negacyclic
convolution. -/
theorem C15_negacyclic (V : s.Valid n) (hn : 4 ≤ n) (hq : s.q.toNat < 2 ^ 61) (a b : Row)
    (ha : a.length = 2 ^ n) (hb : b.length = 2 ^ n)
    (ha' : ∀ k < 2 ^ n, (a.at k).toNat < s.q.toNat)
    (hb' : ∀ k < 2 ^ n, (b.at k).toNat < s.q.toNat) :
    ∀ k < 2 ^ n, (((s.invNtt (2 ^ n) (mulCoeffsVec (s.ntt (2 ^ n) a) (s.ntt (2 ^ n) b)
        s.q s.bred)).at k).toNat : ZMod s.q.toNat)
      = ∑ i ∈ range (2 ^ n), if i ≤ k then ((a.at i).toNat : ZMod s.q.toNat) * (b.at (k - i)).toNat
          else -(((a.at i).toNat : ZMod s.q.toNat) * (b.at (2 ^ n + k - i)).toNat) := by
  have : Fact s.q.toNat.Prime := ⟨V.prime⟩
  have h := C15_product V hn hq a b ha hb ha' hb'
  unfold rowR at h
  rw [toR_mul] at h
  exact toR_injective (V.psiOK (by omega)) h

/-- **C14.** For `q < 2^61` no butterfly of `NTT`/`NTTLazy` wraps around on inputs
below `4q`, nor of `InvNTT`/`InvNTTLazy` on inputs below `2q`; the outputs are
below `6q` (`NTTLazy`), `2q` (`InvNTTLazy`), `q` (`NTT`, `InvNTT`). -/
theorem C14_no_overflow (V : s.Valid n) (hn : 4 ≤ n) (hq : s.q.toNat < 2 ^ 61) (x : Row)
    (hx : x.length = 2 ^ n) :
    ((∀ k < 2 ^ n, (x.at k).toNat < 4 * s.q.toNat) →
      NttLazySafe x (2 ^ n) s.nttPsi s.q s.mred ∧
      (∀ k < 2 ^ n, ((s.nttLazy (2 ^ n) x).at k).toNat < 6 * s.q.toNat) ∧
      (∀ k < 2 ^ n, ((s.ntt (2 ^ n) x).at k).toNat < s.q.toNat)) ∧
    ((∀ k < 2 ^ n, (x.at k).toNat < 2 * s.q.toNat) →
      InvNttSafe x (2 ^ n) s.nttPsiInv s.q s.mred ∧
      (∀ k < 2 ^ n, ((s.invNttLazy (2 ^ n) x).at k).toNat < 2 * s.q.toNat) ∧
      (∀ k < 2 ^ n, ((s.invNtt (2 ^ n) x).at k).toNat < s.q.toNat)) := by
  constructor
  · intro hb
    have h0 := RowIs.refl (q := s.q.toNat) x hx hb
    refine ⟨nttLazy_safe V.mred (by omega) rfl (by omega) V.table le_rfl (by omega) x hx hb, ?_,
      (ntt_is V (by omega) hq (by omega) h0).lt⟩
    intro k hk
    have := (nttLazy_is V (by omega) hq le_rfl (by omega) h0).lt k hk
    omega
  · intro hb
    have h0 := RowIs.refl (q := s.q.toNat) x hx hb
    exact ⟨invNtt_safe V.mred hq rfl (by omega) V.tableInv x hx hb,
      (invNttLazy_is V (by omega) hq h0).lt, (invNtt_is V (by omega) hq h0).lt⟩

/-- **C14 (wider inputs).** The forward transform tolerates any input bound `B ≥ 4q`
with `B + 4q ≤ 2^64`; the lazy output is then below `B + 2q`. -/
theorem C14_no_overflow_wide (V : s.Valid n) (hn : 4 ≤ n) (hq : s.q.toNat < 2 ^ 61) (x : Row)
    (hx : x.length = 2 ^ n) (B : ℕ) (hB : 4 * s.q.toNat ≤ B) (hB2 : B + 4 * s.q.toNat ≤ 2 ^ 64)
    (hb : ∀ k < 2 ^ n, (x.at k).toNat < B) :
    NttLazySafe x (2 ^ n) s.nttPsi s.q s.mred ∧
      (∀ k < 2 ^ n, ((s.nttLazy (2 ^ n) x).at k).toNat < B + 2 * s.q.toNat) :=
  ⟨nttLazy_safe V.mred (by omega) rfl (by omega) V.table hB hB2 x hx hb,
    (nttLazy_is V (by omega) hq hB hB2 (RowIs.refl (q := s.q.toNat) x hx hb)).lt⟩

set_option maxRecDepth 1000000 in
/-- The range `[0, 2q-1]` documented for `NTTLazy` (ring_ntt.go:37-38) is wrong:
on the reduced row `96,…,96` modulo 97 an output exceeds `2q - 1` (bound `6q` of
C14 is what holds). -/
theorem C14_documented_range_exceeded :
    ∃ s, genSub 100 32 97 = some s ∧
      ∃ k < 16, ((s.nttLazy 16 (List.replicate 16 96)).at k).toNat ≥ 2 * s.q.toNat := by
  have h : ∃ s, genSub 100 32 97 = some s := by
    have : (genSub 100 32 97).isSome = true := by decide +kernel
    exact Option.isSome_iff_exists.1 this
  have h2 : ((genSub 100 32 97).all fun s => (List.range 16).any fun k =>
      decide (((s.nttLazy 16 (List.replicate 16 96)).at k).toNat ≥ 2 * s.q.toNat)) = true := by
    decide +kernel
  obtain ⟨s, hs⟩ := h
  rw [hs] at h2
  refine ⟨s, hs, ?_⟩
  simpa using h2

/-- The hypotheses of C13–C15 are met by rings `NewRing` builds. -/
example : ∃ r, newRing 100 16 [97, 193] = .ok r ∧ ∀ s ∈ r.subs, s.Valid 4 ∧ s.q.toNat < 2 ^ 61 := by
  have h := newRing_example
  cases hr : newRing 100 16 [97, 193] with
  | error e => rw [hr] at h; cases h
  | ok r =>
    refine ⟨r, rfl, fun s hs => ?_⟩
    have hq : ∀ q ∈ ([97, 193] : List UInt64), q.toNat < 2 ^ 61 := by decide
    obtain ⟨n, h1, h2, h3, -⟩ := C17_newRing_valid 100 16 (by omega) [97, 193]
      (fun q hm => lt_trans (hq q hm) (by omega)) r hr
    have hn : n = 4 := Nat.pow_right_injective (le_refl 2) (by simpa using h1.symm)
    subst hn
    refine ⟨h2.sub s hs, hq _ ?_⟩
    rw [← h3]
    exact List.mem_map_of_mem hs

end FastKsw.Props
