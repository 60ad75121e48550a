import Verif.Lemmas.Automorphism
import Verif.Props.RingMisc
import Verif.Props.ModRed
import Mathlib.FieldTheory.Finite.Basic

/-!
# C24, C25: automorphisms and Galois elements
-/

namespace FastKsw.Props

/-! ## C24 -/

theorem valid_n_lt {n : ℕ} {r : Ring} (h : r.Valid n) : n < 62 := by
  obtain ⟨s, hs⟩ := List.exists_mem_of_ne_nil _ h.ne_nil
  have V := h.sub s hs
  by_contra hc
  have : 2 ^ 63 ≤ 2 ^ (n + 1) := Nat.pow_le_pow_right (by omega) (by omega)
  have h1 := V.one_mod
  have h2 := V.lt
  have h3 := V.prime.two_le
  rw [Nat.mod_eq_of_lt (by omega)] at h1
  omega

/-- **C24 (coefficients).** `Permute(p, g)` writes into every row the image of that row under
`X ↦ X^g`, for every odd `g`; entries are at most `q_i`. -/
theorem C24_permute {n : ℕ} {r : Ring} (hr : r.Valid n) (p out : Rows) (gen : UInt64)
    (hg : gen.toNat % 2 = 1) (ho : out.length = r.subs.length)
    (hol : ∀ i < r.subs.length, (out.row i).length = r.n)
    (v : ∀ i, ℕ → ZMod (r.sub i).q.toNat) (hp : PolyIs r (r.subs.length - 1) r.qs p v) :
    ∃ w, PolyIs r (r.subs.length - 1) (fun i => r.qs i + 1) (r.permute p gen out) w ∧
      ∀ i < r.subs.length, toR r.n (r.sub i).q.toNat (w i) =
        aut r.n (r.sub i).q.toNat hg (toR r.n (r.sub i).q.toNat (v i)) := by
  have hn := valid_n_lt hr
  have h4 := hr.four_le
  have hne : r.subs.length ≠ 0 := fun h => hr.ne_nil (List.length_eq_zero_iff.1 h)
  have key : ∀ i, ∃ w : ℕ → ZMod (r.sub i).q.toNat, i < r.subs.length →
      RowIs r.n (r.sub i).q.toNat (r.qs i + 1)
        (permuteRow r.n (r.sub i).q gen (p.row i) (out.row i)) w ∧
      toR r.n (r.sub i).q.toNat w = aut r.n (r.sub i).q.toNat hg (toR r.n (r.sub i).q.toNat (v i)) := by
    intro i
    by_cases hi : i < r.subs.length
    · have h1 := hp.row i (by omega)
      have h2 := hol i hi
      rw [hr.deg] at h1 h2 ⊢
      obtain ⟨w, hw⟩ := permuteRow_is (n := n) (by omega) (by omega) hg h1 h2
      exact ⟨w, fun _ => hw⟩
    · exact ⟨fun _ => 0, fun h => absurd h hi⟩
  choose w hw using key
  refine ⟨w, (writeLvl_is (by omega) (fun i hi => (hw i (by omega)).1)).is, fun i hi => (hw i hi).2⟩

/-- **C24 (NTT).** `PermuteNTT(p, g)` applies the same automorphism to the element denoted by
each NTT-domain row (with the ring's root `ψ`), and keeps the range of the entries. -/
theorem C24_permuteNTT {n : ℕ} {r : Ring} (hr : r.Valid n) (level : ℕ) (hl : level < r.subs.length)
    (p out : Rows) (ho : level < out.length) (gen : UInt64)
    (hg : gen.toNat % 2 = 1) (A : ℕ → ℕ)
    (v : ∀ i, ℕ → ZMod (r.sub i).q.toNat) (hp : PolyIs r level A p v) :
    ∃ w, PolyWritten r level A out (r.permuteNTTLvl level p gen out) w ∧
      ∀ i ≤ level, ofNtt (r.sub i).psi n (w i) =
        aut (2 ^ n) (r.sub i).q.toNat hg (ofNtt (r.sub i).psi n (v i)) := by
  have hn := valid_n_lt hr
  have h4 := hr.four_le
  have hidx := fun i (hi : i < 2 ^ n) =>
    permuteNTTIndex_at (r := r) (by omega) (by omega) hr.deg hr.root gen hg hi
  refine ⟨fun i j => v i ((r.permuteNTTIndex gen).at j).toNat, writeLvl_is ho (fun i hi => ?_), ?_⟩
  · have h1 := hp.row i hi
    exact permuteNTTRow_is (fun j hj => by rw [hr.deg] at hj ⊢; exact (hidx j hj).1) h1
  · intro i hi
    have V := hr.subAt (i := i) (by omega)
    have := V.fact
    exact ofNtt_permute (V.psiOK (by omega)) hg _ hidx (v i)

/-- **C24 (agreement).** Transforming and then permuting gives the same words as permuting the
coefficients and then transforming. -/
theorem C24_permuteNTT_ntt {n : ℕ} {r : Ring} (hr : r.Valid n) (hsm : r.Small) (p out tmp : Rows)
    (gen : UInt64) (hg : gen.toNat % 2 = 1) (ho : out.length = r.subs.length)
    (ht : tmp.length = r.subs.length)
    (hol : ∀ i < r.subs.length, (out.row i).length = r.n)
    (v : ∀ i, ℕ → ZMod (r.sub i).q.toNat) (hp : PolyIs r (r.subs.length - 1) r.qs p v)
    (i : ℕ) (hi : i < r.subs.length) :
    (r.permuteNTTLvl (r.subs.length - 1) (r.nttLvl (r.subs.length - 1) p tmp) gen out).row i =
      (r.nttLvl (r.subs.length - 1) (r.permute p gen out) tmp).row i := by
  have hn := valid_n_lt hr
  have h4 := hr.four_le
  have V := hr.subAt hi
  have hf := V.fact
  have hq : (r.sub i).q.toNat < 2 ^ 61 := hsm _ (Ring.sub_mem hi)
  have hidx := fun i (hi : i < 2 ^ n) =>
    permuteNTTIndex_at (r := r) (by omega) (by omega) hr.deg hr.root gen hg hi
  obtain ⟨w, hw, hw2⟩ := C24_permute hr p out gen hg ho hol v hp
  have h1 := hp.row i (by omega)
  have h2 := hw.row i (by omega)
  have e2 := hw2 i hi
  rw [hr.deg] at h1 h2 e2
  have a1 := ntt_is V (by omega) hq (by unfold Ring.qs; omega) h1
  have a2 := ntt_is V (by omega) hq (by unfold Ring.qs; omega) h2
  have a3 := permuteNTTRow_is (fun j hj => (hidx j hj).1) a1
  have e3 := ofNtt_permute (V.psiOK (by omega)) hg _ hidx (evals (r.sub i).psi n (v i))
  rw [ofNtt_evals V (by omega), ← e2, ← ofNtt_evals V (by omega)] at e3
  have e4 := ofNtt_injective (V.psiOK (by omega)) e3
  unfold Ring.permuteNTTLvl Ring.permuteNTTWithIndexLvl
  rw [row_writeLvl (by omega) (by omega)]
  unfold Ring.nttLvl
  rw [row_writeLvl (by omega) (by omega), row_writeLvl (by omega) (by omega), hr.deg]
  exact (a3.congr e4).ext a2

/-- **C24 (levels).** `PermuteNTT` without a level works on the rows that both polynomials have. -/
theorem C24_permuteNTT_min {n : ℕ} {r : Ring} (hr : r.Valid n) (p out : Rows) (hl : min p.length out.length ≤ r.subs.length)
    (hp0 : 0 < p.length) (ho0 : 0 < out.length) (gen : UInt64) (hg : gen.toNat % 2 = 1) (A : ℕ → ℕ)
    (v : ∀ i, ℕ → ZMod (r.sub i).q.toNat) (hp : PolyIs r (min p.length out.length - 1) A p v) :
    ∃ w, PolyWritten r (min p.length out.length - 1) A out (r.permuteNTT p gen out) w ∧
      ∀ i < min p.length out.length, ofNtt (r.sub i).psi n (w i) =
        aut (2 ^ n) (r.sub i).q.toNat hg (ofNtt (r.sub i).psi n (v i)) := by
  have e : min p.level out.level = min p.length out.length - 1 := by unfold Rows.level; omega
  obtain ⟨w, h1, h2⟩ := C24_permuteNTT hr (min p.length out.length - 1) (by omega) p out (by omega) gen hg A v hp
  refine ⟨w, ?_, fun i hi => h2 i (by omega)⟩
  unfold Ring.permuteNTT
  rw [e]
  exact h1

/-- **C24 (addition).** `PermuteNTTWithIndexAndAddNoModLvl` with the table of `g` adds the image of `p` under `X ↦ X^g` to the receiver,
without reduction; no word overflows as long as the two bounds together fit in 64 bits. -/
theorem C24_permuteNTT_addNoMod {n : ℕ} {r : Ring} (hr : r.Valid n) (level : ℕ) (hl : level < r.subs.length)
    (p out : Rows) (gen : UInt64) (hg : gen.toNat % 2 = 1) (A C : ℕ → ℕ) (hAC : ∀ i ≤ level, C i + A i ≤ 2 ^ 64)
    (v u : ∀ i, ℕ → ZMod (r.sub i).q.toNat) (hp : PolyIs r level A p v) (ho : PolyIs r level C out u) :
    ∃ w, PolyWritten r level (fun i => C i + A i) out
        (r.permuteNTTWithIndexAndAddNoModLvl level p (r.permuteNTTIndex gen) out) w ∧
      ∀ i ≤ level, ofNtt (r.sub i).psi n (w i) = ofNtt (r.sub i).psi n (u i) +
        aut (2 ^ n) (r.sub i).q.toNat hg (ofNtt (r.sub i).psi n (v i)) := by
  have hn := valid_n_lt hr
  have h4 := hr.four_le
  have hidx := fun i (hi : i < 2 ^ n) =>
    permuteNTTIndex_at (r := r) (by omega) (by omega) hr.deg hr.root gen hg hi
  refine ⟨fun i j => u i j + v i ((r.permuteNTTIndex gen).at j).toNat, writeLvl_is ho.lvl (fun i hi => ?_), ?_⟩
  · exact addVecNoMod_is (ho.row i hi)
      (permuteNTTRow_is (fun j hj => by rw [hr.deg] at hj ⊢; exact (hidx j hj).1) (hp.row i hi)) (hAC i hi)
  · intro i hi
    have V := hr.subAt (i := i) (by omega)
    have := V.fact
    rw [← ofNtt_permute (V.psiOK (by omega)) hg _ hidx (v i), ofNtt_add (V.psiOK (by omega))]

/-- **C24 fails in place** (as the comment of the function says): with `polIn = polOut` an entry is overwritten before it is read, here
for the table of a swap. -/
theorem C24_inPlace_violated : permuteNTTRowInPlace 2 [1, 0] [3, 5] = [5, 5] ∧ permuteNTTRow 2 [1, 0] [3, 5] = [5, 3] := by
  decide

/-- the hypotheses of `C24_permuteNTT_addNoMod` are met by reduced polynomials of a ring from `NewRing` -/
example : ∃ r p, newRing 100 16 [97, 193] = .ok r ∧ r.Valid 4 ∧ PolyIs r 1 r.qs p (fun _ _ => ((3 : UInt64).toNat : ZMod _)) ∧
    ∀ i ≤ 1, r.qs i + r.qs i ≤ 2 ^ 64 := by
  obtain ⟨r, h1, h2, h3, h4, h5, h6⟩ := exists_ring
  refine ⟨r, cpoly 3, h1, h2, cpoly_is h4 r.qs 3 fun i hi => ?_, fun i hi => ?_⟩
  all_goals
    unfold Ring.qs
    rcases (by omega : i = 0 ∨ i = 1) with rfl | rfl
    · rw [h5]; decide
    · rw [h6]; decide

/-- **C24 (composition).** `X ↦ X^g` followed by `X ↦ X^h` is `X ↦ X^{gh mod 2N}`. -/
theorem C24_compose (N q g h k : ℕ) (hN : 0 < N) (hg : g % 2 = 1) (hh : h % 2 = 1)
    (hk : k = g * h % (2 * N)) : ∃ hk2 : k % 2 = 1, ∀ a : Rq N q,
      aut N q hh (aut N q hg a) = aut N q hk2 a := by
  have h1 : k % 2 = 1 := by
    rw [hk, Nat.mod_mod_of_dvd _ ⟨N, rfl⟩, Nat.mul_mod, hg, hh]
  refine ⟨h1, fun a => ?_⟩
  rw [aut_aut hN hg hh]
  exact aut_mod hN _ _ (by rw [hk, Nat.mod_mod]) a

/-- **C24 (inverse).** An automorphism is undone by the one of the inverse Galois element. -/
theorem C24_inverse (N q g h : ℕ) (hN : 0 < N) (hg : g % 2 = 1) (hh : h % 2 = 1)
    (hgh : g * h % (2 * N) = 1) (a : Rq N q) : aut N q hh (aut N q hg a) = a := by
  rw [aut_aut hN hg hh]
  exact aut_one hN _ hgh a

/-! ## C25 -/

section galois
variable {n : ℕ} {r : Ring}

theorem odd_pow_period {g : ℕ} (hg : g % 2 = 1) (n e : ℕ) :
    g ^ (e % 2 ^ (n + 1)) % 2 ^ (n + 1) = g ^ e % 2 ^ (n + 1) := by
  have hc : Nat.Coprime g (2 ^ (n + 1)) := by
    apply Nat.Coprime.pow_right
    exact (Nat.coprime_two_left.2 (Nat.odd_iff.2 hg)).symm
  have h1 : g ^ 2 ^ n ≡ 1 [MOD 2 ^ (n + 1)] := by
    have := Nat.ModEq.pow_totient hc
    rwa [Nat.totient_prime_pow Nat.prime_two (by omega), Nat.add_sub_cancel, show 2 - 1 = 1 from rfl, mul_one] at this
  have h2 : g ^ 2 ^ (n + 1) ≡ 1 [MOD 2 ^ (n + 1)] := by
    have := h1.pow 2
    rwa [← pow_mul, one_pow, ← pow_succ] at this
  show g ^ (e % 2 ^ (n + 1)) ≡ g ^ e [MOD 2 ^ (n + 1)]
  conv_rhs => rw [← Nat.mod_add_div e (2 ^ (n + 1)), pow_add, pow_mul]
  have := (h2.pow (e / 2 ^ (n + 1))).mul_left (g ^ (e % 2 ^ (n + 1)))
  rw [one_pow, mul_one] at this
  exact this.symm

theorem nthRoot_toNat (hr : r.Valid n) : (UInt64.ofNat r.nthRoot).toNat = 2 ^ (n + 1) := by
  have hn := valid_n_lt hr
  have : 2 ^ (n + 1) ≤ 2 ^ 62 := Nat.pow_le_pow_right (by omega) (by omega)
  rw [hr.root, UInt64.toNat_ofNat', Nat.mod_eq_of_lt (by omega)]

theorem two_le_pow (n : ℕ) : 2 ≤ 2 ^ (n + 1) := by
  have : 2 ^ 1 ≤ 2 ^ (n + 1) := Nat.pow_le_pow_right (by omega) (by omega)
  omega

/-- the Galois element of a rotation by `k` positions is `5^(k mod 2N) mod 2N` -/
theorem galEl_eq (hr : r.Valid n) (k : ℤ) : (r.galoisElementForColumnRotationBy k).toNat =
    5 ^ (k % (2 ^ (n + 1) : ℕ)).toNat % 2 ^ (n + 1) := by
  have hn := valid_n_lt hr
  have hp : 2 ^ (n + 1) ≤ 2 ^ 62 := Nat.pow_le_pow_right (by omega) (by omega)
  have h2 := two_le_pow n
  have e := nthRoot_toNat hr
  unfold Ring.galoisElementForColumnRotationBy
  rw [C07_modExp_exact _ _ _ (by rw [e]; omega) (by rw [e]; omega), e, hr.root]
  have h3 : (k % ((2 ^ (n + 1) : ℕ) : ℤ)).toNat < 2 ^ (n + 1) := by
    have a1 := Int.emod_lt_of_pos k (b := ((2 ^ (n + 1) : ℕ) : ℤ)) (by exact_mod_cast Nat.two_pow_pos _)
    have a2 := Int.emod_nonneg k (b := ((2 ^ (n + 1) : ℕ) : ℤ)) (by exact_mod_cast (Nat.two_pow_pos _).ne')
    omega
  rw [UInt64.toNat_ofNat', Nat.mod_eq_of_lt (by omega : _ < 2 ^ 64)]
  rfl

/-- **C25 (rotations add up).** For all integers `a`, `b`. -/
theorem C25_rotation_add (hr : r.Valid n) (a b : ℤ) :
    (r.galoisElementForColumnRotationBy a).toNat * (r.galoisElementForColumnRotationBy b).toNat
      % (2 * r.n) = (r.galoisElementForColumnRotationBy (a + b)).toNat := by
  rw [galEl_eq hr, galEl_eq hr, galEl_eq hr, hr.deg, show 2 * 2 ^ n = 2 ^ (n + 1) by ring,
    ← Nat.mul_mod, ← pow_add, ← odd_pow_period (by norm_num) n]
  congr 2
  have hM : (0 : ℤ) < ((2 ^ (n + 1) : ℕ) : ℤ) := by exact_mod_cast Nat.two_pow_pos _
  set M : ℕ := 2 ^ (n + 1)
  have ha := Int.emod_nonneg a hM.ne'
  have hb := Int.emod_nonneg b hM.ne'
  have hc := Int.emod_nonneg (a + b) hM.ne'
  zify
  rw [Int.toNat_of_nonneg ha, Int.toNat_of_nonneg hb, Int.toNat_of_nonneg hc]
  rw [← Int.add_emod]

/-- Galois elements are odd and below `2N`, so `C24` applies to them -/
theorem C25_rotation_odd (hr : r.Valid n) (k : ℤ) :
    (r.galoisElementForColumnRotationBy k).toNat % 2 = 1 ∧
    (r.galoisElementForColumnRotationBy k).toNat < 2 * r.n := by
  rw [galEl_eq hr, hr.deg, show 2 * 2 ^ n = 2 ^ (n + 1) by ring]
  refine ⟨?_, Nat.mod_lt _ (Nat.two_pow_pos _)⟩
  rw [Nat.mod_mod_of_dvd _ (dvd_pow_self 2 (by omega)), Nat.pow_mod]
  norm_num

theorem five_pow (k : ℕ) : ∃ m, 5 ^ 2 ^ k = 1 + 2 ^ (k + 2) * (2 * m + 1) := by
  induction k with
  | zero => exact ⟨0, by norm_num⟩
  | succ k ih =>
    obtain ⟨m, hm⟩ := ih
    refine ⟨m + 2 ^ k * (2 * m + 1) ^ 2, ?_⟩
    rw [pow_succ 2 k, pow_mul, hm]
    ring

/-- **C25 (period).** The element of a rotation by `k` is the identity exactly when `N/2`
divides `k`; in particular for `k = N/2`. -/
theorem C25_rotation_period (hr : r.Valid n) (k : ℤ) :
    (r.galoisElementForColumnRotationBy k).toNat = 1 ↔ ((r.n / 2 : ℕ) : ℤ) ∣ k := by
  have h4 := hr.four_le
  obtain ⟨m, rfl⟩ : ∃ m, n = m + 1 := ⟨n - 1, by omega⟩
  have hhalf : r.n / 2 = 2 ^ m := by rw [hr.deg, pow_succ]; omega
  rw [galEl_eq hr, hhalf]
  set e := (k % ((2 ^ (m + 1 + 1) : ℕ) : ℤ)).toNat with he
  have hord : orderOf (5 : ZMod (2 ^ (m + 2))) = 2 ^ m := by
    obtain ⟨l, rfl⟩ : ∃ l, m = l + 1 := ⟨m - 1, by omega⟩
    apply orderOf_eq_prime_pow
    · intro h
      have h1 : ((5 ^ 2 ^ l : ℕ) : ZMod (2 ^ (l + 1 + 2))) = ((1 : ℕ) : ZMod _) := by
        push_cast; exact h
      rw [ZMod.natCast_eq_natCast_iff'] at h1
      obtain ⟨t, ht⟩ := five_pow l
      rw [ht] at h1
      have e1 : 1 + 2 ^ (l + 2) * (2 * t + 1) = 1 + 2 ^ (l + 2) + 2 ^ (l + 1 + 2) * t := by ring
      have hp := Nat.two_pow_pos (l + 2)
      have h42 : 2 ^ 2 ≤ 2 ^ (l + 2) := Nat.pow_le_pow_right (by omega) (by omega)
      have e2 : 2 ^ (l + 1 + 2) = 2 * 2 ^ (l + 2) := by ring
      rw [e1, Nat.add_mul_mod_self_left, Nat.mod_eq_of_lt (by omega), Nat.mod_eq_of_lt (by omega)] at h1
      omega
    · have h1 : ((5 ^ 2 ^ (l + 1) : ℕ) : ZMod (2 ^ (l + 1 + 2))) = ((1 : ℕ) : ZMod _) := by
        obtain ⟨t, ht⟩ := five_pow (l + 1)
        rw [ht, ZMod.natCast_eq_natCast_iff', Nat.add_mul_mod_self_left]
      push_cast at h1
      exact h1
  have h1 : (5 ^ e % 2 ^ (m + 1 + 1) = 1) ↔ 2 ^ m ∣ e := by
    rw [← hord, orderOf_dvd_iff_pow_eq_one]
    have h2 := two_le_pow (m + 1)
    have h3 : (5 ^ e % 2 ^ (m + 1 + 1) = 1) ↔ ((5 ^ e : ℕ) : ZMod (2 ^ (m + 2))) = ((1 : ℕ) : ZMod _) := by
      rw [ZMod.natCast_eq_natCast_iff', Nat.mod_eq_of_lt (show 1 < 2 ^ (m + 2) from h2)]
    rw [h3]
    push_cast
    rfl
  rw [h1]
  have hM : (0 : ℤ) < ((2 ^ (m + 1 + 1) : ℕ) : ℤ) := by exact_mod_cast Nat.two_pow_pos _
  have hnn := Int.emod_nonneg k hM.ne'
  have h5 : ((2 ^ m : ℕ) : ℤ) ∣ (e : ℤ) ↔ ((2 ^ m : ℕ) : ℤ) ∣ k := by
    rw [he, Int.toNat_of_nonneg hnn]
    have hd : ((2 ^ m : ℕ) : ℤ) ∣ ((2 ^ (m + 1 + 1) : ℕ) : ℤ) :=
      Int.natCast_dvd_natCast.2 (pow_dvd_pow 2 (by omega))
    conv_rhs => rw [← Int.emod_add_mul_ediv k ((2 ^ (m + 1 + 1) : ℕ) : ℤ)]
    exact (Int.dvd_add_left (dvd_mul_of_dvd_left hd _)).symm
  rw [← h5, Int.natCast_dvd_natCast]

/-- **C25 (inverse).** For every odd `g`. -/
theorem C25_inverse (hr : r.Valid n) (g : UInt64) (hg : g.toNat % 2 = 1) :
    (r.inverseGaloisElement g).toNat * g.toNat % (2 * r.n) = 1 := by
  have hn := valid_n_lt hr
  have hp : 2 ^ (n + 1) ≤ 2 ^ 62 := Nat.pow_le_pow_right (by omega) (by omega)
  have h2 := two_le_pow n
  have e := nthRoot_toNat hr
  unfold Ring.inverseGaloisElement
  rw [C07_modExp_exact _ _ _ (by rw [e]; omega) (by rw [e]; omega), e,
    UInt64.toNat_sub_of_le _ _ (UInt64.le_iff_toNat_le.2 (by rw [e]; show 1 ≤ _; omega)), e, hr.deg,
    show 2 * 2 ^ n = 2 ^ (n + 1) by ring]
  rw [Nat.mod_mul_mod, ← pow_succ]
  show g.toNat ^ (2 ^ (n + 1) - 1 + 1) % 2 ^ (n + 1) = 1
  rw [Nat.sub_add_cancel (by omega), ← odd_pow_period hg, Nat.mod_self, pow_zero, Nat.mod_eq_of_lt (by omega)]

/-- **C25 (row rotation).** `2N - 1`, defined for the standard ring, is an involution. -/
theorem C25_row_rotation (hr : r.Valid n) : ∃ g, r.galoisElementForRowRotation = some g ∧
    g.toNat * g.toNat % (2 * r.n) = 1 ∧ g.toNat % 2 = 1 ∧ g.toNat ≠ 1 := by
  have e := nthRoot_toNat hr
  have h4 := hr.four_le
  have h2 := two_le_pow n
  refine ⟨_, by rw [Ring.galoisElementForRowRotation, hr.type, if_neg (by decide)], ?_⟩
  rw [UInt64.toNat_sub_of_le _ _ (UInt64.le_iff_toNat_le.2 (by rw [e]; show 1 ≤ _; omega)), e, hr.deg,
    show 2 * 2 ^ n = 2 ^ (n + 1) by ring]
  show (2 ^ (n + 1) - 1) * (2 ^ (n + 1) - 1) % 2 ^ (n + 1) = 1 ∧ (2 ^ (n + 1) - 1) % 2 = 1 ∧
    2 ^ (n + 1) - 1 ≠ 1
  have h16 : 2 ^ 4 ≤ 2 ^ (n + 1) := Nat.pow_le_pow_right (by omega) (by omega)
  have hev : 2 ^ (n + 1) = 2 * 2 ^ n := by ring
  obtain ⟨M, hM⟩ : ∃ M, 2 ^ (n + 1) = M + 2 := ⟨2 ^ (n + 1) - 2, by omega⟩
  refine ⟨?_, by omega, by omega⟩
  rw [hM, show (M + 2 - 1) * (M + 2 - 1) = 1 + (M + 2) * M by
    rw [show M + 2 - 1 = M + 1 by omega]; ring, Nat.add_mul_mod_self_left, Nat.mod_eq_of_lt (by omega)]

theorem foldGalois (gen mask : UInt64) (L k : ℕ) (hk : k < L) :
    let t := (List.range k).foldl (fun l i => l.set (i + 1) ((Row.at l i * gen) &&& mask)) ((List.replicate L 0).set 0 1)
    t.length = L ∧ Row.at t 0 = 1 ∧ ∀ i < k, Row.at t (i + 1) = (Row.at t i * gen) &&& mask := by
  induction k with
  | zero => simp [Row.at, hk]
  | succ k ih =>
    obtain ⟨h1, h2, h3⟩ := ih (by omega)
    simp only [List.range_succ, List.foldl_append, List.foldl_cons, List.foldl_nil]
    set t := (List.range k).foldl (fun l i => l.set (i + 1) ((Row.at l i * gen) &&& mask)) ((List.replicate L 0).set 0 1) with ht
    refine ⟨by rw [List.length_set, h1], by rw [Row.at_set, if_neg (by omega), h2], fun i hi => ?_⟩
    rw [Row.at_set, Row.at_set, if_neg (show ¬(i = k + 1 ∧ k + 1 < t.length) by omega)]
    by_cases e : i = k
    · subst e
      rw [if_pos ⟨rfl, by omega⟩]
    · rw [if_neg (by omega), h3 i (by omega)]

/-- **C25 (table).** `GenGaloisParams(N, g)` lists `g^i mod 2N` for the `N/2` rotations, for every degree `N = 2^n`. -/
theorem C25_genGaloisParams (n : ℕ) (hn : 1 ≤ n) (hn' : n < 63) (gen : UInt64) :
    (genGaloisParams (UInt64.ofNat (2 ^ n)) gen).length = 2 ^ (n - 1) ∧
    ∀ i < 2 ^ (n - 1), (Row.at (genGaloisParams (UInt64.ofNat (2 ^ n)) gen) i).toNat = gen.toNat ^ i % 2 ^ (n + 1) := by
  have hp : 2 ^ (n + 1) < 2 ^ 64 := Nat.pow_lt_pow_right (by omega) (by omega)
  have hp2 : 2 ^ (n + 1) = 2 * 2 ^ n := by ring
  have hhalf : 2 ^ n = 2 * 2 ^ (n - 1) := by rw [← pow_succ']; congr 1; omega
  have h0 := Nat.two_pow_pos (n - 1)
  have e0 : (UInt64.ofNat (2 ^ n)).toNat = 2 ^ n := by rw [UInt64.toNat_ofNat', Nat.mod_eq_of_lt (by omega)]
  have em : ((UInt64.ofNat (2 ^ n)) <<< 1 - 1).toNat = 2 ^ (n + 1) - 1 := by
    have e1 : ((UInt64.ofNat (2 ^ n)) <<< 1).toNat = 2 ^ (n + 1) := by
      rw [UInt64.toNat_shiftLeft, e0]
      show 2 ^ n <<< 1 % 2 ^ 64 = _
      rw [Nat.shiftLeft_eq, pow_one, mul_comm, ← hp2, Nat.mod_eq_of_lt hp]
    rw [UInt64.toNat_sub_of_le _ _ (UInt64.le_iff_toNat_le.2 (by rw [e1]; show 1 ≤ _; omega)), e1]
    rfl
  have hL : (UInt64.ofNat (2 ^ n)).toNat / 2 = 2 ^ (n - 1) := by rw [e0]; omega
  obtain ⟨h1, h2, h3⟩ := foldGalois gen ((UInt64.ofNat (2 ^ n)) <<< 1 - 1) (2 ^ (n - 1)) (2 ^ (n - 1) - 1) (by omega)
  unfold genGaloisParams
  rw [hL]
  refine ⟨h1, fun i => ?_⟩
  induction i with
  | zero =>
    intro _
    rw [h2, pow_zero, Nat.mod_eq_of_lt (by omega)]
    rfl
  | succ i ih =>
    intro hi
    rw [h3 i (by omega), UInt64.toNat_and, em, Nat.and_two_pow_sub_one_eq_mod, UInt64.toNat_mul, ih (by omega), pow_succ gen.toNat,
      ← Nat.mod_mul_mod (gen.toNat ^ i)]
    exact Nat.mod_mod_of_dvd _ (pow_dvd_pow 2 (by omega : n + 1 ≤ 64))

/-- the rotations of the parameters are the entries of the table -/
theorem C25_genGaloisParams_rotation (hr : r.Valid n) (i : ℕ) (hi : i < r.n / 2) :
    Row.at (genGaloisParams (UInt64.ofNat r.n) galoisGen) i = r.galoisElementForColumnRotationBy i := by
  have hn := valid_n_lt hr
  have h4 := hr.four_le
  have hhalf : 2 ^ n = 2 * 2 ^ (n - 1) := by rw [← pow_succ']; congr 1; omega
  rw [hr.deg] at hi ⊢
  apply UInt64.toNat_inj.1
  rw [(C25_genGaloisParams n (by omega) (by omega) galoisGen).2 i (by omega), galEl_eq hr]
  have e : ((i : ℤ) % ((2 ^ (n + 1) : ℕ) : ℤ)).toNat = i := by
    rw [← Int.natCast_mod, Int.toNat_natCast, Nat.mod_eq_of_lt (by rw [pow_succ]; omega)]
  rw [e]
  rfl

end galois

/-- the hypotheses of C24 and C25 hold for a ring returned by `NewRing` -/
example : ∃ r n, newRing 100 16 [97, 193] = .ok r ∧ r.Valid n ∧ r.Small ∧
    (r.galoisElementForColumnRotationBy (-3)).toNat = 21 := by
  obtain ⟨r, h1, h2, h3, h4, h5, h6⟩ := exists_ring
  refine ⟨r, 4, h1, h2, ?_, ?_⟩
  · intro s hs
    obtain ⟨i, hi, rfl⟩ := List.mem_iff_getElem.1 hs
    have : r.subs[i] = r.sub i := by simp [Ring.sub, List.getD, hi]
    rw [this]
    rcases (by omega : i = 0 ∨ i = 1) with rfl | rfl
    · rw [h5]; decide
    · rw [h6]; decide
  · rw [galEl_eq h2]; decide +kernel

end FastKsw.Props
