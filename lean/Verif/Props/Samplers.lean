import Verif.Lemmas.Samplers
import Verif.Props.FKeys

/-!
# C42, C43, C44, C63: the samplers
-/

namespace FastKsw.Props

open Finset

/-- the words are read big-endian -/
theorem beUint_toNat (b : List UInt8) (h : b.length ≤ 8) :
    (beUint b).toNat = b.foldl (fun a x => 256 * a + x.toNat) 0 := by
  suffices H : ∀ (b : List UInt8) (a : UInt64), (a.toNat + 1) * 256 ^ b.length ≤ 2 ^ 64 →
      (b.foldl (fun (a : UInt64) x => a <<< 8 ||| x.toUInt64) a).toNat
        = b.foldl (fun a x => 256 * a + x.toNat) a.toNat by
    refine H b 0 ?_
    rw [show (2 : ℕ) ^ 64 = 256 ^ 8 from rfl]
    simpa using Nat.pow_le_pow_right (by omega) h
  intro b
  induction b with
  | nil => intro a _; rfl
  | cons x b ih =>
    intro a ha
    have hx := x.toNat_lt
    have h1 : 1 ≤ 256 ^ b.length := Nat.one_le_pow _ _ (by omega)
    rw [List.length_cons, pow_succ] at ha
    have h2 : (a.toNat + 1) * 256 ≤ 2 ^ 64 := by
      calc (a.toNat + 1) * 256 = (a.toNat + 1) * (1 * 256) := by ring
        _ ≤ (a.toNat + 1) * (256 ^ b.length * 256) := by gcongr
        _ ≤ _ := ha
    have h3 : (a <<< 8 ||| x.toUInt64).toNat = 256 * a.toNat + x.toNat := by
      rw [UInt64.toNat_or, UInt64.toNat_shiftLeft, show (8 : UInt64).toNat % 64 = 8 from rfl, Nat.shiftLeft_eq,
        Nat.mod_eq_of_lt (by omega), UInt8.toNat_toUInt64, show 2 ^ 8 = 256 from rfl, mul_comm a.toNat]
      have := Nat.two_pow_add_eq_or_of_lt (i := 8) hx a.toNat
      rw [show 2 ^ 8 = 256 from rfl] at this
      rw [this]
    rw [List.foldl_cons, List.foldl_cons, ih _ (by
      rw [h3]
      calc (256 * a.toNat + x.toNat + 1) * 256 ^ b.length
          ≤ ((a.toNat + 1) * 256) * 256 ^ b.length := by gcongr; omega
        _ = (a.toNat + 1) * (256 ^ b.length * 256) := by ring
        _ ≤ _ := ha), h3]

section
variable {n : ℕ} {r : Ring} (hr : r.Valid n) {level : ℕ} (hl : level < r.subs.length)
include hr

/-- a masked word is the word modulo the power of two next above `q` -/
theorem and_mask_toNat {j : ℕ} (hj : j < r.subs.length) (w : UInt64) :
    ∃ k, 2 ^ k ≤ 2 * (r.sub j).q.toNat ∧ (r.sub j).q.toNat < 2 ^ k ∧ (w &&& (r.sub j).mask).toNat = w.toNat % 2 ^ k := by
  have hv := hr.subAt hj
  have h0 := hv.prime.pos
  refine ⟨len64 (r.sub j).q.toNat, ?_, ?_, ?_⟩
  · unfold len64
    rw [if_neg (by omega), pow_succ]
    have := Nat.log2_self_le (n := (r.sub j).q.toNat) (by omega)
    omega
  · unfold len64
    rw [if_neg (by omega)]
    exact Nat.lt_log2_self
  · rw [UInt64.toNat_and, hv.mask, Nat.and_two_pow_sub_one_eq_mod]

include hl

/-- **C42.** `Read` / `ReadLvl` of the uniform sampler, on every byte stream on which it returns.  Let `w_0, w_1, …`
be the successive big-endian words of the stream.  The coefficients, row after row, are words
`w_{idx 0}, w_{idx 1}, …` with `idx` increasing, so that no word is used twice and the order of the stream is
kept; each is reduced modulo the power of two `2^k` next above the modulus, is below the modulus, and the
words skipped before it are exactly those whose reduction is not.  Every word used lies before the position at
which the next read of the generator starts.  Rows above the level are unchanged. -/
theorem C42_uniform {fuel : ℕ} {prng prng' : Prng} {pol out : Rows} (hp : level < pol.length)
    (h : uniformReadLvl fuel r level prng pol = some (out, prng')) :
    let w := streamWord prng.stream prng.pos
    (∃ idx : ℕ → ℕ, (∀ t, t + 1 < (level + 1) * r.n → idx t < idx (t + 1)) ∧
      (prng'.stream = prng.stream ∧ ∀ t < (level + 1) * r.n, prng.pos + 8 * (idx t + 1) ≤ prng'.pos) ∧
      ∀ j ≤ level, ∃ k, 2 ^ k ≤ 2 * (r.sub j).q.toNat ∧ (r.sub j).q.toNat < 2 ^ k ∧ ∀ i < r.n,
        ((out.row j).at i).toNat = (w (idx (j * r.n + i))).toNat % 2 ^ k ∧
        ∀ l < idx (j * r.n + i), (j * r.n + i = 0 ∨ idx (j * r.n + i - 1) < l) →
          (r.sub j).q.toNat ≤ (w l).toNat % 2 ^ k) ∧
    ∃ v, PolyWritten r level r.qs pol out v := by
  intro w
  have h4 := hr.four_le
  have hN : r.n % 8 = 0 := by
    rw [hr.deg, show n = 3 + (n - 3) by omega, pow_add]
    omega
  have hN0 : 0 < r.n := by rw [hr.deg]; positivity
  unfold uniformReadLvl at h
  simp only at h
  rw [Option.map_eq_some_iff] at h
  obtain ⟨⟨x, st⟩, hx, h⟩ := h
  simp only [Prod.mk.injEq] at h
  obtain ⟨rfl, rfl⟩ := h
  obtain ⟨e, e0, hP, hlen, hrow, hst, c, hc1, -, hc2, hc3⟩ := uniRows_is (s := prng.stream) (pos := prng.pos) hN hN0 _ (k := 0)
    ⟨rfl, 0, by simp [Prng.read], by simp [Prng.read], by simp, by simp⟩ hx
  have hss : (r.subs.take (level + 1)).length = level + 1 := by simp; omega
  have hsub : ∀ j ≤ level, (r.subs.take (level + 1)).getD j default = r.sub j := by
    intro j hj
    simp [Ring.sub, List.getD, List.getElem?_take, show j < level + 1 by omega]
  rw [hss] at hP hlen hrow hc2
  have hmono : ∀ d t, t + d ≤ (level + 1) * r.n → e t ≤ e (t + d) := by
    intro d
    induction d with
    | zero => intro t _; exact le_refl _
    | succ d ih =>
      intro t ht
      have h1 := ih t (by omega)
      have h2 := hP.lt (t + d) (by omega)
      rw [← add_assoc]
      omega
  have hdm : ∀ j i, i < r.n → (j * r.n + i) / r.n = j := by
    intro j i hi
    rw [Nat.mul_comm, Nat.mul_add_div hN0, Nat.div_eq_of_lt hi, add_zero]
  have hlt : ∀ j ≤ level, ∀ i < r.n, j * r.n + i < (level + 1) * r.n := by
    intro j hj i hi
    calc j * r.n + i < j * r.n + r.n := by omega
      _ = (j + 1) * r.n := by ring
      _ ≤ _ := Nat.mul_le_mul_right _ (by omega)
  have hout : ∀ j ≤ level, (writeLvl level (fun j => x.getD j []) pol).row j = x.row j := fun j hj => by
    rw [row_writeLvl hj hp]; rfl
  have hval : ∀ j ≤ level, ∀ i < r.n, (x.row j).at i = w (e (j * r.n + i + 1) - 1) &&& (r.sub j).mask ∧
      (x.row j).at i < (r.sub j).q := by
    intro j hj i hi
    have h1 := (hrow j (by omega)).2 i hi
    rw [hsub j hj] at h1
    have h2 := (hP.first _ (hlt j hj i hi)).acc
    rw [rowPred, hdm j i hi, hsub j hj] at h2
    exact ⟨h1, h1 ▸ h2⟩
  refine ⟨⟨fun t => e (t + 1) - 1, fun t ht => ?_, ⟨hst, fun t ht => ?_⟩, fun j hj => ?_⟩, _, writeLvl_is hp (v := fun j k =>
    zval _ (x.row j) k) fun j hj => ?_⟩
  · have h1 := hP.lt t (by omega)
    have h2 := hP.lt (t + 1) ht
    simp only
    omega
  · have h1 := hP.lt t ht
    have h2 := hmono ((level + 1) * r.n - (t + 1)) (t + 1) (by omega)
    rw [Nat.add_sub_cancel' (by omega)] at h2
    have h3 : r.n * (c + 1) = r.n * c + r.n := by ring
    simp only [hc1, h3]
    omega
  · obtain ⟨k, k1, k2, -⟩ := and_mask_toNat hr (j := j) (by omega) 0
    have k3 : ∀ w : UInt64, (w &&& (r.sub j).mask).toNat = w.toNat % 2 ^ k := by
      intro w
      obtain ⟨k', a1, a2, a3⟩ := and_mask_toNat hr (j := j) (by omega) w
      have hb : ∀ a b : ℕ, 2 ^ a ≤ 2 * (r.sub j).q.toNat → (r.sub j).q.toNat < 2 ^ b → a ≤ b := by
        intro a b h1 h2
        by_contra hlt
        have := Nat.pow_le_pow_right (show 0 < 2 by omega) (show b + 1 ≤ a by omega)
        rw [pow_succ] at this
        omega
      rw [a3, Nat.le_antisymm (hb _ _ a1 k2) (hb _ _ k1 a2)]
    refine ⟨k, k1, k2, fun i hi => ⟨?_, fun l hl1 hl2 => ?_⟩⟩
    · rw [hout j hj, (hval j hj i hi).1, k3]
    · have h1 := (hP.first _ (hlt j hj i hi)).rej l ?_ hl1
      · rw [rowPred, hdm j i hi, hsub j hj, UInt64.not_lt, UInt64.le_iff_toNat_le, k3] at h1
        exact h1
      · rcases hl2 with h0 | h0
        · rw [h0, e0]; omega
        · by_cases h00 : j * r.n + i = 0
          · rw [h00, e0]; omega
          · dsimp only at h0
            rw [Nat.sub_add_cancel (by omega)] at h0
            omega
  · exact ⟨(hrow j (by omega)).1, fun k hk => UInt64.lt_iff_toNat_lt.1 (hval j hj k hk).2, fun k _ => rfl⟩

/-- **C43, density 1/2.** The polynomial holds, modulo every prime, the integers `T k` (times `2^64` in Montgomery
form): `0` if bit `k` of the first `N/8` bytes is 0, else `1` or `-1` according to bit `k` of the next `N/8`. -/
theorem C43_half (mont : Bool) (prng : Prng) {pol : Rows} (hp : level < pol.length) :
    let T : ℕ → ℤ := fun k =>
      if byteBit (prng.stream (prng.pos + k / 8)) (k % 8) = 0 then 0
      else if byteBit (prng.stream (prng.pos + r.n / 8 + k / 8)) (k % 8) = 0 then 1 else -1
    PolyWritten r level r.qs pol (ternaryHalf r mont level prng pol).1
      (fun u k => ((T k : ℤ) : ZMod (r.sub u).q.toNat) * (if mont then 2 ^ 64 else 1)) := by
  intro T
  have h4 := hr.four_le
  have hN : r.n % 8 = 0 := by
    rw [hr.deg, show n = 3 + (n - 3) by omega, pow_add]
    omega
  have H := ternaryRows_is hr mont hl hp (f := fun j => (List.range r.n).map fun i =>
    ternaryValue (r.sub j) mont (ternaryIndex (byteBit ((prng.read (r.n / 8)).1.getD (i / 8) 0) (i % 8))
      (byteBit (((prng.read (r.n / 8)).2.read (r.n / 8)).1.getD (i / 8) 0) (i % 8)))) (idx := fun i =>
      ternaryIndex (byteBit ((prng.read (r.n / 8)).1.getD (i / 8) 0) (i % 8))
      (byteBit (((prng.read (r.n / 8)).2.read (r.n / 8)).1.getD (i / 8) 0) (i % 8))) (fun j _ => ⟨by simp, fun k hk =>
      by rw [at_map_range _ _ hk]⟩)
  refine ⟨H.is.congr fun u _ k hk => ?_, H.len, H.above⟩
  have hk8 : k / 8 < r.n / 8 := by omega
  congr 2
  rw [ternaryIndex_cases (byteBit_cases _ _) (byteBit_cases _ _)]
  simp only [Prng.read, getD_map_range' _ _ _ hk8, T, ternaryInt]
  rcases byteBit_cases (prng.stream (prng.pos + k / 8)) (k % 8) with h | h <;>
    rcases byteBit_cases (prng.stream (prng.pos + r.n / 8 + k / 8)) (k % 8) with h' | h' <;> simp [h, h']

/-- **C43, density `p ≠ 1/2`.** For every probability matrix and byte stream on which the sampler returns, the
polynomial holds the same integers in `{0, 1, -1}` modulo every prime. -/
theorem C43_proba {fuel : ℕ} (mont : Bool) (x0 x1 : UInt64) {prng prng' : Prng} {pol out : Rows}
    (hp : level < pol.length) (h : ternaryProba fuel r mont x0 x1 level prng pol = some (out, prng')) :
    ∃ T : ℕ → ℤ, (∀ k, T k = 0 ∨ T k = 1 ∨ T k = -1) ∧ PolyWritten r level r.qs pol out
      (fun u k => ((T k : ℤ) : ZMod (r.sub u).q.toNat) * (if mont then 2 ^ 64 else 1)) := by
  unfold ternaryProba at h
  simp only at h
  rw [Option.map_eq_some_iff] at h
  obtain ⟨⟨x, st⟩, hx, h⟩ := h
  simp only [Prod.mk.injEq] at h
  obtain ⟨rfl, rfl⟩ := h
  refine ⟨fun k => ternaryInt (x.getD k 0), fun k => ?_, ternaryRows_is hr mont hl hp (fun j _ => ⟨by simp,
    fun k hk => by rw [at_map_range _ _ hk]⟩)⟩
  simp only [ternaryInt]
  split
  · exact Or.inl rfl
  · split
    · exact Or.inr (Or.inl rfl)
    · exact Or.inr (Or.inr rfl)

/-- **C43, fixed Hamming weight.** For every byte stream on which the sampler returns, the polynomial holds the
same integers in `{0, 1, -1}` modulo every prime, and exactly `min(hw, N)` of them are not zero. -/
theorem C43_sparse {fuel : ℕ} (hn : n < 63) (mont : Bool) (hw : ℕ) {prng prng' : Prng} {pol out : Rows}
    (hp : level < pol.length) (hlen : ∀ j ≤ level, (pol.row j).length = r.n)
    (h : ternarySparse fuel r mont hw level prng pol = some (out, prng')) :
    ∃ T : ℕ → ℤ, (∀ k, T k = 0 ∨ T k = 1 ∨ T k = -1) ∧ #{k ∈ range r.n | T k ≠ 0} = min hw r.n ∧
      PolyWritten r level r.qs pol out
        (fun u k => ((T k : ℤ) : ZMod (r.sub u).q.toNat) * (if mont then 2 ^ 64 else 1)) := by
  unfold ternarySparse at h
  simp only at h
  rw [Option.map_eq_some_iff] at h
  obtain ⟨⟨ws, rest, pr⟩, hx, h⟩ := h
  simp only [Prod.mk.injEq] at h
  obtain ⟨rfl, rfl⟩ := h
  have hw' : (if hw > r.n then r.n else hw) = min hw r.n := by split <;> omega
  rw [hw'] at hx
  have hN : r.n < 2 ^ 64 := by
    rw [hr.deg]
    exact Nat.pow_lt_pow_right (by omega) (by omega)
  obtain ⟨h1, h2, h3⟩ := sparseLoop_is hN _ (by omega) (by simp) hx
  set all := ws ++ rest.map fun i => (i, 0) with hall
  have hfst : all.map Prod.fst = ws.map Prod.fst ++ rest := by simp [hall, Function.comp_def]
  have hnd : (all.map Prod.fst).Nodup := by
    rw [hfst]
    exact h2.nodup_iff.2 List.nodup_range
  have hmem : ∀ k, k < r.n ↔ k ∈ all.map Prod.fst := by
    intro k
    rw [hfst, h2.mem_iff, List.mem_range]
  -- the index written at each position
  have hex : ∀ k, ∃ v, k < r.n → (k, v) ∈ all := by
    intro k
    by_cases hk : k < r.n
    · obtain ⟨⟨a, v⟩, ha, rfl⟩ := List.mem_map.1 ((hmem k).1 hk)
      exact ⟨v, fun _ => ha⟩
    · exact ⟨0, fun h => absurd h hk⟩
  choose idx hidx using hex
  refine ⟨fun k => ternaryInt (idx k), fun k => ?_, ?_, ternaryRows_is hr mont hl hp fun j hj => ⟨?_, fun k hk => ?_⟩⟩
  · simp only [ternaryInt]
    split
    · exact Or.inl rfl
    · split
      · exact Or.inr (Or.inl rfl)
      · exact Or.inr (Or.inr rfl)
  · have huniq : ∀ k v v', (k, v) ∈ all → (k, v') ∈ all → v = v' := fun k v v' a b => by
      have := List.inj_on_of_nodup_map hnd a b rfl
      exact (Prod.mk.inj this).2
    have hset : ({k ∈ range r.n | ternaryInt (idx k) ≠ 0} : Finset ℕ) = (ws.map Prod.fst).toFinset := by
      ext k
      simp only [Finset.mem_filter, Finset.mem_range, List.mem_toFinset, List.mem_map]
      constructor
      · rintro ⟨hk, hne⟩
        have := hidx k hk
        rw [hall, List.mem_append] at this
        rcases this with hm | hm
        · exact ⟨_, hm, rfl⟩
        · obtain ⟨a, -, e⟩ := List.mem_map.1 hm
          have : idx k = 0 := (Prod.mk.inj e).2.symm
          exact absurd (by simp [ternaryInt, this]) hne
      · rintro ⟨⟨a, v⟩, hm, rfl⟩
        have hall' : (a, v) ∈ all := by rw [hall]; exact List.mem_append_left _ hm
        have ha : a < r.n := (hmem a).2 (List.mem_map.2 ⟨_, hall', rfl⟩)
        refine ⟨ha, ?_⟩
        rw [huniq a _ _ (hidx a ha) hall']
        rcases h3 _ hm with e | e <;> simp only at e <;> simp [ternaryInt, e]
    rw [hset, List.toFinset_card_of_nodup, List.length_map, h1]
    rw [hfst] at hnd
    exact (List.nodup_append.1 hnd).1
  · rw [applyWrites_length, hlen j hj]
  · exact applyWrites_mem _ _ hnd (hidx k hk) _ (by rw [hlen j hj]; exact hk)

/-- **C44.** `Read` / `ReadLvl` / `ReadFromDistLvl` of the Gaussian sampler, for every stream of draws on which it
returns: the polynomial holds, modulo every prime, the same integers `G k` with `|G k| ≤ bound`; these are, in
order, the draws that are at most the bound, with their signs.  (A zero with negative sign is stored as `q`.) -/
theorem C44_read {fuel : ℕ} {bound : UInt64} (hb : ∀ j ≤ level, bound.toNat ≤ r.qs j) {cand : ℕ → UInt64 × Bool}
    {k k' : ℕ} {pol out : Rows} (hp : level < pol.length)
    (h : gaussReadLvl fuel r bound level cand k pol = some (out, k')) :
    ∃ (G : ℕ → ℤ) (idx : ℕ → ℕ), (∀ t < r.n, |G t| ≤ bound.toNat) ∧
      (∀ t, t + 1 < r.n → idx t < idx (t + 1)) ∧
      (∀ t < r.n, G t = (if (cand (idx t)).2 then ((cand (idx t)).1.toNat : ℤ) else -(cand (idx t)).1.toNat) ∧
        ∀ l, k ≤ l → l < idx t → (t = 0 ∨ idx (t - 1) < l) → bound < (cand l).1) ∧
      PolyWritten r level (fun u => r.qs u + 1) pol out (r.intVec G) := by
  unfold gaussReadLvl at h
  rw [Option.map_eq_some_iff] at h
  obtain ⟨⟨x, st⟩, hx, h⟩ := h
  simp only [Prod.mk.injEq] at h
  obtain ⟨rfl, rfl⟩ := h
  obtain ⟨hlen, e, e0, hP, hv, -⟩ := gaussDraws_is _ hx
  have hle : ∀ t < r.n, (x.getD t default).1 ≤ bound := fun t ht => by
    rw [hv t ht]; exact (hP.first t ht).acc
  refine ⟨fun t => gaussInt (x.getD t default), fun t => e (t + 1) - 1, fun t ht => ?_, fun t ht => ?_, fun t ht => ⟨?_,
    fun l hkl hl1 hl2 => ?_⟩, writeLvl_is hp fun j hj => ⟨by simp [hlen], fun t ht => ?_, fun t ht => ?_⟩⟩
  · have := UInt64.le_iff_toNat_le.1 (hle t ht)
    simp only [gaussInt]
    split
    · rw [abs_of_nonneg (by positivity)]; exact_mod_cast this
    · rw [abs_neg, abs_of_nonneg (by positivity)]; exact_mod_cast this
  · have h1 := hP.lt t (by omega)
    have h2 := hP.lt (t + 1) ht
    simp only
    omega
  · simp only [gaussInt]
    rw [hv t ht]
  · refine UInt64.not_le.1 ((hP.first t ht).rej l ?_ hl1)
    rcases hl2 with rfl | h0
    · rw [e0]; exact hkl
    · by_cases h00 : t = 0
      · rw [h00, e0]; exact hkl
      · dsimp only at h0
        rw [Nat.sub_add_cancel (by omega)] at h0
        omega
  · have := (gaussWord_is (q := (r.sub j).q) (c := x.getD t default)
      ((UInt64.le_iff_toNat_le.1 (hle t ht)).trans (hb j hj))).1
    simp only [Row.at, List.getD, List.getElem?_map, List.getElem?_eq_getElem (show t < x.length by omega),
      Option.map_some, Option.getD_some] at this ⊢
    unfold Ring.qs
    omega
  · have := (gaussWord_is (q := (r.sub j).q) (c := x.getD t default)
      ((UInt64.le_iff_toNat_le.1 (hle t ht)).trans (hb j hj))).2
    simp only [zval, Ring.intVec, Row.at, List.getD, List.getElem?_map,
      List.getElem?_eq_getElem (show t < x.length by omega), Option.map_some, Option.getD_some] at this ⊢
    exact this

/-- **C44 (ReadAndAdd).** The integers are added to what the polynomial held, with reduced results. -/
theorem C44_readAndAdd {fuel : ℕ} {bound : UInt64} (hb : ∀ j ≤ level, bound.toNat ≤ r.qs j) {cand : ℕ → UInt64 × Bool}
    {k k' : ℕ} {pol out : Rows} {v : ∀ u, ℕ → ZMod (r.sub u).q.toNat} (hp : PolyIs r level r.qs pol v)
    (h : gaussReadAndAddLvl fuel r bound level cand k pol = some (out, k')) :
    ∃ (G : ℕ → ℤ) (idx : ℕ → ℕ), (∀ t < r.n, |G t| ≤ bound.toNat) ∧
      (∀ t, t + 1 < r.n → idx t < idx (t + 1)) ∧
      (∀ t < r.n, G t = (if (cand (idx t)).2 then ((cand (idx t)).1.toNat : ℤ) else -(cand (idx t)).1.toNat)) ∧
      PolyWritten r level r.qs pol out (fun u t => v u t + r.intVec G u t) := by
  unfold gaussReadAndAddLvl at h
  rw [Option.map_eq_some_iff] at h
  obtain ⟨⟨x, st⟩, hx, h⟩ := h
  simp only [Prod.mk.injEq] at h
  obtain ⟨rfl, rfl⟩ := h
  obtain ⟨hlen, e, e0, hP, hv, -⟩ := gaussDraws_is _ hx
  have hle : ∀ t < r.n, (x.getD t default).1 ≤ bound := fun t ht => by
    rw [hv t ht]; exact (hP.first t ht).acc
  have hword : ∀ j ≤ level, ∀ t < r.n, Row.at (List.zipWith (fun x c => cred (x + gaussWord (r.sub j).q c)
      (r.sub j).q) (pol.row j) x) t = cred ((pol.row j).at t + gaussWord (r.sub j).q (x.getD t default)) (r.sub j).q := by
    intro j hj t ht
    have h1 := (hp.row j hj).len
    simp only [Row.at, List.getD, List.getElem?_zipWith, List.getElem?_eq_getElem (show t < x.length by omega),
      List.getElem?_eq_getElem (show t < (pol.row j).length by omega), Option.getD_some]
  have hsum : ∀ j ≤ level, ∀ t < r.n,
      (cred ((pol.row j).at t + gaussWord (r.sub j).q (x.getD t default)) (r.sub j).q).toNat < (r.sub j).q.toNat ∧
      (((cred ((pol.row j).at t + gaussWord (r.sub j).q (x.getD t default)) (r.sub j).q).toNat : ℕ)
        : ZMod (r.sub j).q.toNat) = v j t + (gaussInt (x.getD t default) : ℤ) := by
    intro j hj t ht
    obtain ⟨g1, g2⟩ := gaussWord_is (q := (r.sub j).q) (c := x.getD t default)
      ((UInt64.le_iff_toNat_le.1 (hle t ht)).trans (hb j hj))
    have h1 := (hp.row j hj).lt t ht
    have h2 := (hp.row j hj).val t ht
    have h3 := (hr.subAt (show j < r.subs.length by omega)).lt
    unfold zval at h2
    unfold Ring.qs at h1
    have h4 : ((pol.row j).at t + gaussWord (r.sub j).q (x.getD t default)).toNat
        = ((pol.row j).at t).toNat + (gaussWord (r.sub j).q (x.getD t default)).toNat := by
      rw [UInt64.toNat_add, Nat.mod_eq_of_lt (by omega)]
    refine ⟨toNat_cred_lt (by omega), ?_⟩
    rw [(ZMod.natCast_eq_natCast_iff _ _ _).2 (toNat_cred_modEq _ _), h4, Nat.cast_add, h2, g2]
  refine ⟨fun t => gaussInt (x.getD t default), fun t => e (t + 1) - 1, fun t ht => ?_, fun t ht => ?_, fun t ht => ?_,
    writeLvl_is hp.lvl fun j hj => ⟨by simp [hlen, (hp.row j hj).len], fun t ht => ?_, fun t ht => ?_⟩⟩
  · have := UInt64.le_iff_toNat_le.1 (hle t ht)
    simp only [gaussInt]
    split
    · rw [abs_of_nonneg (by positivity)]; exact_mod_cast this
    · rw [abs_neg, abs_of_nonneg (by positivity)]; exact_mod_cast this
  · have h1 := hP.lt t (by omega)
    have h2 := hP.lt (t + 1) ht
    simp only
    omega
  · simp only [gaussInt]
    rw [hv t ht]
  · rw [hword j hj t ht]
    exact (hsum j hj t ht).1
  · unfold zval
    rw [hword j hj t ht]
    exact (hsum j hj t ht).2

end

/-- **C43 / C44 → key generation.** What the ternary sampler writes (not in Montgomery form) is a small
polynomial in the sense required by the key generator. -/
theorem C43_sampled {n : ℕ} {r : Ring} (hr : r.Valid n) {level : ℕ} (hl : level < r.subs.length) {T : ℕ → ℤ}
    (hT : ∀ k, T k = 0 ∨ T k = 1 ∨ T k = -1) {pol out : Rows} (h : PolyWritten r level r.qs pol out
      (fun u k => ((T k : ℤ) : ZMod (r.sub u).q.toNat) * (if false then 2 ^ 64 else 1))) :
    Sampled r level out T ∧ ∀ k, |T k| ≤ 1 := by
  have hb : ∀ k, |T k| ≤ 1 := fun k => by rcases hT k with h | h | h <;> simp [h]
  refine ⟨⟨(h.is.mono fun u _ => by omega).congr fun u _ k _ => by simp [Ring.intVec], fun k _ => ?_⟩, hb⟩
  have h3 : 2 < (r.sub 0).q.toNat := by
    have hv := hr.subAt (show 0 < r.subs.length by omega)
    have h1 := hv.prime.two_le
    have h2 := hv.odd
    omega
  have := hb k
  unfold Ring.qs
  have h4 : ((2 : ℕ) : ℤ) < (r.sub 0).q.toNat := by exact_mod_cast h3
  push_cast at h4
  linarith

/-- likewise for the Gaussian sampler when twice the bound is below the first modulus -/
theorem C44_sampled {n : ℕ} {r : Ring} (hr : r.Valid n) {level : ℕ} (hl : level < r.subs.length)
    {fuel : ℕ} {bound : UInt64} (hb : ∀ j ≤ level, bound.toNat ≤ r.qs j) (hb0 : 2 * bound.toNat < r.qs 0)
    {cand : ℕ → UInt64 × Bool} {k k' : ℕ} {pol out : Rows} (hp : level < pol.length)
    (h : gaussReadLvl fuel r bound level cand k pol = some (out, k')) :
    ∃ G : ℕ → ℤ, (∀ t < r.n, |G t| ≤ bound.toNat) ∧ Sampled r level out G := by
  obtain ⟨G, -, h1, -, -, h2⟩ := C44_read hr hl hb hp h
  refine ⟨G, h1, h2.is, fun t ht => ?_⟩
  have := h1 t ht
  have h4 : ((2 * bound.toNat : ℕ) : ℤ) < r.qs 0 := by exact_mod_cast hb0
  push_cast at h4
  linarith

/-- **C42, C44 → key generation.** If the errors and masks of all digits come from runs of the Gaussian and the
uniform samplers, on any streams, the tape meets what the theorems on key generation require, with errors
bounded by the bound of the Gaussian sampler. -/
theorem C44_tape {n : ℕ} {rQ rP : Ring} (hQ : rQ.Valid n) (hP : rP.Valid n) {lQ lP : ℕ} (hlQ : lQ < rQ.subs.length)
    (hlP : lP < rP.subs.length) {bound : UInt64} (hb : ∀ j ≤ lQ, bound.toNat ≤ rQ.qs j)
    (hb' : ∀ j ≤ lP, bound.toNat ≤ rP.qs j) (hb0 : 2 * bound.toNat < rQ.qs 0) {tape : ℕ → KeyTape}
    (he : ∀ i, i * (lP + 1) ≤ lQ → ∃ fuel cand k k' pol, lQ < pol.length ∧
      gaussReadLvl fuel rQ bound lQ cand k pol = some ((tape i).e, k'))
    (hq : ∀ i, i * (lP + 1) ≤ lQ → ∃ fuel prng prng' pol, lQ < pol.length ∧
      uniformReadLvl fuel rQ lQ prng pol = some ((tape i).a.q, prng'))
    (hp : ∀ i, i * (lP + 1) ≤ lQ → ∃ fuel prng prng' pol, lP < pol.length ∧
      uniformReadLvl fuel rP lP prng pol = some ((tape i).a.p, prng')) :
    ∃ E : ℕ → ℕ → ℤ, TapeOK n rQ rP lQ lP tape E ∧
      ∀ i, i * (lP + 1) ≤ lQ → ∀ k < 2 ^ n, |E i k| ≤ bound.toNat := by
  have H : ∀ i, ∃ G : ℕ → ℤ, i * (lP + 1) ≤ lQ → (∀ t < rQ.n, |G t| ≤ bound.toNat) ∧ Sampled rQ lQ (tape i).e G := by
    intro i
    by_cases hi : i * (lP + 1) ≤ lQ
    · obtain ⟨fuel, cand, k, k', pol, h1, h2⟩ := he i hi
      obtain ⟨G, hG⟩ := C44_sampled hQ hlQ hb hb0 h1 h2
      exact ⟨G, fun _ => hG⟩
    · exact ⟨0, fun h => absurd h hi⟩
  choose E hE using H
  have hEb : ∀ i, i * (lP + 1) ≤ lQ → ∀ k < 2 ^ n, |E i k| ≤ bound.toNat := fun i hi k hk =>
    (hE i hi).1 k (by rw [hQ.deg]; exact hk)
  refine ⟨E, ⟨fun i hi => ?_, fun i hi => (hE i hi).2, fun i hi k hk u hu => (hEb i hi k hk).trans (by
    exact_mod_cast hb' u hu)⟩, hEb⟩
  obtain ⟨fuel, prng, prng', pol, h1, h2⟩ := hq i hi
  obtain ⟨fuel', prng1, prng1', pol', h1', h2'⟩ := hp i hi
  obtain ⟨-, v, hv⟩ := C42_uniform hQ hlQ h1 h2
  obtain ⟨-, w, hw⟩ := C42_uniform hP hlP h1' h2'
  exact ⟨v, w, hv.is, hw.is⟩

/-! ### Runs meeting the hypotheses -/

/-- a stream for the examples -/
def exStream (i : ℕ) : UInt8 := UInt8.ofNat (i * i * 37 + i / 3 + 5)

set_option maxRecDepth 1000000 in
/-- a uniform run that rejects words before it returns -/
example : (match newRing 100 16 [97, 193] with
    | .ok r => (uniformReadLvl 1000 r 1 ⟨exStream, 0, 0⟩ (newPoly 16 2)).elim false
        (fun x => x.2.pos > 8 * 32 && x.1.length == 2)
    | .error _ => false) = true := by decide +kernel

set_option maxRecDepth 1000000 in
/-- a sparse run, and a run with density 1/3 -/
example : (match newRing 100 16 [97, 193] with
    | .ok r => (ternarySparse 1000 r true 5 1 ⟨exStream, 0, 0⟩ (newPoly 16 2)).isSome &&
        (ternaryProba 1000 r false (UInt64.ofNat (2 ^ 56 / 3)) (UInt64.ofNat (2 * 2 ^ 56 / 3)) 1 ⟨exStream, 0, 0⟩
          (newPoly 16 2)).isSome
    | .error _ => false) = true := by decide +kernel

set_option maxRecDepth 1000000 in
/-- a Gaussian run that rejects draws before it returns -/
example : (match newRing 100 16 [97, 193] with
    | .ok r => (gaussReadLvl 1000 r 19 1 (fun i => (UInt64.ofNat (i * 7 % 29), i % 3 = 0)) 0 (newPoly 16 2)).elim false
        (fun x => x.2 > 16)
    | .error _ => false) = true := by decide +kernel

/-- the sign bit stays under the pointer -/
theorem kySampling_reuse {N : ℕ} {x0 x1 : UInt64} {fuel : ℕ} : ∀ {st : KyState} {d : ℤ} {col : ℕ} {c s : UInt64}
    {st' : KyState}, kySampling N x0 x1 fuel st d col = some (c, s, st') → 2 ≤ st'.pointer →
    st'.pointer < 8 ∧ s = byteBit (st'.bytes.getD st'.bytePointer 0) st'.pointer := by
  induction fuel with
  | zero => intro st d col c s st' h; simp [kySampling] at h
  | succ fuel ih =>
    intro st d col c s st' h h2
    rw [kySampling] at h
    split at h
    · exact ih h h2
    · rename_i hp
      simp only at h
      split at h
      · exact ih h h2
      · split at h
        · exact absurd h (by simp)
        · split at h
          · split at h
            · simp only [Option.some.injEq, Prod.mk.injEq] at h
              obtain ⟨rfl, rfl, rfl⟩ := h
              simp at h2
            · simp only [Option.some.injEq, Prod.mk.injEq] at h
              obtain ⟨rfl, rfl, rfl⟩ := h
              exact ⟨by simp only; omega, rfl⟩
          · split at h
            · split at h
              · simp only [Option.some.injEq, Prod.mk.injEq] at h
                obtain ⟨rfl, rfl, rfl⟩ := h
                simp at h2
              · simp only [Option.some.injEq, Prod.mk.injEq] at h
                obtain ⟨rfl, rfl, rfl⟩ := h
                exact ⟨by simp only; omega, rfl⟩
            · exact ih h h2

/-- **C63 (violation).** With density `p ≠ 1/2` the bits used for successive coefficients are not disjoint: when
the walk ended strictly inside a byte, the bit that gave the sign of a coefficient is under
the pointer when the next walk begins, so it is also the first bit of the next coefficient. -/
theorem C63_sign_reused {N : ℕ} {x0 x1 : UInt64} {fuel : ℕ} {st st' : KyState} {c s : UInt64}
    (h : kySampling N x0 x1 fuel st 0 0 = some (c, s, st')) (h2 : 2 ≤ st'.pointer) :
    byteBit (st'.bytes.getD st'.bytePointer 0) st'.pointer = s :=
  (kySampling_reuse h h2).2.symm

/-- **C63 (violation, consequence).** If moreover `1 - p ≥ 1/2`, then a coefficient whose sign bit is 1 (in
particular every `-1`) is followed by a coefficient that is not zero, whatever the rest of the stream. -/
theorem C63_correlated {N : ℕ} {x0 x1 : UInt64} (hx : probaBit x1 0 = 1) {fuel : ℕ} {st st' : KyState} {c : UInt64}
    (h : kySampling N x0 x1 fuel st 0 0 = some (c, 1, st')) (h2 : 2 ≤ st'.pointer) :
    ∃ s st'', kySampling N x0 x1 fuel st' 0 0 = some (1, s, st'') := by
  obtain ⟨h3, h4⟩ := kySampling_reuse h h2
  cases fuel with
  | zero => simp [kySampling] at h
  | succ fuel =>
    rw [kySampling, if_neg (by omega)]
    simp only [← h4, hx]
    rw [if_neg (by decide), if_neg (by decide), if_pos (by decide)]
    split
    · exact ⟨_, _, rfl⟩
    · exact ⟨_, _, rfl⟩

/-- a walk with density 1/3 that meets the hypotheses of both: byte `0b110`, coefficient `0` with sign bit 1, next
coefficient not zero -/
example : probaBit (UInt64.ofNat (2 * 2 ^ 56 / 3)) 0 = 1 ∧
    (kySampling 1 (UInt64.ofNat (2 ^ 56 / 3)) (UInt64.ofNat (2 * 2 ^ 56 / 3)) 100 ⟨⟨exStream, 0, 0⟩, [6], 0, 0⟩ 0 0).map
      (fun a => (a.1, a.2.1, a.2.2.pointer)) = some (0, 1, 2) := by decide +kernel

/-- **C63 for density 1/2.** There each coefficient is read from its own two bits of the stream: streams that agree
on these give the same coefficient, and no bit belongs to two coefficients. -/
theorem C63_half_partial {n : ℕ} {r : Ring} (hr : r.Valid n) {level : ℕ} (hl : level < r.subs.length) (mont : Bool)
    (pos : ℕ) {pol : Rows} (hp : level < pol.length) :
    ∃ bits : ℕ → Finset (ℕ × ℕ), (∀ k < r.n, ∀ k' < r.n, k ≠ k' → Disjoint (bits k) (bits k')) ∧
      ∀ (s s' : ℕ → UInt8) (c c' : UInt64) (k : ℕ), k < r.n →
        (∀ b ∈ bits k, byteBit (s b.1) b.2 = byteBit (s' b.1) b.2) → ∀ j ≤ level,
        ((ternaryHalf r mont level ⟨s, pos, c⟩ pol).1.row j).at k
          = ((ternaryHalf r mont level ⟨s', pos, c'⟩ pol).1.row j).at k := by
  have h4 := hr.four_le
  have hN : r.n % 8 = 0 := by
    rw [hr.deg, show n = 3 + (n - 3) by omega, pow_add]
    omega
  refine ⟨fun k => {(pos + k / 8, k % 8), (pos + r.n / 8 + k / 8, k % 8)}, fun k hk k' hk' hne => ?_,
    fun s s' c c' k hk hb j hj => ?_⟩
  · rw [Finset.disjoint_left]
    rintro ⟨a, b⟩ h1 h2
    simp only [Finset.mem_insert, Finset.mem_singleton, Prod.mk.injEq] at h1 h2
    omega
  · have h1 := hb (pos + k / 8, k % 8) (by simp)
    have h2 := hb (pos + r.n / 8 + k / 8, k % 8) (by simp)
    simp only at h1 h2
    have hk8 : k / 8 < r.n / 8 := by omega
    simp only [ternaryHalf, row_writeLvl hj hp, at_map_range _ _ hk, Prng.read, getD_map_range' _ _ _ hk8, h1, h2]

end FastKsw.Props
