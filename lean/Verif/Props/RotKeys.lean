import Verif.Model.RotKeys
import Verif.Props.Rotate
import Verif.Props.FEvaluator
import Verif.Props.Distribution
import Mathlib.Data.List.GetD

/-!
# C114: sets of rotation keys serve exactly the rotations they were generated for

The keys do not depend on what the buffers of the key generator held, nor on a previous key for the same Galois element.
-/

namespace FastKsw.Props

open FastKsw

/-- the memory of a digit at levels `lQ`, `lP` -/
structure DigitShape (lQ lP : ℕ) (d : PolyQP × PolyQP) : Prop where
  bq : d.1.q.length = lQ + 1
  bp : d.1.p.length = lP + 1
  aq : d.2.q.length = lQ + 1
  ap : d.2.p.length = lP + 1

/-- the memory of a switching key at levels `lQ`, `lP` -/
structure SwkShape (lQ lP : ℕ) (k : SwitchingKey) : Prop where
  len : k.length = ceilDivF (lQ + 1) (lP + 1)
  digit : ∀ i < k.length, DigitShape lQ lP (k.getD i default)

/-- the samplers write every row -/
structure TapeFull (lQ lP : ℕ) (t : KeyTape) : Prop where
  e : t.e.length = lQ + 1
  aq : t.a.q.length = lQ + 1
  ap : t.a.p.length = lP + 1

/-- the buffers of a key generator have one row per modulus; their content is arbitrary -/
structure KgPoolsOK (rQ rP : Ring) (st : KgPools) : Prop where
  q : st.poolQ.length = rQ.subs.length
  qpq : st.poolQP.q.length = rQ.subs.length
  qpp : st.poolQP.p.length = rP.subs.length

theorem writeRows_full {level : ℕ} {vs pol : Rows} (hv : vs.length = level + 1) (hp : pol.length = level + 1) :
    writeLvl level (fun j => vs.row j) pol = vs := by
  have := writeLvl_eq (pol := pol) hv (by omega)
  rw [List.drop_eq_nil_of_le (by omega), List.append_nil] at this
  exact this

theorem addPool_length (rQ : Ring) (lQ alpha i : ℕ) (poolQ : Rows) (l : List ℕ) (b : Rows) :
    (l.foldl (fun bQ j =>
      let index := i * alpha + j
      if index ≥ lQ + 1 then bQ
      else bQ.set index ((List.range rQ.n).map fun w =>
        cred ((bQ.row index).at w + (poolQ.row index).at w) (rQ.sub index).q)) b).length = b.length := by
  induction l generalizing b with
  | nil => rfl
  | cons j l ih =>
    rw [List.foldl_cons, ih]
    dsimp only
    split <;> simp

section
variable {rQ rP : Ring} {lQ lP : ℕ}

/-- one digit: the old content is irrelevant -/
theorem digitInto_eq {poolQ : Rows} {skOut : PolyQP} {i : ℕ} {t : KeyTape} (ht : TapeFull lQ lP t) {old : PolyQP × PolyQP}
    (ho : DigitShape lQ lP old) :
    genSwitchingDigitInto rQ rP lQ lP poolQ skOut i t old = genSwitchingDigit rQ rP lQ lP poolQ skOut i t ∧
      DigitShape lQ lP (genSwitchingDigit rQ rP lQ lP poolQ skOut i t) := by
  refine ⟨?_, ?_⟩
  · unfold genSwitchingDigitInto genSwitchingDigit
    dsimp only
    rw [writeRows_full ht.e ho.bq, writeRows_full ht.aq ho.aq, writeRows_full ht.ap ho.ap,
      show extendBasisSmallNorm rQ rP lP t.e old.1.p = extendBasisSmallNorm rQ rP lP t.e (newPoly rP.n (lP + 1)) from
        writeLvl_full ho.bp (length_newPoly _ _)]
  · refine ⟨?_, ?_, ht.aq, ht.ap⟩
    · refine (length_writeLvl _ _ _).trans ((addPool_length _ _ _ _ _ _ _).trans ((length_writeLvl _ _ _).trans
        ((length_writeLvl _ _ _).trans ht.e)))
    · exact (length_writeLvl _ _ _).trans ((length_writeLvl _ _ _).trans ((length_writeLvl _ _ _).trans
        ((length_writeLvl _ _ _).trans (length_newPoly _ _))))

/-- the loop over the digits -/
theorem digits_foldl {f : ℕ → PolyQP × PolyQP → PolyQP × PolyQP} {g : ℕ → PolyQP × PolyQP} {k : SwitchingKey}
    (hf : ∀ i < k.length, f i (k.getD i default) = g i) :
    (List.range k.length).foldl (fun (s : SwitchingKey) i => s.set i (f i (s.getD i default))) k = (List.range k.length).map g := by
  have key : ∀ m ≤ k.length, (List.range m).foldl (fun (s : SwitchingKey) i => s.set i (f i (s.getD i default))) k
      = (List.range m).map g ++ k.drop m := by
    intro m hm
    induction m with
    | zero => simp
    | succ m ih =>
      rw [List.range_succ, List.foldl_append, ih (by omega), List.foldl_cons, List.foldl_nil, List.map_append]
      have hd : k.drop m = k.getD m default :: k.drop (m + 1) := by
        rw [List.getD_eq_getElem _ _ (by omega)]; exact List.drop_eq_getElem_cons (by omega)
      rw [hd, List.getD_append_right _ _ _ _ (by simp), List.set_append_right _ _ (by simp)]
      rw [List.length_map, List.length_range, Nat.sub_self, List.getD_cons_zero, List.set_cons_zero, hf m (by omega)]
      simp
  simpa using key k.length le_rfl

end

section
variable {n : ℕ} {rQ rP : Ring} (K : KeyParams n rQ rP)
include K

theorem swkShape_zero {k : SwitchingKey} (hk : SwkShape (rQ.subs.length - 1) (rP.subs.length - 1) k) :
    DigitShape (rQ.subs.length - 1) (rP.subs.length - 1) (k.getD 0 default) := by
  refine hk.digit 0 ?_
  have := K.rings.lQ
  have := K.rings.lP
  have := K.q100
  have := K.p100
  rw [hk.len, ceilDivF_eq (by omega) (by omega) (by omega)]
  exact Nat.div_pos (by omega) (by omega)

theorem newSwitchingKey_shape (rQ rP : Ring) (lQ lP : ℕ) : SwkShape lQ lP (newSwitchingKey rQ rP lQ lP) := by
  refine ⟨by simp [newSwitchingKey], fun i hi => ?_⟩
  rw [List.getD_eq_getElem _ _ hi]
  have e : (newSwitchingKey rQ rP lQ lP)[i] = (⟨newPoly rQ.n (lQ + 1), newPoly rP.n (lP + 1)⟩, ⟨newPoly rQ.n (lQ + 1), newPoly rP.n (lP + 1)⟩) :=
    List.getElem_replicate _
  rw [e]
  exact ⟨length_newPoly _ _, length_newPoly _ _, length_newPoly _ _, length_newPoly _ _⟩

/-- **C114 (no trace of earlier keys).** `genrotKey` into a key that holds anything, with buffers that hold anything, gives the key
generated with new buffers. -/
theorem C114_genrotKey {st : KgPools} (hst : KgPoolsOK rQ rP st) {k : SwitchingKey}
    (hk : SwkShape (rQ.subs.length - 1) (rP.subs.length - 1) k) {tape : ℕ → KeyTape}
    (ht : ∀ i, TapeFull (rQ.subs.length - 1) (rP.subs.length - 1) (tape i)) (sk : PolyQP) (g : UInt64) :
    (genrotKeyInto rQ rP st sk g tape k).2 = genrotKey rQ rP sk g tape ∧
      KgPoolsOK rQ rP (genrotKeyInto rQ rP st sk g tape k).1 ∧
      SwkShape (rQ.subs.length - 1) (rP.subs.length - 1) (genrotKey rQ rP sk g tape) := by
  have h0 := swkShape_zero K hk
  have lq := K.rings.lQ
  have lp := K.rings.lP
  have e1 : rQ.subs.length - 1 + 1 = rQ.subs.length := by omega
  have e2 : rP.subs.length - 1 + 1 = rP.subs.length := by omega
  have hout : ∀ st', KgPoolsOK rQ rP st' → (rQ.permuteNTTWithIndexLvl (rQ.subs.length - 1) sk.q (rQ.permuteNTTIndex g) st'.poolQP.q
      = rQ.permuteNTTWithIndexLvl (rQ.subs.length - 1) sk.q (rQ.permuteNTTIndex g) (newPoly rQ.n rQ.subs.length) ∧
      rQ.permuteNTTWithIndexLvl (rP.subs.length - 1) sk.p (rQ.permuteNTTIndex g) st'.poolQP.p
      = rQ.permuteNTTWithIndexLvl (rP.subs.length - 1) sk.p (rQ.permuteNTTIndex g) (newPoly rP.n rP.subs.length)) := fun st' h =>
    ⟨writeLvl_full (by rw [h.qpq, e1]) (by rw [length_newPoly, e1]), writeLvl_full (by rw [h.qpp, e2]) (by rw [length_newPoly, e2])⟩
  have hpq : rQ.mulScalarBigintLvl (rQ.subs.length - 1) (keyPBig rP (rP.subs.length - 1)) sk.q st.poolQ
      = rQ.mulScalarBigintLvl (rQ.subs.length - 1) (keyPBig rP (rP.subs.length - 1)) sk.q (newPoly rQ.n rQ.subs.length) :=
    writeLvl_full (by rw [hst.q, e1]) (by rw [length_newPoly, e1])
  refine ⟨?_, ⟨?_, ?_, ?_⟩, ?_⟩
  · unfold genrotKeyInto genrotKey genSwitchingKeyInto genSwitchingKeyCore
    dsimp only
    rw [(hout st hst).1, (hout st hst).2, h0.bq, h0.bp, Nat.add_sub_cancel, Nat.add_sub_cancel, hpq, ← hk.len]
    exact digits_foldl fun i hi => (digitInto_eq (ht i) (hk.digit i hi)).1
  · unfold genrotKeyInto genSwitchingKeyInto
    exact (length_writeLvl _ _ _).trans hst.q
  · exact (length_writeLvl _ _ _).trans hst.qpq
  · exact (length_writeLvl _ _ _).trans hst.qpp
  · unfold genrotKey genSwitchingKeyCore
    refine ⟨by simp, fun i hi => ?_⟩
    rw [List.length_map, List.length_range] at hi
    rw [List.getD_eq_getElem _ _ (by simpa using hi), List.getElem_map, List.getElem_range]
    exact (digitInto_eq (ht i) (hk.digit i (by rw [hk.len]; exact hi))).2

/-- the keys of a set all have the shape of new keys -/
def KeysShape (rQ rP : Ring) (m : RotKeys) : Prop :=
  ∀ g k, m g = some k → SwkShape (rQ.subs.length - 1) (rP.subs.length - 1) k

omit K in
theorem put_shape {m : RotKeys} (hm : KeysShape rQ rP m) {g : UInt64} {k : SwitchingKey}
    (hk : SwkShape (rQ.subs.length - 1) (rP.subs.length - 1) k) : KeysShape rQ rP (m.put g k) := by
  intro g' k' h
  unfold RotKeys.put at h
  split at h
  · cases h; exact hk
  · exact hm g' k' h

theorem newSet_spec (galEls : List UInt64) : KeysShape rQ rP (newRotationKeySet rQ rP galEls) ∧
    ∀ g, (newRotationKeySet rQ rP galEls g).isSome = true ↔ g ∈ galEls := by
  have key : ∀ (l : List UInt64) (m : RotKeys), KeysShape rQ rP m →
      KeysShape rQ rP (l.foldl (fun m g => m.put g (newSwitchingKey rQ rP (rQ.subs.length - 1) (rP.subs.length - 1))) m) ∧
      ∀ g, ((l.foldl (fun m g => m.put g (newSwitchingKey rQ rP (rQ.subs.length - 1) (rP.subs.length - 1))) m) g).isSome = true ↔
        g ∈ l ∨ (m g).isSome = true := by
    intro l
    induction l with
    | nil => intro m hm; exact ⟨hm, fun g => by simp⟩
    | cons a l ih =>
      intro m hm
      obtain ⟨h1, h2⟩ := ih _ (put_shape hm (g := a) (newSwitchingKey_shape K rQ rP _ _))
      refine ⟨h1, fun g => ?_⟩
      rw [List.foldl_cons, h2, List.mem_cons]
      unfold RotKeys.put
      by_cases e : g = a <;> simp [e]
  obtain ⟨h1, h2⟩ := key galEls (fun _ => none) (fun g k h => by cases h)
  exact ⟨h1, fun g => by rw [newRotationKeySet, h2]; simp⟩

theorem loop_spec (sk : PolyQP) {tapes : ℕ → ℕ → KeyTape}
    (ht : ∀ i j, TapeFull (rQ.subs.length - 1) (rP.subs.length - 1) (tapes i j)) (l : List UInt64) :
    ∀ (i : ℕ) (s : KgPools × RotKeys), KgPoolsOK rQ rP s.1 → KeysShape rQ rP s.2 → (∀ g ∈ l, (s.2 g).isSome = true) →
      KgPoolsOK rQ rP (genRotationKeysLoop rQ rP sk tapes i l s).1 ∧
      (∀ g ∉ l, (genRotationKeysLoop rQ rP sk tapes i l s).2 g = s.2 g) ∧
      ∀ g ∈ l, ∃ j < l.length, l.getD j 0 = g ∧ (∀ j', j < j' → j' < l.length → l.getD j' 0 ≠ g) ∧
        (genRotationKeysLoop rQ rP sk tapes i l s).2 g = some (genSwitchingKeyForGalois rQ rP g sk (tapes (i + j))) := by
  induction l with
  | nil => intro i s h1 _ _; exact ⟨h1, fun g _ => rfl, fun g hg => by simp at hg⟩
  | cons a l ih =>
    intro i s h1 h2 h3
    obtain ⟨k, hk⟩ := Option.isSome_iff_exists.1 (h3 a List.mem_cons_self)
    obtain ⟨c1, c2, c3⟩ := C114_genrotKey K h1 (h2 a k hk) (ht i) sk (rQ.inverseGaloisElement a)
    have hput : KeysShape rQ rP (s.2.put a (genrotKeyInto rQ rP s.1 sk (rQ.inverseGaloisElement a) (tapes i) ((s.2 a).getD [])).2) := by
      rw [hk, Option.getD_some, c1]
      exact put_shape h2 c3
    obtain ⟨d1, d2, d3⟩ := ih (i + 1) ((genrotKeyInto rQ rP s.1 sk (rQ.inverseGaloisElement a) (tapes i) ((s.2 a).getD [])).1,
        s.2.put a (genrotKeyInto rQ rP s.1 sk (rQ.inverseGaloisElement a) (tapes i) ((s.2 a).getD [])).2)
      (by rw [hk, Option.getD_some]; exact c2) hput (fun g hg => by
      show (RotKeys.put _ _ _ g).isSome = true
      unfold RotKeys.put
      split
      · rfl
      · exact h3 g (List.mem_cons_of_mem _ hg))
    refine ⟨d1, fun g hg => ?_, fun g hg => ?_⟩
    · rw [List.mem_cons, not_or] at hg
      refine (d2 g hg.2).trans ?_
      show RotKeys.put _ _ _ g = _
      unfold RotKeys.put
      rw [if_neg hg.1]
    · by_cases hgl : g ∈ l
      · obtain ⟨j, j1, j2, j3, j4⟩ := d3 g hgl
        refine ⟨j + 1, by simpa using j1, by simpa using j2, fun j' q1 q2 => ?_, ?_⟩
        · obtain ⟨m, rfl⟩ : ∃ m, j' = m + 1 := ⟨j' - 1, by omega⟩
          simpa using j3 m (by omega) (by simpa using q2)
        · rw [show i + (j + 1) = i + 1 + j by omega]; exact j4
      · obtain rfl : g = a := (List.mem_cons.1 hg).resolve_right hgl
        refine ⟨0, by simp, by simp, fun j' q1 q2 => ?_, ?_⟩
        · obtain ⟨m, rfl⟩ : ∃ m, j' = m + 1 := ⟨j' - 1, by omega⟩
          intro e
          rw [List.getD_cons_succ, List.getD_eq_getElem _ _ (by simpa using q2)] at e
          exact hgl (e ▸ List.getElem_mem _)
        · refine (d2 g hgl).trans ?_
          show RotKeys.put _ _ _ g = _
          unfold RotKeys.put
          rw [if_pos rfl, hk, Option.getD_some, c1]
          rfl

/-- **C114 (the set).** `GenRotationKeys`: the set has a key for exactly the listed Galois elements.  The key of an element is the one
of its last occurrence in the list, and does not depend on the buffers or on the keys generated before. -/
theorem C114_keys {st : KgPools} (hst : KgPoolsOK rQ rP st) (galEls : List UInt64) (sk : PolyQP) {tapes : ℕ → ℕ → KeyTape}
    (ht : ∀ i j, TapeFull (rQ.subs.length - 1) (rP.subs.length - 1) (tapes i j)) :
    KgPoolsOK rQ rP (genRotationKeys rQ rP st galEls sk tapes).1 ∧
    (∀ g ∉ galEls, (genRotationKeys rQ rP st galEls sk tapes).2 g = none) ∧
    ∀ g ∈ galEls, ∃ j < galEls.length, galEls.getD j 0 = g ∧ (∀ j', j < j' → j' < galEls.length → galEls.getD j' 0 ≠ g) ∧
      (genRotationKeys rQ rP st galEls sk tapes).2 g = some (genSwitchingKeyForGalois rQ rP g sk (tapes j)) := by
  obtain ⟨n1, n2⟩ := newSet_spec K galEls
  obtain ⟨l1, l2, l3⟩ := loop_spec K sk ht galEls 0 (st, newRotationKeySet rQ rP galEls) hst n1 (fun g hg => (n2 g).2 hg)
  refine ⟨l1, fun g hg => (l2 g hg).trans ?_, fun g hg => ?_⟩
  · have := (n2 g).not.2 hg
    simpa using this
  · obtain ⟨j, j1, j2, j3, j4⟩ := l3 g hg
    exact ⟨j, j1, j2, j3, by rw [Nat.zero_add] at j4; exact j4⟩

end

/-! ## Which rotations a set serves -/

section
variable {n : ℕ} {r : Ring} (hr : r.Valid n)
include hr

/-- **C114.** Two rotations have the same Galois element exactly when they agree modulo `N/2`. -/
theorem C114_galEl_inj (a b : ℤ) : r.galoisElementForColumnRotationBy a = r.galoisElementForColumnRotationBy b ↔
    ((r.n / 2 : ℕ) : ℤ) ∣ a - b := by
  have hadd := C25_rotation_add hr (a - b) b
  rw [sub_add_cancel] at hadd
  have hb := C25_rotation_odd hr b
  have ha := C25_rotation_odd hr a
  have hd := C25_rotation_odd hr (a - b)
  rw [← C25_rotation_period hr]
  have h4 := hr.four_le
  have hp : 2 ≤ r.n := by
    rw [hr.deg]
    calc 2 = 2 ^ 1 := rfl
      _ ≤ 2 ^ n := Nat.pow_le_pow_right (by omega) (by omega)
  constructor
  · intro h
    rw [h] at hadd
    have h1 : (r.galoisElementForColumnRotationBy (a - b)).toNat * (r.galoisElementForColumnRotationBy b).toNat ≡
        1 * (r.galoisElementForColumnRotationBy b).toNat [MOD 2 * r.n] := by
      unfold Nat.ModEq
      rw [hadd, one_mul, Nat.mod_eq_of_lt hb.2]
    have hcop : (2 * r.n).gcd (r.galoisElementForColumnRotationBy b).toNat = 1 := by
      rw [hr.deg, show 2 * 2 ^ n = 2 ^ (n + 1) by ring]
      exact Nat.Coprime.pow_left _ ((Nat.coprime_two_left).2 (Nat.odd_iff.2 hb.1))
    have h2 := Nat.ModEq.cancel_right_of_coprime hcop h1
    unfold Nat.ModEq at h2
    rwa [Nat.mod_eq_of_lt hd.2, Nat.mod_eq_of_lt (by omega)] at h2
  · intro h
    rw [h, one_mul, Nat.mod_eq_of_lt hb.2] at hadd
    exact UInt64.toNat.inj hadd.symm

/-- **C114.** The conjugation is not a rotation. -/
theorem C114_row_ne {g : UInt64} (hg : r.galoisElementForRowRotation = some g) (k : ℤ) :
    r.galoisElementForColumnRotationBy k ≠ g := by
  intro h
  have e := nthRoot_toNat hr
  have h4 := hr.four_le
  have h2 := two_le_pow n
  have hg' : g.toNat = 2 ^ (n + 1) - 1 := by
    rw [Ring.galoisElementForRowRotation, hr.type, if_neg (by decide), Option.some.injEq] at hg
    rw [← hg, UInt64.toNat_sub_of_le _ _ (UInt64.le_iff_toNat_le.2 (by rw [e]; show 1 ≤ _; omega)), e]
    rfl
  have hk : (r.galoisElementForColumnRotationBy k).toNat % 4 = 1 := by
    rw [galEl_eq hr, Nat.mod_mod_of_dvd _ (show 4 ∣ 2 ^ (n + 1) from by
      rw [show n + 1 = 2 + (n - 1) by omega, pow_add]; exact dvd_mul_right _ _), Nat.pow_mod]
    norm_num
  rw [h, hg'] at hk
  obtain ⟨m, hm⟩ : ∃ m, 2 ^ (n + 1) = 4 * m := by
    refine ⟨2 ^ (n - 1), ?_⟩
    rw [show n + 1 = 2 + (n - 1) by omega, pow_add]
    rfl
  omega

end

section
variable {n : ℕ} {rQ rP : Ring} (K : KeyParams n rQ rP)
include K

/-- **C114 (rotations).** `GenRotationKeysForRotations` on a standard ring returns a set with a key for the rotation by `k` exactly
when `k` agrees with a listed rotation modulo `N/2`, and a key for the conjugation exactly when asked for; every key is a key
generated for its Galois element from the randomness of one iteration, whatever the generator did before. -/
theorem C114_forRotations {st : KgPools} (hst : KgPoolsOK rQ rP st) (ks : List ℤ) (conj : Bool) (sk : PolyQP) {tapes : ℕ → ℕ → KeyTape}
    (ht : ∀ i j, TapeFull (rQ.subs.length - 1) (rP.subs.length - 1) (tapes i j)) :
    ∃ st' m, genRotationKeysForRotations rQ rP st ks conj sk tapes = some (st', m) ∧ KgPoolsOK rQ rP st' ∧
      (∀ k, (m (rQ.galoisElementForColumnRotationBy k)).isSome = true ↔ ∃ k0 ∈ ks, ((rQ.n / 2 : ℕ) : ℤ) ∣ k - k0) ∧
      (∀ g, rQ.galoisElementForRowRotation = some g → ((m g).isSome = true ↔ conj = true)) ∧
      ∀ g swk, m g = some swk → ∃ i, swk = genSwitchingKeyForGalois rQ rP g sk (tapes i) := by
  have hr := K.rings.hQ
  obtain ⟨g, g1, -⟩ := C25_row_rotation hr
  have main : ∀ galEls : List UInt64, (∀ x, x ∈ galEls ↔ (∃ k0 ∈ ks, x = rQ.galoisElementForColumnRotationBy k0) ∨
      (conj = true ∧ x = g)) → ∃ st' m, genRotationKeys rQ rP st galEls sk tapes = (st', m) ∧ KgPoolsOK rQ rP st' ∧
      (∀ k, (m (rQ.galoisElementForColumnRotationBy k)).isSome = true ↔ ∃ k0 ∈ ks, ((rQ.n / 2 : ℕ) : ℤ) ∣ k - k0) ∧
      (∀ g, rQ.galoisElementForRowRotation = some g → ((m g).isSome = true ↔ conj = true)) ∧
      ∀ g swk, m g = some swk → ∃ i, swk = genSwitchingKeyForGalois rQ rP g sk (tapes i) := by
    intro galEls hmem
    obtain ⟨p1, p2, p3⟩ := C114_keys K hst galEls sk ht
    have hsome : ∀ x, ((genRotationKeys rQ rP st galEls sk tapes).2 x).isSome = true ↔ x ∈ galEls := by
      intro x
      by_cases hx : x ∈ galEls
      · obtain ⟨j, -, -, -, h⟩ := p3 x hx
        simp [h, hx]
      · simp [p2 x hx, hx]
    refine ⟨(genRotationKeys rQ rP st galEls sk tapes).1, (genRotationKeys rQ rP st galEls sk tapes).2, rfl, p1, fun k => ?_,
      fun g' hg' => ?_, fun x swk hx => ?_⟩
    · rw [hsome, hmem]
      constructor
      · rintro (⟨k0, h0, h1⟩ | ⟨-, h1⟩)
        · exact ⟨k0, h0, (C114_galEl_inj hr k k0).1 h1⟩
        · exact absurd h1 (C114_row_ne hr g1 k)
      · rintro ⟨k0, h0, h1⟩
        exact Or.inl ⟨k0, h0, (C114_galEl_inj hr k k0).2 h1⟩
    · obtain rfl : g' = g := Option.some.inj (hg'.symm.trans g1)
      rw [hsome, hmem]
      constructor
      · rintro (⟨k0, -, h1⟩ | ⟨h, -⟩)
        · exact absurd h1.symm (C114_row_ne hr g1 k0)
        · exact h
      · exact fun h => Or.inr ⟨h, rfl⟩
    · obtain ⟨j, -, -, -, h⟩ := p3 x ((hsome x).1 (by rw [hx]; rfl))
      exact ⟨j, Option.some.inj (hx.symm.trans h)⟩
  unfold genRotationKeysForRotations
  dsimp only
  by_cases hc : conj = true
  · obtain ⟨st', m, h⟩ := main (ks.map rQ.galoisElementForColumnRotationBy ++ [g]) (fun x => by
      rw [List.mem_append, List.mem_map]; simp [eq_comm, hc])
    exact ⟨st', m, by rw [if_pos hc, g1, Option.map_some, h.1], h.2⟩
  · obtain ⟨st', m, h⟩ := main (ks.map rQ.galoisElementForColumnRotationBy) (fun x => by
      rw [List.mem_map]; simp [eq_comm, hc])
    exact ⟨st', m, by rw [if_neg hc, h.1], h.2⟩

/-- **C114 (inner sums).** `GenRotationKeysForInnerSum` is `GenRotationKeysForRotations` for the powers of two below `N/2` with the
conjugation. -/
theorem C114_innerSum (st : KgPools) (sk : PolyQP) (tapes : ℕ → ℕ → KeyTape) :
    genRotationKeysForInnerSum rQ rP st n sk tapes
      = genRotationKeysForRotations rQ rP st ((List.range (n - 1)).map fun i => (2 : ℤ) ^ i) true sk tapes := by
  obtain ⟨g, g1, -⟩ := C25_row_rotation K.rings.hQ
  unfold genRotationKeysForInnerSum genRotationKeysForRotations Ring.galoisElementsForRowInnerSum
  dsimp only
  rw [K.rings.hQ.type, if_pos rfl, g1, List.map_map]
  rfl

end

/-! ## What an evaluator does with the set -/

section
variable {n : ℕ} {ev : Evaluator} {rP : Ring} (K : KeyParams n ev.ringQ rP) (h32 : rP.subs.length ≤ 32)
  (hks : ev.ks = newKeySwitcher ev.ringQ rP) {sk : PolyQP} {S : ℕ → ℤ}
  (hs : sk.IsMont n ev.ringQ rP (ev.ringQ.subs.length - 1) (rP.subs.length - 1) S)
  {tapes : ℕ → ℕ → KeyTape} {e : ℕ → ℕ → ℕ → ℤ}
  (ht : ∀ i, TapeOK n ev.ringQ rP (ev.ringQ.subs.length - 1) (rP.subs.length - 1) (tapes i) (e i))
  (hf : ∀ i j, TapeFull (ev.ringQ.subs.length - 1) (rP.subs.length - 1) (tapes i j))
  {st : KgPools} (hst : KgPoolsOK ev.ringQ rP st) {ks : List ℤ} {conj : Bool}
  (hev : ∃ st', genRotationKeysForRotations ev.ringQ rP st ks conj sk tapes = some (st', ev.rtks))
  {H : Heap} {ct0 new : Ref} {level : ℕ} {x : ℕ → ∀ u, Rq (2 ^ n) (ev.ringQ.qs u)}
  (hl : level < ev.ringQ.subs.length) (hov : DigitRoom ev.ringQ rP level (rP.subs.length - 1))
  (h0 : CtIs n ev.ringQ level (fun u => ev.ringQ.qs u + 1) 1 (H ct0) x)
include K hf hst hev h0

/-- **C114 (missing key).** A rotation by `k ≠ 0` that agrees with no listed rotation modulo `N/2` panics, and so does a conjugation
without the key for it. -/
theorem C114_missing (new : Ref) (hne : ct0 ≠ new) :
    (∀ k, k ≠ 0 → (∀ k0 ∈ ks, ¬((ev.ringQ.n / 2 : ℕ) : ℤ) ∣ k - k0) → ev.rotateNew H ct0 k new = none) ∧
    (conj = false → ev.conjugateNew H ct0 new = none) := by
  obtain ⟨st', hev⟩ := hev
  obtain ⟨st'', m, b1, -, b3, b4, -⟩ := C114_forRotations K hst ks conj sk hf
  obtain rfl : m = ev.rtks := (congrArg Prod.snd (Option.some.inj (b1.symm.trans hev)))
  have hsh : ∀ c, CtShape 1 level ((H.set new (newCiphertext ev.ringQ.n 1 level c)) new) := fun c => by
    rw [Heap.set_self]; exact newCiphertext_shape _ _ _ _
  refine ⟨fun k hk hno => ?_, fun hc => ?_⟩
  · have hn : ev.rtks (ev.ringQ.galoisElementForColumnRotationBy k) = none := by
      have := (b3 k).not.2 (by push Not; exact hno)
      simpa using this
    unfold Evaluator.rotateNew Evaluator.rotate
    rw [h0.shape.level, h0.shape.degree, (hsh _).degree, Heap.set_ne _ _ _ _ hne, h0.shape.degree, if_neg (by omega), if_neg hk]
    unfold Evaluator.permuteNTT
    rw [hn]; rfl
  · unfold Evaluator.conjugateNew Evaluator.conjugate
    rw [h0.shape.level, h0.shape.degree, (hsh _).degree, Heap.set_ne _ _ _ _ hne, h0.shape.degree, if_neg (by omega)]
    cases hg : ev.ringQ.galoisElementForRowRotation with
    | none => rfl
    | some g =>
      have hn : ev.rtks g = none := by
        have := (b4 g hg).not.2 (by rw [hc]; decide)
        simpa using this
      rw [Option.bind_some]
      unfold Evaluator.permuteNTT
      rw [hn]; rfl

/-- **C114 (violated).** Rotating by `N/2` is the identity, but unless a multiple of `N/2` is listed it panics, while rotating by `0`
needs no key. -/
theorem C114_multiple_violated (new : Ref) (hne : ct0 ≠ new) (hno : ∀ k0 ∈ ks, ¬((ev.ringQ.n / 2 : ℕ) : ℤ) ∣ k0) :
    (ev.ringQ.galoisElementForColumnRotationBy ((ev.ringQ.n / 2 : ℕ) : ℤ)).toNat = 1 ∧
    ev.rotateNew H ct0 ((ev.ringQ.n / 2 : ℕ) : ℤ) new = none ∧ (ev.rotateNew H ct0 0 new).isSome = true := by
  have hr := K.rings.hQ
  have h4 := hr.four_le
  have hp : 2 ≤ ev.ringQ.n := by
    rw [hr.deg]
    calc 2 = 2 ^ 1 := rfl
      _ ≤ 2 ^ n := Nat.pow_le_pow_right (by omega) (by omega)
  refine ⟨(C25_rotation_period hr _).2 dvd_rfl, (C114_missing K hf hst hev h0 new hne).1 _ (by
    have : 0 < ev.ringQ.n / 2 := Nat.div_pos hp (by omega)
    omega) (fun k0 h1 h2 => hno k0 h1 ?_), ?_⟩
  · have := dvd_sub (dvd_refl ((ev.ringQ.n / 2 : ℕ) : ℤ)) h2
    simpa using this
  · unfold Evaluator.rotateNew Evaluator.rotate
    rw [h0.shape.level, h0.shape.degree, Heap.set_self, Heap.set_ne _ _ _ _ hne, h0.shape.degree,
      (newCiphertext_shape _ _ _ _).degree, if_neg (by omega), if_pos rfl]
    unfold Heap.copy
    rw [if_neg (Ne.symm hne), Heap.set_self, Heap.set_ne _ _ _ _ hne, h0.shape.len, (newCiphertext_shape _ 1 level _).len,
      if_neg (by omega)]
    rfl

include h32 hks hs ht hl hov

/-- **C114 (rotation; missing: multiples of `N/2` that are not listed, see `C114_multiple_violated`).** With the set generated for the rotations `ks`, rotating by any `k ≠ 0` that agrees with a listed rotation
modulo `N/2` - negative, or listed several times, or after other keys were generated - decrypts to the image of the message and
the key-switching error under the automorphism of the rotation. -/
theorem C114_rotate_partial {k : ℤ} (hk : k ≠ 0) (hin : ∃ k0 ∈ ks, ((ev.ringQ.n / 2 : ℕ) : ℤ) ∣ k - k0) (hne : ct0 ≠ new) :
    ∃ H', ev.rotateNew H ct0 k new = some H' ∧ (∀ b ≠ new, H' b = H b) ∧ (H' new).scale = (H ct0).scale ∧
      ∃ i g', g' % 2 = 1 ∧ g' * (ev.ringQ.galoisElementForColumnRotationBy k).toNat % (2 * 2 ^ n) = 1 ∧
      ∃ d0 d1 E, KeySwitched n ev.ringQ rP level (rP.subs.length - 1) (x 1) d0 d1 S (autInt (2 ^ n) g' S) (e i) E ∧
      CtEnc n ev.ringQ level ev.ringQ.qs 1 (H' new) (fun u => intR _ _ S) (fun u =>
        aut (2 ^ n) (ev.ringQ.qs u) (C25_rotation_odd K.rings.hQ k).1 (x 0 u + x 1 u * intR _ _ S + intR _ _ E)) := by
  obtain ⟨st', hev⟩ := hev
  obtain ⟨st'', m, b1, -, b3, -, b5⟩ := C114_forRotations K hst ks conj sk hf
  obtain rfl : m = ev.rtks := (congrArg Prod.snd (Option.some.inj (b1.symm.trans hev)))
  obtain ⟨swk, hswk⟩ := Option.isSome_iff_exists.1 ((b3 k).2 hin)
  obtain ⟨i, hi⟩ := b5 _ _ hswk
  obtain ⟨H', a1, a2, a3, a4⟩ := C65_rotateNew K h32 hks hs (ht i) hl hov hk (hswk.trans (congrArg some hi)) h0 hne
  exact ⟨H', a1, a2, a3, i, a4⟩

/-- **C114 (conjugation).** -/
theorem C114_conjugate (hc : conj = true) {g : UInt64} (hg : ev.ringQ.galoisElementForRowRotation = some g)
    (go : g.toNat % 2 = 1) (hne : ct0 ≠ new) :
    ∃ H', ev.conjugateNew H ct0 new = some H' ∧ (∀ b ≠ new, H' b = H b) ∧ (H' new).scale = (H ct0).scale ∧
      ∃ i g', g' % 2 = 1 ∧ g' * g.toNat % (2 * 2 ^ n) = 1 ∧
      ∃ d0 d1 E, KeySwitched n ev.ringQ rP level (rP.subs.length - 1) (x 1) d0 d1 S (autInt (2 ^ n) g' S) (e i) E ∧
      CtEnc n ev.ringQ level ev.ringQ.qs 1 (H' new) (fun u => intR _ _ S) (fun u =>
        aut (2 ^ n) (ev.ringQ.qs u) go (x 0 u + x 1 u * intR _ _ S + intR _ _ E)) := by
  obtain ⟨st', hev⟩ := hev
  obtain ⟨st'', m, b1, -, -, b4, b5⟩ := C114_forRotations K hst ks conj sk hf
  obtain rfl : m = ev.rtks := (congrArg Prod.snd (Option.some.inj (b1.symm.trans hev)))
  obtain ⟨swk, hswk⟩ := Option.isSome_iff_exists.1 ((b4 g hg).2 hc)
  obtain ⟨i, hi⟩ := b5 _ _ hswk
  obtain ⟨H', a1, a2, a3, a4⟩ := C65_conjugateNew K h32 hks hs (ht i) hl hov hg go (hswk.trans (congrArg some hi)) h0 hne
  exact ⟨H', a1, a2, a3, i, a4⟩

end

/-! ## The hypotheses can be met -/

theorem PolyIs.take {r : Ring} {level : ℕ} {A : ℕ → ℕ} {p : Rows} {v : ∀ i, ℕ → ZMod (r.sub i).q.toNat} (h : PolyIs r level A p v) :
    PolyIs r level A (p.take (level + 1)) v ∧ (p.take (level + 1)).length = level + 1 := by
  have := h.lvl
  refine ⟨⟨by simp; omega, fun i hi => ?_⟩, by simp; omega⟩
  have e : Rows.row (p.take (level + 1)) i = p.row i := by
    unfold Rows.row
    rw [List.getD, List.getD, List.getElem?_take_of_lt (by omega)]
  rw [e]
  exact h.row i hi

/-- `TapeFull` is no restriction: rows above the levels of the key are never read -/
theorem exists_full {n : ℕ} {rQ rP : Ring} {lQ lP : ℕ} {tape : ℕ → KeyTape} {E : ℕ → ℕ → ℤ} (h : TapeOK n rQ rP lQ lP tape E) :
    ∃ tape', TapeOK n rQ rP lQ lP tape' E ∧ ∀ i, TapeFull lQ lP (tape' i) := by
  let cut : KeyTape → KeyTape := fun t => ⟨t.e.take (lQ + 1), ⟨t.a.q.take (lQ + 1), t.a.p.take (lP + 1)⟩⟩
  have key : ∀ i, i * (lP + 1) ≤ lQ → TapeFull lQ lP (cut (tape i)) := fun i hi => by
    obtain ⟨v, w, hv, hw⟩ := h.mask i hi
    exact ⟨(PolyIs.take (h.err i hi).is).2, (PolyIs.take hv).2, (PolyIs.take hw).2⟩
  refine ⟨fun i => if i * (lP + 1) ≤ lQ then cut (tape i) else cut (tape 0), ⟨fun i hi => ?_, fun i hi => ?_, h.small⟩, fun i => ?_⟩
  · obtain ⟨v, w, hv, hw⟩ := h.mask i hi
    rw [if_pos hi]
    exact ⟨v, w, (PolyIs.take hv).1, (PolyIs.take hw).1⟩
  · rw [if_pos hi]
    exact ⟨(PolyIs.take (h.err i hi).is).1, (h.err i hi).small⟩
  · show TapeFull lQ lP (if i * (lP + 1) ≤ lQ then cut (tape i) else cut (tape 0))
    by_cases hi : i * (lP + 1) ≤ lQ
    · rw [if_pos hi]
      exact key i hi
    · rw [if_neg hi]
      exact key 0 (by omega)

/-- degree 16, the rotations `3`, `-5` and `11`, which are one rotation modulo 8, and the conjugation, from buffers full of old words:
`(5, 7)` is rotated by `-13` and conjugated; rotations by `2` and by `8` panic, although the latter is the identity -/
example : ∃ (rQ rP : Ring) (sk : PolyQP) (tapes : ℕ → ℕ → KeyTape) (st st' : KgPools) (m : RotKeys) (H' H'' : Heap)
    (x y : ∀ u, Rq (2 ^ 4) (rQ.qs u)), rQ.moduli = [97, 193, 641] ∧ rP.moduli = [257, 353] ∧ st.poolQ = List.replicate 3 [1, 2, 3] ∧
    genRotationKeysForRotations rQ rP st [3, -5, 11] true sk tapes = some (st', m) ∧
    let ev := newEvaluator rQ rP none m 9
    let H : Heap := fun _ => constCt 1 [5, 7]
    ev.rotateNew H 0 (-13) 1 = some H' ∧ CtEnc 4 rQ 2 rQ.qs 1 (H' 1) (fun u => intR _ _ exampleS) x ∧
    ev.conjugateNew H 0 2 = some H'' ∧ CtEnc 4 rQ 2 rQ.qs 1 (H'' 2) (fun u => intR _ _ exampleS) y ∧
    ev.rotateNew H 0 2 1 = none ∧ ev.rotateNew H 0 8 1 = none ∧ (ev.rotateNew H 0 0 1).isSome = true := by
  obtain ⟨rQ, rP, sk, tape, K, m1, m2, l3, l2, hq, q0, hsk, ht⟩ := exampleRings
  obtain ⟨tape, ht, hf⟩ := exists_full ht
  have hQ := K.rings.hQ
  have hN : rQ.n / 2 = 8 := by rw [hQ.deg]; rfl
  have hlt : ∀ c : UInt64, c ≤ 7 → ∀ u ≤ 2, c.toNat < rQ.qs u := fun c hc u hu => by
    have := hq u hu
    have : c.toNat ≤ 7 := hc
    omega
  have c0 := constCt_is hQ (by omega) 1 (cs := [5, 7]) (by simp) (fun c hc => hlt c (by
    rcases List.mem_cons.1 hc with rfl | hc
    · decide
    · rw [List.mem_singleton.1 hc]; decide))
  have c1 : CtIs 4 rQ 2 (fun u => rQ.qs u + 1) 1 (constCt 1 [5, 7]) _ :=
    ⟨c0.shape, fun i hi => (c0.elt i hi).mono fun u _ => by omega⟩
  obtain ⟨g, hg, -, go, -⟩ := C25_row_rotation hQ
  let st : KgPools := ⟨List.replicate 3 [1, 2, 3], ⟨List.replicate 3 [4], List.replicate 2 [5]⟩⟩
  have hst : KgPoolsOK rQ rP st := ⟨by simp [st, l3], by simp [st, l3], by simp [st, l2]⟩
  obtain ⟨st', m, b1, -⟩ := C114_forRotations K hst [3, -5, 11] true (genSecretKey rQ rP sk) (tapes := fun _ => tape) (fun _ => hf)
  let ev := newEvaluator rQ rP none m 9
  have hev : ∃ st', genRotationKeysForRotations ev.ringQ rP st [3, -5, 11] true (genSecretKey rQ rP sk) (fun _ => tape)
      = some (st', ev.rtks) := ⟨st', b1⟩
  obtain ⟨H', a1, -, -, i, g', -, -, d0, d1, E, -, w⟩ := C114_rotate_partial (ev := ev) (H := fun _ => constCt 1 [5, 7]) (ct0 := 0) (new := 1)
    (level := 2) K (by omega) rfl hsk (fun _ => ht) (fun _ => hf) hst hev (by show 2 < rQ.subs.length; omega) (Or.inl (by omega)) c1
    (k := -13) (by decide) ⟨3, by simp, by show ((rQ.n / 2 : ℕ) : ℤ) ∣ _; rw [hN]; decide⟩ (by decide)
  obtain ⟨H'', a1', -, -, i', g'', -, -, e0, e1, E', -, w'⟩ := C114_conjugate (ev := ev) (H := fun _ => constCt 1 [5, 7]) (ct0 := 0)
    (new := 2) (level := 2) K (by omega) rfl hsk (fun _ => ht) (fun _ => hf) hst hev (by show 2 < rQ.subs.length; omega)
    (Or.inl (by omega)) c1 rfl hg go (by decide)
  have hmiss := (C114_missing (ev := ev) (H := fun _ => constCt 1 [5, 7]) (ct0 := 0) K (fun _ => hf) hst hev c1 1 (by decide)).1 2
    (by decide) (fun k0 hk => by show ¬((rQ.n / 2 : ℕ) : ℤ) ∣ _; rw [hN]; revert k0; decide)
  have hviol := C114_multiple_violated (ev := ev) (H := fun _ => constCt 1 [5, 7]) (ct0 := 0) K (fun _ => hf) hst hev c1 1 (by decide)
    (fun k0 hk => by show ¬((rQ.n / 2 : ℕ) : ℤ) ∣ _; rw [hN]; revert k0; decide)
  have e8 : ((ev.ringQ.n / 2 : ℕ) : ℤ) = 8 := by show ((rQ.n / 2 : ℕ) : ℤ) = 8; rw [hN]; rfl
  rw [e8] at hviol
  exact ⟨rQ, rP, _, fun _ => tape, st, st', m, H', H'', _, _, m1, m2, rfl, b1, a1, w, a1', w', hmiss, hviol.2.1, hviol.2.2⟩

end FastKsw.Props
