import Verif.Model.RotationSets
import Verif.Props.Program
import Mathlib.Data.Nat.Bitwise

/-!
# C95: the rotations for sums over slots suffice

`ckks/params.go` computes for which rotations keys are needed to sum over slots.  For each of the lists there is a program of calls
of `fckks` that rotates only by members of the list and computes the sum.
-/

namespace FastKsw.Props

open FastKsw Finset

/-- the program rotates only by `k` with `p k` -/
def RotatesBy (p : ℤ → Prop) (ops : List Op) : Prop := ∀ k a out, Op.rotate k a out ∈ ops ∨ Op.rotateNew k a out ∈ ops → p k

theorem RotatesBy.append {l : ℤ → Prop} {o o' : List Op} (h : RotatesBy l o) (h' : RotatesBy l o') : RotatesBy l (o ++ o') := by
  intro k a out hm
  simp only [List.mem_append] at hm
  rcases hm with (hm | hm) | (hm | hm)
  · exact h k a out (Or.inl hm)
  · exact h' k a out (Or.inl hm)
  · exact h k a out (Or.inr hm)
  · exact h' k a out (Or.inr hm)

/-- only the keys of these rotations matter -/
theorem runProgram_congr {ev : FEvaluator} {rlk : FSwitchingKey × FSwitchingKey} {rtk rtk' : ℤ → UInt64 × FSwitchingKey × FSwitchingKey}
    {l : ℤ → Prop} (hk : ∀ k, l k → rtk' k = rtk k) : ∀ {ops : List Op} (H : Heap), RotatesBy l ops →
      runProgram ev rlk rtk' H ops = runProgram ev rlk rtk H ops
  | [], _, _ => rfl
  | op :: ops, H, h => by
    have h1 : op.run ev rlk rtk' H = op.run ev rlk rtk H := by
      cases op with
      | rotate k a out => simp only [Op.run, hk k (h k a out (by simp))]
      | rotateNew k a out => simp only [Op.run, hk k (h k a out (by simp))]
      | _ => rfl
    have h2 : RotatesBy l ops := fun k a out hm => h k a out (hm.imp (List.mem_cons_of_mem _) (List.mem_cons_of_mem _))
    rw [runProgram, runProgram, h1]
    congr 1
    funext H'
    exact runProgram_congr hk H' h2

/-! ### Membership -/

theorem mem_innerSumLogLoop (batch : ℤ) (n : ℕ) : ∀ (fuel e : ℕ) (acc : List ℤ), n < 2 ^ (e + fuel) → ∀ k,
    k ∈ innerSumLogLoop batch n fuel (2 ^ e) acc ↔ k ∈ acc ∨ ∃ e', e ≤ e' ∧ 2 ^ e' < n ∧
      (k = 2 ^ e' * batch ∨ k = ((n - n % 2 ^ (e' + 1) : ℕ) : ℤ) * batch)
  | 0, e, acc, h, k => by
    rw [innerSumLogLoop]
    refine ⟨Or.inl, ?_⟩
    rintro (h' | ⟨e', h1, h2, -⟩)
    · exact h'
    · have : 2 ^ e ≤ 2 ^ e' := Nat.pow_le_pow_right (by norm_num) h1
      rw [Nat.add_zero] at h
      omega
  | fuel + 1, e, acc, h, k => by
    have hs : 2 ^ e <<< 1 = 2 ^ (e + 1) := by rw [Nat.shiftLeft_eq, ← pow_add]
    have hand : n &&& 2 ^ e <<< 1 - 1 = n % 2 ^ (e + 1) := by rw [hs, Nat.and_two_pow_sub_one_eq_mod]
    rw [innerSumLogLoop]
    split
    · rename_i hlt
      rw [hand, hs, mem_innerSumLogLoop batch n fuel (e + 1) _ (by rw [show e + 1 + fuel = e + (fuel + 1) by omega]; exact h) k,
        List.mem_insert_iff, List.mem_insert_iff]
      push_cast
      constructor
      · rintro ((h1 | h1 | h1) | ⟨e', h1, h2, h3⟩)
        · exact Or.inr ⟨e, le_rfl, hlt, Or.inr h1⟩
        · exact Or.inr ⟨e, le_rfl, hlt, Or.inl h1⟩
        · exact Or.inl h1
        · exact Or.inr ⟨e', by omega, h2, h3⟩
      · rintro (h1 | ⟨e', h1, h2, h3⟩)
        · exact Or.inl (Or.inr (Or.inr h1))
        · rcases Nat.eq_or_lt_of_le h1 with rfl | h1
          · rcases h3 with h3 | h3
            · exact Or.inl (Or.inr (Or.inl h3))
            · exact Or.inl (Or.inl h3)
          · exact Or.inr ⟨e', h1, h2, h3⟩
    · rename_i hlt
      refine ⟨Or.inl, ?_⟩
      rintro (h' | ⟨e', h1, h2, -⟩)
      · exact h'
      · have : 2 ^ e ≤ 2 ^ e' := Nat.pow_le_pow_right (by norm_num) h1
        omega

theorem mem_rotationsForInnerSumLog {batch : ℤ} {n : ℕ} {k : ℤ} :
    k ∈ rotationsForInnerSumLog batch n ↔ ∃ e, 2 ^ e < n ∧ (k = 2 ^ e * batch ∨ k = ((n - n % 2 ^ (e + 1) : ℕ) : ℤ) * batch) := by
  have := mem_innerSumLogLoop batch n n 0 [] (by rw [Nat.zero_add]; exact Nat.lt_two_pow_self) k
  simpa [rotationsForInnerSumLog] using this

theorem nodup_innerSumLogLoop (batch : ℤ) (n : ℕ) : ∀ (fuel i : ℕ) (acc : List ℤ), acc.Nodup →
    (innerSumLogLoop batch n fuel i acc).Nodup
  | 0, _, _, h => h
  | fuel + 1, i, acc, h => by
    rw [innerSumLogLoop]
    split
    · exact nodup_innerSumLogLoop batch n fuel _ _ ((h.insert).insert)
    · exact h

/-- **C95 (the list).** No rotation is listed twice, and there are at most `2 log n` of them. -/
theorem C95_innerSumLog_list (batch : ℤ) (n t : ℕ) (hn : n ≤ 2 ^ t) :
    (rotationsForInnerSumLog batch n).Nodup ∧ (rotationsForInnerSumLog batch n).length ≤ 2 * t := by
  have hd : (rotationsForInnerSumLog batch n).Nodup := nodup_innerSumLogLoop _ _ _ _ _ List.nodup_nil
  refine ⟨hd, ?_⟩
  have hsub : rotationsForInnerSumLog batch n ⊆ (List.range t).map (fun e => 2 ^ e * batch) ++
      (List.range t).map (fun e => ((n - n % 2 ^ (e + 1) : ℕ) : ℤ) * batch) := by
    intro k hk
    obtain ⟨e, h1, h2⟩ := mem_rotationsForInnerSumLog.1 hk
    have he : e < t := (Nat.pow_lt_pow_iff_right (by norm_num)).1 (h1.trans_le hn)
    rw [List.mem_append, List.mem_map, List.mem_map]
    rcases h2 with h2 | h2
    · exact Or.inl ⟨e, List.mem_range.2 he, h2.symm⟩
    · exact Or.inr ⟨e, List.mem_range.2 he, h2.symm⟩
  have := (hd.subperm hsub).length_le
  simp only [List.length_append, List.length_map, List.length_range] at this
  omega

/-- a member of the list that is a proper multiple -/
def LogUsed (batch : ℤ) (n : ℕ) (k : ℤ) : Prop := k ∈ rotationsForInnerSumLog batch n ∧ ∃ c : ℕ, 0 < c ∧ c < n ∧ k = c * batch

/-! ### Bookkeeping of sums of rotations -/

variable {logSlots d : ℕ} {r : Ring} {ks : ℕ → ℚ} {I : Info} {batch : ℤ} {n : ℕ}

/-- `J` holds the sum `f` of `t` rotations of `I`, with `c` key switches -/
structure SumInfo (logSlots : ℕ) (κ : ℚ) (I J : Info) (t : ℕ) (f : ℕ → ℂ) (c : ℕ) : Prop where
  level : J.level = I.level
  scale : J.scale = I.scale
  val : ∀ j < 2 ^ logSlots, J.v j = f j
  V : J.V = t * I.V
  M : J.M = t * I.M
  β : J.β = t * I.β + c * κ
  ε : J.ε = t * I.ε

theorem SumInfo.add {κ : ℚ} {J K : Info} {t u c c' : ℕ} {f g : ℕ → ℂ} (h : SumInfo logSlots κ I J t f c)
    (h' : SumInfo logSlots κ I K u g c') : SumInfo logSlots κ I (J.add K J.level) (t + u) (fun j => f j + g j) (c + c') := by
  refine ⟨?_, ?_, fun j hj => ?_, ?_, ?_, ?_, ?_⟩
  · simp [Info.add, h.level, h'.level]
  · simp [Info.add, h.scale, h'.scale]
  · simp [Info.add, h.val j hj, h'.val j hj]
  · simp only [Info.add, h.V, h'.V]; push_cast; ring
  · simp only [Info.add, h.M, h'.M]; push_cast; ring
  · simp only [Info.add, h.β, h'.β]; push_cast; ring
  · simp only [Info.add, h.ε, h'.ε, h.scale, h'.scale, max_self, sub_self]; push_cast; ring

theorem SumInfo.rotate {κ : ℚ} {J : Info} {t c : ℕ} {f : ℕ → ℂ} (h : SumInfo logSlots κ I J t f c) (k : ℤ) :
    SumInfo logSlots κ I (J.rotate logSlots k κ I.level) t (fun j => f ((j + k) % 2 ^ logSlots).toNat) (c + 1) := by
  have hpos : (0 : ℤ) < 2 ^ logSlots := by positivity
  refine ⟨rfl, h.scale, fun j _ => ?_, h.V, h.M, ?_, h.ε⟩
  · refine h.val _ ?_
    have h1 := Int.emod_nonneg (j + k) hpos.ne'
    have h2 := Int.emod_lt_of_pos (j + k) hpos
    have : (((j + k) % 2 ^ logSlots).toNat : ℤ) < 2 ^ logSlots := by rw [Int.toNat_of_nonneg h1]; exact h2
    exact_mod_cast this
  · simp only [Info.rotate, h.β]; push_cast; ring

theorem SumInfo.congr {κ : ℚ} {J : Info} {t t' c c' : ℕ} {f f' : ℕ → ℂ} (h : SumInfo logSlots κ I J t f c) (ht : t = t') (hc : c = c')
    (hf : ∀ j < 2 ^ logSlots, f j = f' j) : SumInfo logSlots κ I J t' f' c' := by
  subst ht hc
  exact ⟨h.level, h.scale, fun j hj => (h.val j hj).trans (hf j hj), h.V, h.M, h.β, h.ε⟩

/-- the rotations by `i·batch` for `a ≤ i < b` -/
def rotSum (logSlots : ℕ) (v : ℕ → ℂ) (batch : ℤ) (a b : ℕ) (j : ℕ) : ℂ :=
  ∑ i ∈ Ico a b, v ((j + i * batch) % 2 ^ logSlots).toNat

theorem rotSum_rotate (v : ℕ → ℂ) (batch : ℤ) (a b k j : ℕ) :
    rotSum logSlots v batch a b ((j + (k : ℤ) * batch) % 2 ^ logSlots).toNat = rotSum logSlots v batch (a + k) (b + k) j := by
  have hpos : (0 : ℤ) < 2 ^ logSlots := by positivity
  unfold rotSum
  rw [← Finset.sum_Ico_add' _ a b k]
  refine Finset.sum_congr rfl fun i _ => ?_
  rw [Int.toNat_of_nonneg (Int.emod_nonneg _ hpos.ne'), Int.emod_add_emod]
  congr 3
  push_cast
  ring

theorem rotSum_append (v : ℕ → ℂ) (batch : ℤ) {a b c : ℕ} (h : a ≤ b) (h' : b ≤ c) (j : ℕ) :
    rotSum logSlots v batch a b j + rotSum logSlots v batch b c j = rotSum logSlots v batch a c j :=
  Finset.sum_Ico_consecutive _ h h'

theorem _root_.FastKsw.Tracks.append {Γ Γ' Γ'' : Ref → Option Info} {o o' : List Op} (h : Tracks logSlots d r ks Γ o Γ')
    (h' : Tracks logSlots d r ks Γ' o' Γ'') : Tracks logSlots d r ks Γ (o ++ o') Γ'' := by
  induction h with
  | nil => exact h'
  | cons h1 _ ih => exact .cons h1 (ih h')

/-- what a program knows: an accumulator, the rotated powers, a temporary -/
structure SumState (logSlots : ℕ) (κ : ℚ) (I : Info) (Γ : Ref → Option Info) (A P T : Ref) (tA : ℕ) (fA : ℕ → ℂ) (cA : ℕ)
    (tP : ℕ) (fP : ℕ → ℂ) (cP : ℕ) : Prop where
  a : ∃ J, Γ A = some J ∧ SumInfo logSlots κ I J tA fA cA
  p : ∃ J, Γ P = some J ∧ SumInfo logSlots κ I J tP fP cP
  t : ∃ J, Γ T = some J ∧ J.level = I.level ∧ J.scale = I.scale

section
variable {Γ : Ref → Option Info} {A P T : Ref} (hAP : A ≠ P) (hAT : A ≠ T) (hPT : P ≠ T) {tA cA tP cP : ℕ} {fA fP : ℕ → ℂ}
include hAP hAT hPT

/-- `A += rot(P, k)` -/
theorem SumState.addRot (h : SumState logSlots (ks I.level) I Γ A P T tA fA cA tP fP cP) (k : ℤ) :
    ∃ Γ', Tracks logSlots d r ks Γ [.rotate k P T, .add A T A] Γ' ∧ SumState logSlots (ks I.level) I Γ' A P T (tA + tP)
      (fun j => fA j + fP ((j + k) % 2 ^ logSlots).toNat) (cA + (cP + 1)) tP fP cP := by
  obtain ⟨JA, a1, a2⟩ := h.a
  obtain ⟨JP, p1, p2⟩ := h.p
  obtain ⟨JT, t1, t2, t3⟩ := h.t
  have hr := p2.rotate k
  refine ⟨_, .cons (.rotate p1 t1 (by rw [t2, p2.level]) (by rw [t3, p2.scale])) (.cons (.add (I := JA)
    (J := JP.rotate logSlots k (ks I.level) I.level) (K := JA) ?_ ?_ ?_ ?_) .nil), ⟨_, Function.update_self .., a2.add hr⟩, ⟨JP, ?_, p2⟩,
    ⟨_, ?_, hr.level, hr.scale⟩⟩
  · rw [Function.update_of_ne hAT, a1]
  · rw [Function.update_self, t2]
  · rw [Function.update_of_ne hAT, a1]
  · rw [a2.scale, hr.scale]; exact sameScale_self _
  · rw [Function.update_of_ne hAP.symm, Function.update_of_ne hPT, p1]
  · rw [Function.update_of_ne hAT.symm, Function.update_self, t2]

/-- `P += rot(P, k)` -/
theorem SumState.double (h : SumState logSlots (ks I.level) I Γ A P T tA fA cA tP fP cP) (k : ℤ) :
    ∃ Γ', Tracks logSlots d r ks Γ [.rotate k P T, .add P T P] Γ' ∧ SumState logSlots (ks I.level) I Γ' A P T tA fA cA (tP + tP)
      (fun j => fP j + fP ((j + k) % 2 ^ logSlots).toNat) (cP + (cP + 1)) := by
  obtain ⟨JA, a1, a2⟩ := h.a
  obtain ⟨JP, p1, p2⟩ := h.p
  obtain ⟨JT, t1, t2, t3⟩ := h.t
  have hr := p2.rotate k
  refine ⟨_, .cons (.rotate p1 t1 (by rw [t2, p2.level]) (by rw [t3, p2.scale])) (.cons (.add (I := JP)
    (J := JP.rotate logSlots k (ks I.level) I.level) (K := JP) ?_ ?_ ?_ ?_) .nil), ⟨JA, ?_, a2⟩, ⟨_, Function.update_self .., p2.add hr⟩,
    ⟨_, ?_, hr.level, hr.scale⟩⟩
  · rw [Function.update_of_ne hPT, p1]
  · rw [Function.update_self, t2]
  · rw [Function.update_of_ne hPT, p1]
  · rw [p2.scale, hr.scale]; exact sameScale_self _
  · rw [Function.update_of_ne hAP, Function.update_of_ne hAT, a1]
  · rw [Function.update_of_ne hPT.symm, Function.update_self, t2]

/-- `A += P` -/
theorem SumState.addPow (h : SumState logSlots (ks I.level) I Γ A P T tA fA cA tP fP cP) :
    ∃ Γ', Tracks logSlots d r ks Γ [.add A P A] Γ' ∧ SumState logSlots (ks I.level) I Γ' A P T (tA + tP)
      (fun j => fA j + fP j) (cA + cP) tP fP cP := by
  obtain ⟨JA, a1, a2⟩ := h.a
  obtain ⟨JP, p1, p2⟩ := h.p
  obtain ⟨JT, t1, t2, t3⟩ := h.t
  refine ⟨_, .cons (.add (I := JA) (J := JP) (K := JA) a1 p1 a1 ?_) .nil, ⟨_, Function.update_self .., a2.add p2⟩, ⟨JP, ?_, p2⟩,
    ⟨JT, ?_, t2, t3⟩⟩
  · rw [a2.scale, p2.scale]; exact sameScale_self _
  · rw [Function.update_of_ne hAP.symm, p1]
  · rw [Function.update_of_ne hAT.symm, t1]

/-- the start: `P` a copy of the input, `A` zero -/
theorem SumState.start {Γ : Ref → Option Info} {x : Ref} (hx : Γ x = some I) (hxA : x ≠ A) (hxP : x ≠ P) (hxT : x ≠ T)
    (hl : I.level < r.subs.length) (hp : 0 < I.scale) (hf : f64 I.scale = I.scale) :
    ∃ Γ', Tracks logSlots d r ks Γ [.alloc I.level I.scale A, .alloc I.level I.scale P, .alloc I.level I.scale T, .add P x P] Γ' ∧
      SumState logSlots (ks I.level) I Γ' A P T 0 (fun _ => 0) 0 1 (fun j => I.v j) 0 := by
  have hz : SumInfo logSlots (ks I.level) I (Info.zero I.level I.scale) 0 (fun _ => 0) 0 :=
    ⟨rfl, rfl, fun _ _ => rfl, by simp [Info.zero], by simp [Info.zero], by simp [Info.zero], by simp [Info.zero]⟩
  have hi : SumInfo logSlots (ks I.level) I I 1 (fun j => I.v j) 0 :=
    ⟨rfl, rfl, fun _ _ => rfl, by simp, by simp, by simp, by simp⟩
  refine ⟨_, .cons (.alloc hl hp hf) (.cons (.alloc hl hp hf) (.cons (.alloc hl hp hf) (.cons
    (.add (I := Info.zero I.level I.scale) (J := I) (K := Info.zero I.level I.scale) ?_ ?_ ?_ (sameScale_self _)) .nil))),
    ⟨_, ?_, hz⟩, ⟨_, Function.update_self .., (hz.add hi).congr (by simp) (by simp) (fun j _ => by simp)⟩, ⟨Info.zero I.level I.scale, ?_, rfl, rfl⟩⟩
  · rw [Function.update_of_ne hPT, Function.update_self]
  · rw [Function.update_of_ne hxT, Function.update_of_ne hxP, Function.update_of_ne hxA, hx]
  · rw [Function.update_of_ne hPT, Function.update_self]
  · rw [Function.update_of_ne hAP, Function.update_of_ne hAT, Function.update_of_ne hAP, Function.update_self]
  · rw [Function.update_of_ne hPT.symm, Function.update_self]

/-- the loop of the program for the logarithmic list: `P` holds the sum of `2^e` rotations, `A` the last `n % 2^e` -/
theorem innerSumLog_loop (batch : ℤ) (n : ℕ) : ∀ (fuel e : ℕ) {Γ : Ref → Option Info}, 2 ^ e ≤ n → n < 2 ^ (e + fuel) →
    SumState logSlots (ks I.level) I Γ A P T (n % 2 ^ e) (rotSum logSlots I.v batch (n - n % 2 ^ e) n) (n % 2 ^ e)
      (2 ^ e) (rotSum logSlots I.v batch 0 (2 ^ e)) (2 ^ e - 1) →
    ∃ ops Γ', RotatesBy (LogUsed batch n) ops ∧ Tracks logSlots d r ks Γ ops Γ' ∧
      ∃ J, Γ' A = some J ∧ SumInfo logSlots (ks I.level) I J n (rotSum logSlots I.v batch 0 n) (n - 1)
  | 0, e, Γ, h1, h2, _ => absurd h1 (by rw [Nat.add_zero] at h2; omega)
  | fuel + 1, e, Γ, h1, h2, hS => by
    have hpe := Nat.two_pow_pos e
    have hmod : n % 2 ^ (e + 1) = n % 2 ^ e + 2 ^ e * (n / 2 ^ e % 2) := by rw [pow_succ, Nat.mod_mul]
    have hlt := Nat.mod_lt n hpe
    have hle := Nat.mod_le n (2 ^ e)
    have hle1 := Nat.mod_le n (2 ^ (e + 1))
    have hps : 2 ^ (e + 1) = 2 ^ e + 2 ^ e := by rw [pow_succ]; ring
    by_cases hlast : n < 2 ^ (e + 1)
    · -- the highest bit
      have hdiv : n % 2 ^ e = n - 2 ^ e := by
        rw [Nat.mod_eq_sub_mod h1, Nat.mod_eq_of_lt (by omega)]
      obtain ⟨Γ', t1, t2⟩ := hS.addPow (d := d) (r := r) hAP hAT hPT
      obtain ⟨J, j1, j2⟩ := t2.a
      refine ⟨_, Γ', ?_, t1, J, j1, j2.congr (by omega) (by omega) fun j _ => ?_⟩
      · intro k a out hm
        simp at hm
      · rw [add_comm, show n - n % 2 ^ e = 2 ^ e by omega]
        exact rotSum_append _ _ (Nat.zero_le _) h1 j
    · have hn : 2 ^ e < n := by omega
      have hk1 : LogUsed batch n ((2 ^ e : ℕ) * batch) :=
        ⟨mem_rotationsForInnerSumLog.2 ⟨e, hn, Or.inl (by push_cast; rfl)⟩, 2 ^ e, hpe, hn, rfl⟩
      -- the bit
      have hbit : ∃ ops Γ1, RotatesBy (LogUsed batch n) ops ∧ Tracks logSlots d r ks Γ ops Γ1 ∧
          SumState logSlots (ks I.level) I Γ1 A P T (n % 2 ^ (e + 1)) (rotSum logSlots I.v batch (n - n % 2 ^ (e + 1)) n) (n % 2 ^ (e + 1))
            (2 ^ e) (rotSum logSlots I.v batch 0 (2 ^ e)) (2 ^ e - 1) := by
        rcases Nat.mod_two_eq_zero_or_one (n / 2 ^ e) with hb | hb
        · rw [hb, Nat.mul_zero, Nat.add_zero] at hmod
          rw [hmod]
          exact ⟨[], Γ, fun _ _ _ h => by simp at h, .nil, hS⟩
        · rw [hb, Nat.mul_one] at hmod
          obtain ⟨Γ1, t1, t2⟩ := hS.addRot (d := d) (r := r) hAP hAT hPT (((n - n % 2 ^ (e + 1) : ℕ) : ℤ) * batch)
          obtain ⟨J, j1, j2⟩ := t2.a
          refine ⟨_, Γ1, ?_, t1, ⟨J, j1, j2.congr (by omega) (by omega) fun j _ => ?_⟩, t2.p, t2.t⟩
          · intro k a out hm
            simp at hm
            rw [hm.1]
            have hlt1 := Nat.mod_lt n (Nat.two_pow_pos (e + 1))
            exact ⟨mem_rotationsForInnerSumLog.2 ⟨e, hn, Or.inr (by push_cast [hle1]; rfl)⟩, n - n % 2 ^ (e + 1), by omega, by omega,
              by push_cast [hle1]; rfl⟩
          · rw [rotSum_rotate, add_comm, Nat.zero_add, show 2 ^ e + (n - n % 2 ^ (e + 1)) = n - n % 2 ^ e by omega]
            exact rotSum_append _ _ (by omega) (by omega) j
      obtain ⟨o1, Γ1, b1, b2, b3⟩ := hbit
      obtain ⟨Γ2, c1, c2⟩ := b3.double (d := d) (r := r) hAP hAT hPT ((2 ^ e : ℕ) * batch)
      obtain ⟨JP, q1, q2⟩ := c2.p
      obtain ⟨o3, Γ3, e1, e2, e3⟩ := innerSumLog_loop batch n fuel (e + 1) (Γ := Γ2) (by omega)
        (by rw [show e + 1 + fuel = e + (fuel + 1) by omega]; exact h2)
        ⟨c2.a, ⟨JP, q1, q2.congr (by omega) (by omega) fun j _ => by
          rw [rotSum_rotate, hps, Nat.zero_add]
          exact rotSum_append _ _ (Nat.zero_le _) (by omega) j⟩, c2.t⟩
      refine ⟨o1 ++ ([.rotate ((2 ^ e : ℕ) * batch) P T, .add P T P] ++ o3), Γ3, b1.append (RotatesBy.append ?_ e1),
        b2.append (c1.append e2), e3⟩
      intro k a out hm
      simp at hm
      rw [hm.1]
      exact_mod_cast hk1

end

/-- the bookkeeping of the program for `RotationsForInnerSumLog` -/
theorem innerSumLog_tracks {Γ : Ref → Option Info} {x A P T : Ref} (hx : Γ x = some I) (hd : [x, A, P, T].Nodup)
    (hl : I.level < r.subs.length) (hp : 0 < I.scale) (hf : f64 I.scale = I.scale) (batch : ℤ) (hn : 1 ≤ n) :
    ∃ ops Γ', RotatesBy (LogUsed batch n) ops ∧ Tracks logSlots d r ks Γ ops Γ' ∧
      ∃ J, Γ' A = some J ∧ SumInfo logSlots (ks I.level) I J n (rotSum logSlots I.v batch 0 n) (n - 1) := by
  simp only [List.nodup_cons, List.mem_cons, List.not_mem_nil, or_false, not_or] at hd
  obtain ⟨⟨h1, h2, h3⟩, ⟨h4, h5⟩, h6, -⟩ := hd
  obtain ⟨Γ1, t1, t2⟩ := SumState.start (d := d) (ks := ks) (logSlots := logSlots) h4 h5 h6 hx h1 h2 h3 hl hp hf
  obtain ⟨JA, a1, a2⟩ := t2.a
  obtain ⟨JP, p1, p2⟩ := t2.p
  obtain ⟨ops, Γ', b1, b2, b3⟩ := innerSumLog_loop (d := d) (r := r) (ks := ks) (I := I) h4 h5 h6 batch n n 0 (Γ := Γ1) (by simpa using hn)
    (by rw [Nat.zero_add]; exact Nat.lt_two_pow_self)
    ⟨⟨JA, a1, a2.congr (by simp [Nat.mod_one]) (by simp [Nat.mod_one]) fun j _ => by simp [rotSum, Nat.mod_one]⟩, ⟨JP, p1, p2.congr (by simp) (by simp) fun j hj => by
      have : ((j : ℤ) % 2 ^ logSlots).toNat = j := by
        rw [Int.emod_eq_of_lt (by omega) (by exact_mod_cast hj)]; simp
      simp [rotSum, this]⟩, t2.t⟩
  refine ⟨_ ++ ops, Γ', RotatesBy.append (fun k a out hm => ?_) b1, t1.append b2, b3⟩
  simp at hm

/-- the bookkeeping of the program for `RotationsForInnerSum`: one rotation after the other -/
theorem innerSum_tracks {Γ : Ref → Option Info} {x A P T : Ref} (hx : Γ x = some I) (hd : [x, A, P, T].Nodup)
    (hl : I.level < r.subs.length) (hp : 0 < I.scale) (hf : f64 I.scale = I.scale) (batch : ℤ) (hn : 1 ≤ n) :
    ∃ ops Γ', RotatesBy (· ∈ rotationsForInnerSum batch n) ops ∧ Tracks logSlots d r ks Γ ops Γ' ∧
      ∃ J, Γ' A = some J ∧ SumInfo logSlots (ks I.level) I J n (rotSum logSlots I.v batch 0 n) (n - 1) := by
  simp only [List.nodup_cons, List.mem_cons, List.not_mem_nil, or_false, not_or] at hd
  obtain ⟨⟨h1, h2, h3⟩, ⟨h4, h5⟩, h6, -⟩ := hd
  obtain ⟨Γ1, t1, t2⟩ := SumState.start (d := d) (ks := ks) (logSlots := logSlots) h4 h5 h6 hx h1 h2 h3 hl hp hf
  obtain ⟨Γ2, u1, u2⟩ := t2.addPow (d := d) (r := r) h4 h5 h6
  have hone : ∀ j < 2 ^ logSlots, I.v j = rotSum logSlots I.v batch 0 1 j := fun j hj => by
    have : ((j : ℤ) % 2 ^ logSlots).toNat = j := by
      rw [Int.emod_eq_of_lt (by omega) (by exact_mod_cast hj)]; simp
    simp [rotSum, this]
  have key : ∀ m, m < n → ∃ ops Γ', RotatesBy (· ∈ rotationsForInnerSum batch n) ops ∧ Tracks logSlots d r ks Γ2 ops Γ' ∧
      SumState logSlots (ks I.level) I Γ' A P T (m + 1) (rotSum logSlots I.v batch 0 (m + 1)) m 1 (rotSum logSlots I.v batch 0 1) 0 := by
    intro m
    induction m with
    | zero =>
      intro _
      obtain ⟨J, j1, j2⟩ := u2.a
      obtain ⟨K, k1, k2⟩ := u2.p
      exact ⟨[], Γ2, fun _ _ _ h => by simp at h, .nil, ⟨J, j1, j2.congr (by omega) (by omega) fun j hj => by
        rw [zero_add, hone j hj]⟩, ⟨K, k1, k2.congr rfl rfl hone⟩, u2.t⟩
    | succ m ih =>
      intro hm
      obtain ⟨ops, Γ3, a1, a2, a3⟩ := ih (by omega)
      obtain ⟨Γ4, b1, b2⟩ := a3.addRot (d := d) (r := r) h4 h5 h6 (((m + 1 : ℕ) : ℤ) * batch)
      obtain ⟨J, j1, j2⟩ := b2.a
      refine ⟨_, Γ4, a1.append (o' := [.rotate (((m + 1 : ℕ) : ℤ) * batch) P T, .add A T A]) ?_, a2.append b1,
        ⟨J, j1, j2.congr (by omega) (by omega) fun j hj => ?_⟩, b2.p, b2.t⟩
      · intro k a out hk
        simp at hk
        rw [hk.1]
        exact List.mem_map.2 ⟨m + 1, by rw [List.mem_range'_1]; omega, by push_cast; ring⟩
      · rw [rotSum_rotate, Nat.zero_add, Nat.add_comm 1]
        exact rotSum_append _ _ (Nat.zero_le _) (by omega) j
  obtain ⟨ops, Γ3, a1, a2, a3⟩ := key (n - 1) (by omega)
  obtain ⟨J, j1, j2⟩ := a3.a
  refine ⟨_ ++ (_ ++ ops), Γ3, RotatesBy.append (fun k a out hm => ?_) (RotatesBy.append (fun k a out hm => ?_) a1),
    t1.append (u1.append a2), J, j1, ?_⟩
  · simp at hm
  · simp at hm
  · rw [show n - 1 + 1 = n by omega] at j2
    exact j2

/-- the bookkeeping of the program for `RotationsForTrace`: doublings only -/
theorem trace_tracks {Γ : Ref → Option Info} {x A P T : Ref} (hx : Γ x = some I) (hd : [x, A, P, T].Nodup)
    (hl : I.level < r.subs.length) (hp : 0 < I.scale) (hf : f64 I.scale = I.scale) (s m : ℕ) :
    ∃ ops Γ', RotatesBy (· ∈ rotationsForTrace s (s + m)) ops ∧ Tracks logSlots d r ks Γ ops Γ' ∧
      ∃ J, Γ' P = some J ∧ SumInfo logSlots (ks I.level) I J (2 ^ m) (rotSum logSlots I.v (2 ^ s) 0 (2 ^ m)) (2 ^ m - 1) := by
  simp only [List.nodup_cons, List.mem_cons, List.not_mem_nil, or_false, not_or] at hd
  obtain ⟨⟨h1, h2, h3⟩, ⟨h4, h5⟩, h6, -⟩ := hd
  obtain ⟨Γ1, t1, t2⟩ := SumState.start (d := d) (ks := ks) (logSlots := logSlots) h4 h5 h6 hx h1 h2 h3 hl hp hf
  have key : ∀ i ≤ m, ∃ ops Γ', RotatesBy (· ∈ rotationsForTrace s (s + m)) ops ∧ Tracks logSlots d r ks Γ1 ops Γ' ∧
      SumState logSlots (ks I.level) I Γ' A P T 0 (fun _ => 0) 0 (2 ^ i) (rotSum logSlots I.v (2 ^ s) 0 (2 ^ i)) (2 ^ i - 1) := by
    intro i
    induction i with
    | zero =>
      intro _
      obtain ⟨K, k1, k2⟩ := t2.p
      refine ⟨[], Γ1, fun _ _ _ h => by simp at h, .nil, t2.a, ⟨K, k1, k2.congr (by simp) (by simp) fun j hj => ?_⟩, t2.t⟩
      have : ((j : ℤ) % 2 ^ logSlots).toNat = j := by
        rw [Int.emod_eq_of_lt (by omega) (by exact_mod_cast hj)]; simp
      simp [rotSum, this]
    | succ i ih =>
      intro hi
      obtain ⟨ops, Γ3, a1, a2, a3⟩ := ih (by omega)
      obtain ⟨Γ4, b1, b2⟩ := a3.double (d := d) (r := r) h4 h5 h6 (((2 ^ i : ℕ) : ℤ) * 2 ^ s)
      obtain ⟨J, j1, j2⟩ := b2.p
      have hpi := Nat.two_pow_pos i
      have hps : 2 ^ (i + 1) = 2 ^ i + 2 ^ i := by rw [pow_succ]; ring
      refine ⟨_, Γ4, a1.append ?_, a2.append b1, b2.a, ⟨J, j1, j2.congr (by omega) (by omega) fun j hj => ?_⟩, b2.t⟩
      · intro k a out hk
        simp at hk
        rw [hk.1]
        refine List.mem_map.2 ⟨s + i, List.mem_range'_1.2 ⟨by omega, by omega⟩, ?_⟩
        rw [Nat.shiftLeft_eq, one_mul]
        push_cast
        ring
      · rw [rotSum_rotate, hps, Nat.zero_add]
        exact rotSum_append _ _ (Nat.zero_le _) (by omega) j
  obtain ⟨ops, Γ3, a1, a2, a3⟩ := key m le_rfl
  refine ⟨_ ++ ops, Γ3, RotatesBy.append (fun k a out hm => ?_) a1, t1.append a2, a3.p⟩
  simp at hm

/-! ### The programs on ciphertexts -/

section
variable {fuel : ℕ} {p : FParams} {ev : FEvaluator} {kg : FKeyGenerator} {sk : PolyQP} {S : ℕ → ℤ}
  {tape : Option ℤ → ℕ → KeyTape} {e : Option ℤ → ℕ → ℕ → ℤ} {digit Be : ℕ}
  (Q : HomEnv fuel logSlots d p ev kg sk S tape e digit Be)
  {rtk : ℤ → UInt64 × FSwitchingKey × FSwitchingKey} {H : Heap} {x A P T : Ref}

/-- the ciphertext `out` holds the sum of the slots `j + i·batch`, `i < n`, of what `I` describes; level and scale stay, plaintext,
noise and error grow by the factor `n`, with `n - 1` errors of key switches -/
def HoldsSum (logSlots d : ℕ) (r : Ring) (S : ℕ → ℤ) (ks : ℚ) (I : Info) (batch : ℤ) (n : ℕ) (ct : Ct) : Prop :=
  ∃ J : Info, CtMsg logSlots d r S ct J ∧ J.level = I.level ∧ J.scale = I.scale ∧
    (∀ j < 2 ^ logSlots, J.v j = ∑ i ∈ range n, I.v ((j + i * batch) % 2 ^ logSlots).toNat) ∧
    J.V = n * I.V ∧ J.M = n * I.M ∧ J.β = n * I.β + (n - 1 : ℕ) * ks ∧ J.ε = n * I.ε

include Q in
theorem holdsSum_of {l : ℤ → Prop} {out : Ref} (hI : CtMsg logSlots d p.ringQ S (H x) I)
    (hk : ∀ k, l k → rtk k = kg.genRotKey k sk (tape (some k)))
    (h : ∃ ops Γ', RotatesBy l ops ∧
      Tracks logSlots d p.ringQ (ksErr p (logSlots + 1 + d) digit Be) (fun c => if c = x then some I else none) ops Γ' ∧
      ∃ J, Γ' out = some J ∧ SumInfo logSlots (ksErr p (logSlots + 1 + d) digit Be I.level) I J n (rotSum logSlots I.v batch 0 n) (n - 1)) :
    ∃ ops H', RotatesBy l ops ∧ runProgram ev (kg.genRelinKey sk (tape none)) rtk H ops = some H' ∧
      HoldsSum logSlots d p.ringQ S (ksErr p (logSlots + 1 + d) digit Be I.level) I batch n (H' out) := by
  obtain ⟨ops, Γ', h1, h2, J, h3, h4⟩ := h
  obtain ⟨H', a1, a2⟩ := C86_program Q h2 (H := H) (fun c K hc => by
    split at hc
    · rename_i hcx
      subst hcx
      cases hc
      exact hI
    · cases hc)
  refine ⟨ops, H', h1, by rw [runProgram_congr hk H h1]; exact a1, J, a2 _ _ h3, h4.level, h4.scale, fun j hj => ?_, h4.V, h4.M, h4.β,
    h4.ε⟩
  rw [h4.val j hj, rotSum, Finset.range_eq_Ico]

include Q

/-- **C95 (`RotationsForInnerSumLog`).** With keys for the listed rotations a program of at most that many kinds of rotations sums `n`
rotations by multiples of `batch`, for every `n ≥ 1` and every `batch`, negative or not: it needs no other rotation, and of the
listed ones only those by `c·batch` with `0 < c < n`. -/
theorem C95_innerSumLog (hI : CtMsg logSlots d p.ringQ S (H x) I) (hd : [x, A, P, T].Nodup) (batch : ℤ) (hn : 1 ≤ n)
    (hk : ∀ k ∈ rotationsForInnerSumLog batch n, rtk k = kg.genRotKey k sk (tape (some k))) :
    ∃ ops H', RotatesBy (fun k => k ∈ rotationsForInnerSumLog batch n ∧ ∃ c : ℕ, 0 < c ∧ c < n ∧ k = c * batch) ops ∧
      runProgram ev (kg.genRelinKey sk (tape none)) rtk H ops = some H' ∧
      HoldsSum logSlots d p.ringQ S (ksErr p (logSlots + 1 + d) digit Be I.level) I batch n (H' A) :=
  holdsSum_of Q hI (fun k h => hk k h.1) (innerSumLog_tracks (if_pos rfl) hd hI.lvl hI.pos hI.flt batch hn)

/-- **C95 (`RotationsForInnerSum`).** -/
theorem C95_innerSum (hI : CtMsg logSlots d p.ringQ S (H x) I) (hd : [x, A, P, T].Nodup) (batch : ℤ) (hn : 1 ≤ n)
    (hk : ∀ k ∈ rotationsForInnerSum batch n, rtk k = kg.genRotKey k sk (tape (some k))) :
    ∃ ops H', RotatesBy (· ∈ rotationsForInnerSum batch n) ops ∧
      runProgram ev (kg.genRelinKey sk (tape none)) rtk H ops = some H' ∧
      HoldsSum logSlots d p.ringQ S (ksErr p (logSlots + 1 + d) digit Be I.level) I batch n (H' A) :=
  holdsSum_of Q hI hk (innerSum_tracks (if_pos rfl) hd hI.lvl hI.pos hI.flt batch hn)

/-- **C95 (`RotationsForTrace`).** -/
theorem C95_trace (hI : CtMsg logSlots d p.ringQ S (H x) I) (hd : [x, A, P, T].Nodup) {s t : ℕ} (hst : s ≤ t)
    (hk : ∀ k ∈ rotationsForTrace s t, rtk k = kg.genRotKey k sk (tape (some k))) :
    ∃ ops H', RotatesBy (· ∈ rotationsForTrace s t) ops ∧
      runProgram ev (kg.genRelinKey sk (tape none)) rtk H ops = some H' ∧
      HoldsSum logSlots d p.ringQ S (ksErr p (logSlots + 1 + d) digit Be I.level) I (2 ^ s) (2 ^ (t - s)) (H' P) := by
  obtain ⟨m, rfl⟩ := Nat.exists_eq_add_of_le hst
  rw [Nat.add_sub_cancel_left]
  exact holdsSum_of Q hI hk (trace_tracks (if_pos rfl) hd hI.lvl hI.pos hI.flt s m)

/-- **C95 (replication).** With keys for `RotationsForReplicateLog`, or likewise `RotationsForReplicate`: if `n·batch` slots fit and only the
first `batch` of them are not zero, the sum repeats these `n` times. -/
theorem C95_replicate (hI : CtMsg logSlots d p.ringQ S (H x) I) (hd : [x, A, P, T].Nodup) {batch : ℕ} (hn : 1 ≤ n)
    (hb : n * batch ≤ 2 ^ logSlots) (hz : ∀ j < 2 ^ logSlots, batch ≤ j → I.v j = 0)
    (hk : (∀ k ∈ rotationsForReplicateLog batch n, rtk k = kg.genRotKey k sk (tape (some k))) ∨
      ∀ k ∈ rotationsForReplicate batch n, rtk k = kg.genRotKey k sk (tape (some k))) :
    ∃ ops H', runProgram ev (kg.genRelinKey sk (tape none)) rtk H ops = some H' ∧
      ∃ J : Info, CtMsg logSlots d p.ringQ S (H' A) J ∧ J.level = I.level ∧ J.scale = I.scale ∧
        ∀ t < n, ∀ j < batch, J.v (t * batch + j) = I.v j := by
  have key : ∀ H' : Heap, HoldsSum logSlots d p.ringQ S (ksErr p (logSlots + 1 + d) digit Be I.level) I (-batch) n (H' A) →
      ∃ J : Info, CtMsg logSlots d p.ringQ S (H' A) J ∧ J.level = I.level ∧ J.scale = I.scale ∧
        ∀ t < n, ∀ j < batch, J.v (t * batch + j) = I.v j := by
    rintro H' ⟨J, j1, j2, j3, j4, -⟩
    refine ⟨J, j1, j2, j3, fun t ht j hj => ?_⟩
    have hpos : (0 : ℤ) < 2 ^ logSlots := by positivity
    have htb : (t + 1) * batch ≤ n * batch := Nat.mul_le_mul_right _ ht
    have hlt : t * batch + j < 2 ^ logSlots := by
      rw [add_mul] at htb; omega
    rw [j4 _ hlt, Finset.sum_eq_single t]
    · rw [show (((t * batch + j : ℕ) : ℤ) + t * -batch) = j by push_cast; ring,
        Int.emod_eq_of_lt (by omega) (by exact_mod_cast (by omega : j < 2 ^ logSlots)), Int.toNat_natCast]
    · intro i hi hit
      have hi := Finset.mem_range.1 hi
      have hib : (i + 1) * batch ≤ n * batch := Nat.mul_le_mul_right _ hi
      have hb2 : (batch : ℤ) * n ≤ 2 ^ logSlots := by
        rw [mul_comm]; exact_mod_cast hb
      rcases Nat.lt_or_gt_of_ne hit with h | h
      · obtain ⟨c, rfl⟩ := Nat.exists_eq_add_of_lt h
        have e1 : (((i + c + 1) * batch + j : ℕ) : ℤ) + i * -batch = (((c + 1) * batch + j : ℕ) : ℤ) := by push_cast; ring
        have h2 : (c + 1) * batch + j < 2 ^ logSlots := by nlinarith
        rw [e1, Int.emod_eq_of_lt (by positivity) (by exact_mod_cast h2), Int.toNat_natCast]
        exact hz _ h2 (by nlinarith)
      · obtain ⟨c, rfl⟩ := Nat.exists_eq_add_of_lt h
        have hc : (c + 1) * batch ≤ 2 ^ logSlots := by nlinarith
        have h2 : (c + 1) * batch + batch ≤ 2 ^ logSlots := by nlinarith
        have e1 : ((t * batch + j : ℕ) : ℤ) + ((t + c + 1 : ℕ) : ℤ) * -batch = ((2 ^ logSlots - (c + 1) * batch + j : ℕ) : ℤ) +
            2 ^ logSlots * (-1) := by
          push_cast [hc]; ring
        have h3 : 2 ^ logSlots - (c + 1) * batch + j < 2 ^ logSlots := by
          have : batch ≤ (c + 1) * batch := by nlinarith
          omega
        rw [e1, Int.add_mul_emod_self_left, Int.emod_eq_of_lt (by positivity) (by exact_mod_cast h3), Int.toNat_natCast]
        exact hz _ h3 (by omega)
    · intro h; exact absurd (Finset.mem_range.2 ht) h
  rcases hk with hk | hk
  · obtain ⟨ops, H', -, a2, a3⟩ := C95_innerSumLog Q hI hd (-batch) hn hk
    exact ⟨ops, H', a2, key H' a3⟩
  · obtain ⟨ops, H', -, a2, a3⟩ := C95_innerSum Q hI hd (-batch) hn hk
    exact ⟨ops, H', a2, key H' a3⟩

end

/-- **C95, violated as documented**: the list is said to be the rotations that the operation performs.  It always has one that
`C95_innerSumLog` does not need: by `n·batch` if `n` is a power of two, by 0 otherwise. -/
theorem C95_surplus (batch : ℤ) (hn : 2 ≤ n) :
    (∃ t, n = 2 ^ t) ∧ (n : ℤ) * batch ∈ rotationsForInnerSumLog batch n ∨ 0 ∈ rotationsForInnerSumLog batch n := by
  have h1 := Nat.pow_log_le_self 2 (show n ≠ 0 by omega)
  have h2 := Nat.lt_pow_succ_log_self (show 1 < 2 by omega) n
  rcases Nat.eq_or_lt_of_le h1 with h | h
  · refine Or.inl ⟨⟨_, h.symm⟩, mem_rotationsForInnerSumLog.2 ⟨0, by rw [pow_zero]; omega, Or.inr ?_⟩⟩
    have hlog : 1 ≤ Nat.log 2 n := Nat.log_pos (by omega) hn
    have : n % 2 ^ (0 + 1) = 0 := by
      rw [Nat.zero_add, pow_one]
      conv_lhs => rw [← h]
      obtain ⟨t, ht⟩ := Nat.exists_eq_add_of_le' hlog
      rw [ht, pow_succ]
      simp
    rw [this, Nat.sub_zero]
  · exact Or.inr (mem_rotationsForInnerSumLog.2 ⟨Nat.log 2 n, h, Or.inr (by rw [Nat.mod_eq_of_lt h2]; simp)⟩)

/-- the lists for 6 rotations by multiples of 3, and for a trace from 4 to 32 slots -/
example : rotationsForInnerSumLog 3 6 = [0, 12, 6, 18, 3] ∧ rotationsForInnerSum 3 6 = [3, 6, 9, 12, 15] ∧
    rotationsForReplicateLog 3 6 = [0, -12, -6, -18, -3] ∧ rotationsForTrace 2 5 = [4, 8, 16] := by decide

/-- In the environment of `exampleHom` with the plaintext `600 + 400 X^4` at scale 1000, i.e. two different slots `v 0`, `v 1`: with keys for 0, 1
and 2 only, a program computes `v 0 + v 1 + v 0` and `v 1 + v 0 + v 1`. -/
example : ∃ (fp : FParams) (ev : FEvaluator) (kg : FKeyGenerator) (sk : PolyQP) (tape : ℕ → KeyTape) (H H' : Heap) (ops : List Op)
    (J : Info), runProgram ev (kg.genRelinKey sk tape) (fun k => if k = 0 ∨ k = 1 ∨ k = 2 then kg.genRotKey k sk tape else default) H ops =
      some H' ∧ CtMsg 1 2 fp.ringQ exampleS (H' 1) J ∧ J.level = 2 ∧ J.scale = 1000 ∧ J.M = 1800 ∧
      J.v 0 = 2 * (slotVal 1 2 exampleZ 0 / 1000) + slotVal 1 2 exampleZ 1 / 1000 ∧
      J.v 1 = slotVal 1 2 exampleZ 0 / 1000 + 2 * (slotVal 1 2 exampleZ 1 / 1000) := by
  obtain ⟨fp, ev, kg, s, tape, Q, hQ, ha, hP, -⟩ := exampleHom
  have lQ : fp.ringQ.subs.length = 3 := by simpa [Ring.moduli] using congrArg List.length hQ
  obtain ⟨ct, h0⟩ := exampleMsg Q lQ
  obtain ⟨ops, H', -, a2, J, a3, a4, a5, a6, -, a7, -⟩ := C95_innerSumLog Q (H := fun _ => ct) (x := 0) (A := 1) (P := 2) (T := 3)
    (rtk := fun k => if k = 0 ∨ k = 1 ∨ k = 2 then kg.genRotKey k _ tape else default) h0 (by decide) 1 (n := 3) (by norm_num)
    (fun k hk => if_pos (by
      have : rotationsForInnerSumLog 1 3 = [0, 2, 1] := by decide
      rw [this] at hk
      simp only [List.mem_cons, List.not_mem_nil, or_false] at hk
      tauto))
  refine ⟨fp, ev, kg, _, tape, _, H', ops, J, a2, a3, a4, a5, by rw [a7]; norm_num, ?_, ?_⟩
  · rw [a6 0 (by norm_num)]
    simp [Finset.sum_range_succ]
    ring
  · rw [a6 1 (by norm_num)]
    simp [Finset.sum_range_succ]
    norm_num
    ring

/-! ### `GaloisElementsForRowInnerSum` -/

theorem prod_bits (x : ℕ) (t m : ℕ) : (∏ i ∈ range m, if t.testBit i then x ^ 2 ^ i else 1) = x ^ (t % 2 ^ m) := by
  induction m with
  | zero => simp [Nat.mod_one]
  | succ m ih =>
    rw [Finset.prod_range_succ, ih, Nat.pow_succ, Nat.mod_mul, Nat.testBit_eq_decide_div_mod_eq]
    rcases Nat.mod_two_eq_zero_or_one (t / 2 ^ m) with h | h
    · simp [h]
    · simp [h, pow_add]

theorem eq_of_bits {a b : ℕ} (ha : a < 2) (hb : b < 2) (h : a = 1 ↔ b = 1) : a = b := by
  by_cases h1 : a = 1
  · rw [h1, h.1 h1]
  · have : b ≠ 1 := fun h' => h1 (h.2 h')
    omega

/-- **C95 (`GaloisElementsForRowInnerSum`).** The products of parts of the list are all Galois elements, each once: applying one
automorphism of the list after the other and adding each time sums over the whole Galois group.  `n` is `log N`. -/
theorem C95_galois {n : ℕ} (hr : r.Valid n) : ∃ l, r.galoisElementsForRowInnerSum n = some l ∧ l.length = n ∧
    Set.BijOn (fun t => (∏ i ∈ range n, if t.testBit i then (l.getD i 0).toNat else 1) % (2 * r.n))
      {t | t < 2 ^ n} {g | g % 2 = 1 ∧ g < 2 * r.n} := by
  have h4 := hr.four_le
  obtain ⟨m, rfl⟩ : ∃ m, n = m + 1 := ⟨n - 1, by omega⟩
  obtain ⟨g, hg⟩ : ∃ g, r.galoisElementForRowRotation = some g := ⟨_, by rw [Ring.galoisElementForRowRotation, hr.type, if_neg (by decide)]⟩
  have hgv : g = UInt64.ofNat r.nthRoot - 1 := by
    rw [Ring.galoisElementForRowRotation, hr.type, if_neg (by decide)] at hg
    simpa using hg.symm
  have e := nthRoot_toNat hr
  have h2 := two_le_pow (m + 1)
  set M := 2 ^ (m + 1 + 1) with hM
  have hgn : g.toNat = M - 1 := by
    rw [hgv, UInt64.toNat_sub_of_le _ _ (UInt64.le_iff_toNat_le.2 (by rw [e]; show 1 ≤ _; omega)), e]; rfl
  set l := (List.range (m + 1 - 1)).map fun i => r.galoisElementForColumnRotationBy (2 ^ i) with hl
  have hll : l.length = m := by simp [hl]
  have hn2 : 2 * r.n = M := by rw [hr.deg, hM, pow_succ _ (m + 1), Nat.mul_comm]
  have hM16 : 2 ^ 4 ≤ M := Nat.pow_le_pow_right (by omega) (by omega)
  have hlow : ∀ i < m, ((l ++ [g]).getD i 0).toNat = 5 ^ 2 ^ i % M := by
    intro i hi
    rw [List.getD_append _ _ _ _ (by omega)]
    have : l.getD i 0 = r.galoisElementForColumnRotationBy (2 ^ i) := by simp [hl, List.getD, hi]
    rw [this, galEl_eq hr]
    have hpi : 2 ^ i < 2 ^ (m + 1 + 1) := Nat.pow_lt_pow_right (by omega) (by omega)
    rw [Int.emod_eq_of_lt (by positivity) (by exact_mod_cast hpi)]
    rfl
  have hhigh : ((l ++ [g]).getD m 0).toNat = M - 1 := by
    rw [List.getD_append_right _ _ _ _ (by omega), hll, Nat.sub_self]
    exact hgn
  have hval : ∀ t, (∏ i ∈ range (m + 1), if t.testBit i then ((l ++ [g]).getD i 0).toNat else 1) % M =
      5 ^ (t % 2 ^ m) * (if t.testBit m then M - 1 else 1) % M := by
    intro t
    rw [Finset.prod_range_succ, hhigh, Nat.mul_mod]
    conv_rhs => rw [Nat.mul_mod]
    congr 2
    rw [← prod_bits 5 t m, Finset.prod_nat_mod]
    conv_rhs => rw [Finset.prod_nat_mod]
    congr 1
    refine Finset.prod_congr rfl fun i hi => ?_
    split
    · rw [hlow i (Finset.mem_range.1 hi), Nat.mod_mod]
    · rfl
  have hdiv4 : 4 ∣ M := by rw [hM]; exact pow_dvd_pow 2 (show 2 ≤ m + 1 + 1 by omega)
  have h54 : ∀ a, 5 ^ a % 4 = 1 := fun a => by rw [Nat.pow_mod]; simp
  have hmod4 : ∀ a, 5 ^ a * 1 % M % 4 = 1 ∧ 5 ^ a * (M - 1) % M % 4 = 3 := by
    intro a
    rw [Nat.mod_mod_of_dvd _ hdiv4, Nat.mod_mod_of_dvd _ hdiv4, Nat.mul_mod, h54, Nat.mul_mod (5 ^ a) (M - 1), h54]
    obtain ⟨c, hc⟩ := hdiv4
    constructor
    · rfl
    · omega
  -- powers of five
  have hfive : ∀ a b, a ≤ b → b < 2 ^ m → 5 ^ a % M = 5 ^ b % M → a = b := by
    intro a b hab hb h
    have h1 : 5 ^ a ≡ 5 ^ a * 5 ^ (b - a) [MOD M] := by
      rw [← pow_add, Nat.add_sub_cancel' hab]; exact h
    have hco : Nat.Coprime M (5 ^ a) := by
      rw [hM]; exact Nat.Coprime.pow _ _ (by norm_num)
    have h2 : 1 ≡ 5 ^ (b - a) [MOD M] := by
      have := h1
      nth_rewrite 1 [← Nat.mul_one (5 ^ a)] at this
      exact Nat.ModEq.cancel_left_of_coprime hco this
    have h3 : (r.galoisElementForColumnRotationBy ((b - a : ℕ) : ℤ)).toNat = 1 := by
      rw [galEl_eq hr]
      have hlt : b - a < 2 ^ (m + 1 + 1) := by
        have : 2 ^ m < 2 ^ (m + 1 + 1) := Nat.pow_lt_pow_right (by omega) (by omega)
        omega
      rw [Int.emod_eq_of_lt (by positivity) (by exact_mod_cast hlt), Int.toNat_natCast]
      have : 1 % M = 5 ^ (b - a) % M := h2
      rw [← hM, ← this, Nat.mod_eq_of_lt (by omega)]
    have h4 := (C25_rotation_period hr _).1 h3
    have hhalf : r.n / 2 = 2 ^ m := by rw [hr.deg, pow_succ]; omega
    rw [hhalf] at h4
    have h5 : 2 ^ m ∣ b - a := by exact_mod_cast h4
    rcases Nat.eq_zero_or_pos (b - a) with h6 | h6
    · omega
    · have := Nat.le_of_dvd h6 h5
      omega
  have hmaps : Set.MapsTo (fun t => (∏ i ∈ range (m + 1), if t.testBit i then ((l ++ [g]).getD i 0).toNat else 1) % (2 * r.n))
      {t | t < 2 ^ (m + 1)} {g | g % 2 = 1 ∧ g < 2 * r.n} := by
    intro t _
    rw [hn2]
    refine ⟨?_, Nat.mod_lt _ (by omega)⟩
    dsimp only
    rw [hval t]
    obtain ⟨q1, q2⟩ := hmod4 (t % 2 ^ m)
    split <;> omega
  have hinj : Set.InjOn (fun t => (∏ i ∈ range (m + 1), if t.testBit i then ((l ++ [g]).getD i 0).toNat else 1) % (2 * r.n))
      {t | t < 2 ^ (m + 1)} := by
    intro t ht u hu h
    simp only [Set.mem_setOf_eq] at ht hu
    dsimp only at h
    rw [hn2, hval t, hval u] at h
    obtain ⟨p1, p2⟩ := hmod4 (t % 2 ^ m)
    obtain ⟨q1, q2⟩ := hmod4 (u % 2 ^ m)
    have hlt1 := Nat.mod_lt t (Nat.two_pow_pos m)
    have hlt2 := Nat.mod_lt u (Nat.two_pow_pos m)
    have hcases : (t.testBit m = u.testBit m) ∧ 5 ^ (t % 2 ^ m) % M = 5 ^ (u % 2 ^ m) % M := by
      by_cases b1 : t.testBit m = true <;> by_cases b2 : u.testBit m = true
      · rw [if_pos b1, if_pos b2] at h
        refine ⟨by rw [b1, b2], ?_⟩
        refine Nat.ModEq.cancel_right_of_coprime (c := M - 1) ?_ h
        exact (Nat.coprime_self_sub_right (by omega)).2 (Nat.coprime_one_right _)
      · rw [if_pos b1, if_neg b2] at h; omega
      · rw [if_neg b1, if_pos b2] at h; omega
      · rw [if_neg b1, if_neg b2, Nat.mul_one, Nat.mul_one] at h
        exact ⟨by rw [Bool.not_eq_true] at b1 b2; rw [b1, b2], h⟩
    obtain ⟨hb, h5⟩ := hcases
    have hlow : t % 2 ^ m = u % 2 ^ m := by
      rcases Nat.le_total (t % 2 ^ m) (u % 2 ^ m) with hh | hh
      · exact hfive _ _ hh hlt2 h5
      · exact (hfive _ _ hh hlt1 h5.symm).symm
    rw [Nat.testBit_eq_decide_div_mod_eq, Nat.testBit_eq_decide_div_mod_eq] at hb
    have hpm : 2 ^ (m + 1) = 2 ^ m * 2 := pow_succ 2 m
    have d1 : t / 2 ^ m < 2 := Nat.div_lt_of_lt_mul (by omega)
    have d2 : u / 2 ^ m < 2 := Nat.div_lt_of_lt_mul (by omega)
    have hq : t / 2 ^ m = u / 2 ^ m := by
      rw [Nat.mod_eq_of_lt d1, Nat.mod_eq_of_lt d2, decide_eq_decide] at hb
      exact eq_of_bits d1 d2 hb
    rw [← Nat.div_add_mod t (2 ^ m), ← Nat.div_add_mod u (2 ^ m), hq, hlow]
  refine ⟨l ++ [g], ?_, by simp [hll], hmaps, hinj, ?_⟩
  · unfold Ring.galoisElementsForRowInnerSum
    dsimp only
    rw [hr.type, hg]
    rfl
  · have hcard : ((range (2 ^ (m + 1))).image fun k => 2 * k + 1).card = 2 ^ (m + 1) := by
      rw [Finset.card_image_of_injective _ (fun a b h => by simpa using h), Finset.card_range]
    have hsub : (range (2 ^ (m + 1))).image
        (fun t => (∏ i ∈ range (m + 1), if t.testBit i then ((l ++ [g]).getD i 0).toNat else 1) % (2 * r.n)) ⊆
        (range (2 ^ (m + 1))).image fun k => 2 * k + 1 := by
      intro y hy
      obtain ⟨t, ht, rfl⟩ := Finset.mem_image.1 hy
      obtain ⟨w1, w2⟩ := hmaps (show t ∈ {t | t < 2 ^ (m + 1)} from Finset.mem_range.1 ht)
      rw [Finset.mem_image]
      refine ⟨_ / 2, Finset.mem_range.2 ?_, (by rw [add_comm]; exact (w1 ▸ Nat.mod_add_div _ 2))⟩
      have : r.n = 2 ^ (m + 1) := hr.deg
      rw [← this]
      exact Nat.div_lt_of_lt_mul w2
    have heq := Finset.eq_of_subset_of_card_le hsub (by
      rw [hcard, Finset.card_image_of_injOn (fun a ha b hb h => hinj (Finset.mem_range.1 ha) (Finset.mem_range.1 hb) h), Finset.card_range])
    intro y hy
    obtain ⟨y1, y2⟩ := hy
    have hmem : y ∈ (range (2 ^ (m + 1))).image fun k => 2 * k + 1 := by
      rw [Finset.mem_image]
      have : r.n = 2 ^ (m + 1) := hr.deg
      exact ⟨y / 2, Finset.mem_range.2 (by omega), by omega⟩
    rw [← heq, Finset.mem_image] at hmem
    obtain ⟨t, ht, h⟩ := hmem
    exact ⟨t, Finset.mem_range.1 ht, h⟩

end FastKsw.Props
