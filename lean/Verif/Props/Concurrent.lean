import Verif.Lemmas.ThreadEncrypt

/-!
# C98: shallow copies of encryptors and decryptors can be used concurrently
-/

namespace FastKsw.Props

open FastKsw

/-! ## Threads in general -/

section General
variable {ι L V α : Type} [DecidableEq ι]

/-- If no thread writes what another one uses, then under every schedule a finished thread has returned what it returns when it runs
alone, and the memory it uses holds what it then holds.  No other thread has to be finished. -/
theorem C98_noninterference {R W : ι → Set L} {T : ι → Thread L V α} (hT : ∀ i, (T i).Within (R i) (W i)) (hsep : Separate R W)
    (s : L → V) (sched : List ι) (i : ι) (a : α) (hi : (runSched sched (T, s)).1 i = .ret a) :
    a = ((T i).run s).1 ∧ AgreeOn (R i ∪ W i) (runSched sched (T, s)).2 ((T i).run s).2 := by
  have h0 : OnTrack R W T s (T, s) := fun j => ⟨hT j, rfl, AgreeOn.refl _ _⟩
  have h := h0.runSched hsep sched i
  rw [hi] at h
  exact h.2

/-- the memory that no thread writes is unchanged -/
theorem C98_frame {R W : ι → Set L} {T : ι → Thread L V α} (hT : ∀ i, (T i).Within (R i) (W i)) (s : L → V) (sched : List ι)
    (y : L) (hy : ∀ i, y ∉ W i) : (runSched sched (T, s)).2 y = s y := by
  induction sched generalizing T s with
  | nil => rfl
  | cons i is ih =>
    show (runSched is (schedStep i (T, s))).2 y = s y
    have hTi := hT i
    cases hxi : T i with
    | ret a =>
      have : schedStep i (T, s) = (T, s) := by
        unfold schedStep
        dsimp only
        rw [hxi]
      rw [this]
      exact ih hT s
    | act u k =>
      rw [hxi] at hTi
      have : schedStep i (T, s) = (fun j => if j = i then k s else T j, u s) := by
        unfold schedStep
        dsimp only
        rw [hxi]
      rw [this, ih (fun j => ?_) (u s), hTi.1 s y (hy i)]
      split
      · subst_vars
        exact hTi.2.2 s
      · exact hT j

/-- every thread ends if it gets enough steps, whatever the others have done before -/
theorem C98_progress (x : (ι → Thread L V α) × (L → V)) (i : ι) : ∃ n, ((runSched (List.replicate n i) x).1 i).Done := by
  obtain ⟨T, s⟩ := x
  generalize hp : T i = p
  induction p generalizing T s with
  | ret a =>
    refine ⟨0, ?_⟩
    show (T i).Done
    rw [hp]
    trivial
  | act u k ih =>
    have : schedStep i (T, s) = (fun j => if j = i then k s else T j, u s) := by
      unfold schedStep
      dsimp only
      rw [hp]
    obtain ⟨n, hn⟩ := ih s (fun j => if j = i then k s else T j) (u s) (if_pos rfl)
    refine ⟨n + 1, ?_⟩
    rw [List.replicate_succ]
    show ((runSched (List.replicate n i) (schedStep i (T, s))).1 i).Done
    rw [this]
    exact hn

end General

/-! ## Decryption -/

variable {σ : Type}

theorem getD_mem {ct : List ℕ} {A : Set ℕ} (hc : ∀ a ∈ ct, a ∈ A) {i : ℕ} (hi : i < ct.length) : ct.getD i 0 ∈ A := by
  have : ct.getD i 0 = ct[i] := by simp [List.getD, hi]
  rw [this]
  exact hc _ (List.getElem_mem hi)

theorem within_bind {α β : Type} {R W : Set ℕ} {p : Proc σ α} {f : α → Proc σ β} (h : p.Within R W) (hf : ∀ a, (f a).Within R W) :
    (p >>= f).Within R W := Thread.Within.bind h hf

theorem within_pure {α : Type} {R W : Set ℕ} (a : α) : (pure a : Proc σ α).Within R W := trivial

/-- checks what the ring operations in a short program read and write -/
local macro "within_ops" : tactic => `(tactic|
  repeat' first
    | with_reducible refine within_bind ?_ fun _ => ?_
    | with_reducible exact within_ringCall (by assumption) fun s s' h => by simp only [h.rows, *]
    | with_reducible exact within_sample (by assumption) _ _)

theorem within_modDown (e : Encryptor) {R W : Set ℕ} (h1 : e.beQ ∈ W) {q p : ℕ} (hq : q ∈ W) (hp : p ∈ R ∪ W) (levelQ levelP : ℕ) :
    (e.modDown (σ := σ) levelQ levelP q p).Within R W := by
  have hq' : q ∈ R ∪ W := Or.inr hq
  have h1' : e.beQ ∈ R ∪ W := Or.inr h1
  unfold Encryptor.modDown
  within_ops

theorem within_readRows {rnd : ℕ} {f : σ → (ℕ → Row) × σ} {level out : ℕ} {R W : Set ℕ} (h : rnd ∈ W) (ho : out ∈ W) :
    (readRows rnd f level out).Within R W := by
  have ho' : out ∈ R ∪ W := Or.inr ho
  unfold readRows
  within_ops

theorem within_readGauss {r : Ring} {rnd : ℕ} {f : σ → List (UInt64 × Bool) × σ} {level out : ℕ} {R W : Set ℕ} (h : rnd ∈ W)
    (ho : out ∈ W) : (readGauss r rnd f level out).Within R W := by
  have ho' : out ∈ R ∪ W := Or.inr ho
  unfold readGauss
  within_ops

theorem within_readAddGauss {r : Ring} {rnd : ℕ} {f : σ → List (UInt64 × Bool) × σ} {level out : ℕ} {R W : Set ℕ} (h : rnd ∈ W)
    (ho : out ∈ W) : (readAddGauss r rnd f level out).Within R W := by
  have ho' : out ∈ R ∪ W := Or.inr ho
  unfold readAddGauss
  within_ops

/-- goes through the statements of a program and checks what each of them reads and writes -/
local macro "within_go" : tactic => `(tactic|
  repeat' first
    | with_reducible refine within_bind ?_ fun _ => ?_
    | with_reducible exact within_ringCall (by assumption) fun s s' h => by simp only [h.rows, *]
    | with_reducible exact within_rd fun s s' h => by simp only [h.poly, *]
    | with_reducible exact within_pure _
    | with_reducible exact within_setNTT (by assumption) _
    | with_reducible exact within_truncate (by assumption) _
    | with_reducible exact within_readRows (by assumption) (by assumption)
    | with_reducible exact within_readGauss (by assumption) (by assumption)
    | with_reducible exact within_readAddGauss (by assumption) (by assumption)
    | with_reducible exact within_modDown _ (by assumption) (by assumption) (by assumption) _ _
    | with_reducible assumption
    | split
    | dsimp only)

theorem within_loop (d : Decryptor) {ct : List ℕ} {pt : ℕ} {R W : Set ℕ} (hp : d.pool ∈ W) (hpt : pt ∈ W)
    (hsk : d.sk ∈ R ∪ W) (hc : ∀ a ∈ ct, a ∈ R ∪ W) (level : ℕ) :
    ∀ i, i < ct.length → (d.loop (σ := σ) level (ct.getD 0 0) ct pt i).Within R W
  | 0, _ => trivial
  | i + 1, hi => by
    have hc0 : ct.getD 0 0 ∈ R ∪ W := getD_mem hc (by omega)
    have hci : ct.getD i 0 ∈ R ∪ W := getD_mem hc (by omega)
    have hpt' : pt ∈ R ∪ W := Or.inr hpt
    have hp' : d.pool ∈ R ∪ W := Or.inr hp
    have ih := within_loop d hp hpt hsk hc level i (by omega)
    unfold Decryptor.loop
    within_go

/-- what `Decrypt` reads and writes: it writes its buffer and the plaintext, and reads the key and the ciphertext -/
theorem C98_decrypt_within (d : Decryptor) {ct : List ℕ} (hct : ct ≠ []) {pt : ℕ} {R W : Set ℕ} (hp : d.pool ∈ W) (hpt : pt ∈ W)
    (hsk : d.sk ∈ R ∪ W) (hc : ∀ a ∈ ct, a ∈ R ∪ W) : (d.decrypt (σ := σ) ct pt).Within R W := by
  have hpos := List.length_pos_iff.2 hct
  have hc0 : ct.getD 0 0 ∈ R ∪ W := getD_mem hc hpos
  have hcd : ct.getD (ct.length - 1) 0 ∈ R ∪ W := getD_mem hc (by omega)
  have hpt' : pt ∈ R ∪ W := Or.inr hpt
  have hp' : d.pool ∈ R ∪ W := Or.inr hp
  have hl := fun level => within_loop (σ := σ) d hp hpt hsk hc level (ct.length - 1) (by omega)
  unfold Decryptor.decrypt
  refine Thread.Within.bind (within_rd fun s s' h => by simp only [h.poly, *]) fun level => ?_
  have hl := hl level
  within_go

/-! ## What `Decrypt` computes, for any contents of its buffer -/

theorem length_nttLazyLvl (r : Ring) (level : ℕ) (p1 p2 : Rows) : (r.nttLazyLvl level p1 p2).length = p2.length := length_writeLvl ..

theorem length_mulLvl (r : Ring) (level : ℕ) (p1 p2 p3 : Rows) : (r.mulCoeffsMontgomeryLvl level p1 p2 p3).length = p3.length :=
  length_writeLvl ..

/-- the buffer's rows above the level and its old contents do not matter -/
theorem addLvl_pool {r : Ring} {level : ℕ} {x acc p p' : Rows} (hp : acc.length ≤ p.length) (hp' : acc.length ≤ p'.length) :
    r.addLvl level acc (r.nttLazyLvl level x p) acc = r.addLvl level acc (r.nttLazyLvl level x p') acc := by
  refine writeLvl_congr_lt fun i hi hl => ?_
  have h1 : (r.nttLazyLvl level x p).row i = (r.nttLazyLvl level x p').row i := by
    unfold Ring.nttLazyLvl writeLvl
    rw [row_mapIdx _ _ _ (by omega), row_mapIdx _ _ _ (by omega), if_pos hi, if_pos hi]
  rw [h1]

theorem run_loop (d : Decryptor) {ct : List ℕ} {pt c0 : ℕ} (h1 : d.pool ≠ pt) (h2 : d.sk ≠ pt) (h3 : d.sk ≠ d.pool)
    (hpt : pt ∉ ct) (hpool : d.pool ∉ ct) (hc0 : c0 ∈ ct) (level : ℕ) :
    ∀ (i : ℕ) (_ : i < ct.length) (f : ℕ → Rows) (s : Store σ) (_ : ∀ j < i, f j = s.rows (ct.getD j 0))
      (_ : (s.rows d.pool).length = d.ringQ.subs.length) (_ : (s.rows pt).length ≤ d.ringQ.subs.length),
      (after (d.loop level c0 ct pt i) s).rows pt = decryptLoop d.ringQ level (s.rows d.sk) (s.poly c0).isNTT f i (s.rows pt) ∧
      ((after (d.loop level c0 ct pt i) s).poly pt).isNTT = (s.poly pt).isNTT ∧
      ((after (d.loop level c0 ct pt i) s).rows d.pool).length = d.ringQ.subs.length
  | 0, _, f, s, _, hl, hl2 => ⟨rfl, rfl, hl⟩
  | i + 1, hi, f, s, hf, hl, hl2 => by
    have hmem : ct.getD i 0 ∈ ct := by
      have : ct.getD i 0 = ct[i]'(by omega) := by simp [List.getD, show i < ct.length by omega]
      rw [this]
      exact List.getElem_mem _
    have e1 : c0 ≠ pt := fun e => hpt (e ▸ hc0)
    have e2 : c0 ≠ d.pool := fun e => hpool (e ▸ hc0)
    have e3 : ct.getD i 0 ≠ pt := fun e => hpt (e ▸ hmem)
    have e4 : ct.getD i 0 ≠ d.pool := fun e => hpool (e ▸ hmem)
    have hfi := hf i (by omega)
    -- what is left after the step
    have key : ∀ t : Store σ, t.rows d.sk = s.rows d.sk → (t.poly c0).isNTT = (s.poly c0).isNTT →
        (∀ j < i, t.rows (ct.getD j 0) = s.rows (ct.getD j 0)) → (t.rows d.pool).length = d.ringQ.subs.length →
        (t.poly pt).isNTT = (s.poly pt).isNTT → ∀ acc, t.rows pt = acc → acc.length ≤ d.ringQ.subs.length →
        (after (d.loop level c0 ct pt i) t).rows pt = decryptLoop d.ringQ level (s.rows d.sk) (s.poly c0).isNTT f i acc ∧
        ((after (d.loop level c0 ct pt i) t).poly pt).isNTT = (s.poly pt).isNTT ∧
        ((after (d.loop level c0 ct pt i) t).rows d.pool).length = d.ringQ.subs.length := by
      intro t t1 t2 t3 t4 t5 acc t6 t7
      have := run_loop d h1 h2 h3 hpt hpool hc0 level i (by omega) f t (fun j hj => (hf j (by omega)).trans (t3 j hj).symm) t4
        (by rw [t6]; exact t7)
      rw [t1, t2, t5, t6] at this
      exact this
    have hother : ∀ j < i, ct.getD j 0 ≠ pt ∧ ct.getD j 0 ≠ d.pool := by
      intro j hj
      have hm : ct.getD j 0 ∈ ct := by
        have : ct.getD j 0 = ct[j]'(by omega) := by simp [List.getD, show j < ct.length by omega]
        rw [this]
        exact List.getElem_mem _
      exact ⟨fun e => hpt (e ▸ hm), fun e => hpool (e ▸ hm)⟩
    unfold Decryptor.loop decryptLoop
    dsimp only
    rw [after_call _ (rw_mul ..), after_rd, Store.isNTT_setRows]
    cases hb : (s.poly c0).isNTT
    · simp only [Bool.not_false, if_true]
      rw [after_call _ (rw_nttLazy ..), after_call _ (rw_add ..)]
      rw [hb] at key
      have hacc : d.ringQ.addLvl level (d.ringQ.mulCoeffsMontgomeryLvl level (s.rows pt) (s.rows d.sk) (s.rows pt))
          (d.ringQ.nttLazyLvl level (s.rows (ct.getD i 0)) (s.rows d.pool))
          (d.ringQ.mulCoeffsMontgomeryLvl level (s.rows pt) (s.rows d.sk) (s.rows pt)) =
          d.ringQ.addLvl level (d.ringQ.mulCoeffsMontgomeryLvl level (s.rows pt) (s.rows d.sk) (s.rows pt))
          (d.ringQ.nttLazyLvl level (f i) (newPoly d.ringQ.n d.ringQ.subs.length))
          (d.ringQ.mulCoeffsMontgomeryLvl level (s.rows pt) (s.rows d.sk) (s.rows pt)) := by
        rw [hfi]
        exact addLvl_pool (by rw [length_mulLvl, hl]; exact hl2) (by rw [length_mulLvl, newPoly, List.length_replicate]; exact hl2)
      split
      · rw [after_call _ (rw_reduce ..)]
        refine key _ ?_ ?_ (fun j hj => ?_) ?_ ?_ _ ?_ ?_
        · simp only [Store.rows_setRows_ne _ _ h2, Store.rows_setRows_ne _ _ h3]
        · simp only [Store.isNTT_setRows, hb]
        · simp only [Store.rows_setRows_ne _ _ (hother j hj).1, Store.rows_setRows_ne _ _ (hother j hj).2]
        · simp only [Store.rows_setRows_ne _ _ h1, Store.rows_setRows_self, length_nttLazyLvl, hl]
        · simp only [Store.isNTT_setRows]
        · simp only [Store.rows_setRows_ne _ _ h1, Store.rows_setRows_ne _ _ h1.symm, Store.rows_setRows_self, Store.rows_setRows_ne _ _ e3, hacc]
        · simp only [Ring.reduceLvl, Ring.addLvl, Ring.mulCoeffsMontgomeryLvl, length_writeLvl]
          exact hl2
      · refine key _ ?_ ?_ (fun j hj => ?_) ?_ ?_ _ ?_ ?_
        · simp only [Store.rows_setRows_ne _ _ h2, Store.rows_setRows_ne _ _ h3]
        · simp only [Store.isNTT_setRows, hb]
        · simp only [Store.rows_setRows_ne _ _ (hother j hj).1, Store.rows_setRows_ne _ _ (hother j hj).2]
        · simp only [Store.rows_setRows_ne _ _ h1, Store.rows_setRows_self, length_nttLazyLvl, hl]
        · simp only [Store.isNTT_setRows]
        · simp only [Store.rows_setRows_ne _ _ h1, Store.rows_setRows_ne _ _ h1.symm, Store.rows_setRows_self, Store.rows_setRows_ne _ _ e3, hacc]
        · simp only [Ring.addLvl, Ring.mulCoeffsMontgomeryLvl, length_writeLvl]
          exact hl2
    · simp only [Bool.not_true, Bool.false_eq_true, if_false]
      rw [after_call _ (rw_add ..)]
      rw [hb] at key
      split
      · rw [after_call _ (rw_reduce ..)]
        refine key _ ?_ ?_ (fun j hj => ?_) ?_ ?_ _ ?_ ?_
        · simp only [Store.rows_setRows_ne _ _ h2]
        · simp only [Store.isNTT_setRows, hb]
        · simp only [Store.rows_setRows_ne _ _ (hother j hj).1]
        · simp only [Store.rows_setRows_ne _ _ h1, hl]
        · simp only [Store.isNTT_setRows]
        · simp only [Store.rows_setRows_self, Store.rows_setRows_ne _ _ e3, hfi]
        · simp only [Ring.reduceLvl, Ring.addLvl, Ring.mulCoeffsMontgomeryLvl, length_writeLvl]
          exact hl2
      · refine key _ ?_ ?_ (fun j hj => ?_) ?_ ?_ _ ?_ ?_
        · simp only [Store.rows_setRows_ne _ _ h2]
        · simp only [Store.isNTT_setRows, hb]
        · simp only [Store.rows_setRows_ne _ _ (hother j hj).1]
        · simp only [Store.rows_setRows_ne _ _ h1, hl]
        · simp only [Store.isNTT_setRows]
        · simp only [Store.rows_setRows_self, Store.rows_setRows_ne _ _ e3, hfi]
        · simp only [Ring.addLvl, Ring.mulCoeffsMontgomeryLvl, length_writeLvl]
          exact hl2

theorem getD_map_poly {s : Store σ} {ct : List ℕ} {i : ℕ} (hi : i < ct.length) :
    (ct.map s.poly).getD i default = s.poly (ct.getD i 0) := by
  simp [List.getD, hi]

/-- `Decrypt` alone: whatever the buffer holds, the plaintext becomes that of the functional model (`Encrypt.lean`, C51), so a
decryptor can be used again and again. -/
theorem C98_decrypt (d : Decryptor) {ct : List ℕ} (hct : ct ≠ []) {pt : ℕ} (h1 : d.pool ≠ pt) (h2 : d.sk ≠ pt) (h3 : d.sk ≠ d.pool)
    (hpt : pt ∉ ct) (hpool : d.pool ∉ ct) (s : Store σ) (hl : (s.rows d.pool).length = d.ringQ.subs.length)
    (hl2 : (s.rows pt).length ≤ d.ringQ.subs.length) :
    (after (d.decrypt ct pt) s).poly pt = decrypt d.ringQ (s.rows d.sk) (ct.map s.poly) (s.poly pt) ∧
      ((after (d.decrypt ct pt) s).rows d.pool).length = d.ringQ.subs.length := by
  have hpos := List.length_pos_iff.2 hct
  have hm : ∀ i < ct.length, ct.getD i 0 ∈ ct := fun i hi => by
    have : ct.getD i 0 = ct[i] := by simp [List.getD, hi]
    rw [this]
    exact List.getElem_mem _
  have hm0 := hm 0 hpos
  have hmd := hm (ct.length - 1) (by omega)
  have e1 : ct.getD 0 0 ≠ pt := fun e => hpt (e ▸ hm0)
  have e3 : ct.getD (ct.length - 1) 0 ≠ pt := fun e => hpt (e ▸ hmd)
  have hp0 : ct.getD 0 0 ≠ d.pool := fun e => hpool (e ▸ hm0)
  -- the statements from the loop on
  have tail : ∀ (level : ℕ) (acc : Rows) (b : Bool) (t : Store σ), acc.length ≤ d.ringQ.subs.length → t.rows pt = acc →
      (t.poly pt).isNTT = (s.poly pt).isNTT → (t.poly (ct.getD 0 0)).isNTT = b → t.rows d.sk = s.rows d.sk →
      (t.rows d.pool).length = d.ringQ.subs.length → (∀ i < ct.length, t.rows (ct.getD i 0) = s.rows (ct.getD i 0)) →
      ∀ p : Proc σ Unit, p = (do
        d.loop level (ct.getD 0 0) ct pt (ct.length - 1)
        if (ct.length - 1) % 8 ≠ 7 then
          ringCall level pt fun s => d.ringQ.reduceLvl level (s.rows pt) (s.rows pt)
        let ptNTT ← rd fun s => (s.poly pt).isNTT
        if !ptNTT then
          ringCall level pt fun s => d.ringQ.invNttLvl level (s.rows pt) (s.rows pt)) →
      (after p t).poly pt =
        (let acc := decryptLoop d.ringQ level (s.rows d.sk) b (fun i => ((ct.map s.poly).getD i default).coeffs) (ct.length - 1) acc
        let acc := if (ct.length - 1) % 8 ≠ 7 then d.ringQ.reduceLvl level acc acc else acc
        let acc := if !(s.poly pt).isNTT then d.ringQ.invNttLvl level acc acc else acc
        ⟨acc, (s.poly pt).isNTT⟩) ∧ ((after p t).rows d.pool).length = d.ringQ.subs.length := by
    intro level acc b t ha t1 t2 t3 t4 t5 t6 p hp
    have hloop := run_loop d h1 h2 h3 hpt hpool hm0 level (ct.length - 1) (by omega)
      (fun i => ((ct.map s.poly).getD i default).coeffs) t
      (fun j hj => by rw [getD_map_poly (by omega), t6 j (by omega)]; rfl) t5 (by rw [t1]; exact ha)
    rw [t1, t2, t3, t4] at hloop
    rw [hp, after_bind]
    generalize after (d.loop level (ct.getD 0 0) ct pt (ct.length - 1)) t = t' at hloop
    obtain ⟨g1, g2, g3⟩ := hloop
    have fin : ∀ (acc : Rows) (t : Store σ), t.rows pt = acc → (t.poly pt).isNTT = (s.poly pt).isNTT →
        (t.rows d.pool).length = d.ringQ.subs.length →
        (after (do
          let ptNTT ← rd fun s => (s.poly pt).isNTT
          if !ptNTT then
            ringCall level pt fun s => d.ringQ.invNttLvl level (s.rows pt) (s.rows pt)) t).poly pt =
          ⟨if !(s.poly pt).isNTT then d.ringQ.invNttLvl level acc acc else acc, (s.poly pt).isNTT⟩ ∧
        ((after (do
          let ptNTT ← rd fun s => (s.poly pt).isNTT
          if !ptNTT then
            ringCall level pt fun s => d.ringQ.invNttLvl level (s.rows pt) (s.rows pt)) t).rows d.pool).length =
          d.ringQ.subs.length := by
      intro acc t u1 u2 u3
      rw [after_rd, u2]
      split
      · rw [after_ringCall _ (rw_invNtt ..), Store.poly_setRows_self, u1, u2, Store.rows_setRows_ne _ _ h1]
        exact ⟨rfl, u3⟩
      · rw [after_pure]
        refine ⟨?_, u3⟩
        rw [← u1, ← u2]
        rfl
    generalize decryptLoop d.ringQ level (s.rows d.sk) b (fun i => ((ct.map s.poly).getD i default).coeffs) (ct.length - 1) acc =
      acc' at g1
    by_cases h7 : (ct.length - 1) % 8 ≠ 7
    · dsimp only
      rw [if_pos h7, if_pos h7, after_call _ (rw_reduce ..), g1]
      exact fin _ _ (Store.rows_setRows_self ..) ((Store.isNTT_setRows ..).trans g2) (by rw [Store.rows_setRows_ne _ _ h1, g3])
    · dsimp only
      rw [if_neg h7, if_neg h7]
      exact fin _ _ g1 g2 g3
  unfold Decryptor.decrypt decrypt
  dsimp only
  rw [List.length_map, getD_map_poly hpos, getD_map_poly (i := ct.length - 1) (by omega)]
  rw [after_rd, after_truncate, after_rd]
  generalize hlev : min (s.poly (ct.getD 0 0)).level (s.poly pt).level = level
  rw [Store.poly_set_ne _ _ e1]
  have hlen : ((s.poly pt).coeffs.take (level + 1)).length ≤ d.ringQ.subs.length := by
    rw [List.length_take]
    exact (Nat.min_le_right _ _).trans hl2
  have go : ∀ acc : Rows, acc.length = ((s.poly pt).coeffs.take (level + 1)).length →
      ∀ t, t = (s.set pt (.poly ((s.poly pt).trunc level))).setRows pt acc → ∀ p : Proc σ Unit, _ := fun acc hacc t ht p hp =>
    tail level acc (s.poly (ct.getD 0 0)).isNTT t (hacc ▸ hlen) (by rw [ht, Store.rows_setRows_self])
      (by rw [ht, Store.isNTT_setRows, Store.poly_set_self]; rfl)
      (by rw [ht, Store.isNTT_setRows, Store.poly_set_ne _ _ e1])
      (by rw [ht, Store.rows_setRows_ne _ _ h2, Store.rows_set_ne _ _ h2])
      (by rw [ht, Store.rows_setRows_ne _ _ h1, Store.rows_set_ne _ _ h1, hl])
      (fun i hi => by
        have e : ct.getD i 0 ≠ pt := fun e => hpt (e ▸ hm i hi)
        rw [ht, Store.rows_setRows_ne _ _ e, Store.rows_set_ne _ _ e]) p hp
  have r1 : (s.set pt (.poly ((s.poly pt).trunc level))).rows (ct.getD (ct.length - 1) 0) =
      (s.poly (ct.getD (ct.length - 1) 0)).coeffs := Store.rows_set_ne _ _ e3
  have r2 : (s.set pt (.poly ((s.poly pt).trunc level))).rows pt = (s.poly pt).coeffs.take (level + 1) := by
    unfold Store.rows
    rw [Store.poly_set_self]
    rfl
  by_cases hN : (s.poly (ct.getD 0 0)).isNTT = true
  · rw [if_pos hN, if_pos hN, after_call _ (rw_copy ..), r1, r2]
    exact go _ (length_writeLvl ..) _ rfl _ rfl
  · rw [if_neg hN, if_neg hN, after_call _ (rw_nttLazy ..), r1, r2]
    exact go _ (length_nttLazyLvl ..) _ rfl _ rfl

/-! ## Encryption -/

/-- what `Encrypt` reads and writes: it writes the encryptor's buffers, the state of its generator and the ciphertext, and reads the
key and the plaintext -/
theorem C98_encrypt_within (S : Samplers σ) (e : Encryptor) (key : EncKey) {pt c0 c1 : ℕ} {R W : Set ℕ} (he : ∀ a ∈ e.own, a ∈ W)
    (h0 : c0 ∈ W) (h1 : c1 ∈ W) (hk : ∀ a ∈ key.cells, a ∈ R ∪ W) (hpt : pt ∈ R ∪ W) : (e.encrypt S key pt c0 c1).Within R W := by
  have w1 : e.rnd ∈ W := he _ (by simp [Encryptor.own])
  have w2 : e.poolQ ∈ W := he _ (by simp [Encryptor.own])
  have w3 : e.poolP0 ∈ W := he _ (by simp [Encryptor.own])
  have w4 : e.poolP1 ∈ W := he _ (by simp [Encryptor.own])
  have w5 : e.poolP2 ∈ W := he _ (by simp [Encryptor.own])
  have w6 : e.beQ ∈ W := he _ (by simp [Encryptor.own])
  have v1 : e.rnd ∈ R ∪ W := Or.inr w1
  have v2 : e.poolQ ∈ R ∪ W := Or.inr w2
  have v3 : e.poolP0 ∈ R ∪ W := Or.inr w3
  have v4 : e.poolP1 ∈ R ∪ W := Or.inr w4
  have v5 : e.poolP2 ∈ R ∪ W := Or.inr w5
  have v6 : e.beQ ∈ R ∪ W := Or.inr w6
  have v7 : c0 ∈ R ∪ W := Or.inr h0
  have v8 : c1 ∈ R ∪ W := Or.inr h1
  unfold Encryptor.encrypt
  refine Thread.Within.bind (within_rd fun s s' h => by simp only [h.poly, *]) fun level => ?_
  refine Thread.Within.bind (within_readRows w1 h1) fun _ => ?_
  cases key with
  | pk k =>
    have k1 : k.q0 ∈ R ∪ W := hk _ (by simp [EncKey.cells])
    have k2 : k.p0 ∈ R ∪ W := hk _ (by simp [EncKey.cells])
    have k3 : k.q1 ∈ R ∪ W := hk _ (by simp [EncKey.cells])
    have k4 : k.p1 ∈ R ∪ W := hk _ (by simp [EncKey.cells])
    dsimp only
    clear hk he
    split
    · unfold Encryptor.pkEncrypt truncateBoth
      within_go
    · unfold Encryptor.pkEncryptNoP truncateBoth
      within_go
  | sk k =>
    have k1 : k ∈ R ∪ W := hk _ (by simp [EncKey.cells])
    dsimp only
    unfold Encryptor.skEncrypt truncateBoth
    clear hk he
    within_go

theorem C98_encryptFromCRP_within (S : Samplers σ) (e : Encryptor) {sk pt crp c0 c1 : ℕ} {R W : Set ℕ} (he : ∀ a ∈ e.own, a ∈ W)
    (h0 : c0 ∈ W) (h1 : c1 ∈ W) (hk : sk ∈ R ∪ W) (hpt : pt ∈ R ∪ W) (hcrp : crp ∈ R ∪ W) :
    (e.encryptFromCRP S sk pt crp c0 c1).Within R W := by
  have w1 : e.rnd ∈ W := he _ (by simp [Encryptor.own])
  have w2 : e.poolQ ∈ W := he _ (by simp [Encryptor.own])
  have v1 : e.rnd ∈ R ∪ W := Or.inr w1
  have v2 : e.poolQ ∈ R ∪ W := Or.inr w2
  have v7 : c0 ∈ R ∪ W := Or.inr h0
  have v8 : c1 ∈ R ∪ W := Or.inr h1
  clear he
  unfold Encryptor.encryptFromCRP Encryptor.skEncrypt truncateBoth
  within_go

/-- `Encrypt` alone: whatever the buffers hold, the ciphertext is that of the functional models (`Encrypt.lean`, C50 and C52), the
generator goes on, the buffers keep their lengths and nothing else changes -/
theorem C98_encrypt (S : Samplers σ) {e : Encryptor} {c0 c1 : ℕ} (hs : EncSep e c0 c1) {key : EncKey} {pt : ℕ}
    (hk : ∀ a ∈ key.cells, a ∉ [e.rnd, e.poolQ, c0, c1, e.poolP0, e.poolP1, e.poolP2, e.beQ])
    (hpt : pt ∉ [e.rnd, e.poolQ, c0, c1, e.poolP0, e.poolP1, e.poolP2, e.beQ]) {s : Store σ} {x : σ} (h : EncReady e s x) :
    EncRes e c0 c1 s (after (e.encrypt S key pt c0 c1) s)
      (encryptFn S e.ringQ e.ringP (.of s key) x (s.poly pt) (s.poly c0) (s.poly c1)).1
      (encryptFn S e.ringQ e.ringP (.of s key) x (s.poly pt) (s.poly c0) (s.poly c1)).2 :=
  run_encrypt S hs hk hpt h

/-- `EncryptFromCRP` alone -/
theorem C98_encryptFromCRP (S : Samplers σ) {e : Encryptor} {c0 c1 : ℕ} (hs : EncSep e c0 c1) {sk pt crp : ℕ}
    (hk : sk ∉ [e.rnd, e.poolQ, c0, c1, e.poolP0, e.poolP1, e.poolP2, e.beQ])
    (hpt : pt ∉ [e.rnd, e.poolQ, c0, c1, e.poolP0, e.poolP1, e.poolP2, e.beQ]) {s : Store σ} {x : σ} (h : EncReady e s x) :
    EncRes e c0 c1 s (after (e.encryptFromCRP S sk pt crp c0 c1) s)
      (encryptFromCRPFn S e.ringQ (s.rows sk) x (s.poly pt) (s.poly crp) (s.poly c0) (s.poly c1)).1
      (encryptFromCRPFn S e.ringQ (s.rows sk) x (s.poly pt) (s.poly crp) (s.poly c0) (s.poly c1)).2 :=
  run_encryptFromCRP S hs hk hpt h

/-! ## Objects of a program -/

theorem _root_.FastKsw.EncReady.congr {e : Encryptor} {s s' : Store σ} {x : σ} (h : EncReady e s x) (hs : ∀ a ∈ e.own, s' a = s a) :
    EncReady e s' x := by
  have hr : ∀ a ∈ e.own, s'.rows a = s.rows a := fun a ha => by
    unfold Store.rows Store.poly
    rw [hs a ha]
  exact ⟨by rw [hr _ (by simp [Encryptor.own]), h.q], by rw [hr _ (by simp [Encryptor.own]), h.p0], by rw [hr _ (by simp [Encryptor.own]), h.p1],
    by rw [hr _ (by simp [Encryptor.own]), h.p2], by rw [hr _ (by simp [Encryptor.own]), h.be], by rw [hs _ (by simp [Encryptor.own]), h.rnd]⟩

theorem _root_.FastKsw.Objects.Ready.congr {o : Objects σ} {s s' : Store σ} (h : o.Ready s) (hs : ∀ a ∈ o.cells, s' a = s a) : o.Ready s' := by
  refine ⟨fun e he => ?_, fun d hd => ?_⟩
  · obtain ⟨x, hx⟩ := h.1 e he
    exact ⟨x, hx.congr fun a ha => hs a (List.mem_append_left _ (List.mem_append_right _ (List.mem_flatMap.2 ⟨e, he, ha⟩)))⟩
  · have : s'.rows d.pool = s.rows d.pool := by
      unfold Store.rows Store.poly
      rw [hs _ (List.mem_append_right _ (List.mem_map_of_mem hd))]
    rw [this, h.2 d hd]

/-- a new object with cells from `next` on -/
theorem _root_.FastKsw.Objects.Inv.add {o o' : Objects σ} (h : o.Inv) {new : List ℕ} (hp : (o'.cells).Perm (new ++ o.cells))
    (hn : new.Nodup) (hge : ∀ a ∈ new, o.mem.next ≤ a) (hlt : ∀ a ∈ new, a < o'.mem.next) (hle : o.mem.next ≤ o'.mem.next)
    (hr : o'.Ready o'.mem.store) : o'.Inv := by
  refine ⟨hp.nodup_iff.2 (List.nodup_append.2 ⟨hn, h.nodup, fun a ha b hb e => ?_⟩), fun a ha => ?_, hr⟩
  · have := hge a ha
    have := h.lt b hb
    omega
  · rcases List.mem_append.1 (hp.mem_iff.1 ha) with h1 | h1
    · exact hlt a h1
    · exact (h.lt a h1).trans_le hle

theorem perm_mid (a b c n : List ℕ) : (a ++ (n ++ b) ++ c).Perm (n ++ (a ++ b ++ c)) :=
  List.perm_iff_count.2 fun x => by
    simp only [List.count_append]
    omega

theorem perm_right (a b c n : List ℕ) : (a ++ b ++ (n ++ c)).Perm (n ++ (a ++ b ++ c)) :=
  List.perm_iff_count.2 fun x => by
    simp only [List.count_append]
    omega

theorem newEncryptor_old (m : Alloc σ) (rQ rP : Ring) (seed : σ) {a : ℕ} (ha : a < m.next) :
    (newEncryptor m rQ rP seed).2.store a = m.store a := by
  simp only [newEncryptor, Alloc.newPoly, Alloc.new]
  repeat rw [Store.set_ne _ _ (by omega)]

theorem newEncryptor_ready (m : Alloc σ) (rQ rP : Ring) (seed : σ) :
    EncReady (newEncryptor m rQ rP seed).1 (newEncryptor m rQ rP seed).2.store seed := by
  have hl : ∀ r : Ring, (newPoly r.n r.subs.length).length = r.subs.length := fun r => List.length_replicate
  have hbe : (newEncryptor m rQ rP seed).2.store m.next = .poly ⟨newPoly rQ.n rQ.subs.length, false⟩ := by
    simp only [newEncryptor, Alloc.newPoly, Alloc.new]
    repeat rw [Store.set_ne _ _ (by omega)]
    rw [Store.set_self]
  refine ⟨?_, ?_, ?_, ?_, ?_, ?_⟩
  case refine_5 =>
    show ((newEncryptor m rQ rP seed).2.store.rows m.next).length = rQ.subs.length
    unfold Store.rows Store.poly
    rw [hbe]
    exact hl rQ
  all_goals simp [newEncryptor, Alloc.newPoly, Alloc.new, Store.rows, Store.poly, Store.set, hl]

/-- an encryptor whose cells are seven new ones, filled as `NewPoly` does -/
theorem _root_.FastKsw.Objects.Inv.addEnc {o : Objects σ} (h : o.Inv) (rQ rP : Ring) (seed : σ) :
    (o.addEnc (newEncryptor o.mem rQ rP seed)).Inv := by
  refine h.add (new := (newEncryptor o.mem rQ rP seed).1.own) ?_ ?_ ?_ ?_ ?_ ⟨?_, ?_⟩
  · exact perm_mid ..
  · simp [Encryptor.own, newEncryptor, Alloc.newPoly, Alloc.new]
    omega
  · simp [Encryptor.own, newEncryptor, Alloc.newPoly, Alloc.new]
    omega
  · simp [Encryptor.own, newEncryptor, Alloc.newPoly, Alloc.new, Objects.addEnc]
    omega
  · simp [newEncryptor, Alloc.newPoly, Alloc.new, Objects.addEnc]
    omega
  · intro e he
    rcases List.mem_cons.1 he with rfl | he
    · exact ⟨seed, newEncryptor_ready ..⟩
    · exact (h.ready.congr fun a ha => newEncryptor_old _ rQ rP seed (h.lt a ha)).1 e he
  · exact (h.ready.congr fun a ha => newEncryptor_old _ rQ rP seed (h.lt a ha)).2

theorem _root_.FastKsw.Objects.Inv.addDec {o : Objects σ} (h : o.Inv) (r : Ring) (sk : ℕ) :
    (o.addDec (newDecryptor o.mem r sk)).Inv := by
  have hold : ∀ a < o.mem.next, (newDecryptor o.mem r sk).2.store a = o.mem.store a := fun a ha => Store.set_ne _ _ (by omega)
  refine h.add (new := [o.mem.next]) ?_ (List.nodup_singleton _) ?_ ?_ ?_ ⟨?_, ?_⟩
  · exact perm_right _ _ _ [o.mem.next]
  · simp
  · simp [Objects.addDec, newDecryptor, Alloc.newPoly, Alloc.new]
  · simp [Objects.addDec, newDecryptor, Alloc.newPoly, Alloc.new]
  · exact (h.ready.congr fun a ha => hold a (h.lt a ha)).1
  · intro d hd
    rcases List.mem_cons.1 hd with rfl | hd
    · simp [Objects.addDec, newDecryptor, Alloc.newPoly, Alloc.new, Store.rows, Store.poly, Store.set, newPoly]
    · exact (h.ready.congr fun a ha => hold a (h.lt a ha)).2 d hd

/-- Whatever objects a program creates, copies and re-keys, no two of them share a cell. -/
theorem C98_objects {o : Objects σ} (h : o.Inv) (script : List (Make σ)) : (script.foldl Objects.make o).Inv := by
  induction script generalizing o with
  | nil => exact h
  | cons c cs ih =>
    refine ih ?_
    cases c with
    | poly p =>
      have hold : ∀ a < o.mem.next, (o.mem.new (.poly p)).2.store a = o.mem.store a := fun a ha => Store.set_ne _ _ (by omega)
      refine h.add (new := [o.mem.next]) (List.Perm.refl _) (List.nodup_singleton _) ?_ ?_ ?_
        (h.ready.congr fun a ha => hold a (h.lt a ha))
      · simp
      · simp [Objects.make, Alloc.new]
      · simp [Objects.make, Alloc.new]
    | newEncryptor rQ rP seed => exact h.addEnc rQ rP seed
    | copyEncryptor i seed =>
      unfold Objects.make
      dsimp only
      cases o.encs[i]? with
      | none => exact h
      | some e => exact h.addEnc e.ringQ e.ringP seed
    | newDecryptor r sk => exact h.addDec r sk
    | copyDecryptor i =>
      unfold Objects.make
      dsimp only
      cases o.decs[i]? with
      | none => exact h
      | some d => exact h.addDec d.ringQ d.sk
    | decryptorWithKey i sk =>
      unfold Objects.make
      dsimp only
      cases o.decs[i]? with
      | none => exact h
      | some d => exact h.addDec d.ringQ sk

theorem C98_objects_empty (s : Store σ) (script : List (Make σ)) : (script.foldl Objects.make ⟨⟨s, 0⟩, [], [], []⟩).Inv := by
  refine C98_objects ⟨?_, ?_, ?_, ?_⟩ script
  · exact List.nodup_nil
  · exact fun a ha => absurd ha (List.not_mem_nil)
  · exact fun e he => absurd he (List.not_mem_nil)
  · exact fun d hd => absurd hd (List.not_mem_nil)

/-! ## Calls in different threads -/

/-- the cells of an encryptor or decryptor -/
def objOwn : Encryptor ⊕ Decryptor → List ℕ
  | .inl e => e.own
  | .inr d => [d.pool]

/-- the cells of the object of a call -/
def _root_.FastKsw.Job.own (j : Job) : List ℕ := objOwn j.object

/-- it is one of the objects -/
def _root_.FastKsw.Objects.Has (o : Objects σ) : Encryptor ⊕ Decryptor → Prop
  | .inl e => e ∈ o.encs
  | .inr d => d ∈ o.decs

theorem job_has {o : Objects σ} {s : Store σ} {j : Job} (h : j.Fits o s) : o.Has j.object := by
  cases j with
  | encrypt e key pt c0 c1 => exact h.2.2.2
  | encryptFromCRP e sk pt crp c0 c1 => exact h.2.2.2
  | decrypt d ct pt => exact h.2.2.2.1

/-- what a call writes -/
def _root_.FastKsw.Job.writes (j : Job) : Set ℕ := {a | a ∈ j.own ++ j.outputs}

/-- what it reads -/
def _root_.FastKsw.Job.reads (j : Job) : Set ℕ := {a | a ∈ j.inputs}

theorem own_mem {o : Objects σ} {x : Encryptor ⊕ Decryptor} (h : o.Has x) {a : ℕ} (ha : a ∈ objOwn x) :
    a ∈ o.encs.flatMap Encryptor.own ++ o.decs.map Decryptor.pool := by
  cases x with
  | inl e => exact List.mem_append_left _ (List.mem_flatMap.2 ⟨e, h, ha⟩)
  | inr d =>
    refine List.mem_append_right _ ?_
    rw [show a = d.pool from List.mem_singleton.1 ha]
    exact List.mem_map_of_mem h

/-- the program's polynomials are none of the objects' cells -/
theorem own_polys {o : Objects σ} (ho : o.Inv) {x : Encryptor ⊕ Decryptor} (h : o.Has x) {a : ℕ} (ha : a ∈ objOwn x) : a ∉ o.polys := by
  intro hp
  have := ho.nodup
  unfold Objects.cells at this
  rw [List.append_assoc] at this
  exact (List.nodup_append.1 this).2.2 a hp a (own_mem h ha) rfl

theorem job_own_polys {o : Objects σ} (ho : o.Inv) {s : Store σ} {j : Job} (h : j.Fits o s) {a : ℕ} (ha : a ∈ j.own) : a ∉ o.polys :=
  own_polys ho (job_has h) ha

/-- different objects have different cells -/
theorem own_disjoint {o : Objects σ} (ho : o.Inv) {x y : Encryptor ⊕ Decryptor} (hx : o.Has x) (hy : o.Has y) (hne : x ≠ y) {a : ℕ}
    (ha : a ∈ objOwn x) (ha' : a ∈ objOwn y) : False := by
  have hn := ho.nodup
  unfold Objects.cells at hn
  rw [List.append_assoc] at hn
  have hn := (List.nodup_append.1 hn).2.1
  have hn := List.nodup_append.1 hn
  cases x with
  | inl e =>
    cases y with
    | inl e' =>
      have : Std.Symm (Function.onFun List.Disjoint Encryptor.own) := ⟨fun _ _ h => List.Disjoint.symm h⟩
      exact (List.nodup_flatMap.1 hn.1).2.forall hx hy (fun x => hne (by rw [x])) ha ha'
    | inr d' =>
      rw [List.mem_singleton.1 ha'] at ha
      exact hn.2.2 _ (List.mem_flatMap.2 ⟨e, hx, ha⟩) _ (List.mem_map_of_mem hy) rfl
  | inr d =>
    cases y with
    | inl e' =>
      rw [List.mem_singleton.1 ha] at ha'
      exact hn.2.2 _ (List.mem_flatMap.2 ⟨e', hy, ha'⟩) _ (List.mem_map_of_mem hx) rfl
    | inr d' =>
      exact hne (by rw [List.inj_on_of_nodup_map hn.2.1 hx hy ((List.mem_singleton.1 ha).symm.trans (List.mem_singleton.1 ha'))])

theorem job_within (S : Samplers σ) {o : Objects σ} {s : Store σ} {j : Job} (h : j.Fits o s) :
    (j.thread S).Within j.reads j.writes := by
  have hin : ∀ a ∈ j.inputs, a ∈ j.reads ∪ j.writes := fun a ha => Or.inl ha
  have hout : ∀ a ∈ j.outputs, a ∈ j.writes := fun a ha => List.mem_append_right _ ha
  have hown : ∀ a ∈ j.own, a ∈ j.writes := fun a ha => List.mem_append_left _ ha
  cases j with
  | encrypt e key pt c0 c1 =>
    exact C98_encrypt_within S e key hown (hout _ (by simp [Job.outputs])) (hout _ (by simp [Job.outputs]))
      (fun a ha => hin a (List.mem_cons_of_mem _ ha)) (hin _ (by simp [Job.inputs]))
  | encryptFromCRP e sk pt crp c0 c1 =>
    exact C98_encryptFromCRP_within S e hown (hout _ (by simp [Job.outputs])) (hout _ (by simp [Job.outputs]))
      (hin _ (by simp [Job.inputs])) (hin _ (by simp [Job.inputs])) (hin _ (by simp [Job.inputs]))
  | decrypt d ct pt =>
    exact C98_decrypt_within d h.2.2.2.2.1 (hown _ (by simp [Job.own, objOwn, Job.object])) (hout _ (by simp [Job.outputs]))
      (hin _ (by simp [Job.inputs])) (fun a ha => hin a (List.mem_cons_of_mem _ ha))

/-- the buffers of an object can be used -/
def objReady (s : Store σ) : Encryptor ⊕ Decryptor → Prop
  | .inl e => ∃ x, EncReady e s x
  | .inr d => (s.rows d.pool).length = d.ringQ.subs.length

theorem ready_iff {o : Objects σ} {s : Store σ} : o.Ready s ↔ ∀ x, o.Has x → objReady s x :=
  ⟨fun h x hx => match x with
    | .inl e => h.1 e hx
    | .inr d => h.2 d hx,
  fun h => ⟨fun e he => h (.inl e) he, fun d hd => h (.inr d) hd⟩⟩

theorem objReady.congr {s s' : Store σ} {x : Encryptor ⊕ Decryptor} (h : objReady s x) (hs : ∀ a ∈ objOwn x, s' a = s a) :
    objReady s' x := by
  cases x with
  | inl e =>
    obtain ⟨y, hy⟩ := h
    exact ⟨y, hy.congr hs⟩
  | inr d =>
    have : s'.rows d.pool = s.rows d.pool := by
      unfold Store.rows Store.poly
      rw [hs _ (List.mem_singleton.2 rfl)]
    show (s'.rows d.pool).length = _
    rw [this]
    exact h

/-- the cells of a call are different -/
theorem job_nodup {o : Objects σ} (ho : o.Inv) {s : Store σ} {j : Job} (h : j.Fits o s) :
    (j.own ++ j.outputs).Nodup ∧ ∀ a ∈ j.inputs, a ∉ j.own ++ j.outputs := by
  have hnd : j.own.Nodup := by
    cases j with
    | decrypt d ct pt => exact List.nodup_singleton _
    | encrypt e key pt c0 c1 =>
      have hn := ho.nodup
      unfold Objects.cells at hn
      exact (List.nodup_flatMap.1 (List.nodup_append.1 (List.nodup_append.1 hn).1).2.1).1 e h.2.2.2
    | encryptFromCRP e sk pt crp c0 c1 =>
      have hn := ho.nodup
      unfold Objects.cells at hn
      exact (List.nodup_flatMap.1 (List.nodup_append.1 (List.nodup_append.1 hn).1).2.1).1 e h.2.2.2
  refine ⟨List.nodup_append.2 ⟨hnd, h.2.1, fun a ha b hb e => ?_⟩, fun a ha hw => ?_⟩
  · subst e
    exact job_own_polys ho h ha (h.1 a (List.mem_append_right _ hb))
  · rcases List.mem_append.1 hw with h1 | h1
    · exact job_own_polys ho h h1 (h.1 a (List.mem_append_left _ ha))
    · exact h.2.2.1 a h1 ha

theorem encSep_of {e : Encryptor} {c0 c1 : ℕ} (h : (e.own ++ [c0, c1]).Nodup) : EncSep e c0 c1 := by
  constructor
  simp only [Encryptor.own, List.cons_append, List.nil_append, List.nodup_cons, List.mem_cons, List.not_mem_nil, not_or,
    not_false_eq_true, and_true, or_false, List.nodup_nil] at h ⊢
  tauto

theorem EncRes_ready {e : Encryptor} {c0 c1 : ℕ} {s s' : Store σ} {r : Poly × Poly} {x x' : σ} (hs : EncSep e c0 c1)
    (h : EncReady e s x) (hr : EncRes e c0 c1 s s' r x') : EncReady e s' x' := by
  refine ⟨?_, ?_, ?_, ?_, ?_, hr.rnd⟩
  · rw [hr.len e.poolQ (hs.ne (i := 1) (j := 2) (by omega) (by omega) (by omega)) (hs.ne (i := 1) (j := 3) (by omega) (by omega) (by omega)), h.q]
  · rw [hr.len e.poolP0 (hs.ne (i := 4) (j := 2) (by omega) (by omega) (by omega)) (hs.ne (i := 4) (j := 3) (by omega) (by omega) (by omega)), h.p0]
  · rw [hr.len e.poolP1 (hs.ne (i := 5) (j := 2) (by omega) (by omega) (by omega)) (hs.ne (i := 5) (j := 3) (by omega) (by omega) (by omega)), h.p1]
  · rw [hr.len e.poolP2 (hs.ne (i := 6) (j := 2) (by omega) (by omega) (by omega)) (hs.ne (i := 6) (j := 3) (by omega) (by omega) (by omega)), h.p2]
  · rw [hr.len e.beQ (hs.ne (i := 7) (j := 2) (by omega) (by omega) (by omega)) (hs.ne (i := 7) (j := 3) (by omega) (by omega) (by omega)), h.be]

/-- a call alone: its result, and its object can be used again -/
theorem C98_call (S : Samplers σ) {o : Objects σ} (ho : o.Inv) {s : Store σ} (hr : o.Ready s) {j : Job} (h : j.Fits o s) :
    j.Result S s (after (j.thread S) s) ∧ objReady (after (j.thread S) s) j.object := by
  have hn := job_nodup ho h
  have hrd := ready_iff.1 hr _ (job_has h)
  cases j with
  | encrypt e key pt c0 c1 =>
    obtain ⟨x, hx⟩ := hrd
    have hs : EncSep e c0 c1 := encSep_of hn.1
    have hsub : ∀ a, a ∈ [e.rnd, e.poolQ, c0, c1, e.poolP0, e.poolP1, e.poolP2, e.beQ] → a ∈ e.own ++ [c0, c1] := by
      intro a
      simp only [Encryptor.own, List.mem_append, List.mem_cons, List.not_mem_nil, or_false]
      tauto
    have hres := C98_encrypt S hs (key := key) (pt := pt) (fun a ha hm => hn.2 a (List.mem_cons_of_mem _ ha) (hsub a hm))
      (fun hm => hn.2 pt (by simp [Job.inputs]) (hsub pt hm)) hx
    refine ⟨fun y hy => ?_, ⟨_, EncRes_ready hs hx hres⟩⟩
    obtain rfl : x = y := by
      have := hx.rnd.symm.trans hy
      cases this
      rfl
    exact ⟨Prod.ext hres.v0 hres.v1, hres.rnd⟩
  | encryptFromCRP e sk pt crp c0 c1 =>
    obtain ⟨x, hx⟩ := hrd
    have hs : EncSep e c0 c1 := encSep_of hn.1
    have hsub : ∀ a, a ∈ [e.rnd, e.poolQ, c0, c1, e.poolP0, e.poolP1, e.poolP2, e.beQ] → a ∈ e.own ++ [c0, c1] := by
      intro a
      simp only [Encryptor.own, List.mem_append, List.mem_cons, List.not_mem_nil, or_false]
      tauto
    have hres := C98_encryptFromCRP S hs (sk := sk) (pt := pt) (crp := crp)
      (fun hm => hn.2 sk (by simp [Job.inputs]) (hsub sk hm)) (fun hm => hn.2 pt (by simp [Job.inputs]) (hsub pt hm)) hx
    refine ⟨fun y hy => ?_, ⟨_, EncRes_ready hs hx hres⟩⟩
    obtain rfl : x = y := by
      have := hx.rnd.symm.trans hy
      cases this
      rfl
    exact ⟨Prod.ext hres.v0 hres.v1, hres.rnd⟩
  | decrypt d ct pt =>
    have h1 : d.pool ≠ pt := by
      have := hn.1
      simpa [Job.own, objOwn, Job.object, Job.outputs] using this
    have hni : ∀ a ∈ d.sk :: ct, a ≠ d.pool ∧ a ≠ pt := fun a ha => by
      have := hn.2 a ha
      simpa [Job.own, objOwn, Job.object, Job.outputs] using this
    exact C98_decrypt d h.2.2.2.2.1 h1 (hni _ (List.mem_cons_self ..)).2 (hni _ (List.mem_cons_self ..)).1
      (fun hm => (hni _ (List.mem_cons_of_mem _ hm)).2 rfl) (fun hm => (hni _ (List.mem_cons_of_mem _ hm)).1 rfl) s hrd h.2.2.2.2.2

/-- the calls of different threads: every thread has an object of its own, and its outputs are nothing that another thread uses -/
def Independent {ι : Type} (jobs : ι → Job) : Prop :=
  ∀ i j, i ≠ j → (jobs i).object ≠ (jobs j).object ∧ ∀ a ∈ (jobs i).outputs, a ∉ (jobs j).inputs ++ (jobs j).outputs

theorem separate_of {ι : Type} {jobs : ι → Job} {o : Objects σ} (ho : o.Inv) {s : Store σ} (hf : ∀ i, (jobs i).Fits o s)
    (hi : Independent jobs) : Separate (fun i => (jobs i).reads) (fun i => (jobs i).writes) := by
  refine fun i j hij => Set.disjoint_left.2 fun a ha hb => ?_
  have h1 := hi i j hij
  have h2 := hi j i (Ne.symm hij)
  rcases List.mem_append.1 ha with ha | ha
  · have hp := job_own_polys ho (hf i) ha
    rcases hb with hb | hb
    · exact hp ((hf j).1 a (List.mem_append_left _ hb))
    · rcases List.mem_append.1 hb with hb | hb
      · exact own_disjoint ho (job_has (hf i)) (job_has (hf j)) h1.1 ha hb
      · exact hp ((hf j).1 a (List.mem_append_right _ hb))
  · rcases hb with hb | hb
    · exact h1.2 a ha (List.mem_append_left _ hb)
    · rcases List.mem_append.1 hb with hb | hb
      · exact job_own_polys ho (hf j) hb ((hf i).1 a (List.mem_append_right _ ha))
      · exact h1.2 a ha (List.mem_append_right _ hb)

theorem result_congr (S : Samplers σ) {s s1 s2 : Store σ} {j : Job} (h : AgreeOn (j.reads ∪ j.writes) s1 s2) (hr : j.Result S s s2) :
    j.Result S s s1 := by
  have hout : ∀ a ∈ j.outputs, s1.poly a = s2.poly a := fun a ha => h.poly (Or.inr (List.mem_append_right _ ha))
  have hown : ∀ a ∈ j.own, s1 a = s2 a := fun a ha => h a (Or.inr (List.mem_append_left _ ha))
  cases j with
  | encrypt e key pt c0 c1 =>
    intro x hx
    rw [hout c0 (by simp [Job.outputs]), hout c1 (by simp [Job.outputs]), hown e.rnd (by simp [Job.own, objOwn, Job.object, Encryptor.own])]
    exact hr x hx
  | encryptFromCRP e sk pt crp c0 c1 =>
    intro x hx
    rw [hout c0 (by simp [Job.outputs]), hout c1 (by simp [Job.outputs]), hown e.rnd (by simp [Job.own, objOwn, Job.object, Encryptor.own])]
    exact hr x hx
  | decrypt d ct pt =>
    exact (hout pt (by simp [Job.outputs])).trans hr

/-- C98.  A program creates encryptors and decryptors, by the constructors, by `ShallowCopy` and by `WithKey`, in any order.  Any
number of threads then make calls, every thread with another object; keys, plaintexts and ciphertexts that are only read may be
shared.  However the steps of the threads are interleaved, a call that has ended has left in its outputs what it leaves there when
it runs alone: the ciphertext or the plaintext of the functional models. -/
theorem C98_concurrent {ι : Type} [DecidableEq ι] (S : Samplers σ) {o : Objects σ} (ho : o.Inv) {s : Store σ} (hr : o.Ready s)
    {jobs : ι → Job} (hf : ∀ i, (jobs i).Fits o s) (hi : Independent jobs) (sched : List ι) (i : ι)
    (hd : ((runSched sched (fun i => (jobs i).thread S, s)).1 i).Done) :
    (jobs i).Result S s (runSched sched (fun i => (jobs i).thread S, s)).2 := by
  have hT : ∀ i, ((jobs i).thread S).Within (jobs i).reads (jobs i).writes := fun i => job_within S (hf i)
  obtain ⟨a, ha⟩ : ∃ a, (runSched sched (fun i => (jobs i).thread S, s)).1 i = .ret a := by
    cases h : (runSched sched (fun i => (jobs i).thread S, s)).1 i with
    | ret a => exact ⟨a, rfl⟩
    | act u k =>
      rw [h] at hd
      exact hd.elim
  have := (C98_noninterference hT (separate_of ho hf hi) s sched i a ha).2
  exact result_congr S this (C98_call S ho hr (hf i)).1

/-- When all calls have ended, the objects can be used again, and the polynomials that are no outputs have not changed: the next calls
can begin. -/
theorem C98_concurrent_ready {ι : Type} [DecidableEq ι] (S : Samplers σ) {o : Objects σ} (ho : o.Inv) {s : Store σ} (hr : o.Ready s)
    {jobs : ι → Job} (hf : ∀ i, (jobs i).Fits o s) (hi : Independent jobs) (sched : List ι)
    (hd : ∀ i, ((runSched sched (fun i => (jobs i).thread S, s)).1 i).Done) :
    o.Ready (runSched sched (fun i => (jobs i).thread S, s)).2 ∧
      ∀ a ∈ o.polys, (∀ i, a ∉ (jobs i).outputs) → (runSched sched (fun i => (jobs i).thread S, s)).2 a = s a := by
  have hT : ∀ i, ((jobs i).thread S).Within (jobs i).reads (jobs i).writes := fun i => job_within S (hf i)
  generalize hs' : (runSched sched (fun i => (jobs i).thread S, s)).2 = s'
  have hag : ∀ i, AgreeOn ((jobs i).reads ∪ (jobs i).writes) s' (after ((jobs i).thread S) s) := by
    intro i
    rw [← hs']
    obtain ⟨a, ha⟩ : ∃ a, (runSched sched (fun i => (jobs i).thread S, s)).1 i = .ret a := by
      have := hd i
      cases h : (runSched sched (fun i => (jobs i).thread S, s)).1 i with
      | ret a => exact ⟨a, rfl⟩
      | act u k =>
        rw [h] at this
        exact this.elim
    exact (C98_noninterference hT (separate_of ho hf hi) s sched i a ha).2
  have hfr : ∀ y, (∀ i, y ∉ (jobs i).writes) → s' y = s y := fun y hy => by
    rw [← hs']
    exact C98_frame hT s sched y hy
  refine ⟨ready_iff.2 fun x hx => ?_, fun a ha hno => hfr a fun i hw => ?_⟩
  · by_cases hex : ∃ i, (jobs i).object = x
    · obtain ⟨i, rfl⟩ := hex
      exact (C98_call S ho hr (hf i)).2.congr fun a ha => hag i a (Or.inr (List.mem_append_left _ ha))
    · refine (ready_iff.1 hr x hx).congr fun a ha => hfr a fun i hw => ?_
      rcases List.mem_append.1 hw with hw | hw
      · exact own_disjoint ho (job_has (hf i)) hx (fun e => hex ⟨i, e⟩) hw ha
      · exact own_polys ho hx ha ((hf i).1 a (List.mem_append_right _ hw))
  · rcases List.mem_append.1 hw with hw | hw
    · exact job_own_polys ho (hf i) hw ha
    · exact hno i hw

/-! ## Examples -/

/-- sixteen equal coefficients modulo one prime -/
def crow (a : UInt64) : Rows := [List.replicate 16 a]

/-- a program: a secret key, the components of two ciphertexts, two plaintexts to be written, a ciphertext to be written; a decryptor
and its shallow copy, an encryptor and its shallow copy -/
def exScript (r : Ring) : List (Make Unit) :=
  [.poly ⟨crow 61, true⟩, .poly ⟨crow 1, false⟩, .poly ⟨crow 2, false⟩, .poly ⟨crow 3, false⟩, .poly ⟨crow 4, false⟩,
    .poly ⟨crow 0, false⟩, .poly ⟨crow 0, false⟩, .poly ⟨crow 0, true⟩, .poly ⟨crow 0, true⟩, .newDecryptor r 0, .copyDecryptor 0,
    .newEncryptor r ⟨16, 32, [], [], .standard⟩ (), .copyEncryptor 0 ()]

def exObjects (r : Ring) : Objects Unit := (exScript r).foldl Objects.make ⟨⟨fun _ => .rnd (), 0⟩, [], [], []⟩

/-- samplers that always draw the same -/
def exSamplers : Samplers Unit :=
  ⟨fun _ => (fun _ => List.replicate 16 1, ()), fun _ => (List.replicate 16 (2, false), ()), fun _ => (fun _ => List.replicate 16 5, ())⟩

/-- the hypotheses of `C98_concurrent`: the decryptor, its copy and the copy of the encryptor in three threads that share the key and
a polynomial -/
example (r : Ring) (hr : r.subs.length = 1) : ∃ jobs : Fin 3 → Job, (exObjects r).Inv ∧ (exObjects r).Ready (exObjects r).mem.store ∧
    (∀ i, (jobs i).Fits (exObjects r) (exObjects r).mem.store) ∧ Independent jobs ∧ (∃ d ct pt, jobs 0 = .decrypt d ct pt) ∧
    (∃ d ct pt, jobs 1 = .decrypt d ct pt) ∧ ∃ e k pt c0 c1, jobs 2 = .encrypt e k pt c0 c1 := by
  have hinv : (exObjects r).Inv := C98_objects_empty (fun _ => .rnd ()) (exScript r)
  refine ⟨![.decrypt ⟨r, 9, 0⟩ [1, 2] 5, .decrypt ⟨r, 10, 0⟩ [3, 4] 6,
    .encrypt ⟨r, ⟨16, 32, [], [], .standard⟩, 20, 24, 21, 22, 23, 18, 19⟩ (.sk 0) 1 7 8], hinv, hinv.ready, fun i => ?_, ?_,
    ⟨_, _, _, rfl⟩, ⟨_, _, _, rfl⟩, ⟨_, _, _, _, _, rfl⟩⟩
  · have hp : (exObjects r).polys = [8, 7, 6, 5, 4, 3, 2, 1, 0] := rfl
    match i with
    | 0 => exact ⟨by rw [hp]; simp [Job.inputs, Job.outputs], by simp [Job.outputs],
        by simp [Job.inputs, Job.outputs], List.mem_cons_of_mem _ (List.mem_singleton.2 rfl), by decide, hr.ge⟩
    | 1 => exact ⟨by rw [hp]; simp [Job.inputs, Job.outputs], by simp [Job.outputs],
        by simp [Job.inputs, Job.outputs], List.mem_cons_self .., by decide, hr.ge⟩
    | 2 => exact ⟨by rw [hp]; simp [Job.inputs, Job.outputs, EncKey.cells], by simp [Job.outputs],
        by simp [Job.inputs, Job.outputs, EncKey.cells], List.mem_cons_self ..⟩
  · intro i j hij
    fin_cases i <;> fin_cases j <;> simp [Job.object, Job.outputs, Job.inputs, EncKey.cells] at hij ⊢

/-- the schedule of the refutation: the first thread is interrupted after it has transformed the second component of its ciphertext -/
def exSched : List (Fin 2) := List.replicate 10 0 ++ List.replicate 30 1 ++ List.replicate 30 0

/-- two decryptions with the same decryptor -/
def exShared (r : Ring) : Fin 2 → Job := ![.decrypt ⟨r, 9, 0⟩ [1, 2] 5, .decrypt ⟨r, 9, 0⟩ [3, 4] 6]

def isRet {L V α : Type} : Thread L V α → Bool
  | .ret _ => true
  | .act _ _ => false

theorem isRet.done {L V α : Type} {p : Thread L V α} (h : isRet p = true) : p.Done := by
  cases p with
  | ret a => trivial
  | act u k => cases h

set_option maxRecDepth 1000000 in
theorem exShared_run : (match newRing 100 16 [97] with
    | .ok r =>
      let x := runSched exSched (fun i => (exShared r i).thread exSamplers, (exObjects r).mem.store)
      decide (r.subs.length = 1) && isRet (x.1 0) && isRet (x.1 1) &&
        decide ((Store.poly x.2 5).coeffs ≠ (decrypt r (crow 61) [⟨crow 1, false⟩, ⟨crow 2, false⟩] ⟨crow 0, false⟩).coeffs)
    | .error _ => false) = true := by decide +kernel

/-- Without a shallow copy the statement is false: two threads decrypt with the same decryptor and use nothing else together but the
key.  Both calls end, and the plaintext of the first one is wrong: the second one has written the buffer in between. -/
theorem C98_shared_refuted : ∃ (o : Objects Unit) (jobs : Fin 2 → Job) (sched : List (Fin 2)), o.Inv ∧ o.Ready o.mem.store ∧
    (∀ i, (jobs i).Fits o o.mem.store) ∧ (∀ i j, i ≠ j → ∀ a ∈ (jobs i).outputs, a ∉ (jobs j).inputs ++ (jobs j).outputs) ∧
    (∀ i, ((runSched sched (fun i => (jobs i).thread exSamplers, o.mem.store)).1 i).Done) ∧
    ¬ (jobs 0).Result exSamplers o.mem.store (runSched sched (fun i => (jobs i).thread exSamplers, o.mem.store)).2 := by
  have h := exShared_run
  cases hn : newRing 100 16 [97] with
  | error e => rw [hn] at h; cases h
  | ok r =>
    rw [hn] at h
    simp only [Bool.and_eq_true, decide_eq_true_eq] at h
    obtain ⟨⟨⟨hr, h0⟩, h1⟩, h2⟩ := h
    generalize hx : runSched exSched (fun i => (exShared r i).thread exSamplers, (exObjects r).mem.store) = x at h0 h1 h2
    have hinv : (exObjects r).Inv := C98_objects_empty (fun _ => .rnd ()) (exScript r)
    have hp : (exObjects r).polys = [8, 7, 6, 5, 4, 3, 2, 1, 0] := rfl
    refine ⟨exObjects r, exShared r, exSched, hinv, hinv.ready, fun i => ?_, ?_,
      ?_, fun hres => ?_⟩
    · match i with
      | 0 => exact ⟨by rw [hp]; simp [exShared, Job.inputs, Job.outputs], by simp [exShared, Job.outputs],
        by simp [exShared, Job.inputs, Job.outputs], List.mem_cons_of_mem _ (List.mem_singleton.2 rfl), by decide, hr.ge⟩
      | 1 => exact ⟨by rw [hp]; simp [exShared, Job.inputs, Job.outputs], by simp [exShared, Job.outputs],
        by simp [exShared, Job.inputs, Job.outputs], List.mem_cons_of_mem _ (List.mem_singleton.2 rfl), by decide, hr.ge⟩
    · intro i j hij
      fin_cases i <;> fin_cases j <;> simp [exShared, Job.outputs, Job.inputs] at hij ⊢
    · rw [hx]
      exact Fin.forall_fin_two.2 ⟨isRet.done h0, isRet.done h1⟩
    · rw [hx] at hres
      exact h2 (congrArg Poly.coeffs hres)

end FastKsw.Props
