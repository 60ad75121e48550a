import Verif.Props.KeySwitchBuffers
import Verif.Props.FKeys

/-!
# C106: key switches in different threads

The key switchers of a program share no buffers (`C106_objects`), a key switch reads and writes its own buffers, its inputs and its
outputs only (`C106_within`, `C106_fwithin`), so that key switches with different key switchers do not disturb each other.
-/

namespace FastKsw.Props

variable {σ : Type}

/-! ## The cells of a call -/

theorem pool_six {K : KsMem} (h : K.pool.length = 6) : ∃ a b c d e f, K.pool = [a, b, c, d, e, f] := by
  generalize K.pool = l at h
  match l, h with
  | [a, b, c, d, e, f], _ => exact ⟨a, b, c, d, e, f, rfl⟩

theorem written_nodup {K : KsMem} {p0 p1 : ℕ} (h : K.pool.length = 6) (hn : K.own.Nodup) (h0 : p0 ∉ K.own) (h1 : p1 ∉ K.own) (hne : p0 ≠ p1) :
    (K.written p0 p1).Nodup := by
  obtain ⟨a, b, c, d, e, f, hp⟩ := pool_six h
  unfold KsMem.own at hn h0 h1
  have hn := (List.nodup_append.1 hn).1
  have h0 := fun x => h0 (List.mem_append_left _ x)
  have h1 := fun x => h1 (List.mem_append_left _ x)
  rw [hp] at hn h0 h1
  unfold KsMem.written KsMem.poolAt
  rw [hp]
  simp only [List.flatMap_cons, List.flatMap_nil, QPAddr.cells, List.cons_append, List.nil_append, List.append_nil, List.nodup_cons, List.mem_cons,
    List.not_mem_nil, not_or, not_false_eq_true, and_true, or_false, List.nodup_nil, List.getD_cons_zero, List.getD_cons_succ] at hn h0 h1 ⊢
  grind

/-- the buffers as outputs, ckks/evaluator.go:1196, 1304, 1353 -/
theorem written_nodup_relin {K : KsMem} (h : K.pool.length = 6) (hn : K.own.Nodup) : (K.written (K.poolAt 1).q (K.poolAt 2).q).Nodup := by
  obtain ⟨a, b, c, d, e, f, hp⟩ := pool_six h
  unfold KsMem.own at hn
  have hn := (List.nodup_append.1 hn).1
  rw [hp] at hn
  unfold KsMem.written KsMem.poolAt
  rw [hp]
  simp only [List.flatMap_cons, List.flatMap_nil, QPAddr.cells, List.cons_append, List.nil_append, List.append_nil, List.nodup_cons, List.mem_cons,
    List.not_mem_nil, not_or, not_false_eq_true, and_true, or_false, List.nodup_nil, List.getD_cons_zero, List.getD_cons_succ] at hn ⊢
  grind

theorem written_own {K : KsMem} (h : K.pool.length = 6) {p0 p1 a : ℕ} (ha : a ∈ K.written p0 p1) : a ∈ K.own ++ [p0, p1] := by
  obtain ⟨x0, x1, x2, x3, x4, x5, hp⟩ := pool_six h
  unfold KsMem.written KsMem.poolAt at ha
  unfold KsMem.own
  rw [hp] at ha ⊢
  simp only [List.flatMap_cons, List.flatMap_nil, QPAddr.cells, List.cons_append, List.nil_append, List.append_nil, List.mem_cons, List.mem_append,
    List.not_mem_nil, or_false, List.getD_cons_zero, List.getD_cons_succ] at ha ⊢
  tauto

theorem fwritten_nodup {K : FKsMem} {c0 c1 : ℕ} (hn : K.own.Nodup) (h0 : c0 ∉ K.own) (h1 : c1 ∉ K.own) (hne : c0 ≠ c1) :
    (K.written c0 c1).Nodup := by
  unfold FKsMem.own at hn h0 h1
  unfold FKsMem.written
  simp only [QPAddr.cells, List.cons_append, List.nil_append, List.nodup_cons, List.mem_cons, List.mem_append, not_or] at hn h0 h1 ⊢
  grind

theorem fwritten_own {K : FKsMem} {c0 c1 a : ℕ} (ha : a ∈ K.written c0 c1) : a ∈ K.own ++ [c0, c1] := by
  unfold FKsMem.written at ha
  unfold FKsMem.own
  simp only [QPAddr.cells, List.cons_append, List.nil_append, List.mem_cons, List.mem_append, List.not_mem_nil, or_false] at ha ⊢
  tauto

/-- the number of digits and of blocks of a level is at most the number of buffers -/
theorem _root_.FastKsw.FKsMem.Made.fits {K : FKsMem} (h : K.Made) {levelQ : ℕ} (ha : 0 < K.ksw.params.alpha) (hg : 0 < K.ksw.params.gamma)
    (hg' : K.ksw.params.gamma ≤ 2 ^ 20) (hle : K.ksw.params.ringQ.subs.length + K.ksw.params.alpha ≤ 2 ^ 20)
    (hl : levelQ < K.ksw.params.ringQ.subs.length) :
    K.Fits levelQ ((levelQ + K.ksw.params.alpha) / K.ksw.params.alpha)
      ((levelQ + K.ksw.params.alpha + K.ksw.params.gamma) / K.ksw.params.gamma) := by
  refine ⟨ha, hg, hg', by omega, hl, rfl, rfl, ?_, ?_⟩
  · rw [h.t1]
    unfold FParams.beta
    rw [if_pos (by omega), ceilDivF_eq ha (by omega) (by omega)]
    exact Nat.div_le_div_right (by omega)
  · rw [h.t2]
    unfold FParams.maxLevel
    rw [ceilDivF_eq hg (by omega) (by omega)]
    exact Nat.div_le_div_right (by omega)

/-! ## The objects -/

/-- the cells of a key switcher -/
def ksOwn : KsMem ⊕ FKsMem → List ℕ
  | .inl K => K.own
  | .inr K => K.own

def ksReady (s : Store σ) : KsMem ⊕ FKsMem → Prop
  | .inl K => K.Ready s
  | .inr K => K.Ready s

theorem ksReady_iff {o : KsObjects σ} {s : Store σ} : o.Ready s ↔ ∀ x, o.Has x → ksReady s x :=
  ⟨fun h x hx => match x with
    | .inl K => h.1 K hx
    | .inr K => h.2 K hx,
  fun h => ⟨fun K hK => h (.inl K) hK, fun K hK => h (.inr K) hK⟩⟩

theorem ksReady.congr {s s' : Store σ} {x : KsMem ⊕ FKsMem} (h : ksReady s x) (hs : ∀ a ∈ ksOwn x, s' a = s a) : ksReady s' x := by
  cases x with
  | inl K => exact KsMem.Ready.congr h hs
  | inr K => exact FKsMem.Ready.congr h hs

theorem ksOwn_mem {o : KsObjects σ} {x : KsMem ⊕ FKsMem} (h : o.Has x) {a : ℕ} (ha : a ∈ ksOwn x) :
    a ∈ o.kss.flatMap KsMem.own ++ o.fkss.flatMap FKsMem.own := by
  cases x with
  | inl K => exact List.mem_append_left _ (List.mem_flatMap.2 ⟨K, h, ha⟩)
  | inr K => exact List.mem_append_right _ (List.mem_flatMap.2 ⟨K, h, ha⟩)

/-- the program's polynomials are none of the buffers -/
theorem ksOwn_polys {o : KsObjects σ} (ho : o.Inv) {x : KsMem ⊕ FKsMem} (h : o.Has x) {a : ℕ} (ha : a ∈ ksOwn x) : a ∉ o.polys := by
  intro hp
  have := ho.nodup
  unfold KsObjects.cells at this
  rw [List.append_assoc] at this
  exact (List.nodup_append.1 this).2.2 a hp a (ksOwn_mem h ha) rfl

theorem ksOwn_nodup {o : KsObjects σ} (ho : o.Inv) {x : KsMem ⊕ FKsMem} (h : o.Has x) : (ksOwn x).Nodup := by
  have hn := ho.nodup
  unfold KsObjects.cells at hn
  rw [List.append_assoc] at hn
  have hn := List.nodup_append.1 (List.nodup_append.1 hn).2.1
  cases x with
  | inl K => exact (List.nodup_flatMap.1 hn.1).1 K h
  | inr K => exact (List.nodup_flatMap.1 hn.2.1).1 K h

/-- different key switchers have different buffers -/
theorem ksOwn_disjoint {o : KsObjects σ} (ho : o.Inv) {x y : KsMem ⊕ FKsMem} (hx : o.Has x) (hy : o.Has y) (hne : x ≠ y) {a : ℕ}
    (ha : a ∈ ksOwn x) (ha' : a ∈ ksOwn y) : False := by
  have hn := ho.nodup
  unfold KsObjects.cells at hn
  rw [List.append_assoc] at hn
  have hn := List.nodup_append.1 (List.nodup_append.1 hn).2.1
  cases x with
  | inl K =>
    cases y with
    | inl K' =>
      have : Std.Symm (Function.onFun List.Disjoint KsMem.own) := ⟨fun _ _ h => List.Disjoint.symm h⟩
      exact (List.nodup_flatMap.1 hn.1).2.forall hx hy (fun x => hne (by rw [x])) ha ha'
    | inr K' => exact hn.2.2 _ (List.mem_flatMap.2 ⟨K, hx, ha⟩) _ (List.mem_flatMap.2 ⟨K', hy, ha'⟩) rfl
  | inr K =>
    cases y with
    | inl K' => exact hn.2.2 _ (List.mem_flatMap.2 ⟨K', hy, ha'⟩) _ (List.mem_flatMap.2 ⟨K, hx, ha⟩) rfl
    | inr K' =>
      have : Std.Symm (Function.onFun List.Disjoint FKsMem.own) := ⟨fun _ _ h => List.Disjoint.symm h⟩
      exact (List.nodup_flatMap.1 hn.2.1).2.forall hx hy (fun x => hne (by rw [x])) ha ha'

/-! ## A call -/

def _root_.FastKsw.KsJob.writes (j : KsJob) : Set ℕ := {a | a ∈ ksOwn j.object ++ j.outputs}

/-- a call may read `nil`: `evk.getD` beyond the end -/
def _root_.FastKsw.KsJob.reads (j : KsJob) : Set ℕ := {a | a ∈ 0 :: j.inputs}

section
variable {o : KsObjects σ} (ho : o.Inv) {s : Store σ} {j : KsJob} (h : j.Fits o s)
include ho h

theorem ks_sep : (∀ a ∈ j.outputs, a ∉ ksOwn j.object) ∧ ∀ a ∈ j.inputs, a ∉ ksOwn j.object ++ j.outputs := by
  refine ⟨fun a ha hb => ksOwn_polys ho h.2.2.2.1 hb (h.1 a (List.mem_append_right _ ha)), fun a ha hb => ?_⟩
  rcases List.mem_append.1 hb with hb | hb
  · exact ksOwn_polys ho h.2.2.2.1 hb (h.1 a (List.mem_append_left _ ha))
  · exact h.2.2.1 a hb ha

theorem ks_within (hr : o.Ready s) : (j.thread (σ := σ)).Within j.reads j.writes := by
  have hin : ∀ a ∈ j.inputs, a ∈ j.reads ∪ j.writes := fun a ha => Or.inl (List.mem_cons_of_mem _ ha)
  have hrd := ksReady_iff.1 hr _ h.2.2.2.1
  cases j with
  | switch K levelQ cx evk p0 p1 =>
    refine Thread.Within.bind (C106_within K (Or.inl (List.mem_cons_self ..)) (hin _ (List.mem_cons_self ..))
      (fun a ha => hin a (List.mem_cons_of_mem _ ha)) fun a ha => written_own (KsMem.Ready.six hrd) ha) fun _ => within_pure _
  | fswitch K levelQ a bg0 bg1 c0 c1 =>
    obtain ⟨h1, h2, h3, h4, h5, h6, h7⟩ := h.2.2.2.2
    exact C106_fwithin K ((ho.made K h.2.2.2.1).fits h1 h2 h3 h4 h5) h6 h7 hin fun x hx => fwritten_own hx

/-- a call alone: its result, and its key switcher can be used again -/
theorem C106_call (hr : o.Ready s) : j.Result s (after j.thread s) (j.thread.run s).1 ∧ ksReady (after j.thread s) j.object := by
  have hrd := ksReady_iff.1 hr _ h.2.2.2.1
  have hnd := ksOwn_nodup ho h.2.2.2.1
  have hs := ks_sep ho h
  cases j with
  | switch K levelQ cx evk p0 p1 =>
    have h6 : K.pool.length = 6 := KsMem.Ready.six hrd
    have hne : p0 ≠ p1 := by simpa [KsJob.outputs] using h.2.1
    have := C106_switchKeysInPlace (levelQ := levelQ) (cx := cx) hrd h.2.2.2.2
      (written_nodup h6 hnd (hs.1 p0 (by simp [KsJob.outputs])) (hs.1 p1 (by simp [KsJob.outputs])) hne)
      (fun hx => hs.2 cx (List.mem_cons_self ..) (written_own h6 hx)) (fun a ha hx => hs.2 a (List.mem_cons_of_mem _ ha) (written_own h6 hx))
    have e : after (KsJob.switch K levelQ cx evk p0 p1).thread s = after (K.switchKeysInPlace levelQ cx evk p0 p1) s := by
      unfold KsJob.thread after
      rw [run_bind']
      rfl
    have e1 : ((KsJob.switch K levelQ cx evk p0 p1).thread.run s).1 = true := by
      unfold KsJob.thread
      rw [run_bind']
      rfl
    rw [e, e1]
    exact ⟨⟨rfl, this.1⟩, this.2.2.2.2⟩
  | fswitch K levelQ a bg0 bg1 c0 c1 =>
    obtain ⟨h1, h2, h3, h4, h5, h6, h7⟩ := h.2.2.2.2
    have hne : c0 ≠ c1 := by simpa [KsJob.outputs] using h.2.1
    have := C106_fswitchKey (a := a) hrd ((ho.made K h.2.2.2.1).fits h1 h2 h3 h4 h5) h6 h7
      (fwritten_nodup hnd (hs.1 c0 (by simp [KsJob.outputs])) (hs.1 c1 (by simp [KsJob.outputs])) hne)
      (fun x hx hy => hs.2 x hx (fwritten_own hy))
    obtain ⟨-, hp, hv, -, -, -, hr'⟩ := this
    refine ⟨⟨fun hok => ?_, hv⟩, hr'⟩
    have e := hp hok
    exact ⟨congrFun e c0, congrFun e c1⟩

end

/-! ## Calls in different threads -/

section
variable {ι : Type} {jobs : ι → KsJob} {o : KsObjects σ} (ho : o.Inv) {s : Store σ} (hf : ∀ i, (jobs i).Fits o s) (hi : KsIndependent jobs)
include ho hf hi

theorem ks_separate : Separate (fun i => (jobs i).reads) (fun i => (jobs i).writes) := by
  refine fun i j hij => Set.disjoint_left.2 fun a ha hb => ?_
  have h1 := hi i j hij
  have hpos : a ≠ 0 := fun e => by
    have : a ∈ o.cells := by
      unfold KsObjects.cells
      rw [List.append_assoc]
      rcases List.mem_append.1 ha with ha | ha
      · exact List.mem_append_right _ (ksOwn_mem (hf i).2.2.2.1 ha)
      · exact List.mem_append_left _ ((hf i).1 a (List.mem_append_right _ ha))
    have := ho.pos a this
    omega
  rcases List.mem_append.1 ha with ha | ha
  · have hp := ksOwn_polys ho (hf i).2.2.2.1 ha
    rcases hb with hb | hb
    · exact hp ((hf j).1 a (List.mem_append_left _ ((List.mem_cons.1 hb).resolve_left hpos)))
    · rcases List.mem_append.1 hb with hb | hb
      · exact ksOwn_disjoint ho (hf i).2.2.2.1 (hf j).2.2.2.1 h1.1 ha hb
      · exact hp ((hf j).1 a (List.mem_append_right _ hb))
  · rcases hb with hb | hb
    · exact h1.2 a ha (List.mem_append_left _ ((List.mem_cons.1 hb).resolve_left hpos))
    · rcases List.mem_append.1 hb with hb | hb
      · exact ksOwn_polys ho (hf j).2.2.2.1 hb ((hf i).1 a (List.mem_append_right _ ha))
      · exact h1.2 a ha (List.mem_append_right _ hb)

omit ho hf hi in
theorem ksResult_congr {s s1 s2 : Store σ} {j : KsJob} {ok : Bool} (h : AgreeOn (j.reads ∪ j.writes) s1 s2) (hr : j.Result s s2 ok) :
    j.Result s s1 ok := by
  have hout : ∀ a ∈ j.outputs, s1 a = s2 a := fun a ha => h a (Or.inr (List.mem_append_right _ ha))
  have hrow : ∀ a ∈ j.outputs, s1.rows a = s2.rows a := fun a ha => by
    unfold Store.rows Store.poly
    rw [hout a ha]
  cases j with
  | switch K levelQ cx evk p0 p1 =>
    unfold KsJob.Result at hr ⊢
    dsimp only at hr ⊢
    rw [hrow p0 (by simp [KsJob.outputs]), hrow p1 (by simp [KsJob.outputs])]
    exact hr
  | fswitch K levelQ a bg0 bg1 c0 c1 =>
    unfold KsJob.Result at hr ⊢
    dsimp only at hr ⊢
    rw [hrow c0 (by simp [KsJob.outputs]), hrow c1 (by simp [KsJob.outputs]), hout c0 (by simp [KsJob.outputs]), hout c1 (by simp [KsJob.outputs])]
    exact hr

variable [DecidableEq ι] (hr : o.Ready s) (sched : List ι)
include hr

/-- C106.  A program creates key switchers, by the constructors and by `ShallowCopy`, in any order.  Any number of threads then switch
keys, every thread with another key switcher, whose buffers hold anything that has the right length; keys and polynomials that are only
read may be shared.  However the steps of the threads are interleaved, a call that has ended has left in its outputs what the functional
model of the key switch, which has no buffers, computes from the memory in which the threads began. -/
theorem C106_concurrent (i : ι) (ok : Bool) (hd : (runSched sched (fun i => (jobs i).thread, s)).1 i = .ret ok) :
    (jobs i).Result s (runSched sched (fun i => (jobs i).thread, s)).2 ok := by
  have hT : ∀ i, ((jobs i).thread (σ := σ)).Within (jobs i).reads (jobs i).writes := fun i => ks_within ho (hf i) hr
  have := C98_noninterference hT (ks_separate ho hf hi) s sched i ok hd
  rw [this.1]
  exact ksResult_congr this.2 (C106_call ho (hf i) hr).1

/-- When all calls have ended, the key switchers can be used again, and the polynomials that are no outputs have not changed. -/
theorem C106_concurrent_ready (hd : ∀ i, ((runSched sched (fun i => (jobs i).thread, s)).1 i).Done) :
    o.Ready (runSched sched (fun i => (jobs i).thread, s)).2 ∧
      ∀ a ∈ o.polys, (∀ i, a ∉ (jobs i).outputs) → (runSched sched (fun i => (jobs i).thread, s)).2 a = s a := by
  have hT : ∀ i, ((jobs i).thread (σ := σ)).Within (jobs i).reads (jobs i).writes := fun i => ks_within ho (hf i) hr
  generalize hs' : (runSched sched (fun i => (jobs i).thread, s)).2 = s'
  have hag : ∀ i, AgreeOn ((jobs i).reads ∪ (jobs i).writes) s' (after (jobs i).thread s) := by
    intro i
    rw [← hs']
    obtain ⟨a, ha⟩ : ∃ a, (runSched sched (fun i => (jobs i).thread, s)).1 i = .ret a := by
      have := hd i
      cases h : (runSched sched (fun i => (jobs i).thread, s)).1 i with
      | ret a => exact ⟨a, rfl⟩
      | act u k =>
        rw [h] at this
        exact this.elim
    exact (C98_noninterference hT (ks_separate ho hf hi) s sched i a ha).2
  have hfr : ∀ y, (∀ i, y ∉ (jobs i).writes) → s' y = s y := fun y hy => by
    rw [← hs']
    exact C98_frame hT s sched y hy
  refine ⟨ksReady_iff.2 fun x hx => ?_, fun a ha hno => hfr a fun i hw => ?_⟩
  · by_cases hex : ∃ i, (jobs i).object = x
    · obtain ⟨i, rfl⟩ := hex
      exact (C106_call ho (hf i) hr).2.congr fun a ha => hag i a (Or.inr (List.mem_append_left _ ha))
    · refine (ksReady_iff.1 hr x hx).congr fun a ha => hfr a fun i hw => ?_
      rcases List.mem_append.1 hw with hw | hw
      · exact ksOwn_disjoint ho (hf i).2.2.2.1 hx (fun e => hex ⟨i, e⟩) hw ha
      · exact ksOwn_polys ho hx ha ((hf i).1 a (List.mem_append_right _ hw))
  · rcases List.mem_append.1 hw with hw | hw
    · exact ksOwn_polys ho (hf i).2.2.2.1 hw ha
    · exact hno i hw

end

/-! ## The calls of the evaluators, whose outputs are buffers -/

section
variable {o : KsObjects σ} (ho : o.Inv) {K : KsMem} (hK : K ∈ o.kss) {s : Store σ} (hr : o.Ready s)
include ho hK hr

/-- Relinearisation and key switch: the outputs are `Pool[1].Q` and `Pool[2].Q`, and the input is a polynomial of the program. -/
theorem C106_evaluator {levelQ cx : ℕ} {evk : KeyRef} (hf : KeyFits s levelQ evk) (hcx : cx ∈ o.polys) (hk : ∀ a ∈ keyCells evk, a ∈ o.polys) :
    let s' := after (K.switchKeysInPlace levelQ cx evk (K.poolAt 1).q (K.poolAt 2).q) s
    (s'.rows (K.poolAt 1).q, s'.rows (K.poolAt 2).q) =
      K.ks.switchKeysInPlace levelQ (s.poly cx).isNTT (s.rows cx) (s.key evk) (s.rows (K.poolAt 1).q) (s.rows (K.poolAt 2).q) ∧
    (∀ a ∈ o.polys, s' a = s a) ∧ o.Ready s' := by
  intro s'
  have hrd := hr.1 K hK
  have hhas : o.Has (.inl K) := hK
  have hnd : K.own.Nodup := ksOwn_nodup ho hhas
  have hsub : ∀ a ∈ K.written (K.poolAt 1).q (K.poolAt 2).q, a ∈ K.own := fun a ha => by
    obtain ⟨x0, x1, x2, x3, x4, x5, hp⟩ := pool_six hrd.six
    unfold KsMem.written KsMem.poolAt at ha
    unfold KsMem.own
    rw [hp] at ha ⊢
    simp only [List.flatMap_cons, List.flatMap_nil, QPAddr.cells, List.cons_append, List.nil_append, List.append_nil, List.mem_cons,
      List.not_mem_nil, or_false, List.getD_cons_zero, List.getD_cons_succ] at ha ⊢
    tauto
  have hno : ∀ a ∈ o.polys, a ∉ K.written (K.poolAt 1).q (K.poolAt 2).q := fun a ha hb => ksOwn_polys ho hhas (hsub a hb) ha
  obtain ⟨h1, h2, -, -, h3⟩ := C106_switchKeysInPlace (levelQ := levelQ) (cx := cx) hrd hf (written_nodup_relin hrd.six hnd) (hno cx hcx)
    (fun a ha => hno a (hk a ha))
  refine ⟨h1, fun a ha => h2 a (hno a ha), ksReady_iff.2 fun x hx => ?_⟩
  by_cases e : x = .inl K
  · subst e
    exact h3
  · exact (ksReady_iff.1 hr x hx).congr fun a ha => h2 a fun hb => ksOwn_disjoint ho hx hhas e ha (hsub a hb)

theorem digits_nodup (n : ℕ) : (K.writtenDigits K.poolDecompQP n).Nodup ∧ (∀ a ∈ K.writtenDigits K.poolDecompQP n, a ∈ K.own) ∧
    (K.writtenHoisted (K.poolAt 0) (K.poolAt 1)).Nodup ∧ (∀ a ∈ K.writtenHoisted (K.poolAt 0) (K.poolAt 1), a ∈ K.own) ∧
    ∀ x ∈ K.poolDecompQP, ∀ a ∈ x.cells, a ∉ K.writtenHoisted (K.poolAt 0) (K.poolAt 1) := by
  have hnd : K.own.Nodup := ksOwn_nodup ho (x := .inl K) hK
  obtain ⟨x0, x1, x2, x3, x4, x5, hp⟩ := pool_six (hr.1 K hK).six
  have hsub : (K.writtenDigits K.poolDecompQP n).Sublist K.own := by
    unfold KsMem.own KsMem.writtenDigits
    rw [List.append_assoc, List.singleton_append]
    refine List.Sublist.trans (List.Sublist.cons_cons _ ?_) (List.sublist_append_right ..)
    rw [← List.take_append_drop n K.poolDecompQP, List.flatMap_append]
    simp
  refine ⟨hnd.sublist hsub, fun a ha => hsub.subset ha, ?_⟩
  unfold KsMem.own at hnd ⊢
  have hd := List.nodup_append.1 hnd
  have hn := hd.1
  have hmem : ∀ a ∈ K.writtenHoisted (K.poolAt 0) (K.poolAt 1), a ∈ [K.be.q, K.be.p] ++ K.pool.flatMap QPAddr.cells ++ [K.poolInvNTT] := fun a ha => by
    unfold KsMem.writtenHoisted KsMem.poolAt at ha
    rw [hp] at ha ⊢
    simp only [List.flatMap_cons, List.flatMap_nil, QPAddr.cells, List.cons_append, List.nil_append, List.append_nil, List.mem_cons,
      List.not_mem_nil, or_false, List.getD_cons_zero, List.getD_cons_succ] at ha ⊢
    tauto
  refine ⟨?_, fun a ha => List.mem_append_left _ (hmem a ha), fun x hx a ha hb => hd.2.2 a (hmem a hb) a (List.mem_flatMap.2 ⟨x, hx, ha⟩) rfl⟩
  rw [hp] at hn
  unfold KsMem.writtenHoisted KsMem.poolAt
  rw [hp]
  simp only [List.flatMap_cons, List.flatMap_nil, QPAddr.cells, List.cons_append, List.nil_append, List.append_nil, List.nodup_cons, List.mem_cons,
    List.not_mem_nil, not_or, not_false_eq_true, and_true, or_false, List.nodup_nil, List.getD_cons_zero, List.getD_cons_succ] at hn ⊢
  grind

/-- Hoisted rotations, rlwe/keyswitch.go:105-126 and ckks/evaluator.go:1523-1549: the digits are left in `PoolDecompQP` once, and the products with a key
are accumulated in `Pool[0]` and `Pool[1]`.  The result is that of the functional model on the digits of the functional model. -/
theorem C106_evaluator_hoisted {levelQ cx : ℕ} {evk : KeyRef} (hf : KeyFits s levelQ evk) (hcx : cx ∈ o.polys)
    (hk : ∀ a ∈ keyCells evk, a ∈ o.polys) (hdig : (levelQ + keyLen s evk) / keyLen s evk ≤ K.poolDecompQP.length) :
    let s1 := after (K.decomposeNTT levelQ (keyLen s evk - 1) (keyLen s evk) cx K.poolDecompQP) s
    let s' := after (K.hoisted levelQ K.poolDecompQP evk (K.poolAt 0) (K.poolAt 1)) s1
    (s'.rows (K.poolAt 0).q, s'.rows (K.poolAt 1).q) =
      K.ks.hoisted levelQ (K.ks.decomposeNTT levelQ (keyLen s evk - 1) (keyLen s evk) (s.poly cx).isNTT (s.rows cx)) (s.key evk)
        (s1.qp (K.poolAt 0)) (s1.qp (K.poolAt 1)) ∧
    (∀ a ∈ o.polys, s' a = s a) ∧ o.Ready s' := by
  intro s1 s'
  have hrd := hr.1 K hK
  have hhas : o.Has (.inl K) := hK
  have hpos := hf.pos
  obtain ⟨d1, d2, d3, d4, d5⟩ := digits_nodup ho hK hr ((levelQ + keyLen s evk) / keyLen s evk)
  have hno1 : ∀ a ∈ o.polys, a ∉ K.writtenDigits K.poolDecompQP ((levelQ + keyLen s evk) / keyLen s evk) :=
    fun a ha hb => ksOwn_polys ho hhas (d2 a hb) ha
  have hno2 : ∀ a ∈ o.polys, a ∉ K.writtenHoisted (K.poolAt 0) (K.poolAt 1) := fun a ha hb => ksOwn_polys ho hhas (d4 a hb) ha
  have e1 : keyLen s evk - 1 + 1 = keyLen s evk := by omega
  have hdec := C106_decomposeNTT (levelQ := levelQ) (levelP := keyLen s evk - 1) (cx := cx) (dig := K.poolDecompQP) hrd hf.lvl
    (by rw [e1]; exact hf.le) (n := (levelQ + keyLen s evk) / keyLen s evk) (by rw [Nat.add_assoc, e1]) hdig
    (fun x hx => List.mem_append_right _ hx) d1 (hno1 cx hcx)
  rw [e1] at hdec
  obtain ⟨v1, f1, -, r1⟩ := hdec
  have hsame : ∀ a ∈ o.polys, s1.poly a = s.poly a := fun a ha => by
    have e : s1 a = s a := f1 a (hno1 a ha)
    unfold Store.poly
    rw [e]
  have hkey : s1.key evk = s.key evk := by
    unfold Store.key Store.qp Store.rows
    refine List.map_congr_left fun x hx => ?_
    have hm : ∀ a ∈ [x.1.q, x.1.p, x.2.q, x.2.p], s1.poly a = s.poly a := fun a ha => hsame a (hk a (List.mem_flatMap.2 ⟨x, hx, ha⟩))
    rw [hm x.1.q (by simp), hm x.1.p (by simp), hm x.2.q (by simp), hm x.2.p (by simp)]
  have hlen : keyLen s1 evk = keyLen s evk := by
    have h0 : 0 < evk.length := hf.beta_pos.trans_le hf.digits
    have hm := hsame (evk.getD 0 default).1.p (hk _ (List.mem_flatMap.2 ⟨evk[0], List.getElem_mem _, by rw [getD_lt' h0]; simp⟩))
    unfold keyLen Store.rows
    rw [hm]
  have hf1 : KeyFits s1 levelQ evk := ⟨hlen ▸ hf.pos, hlen ▸ hf.le, hf.lvl, hlen ▸ hf.digits⟩
  have hx : ∀ i < (levelQ + keyLen s evk) / keyLen s evk, K.poolDecompQP.getD i default ∈ K.poolDecompQP := fun i hi => by
    rw [getD_lt' (hi.trans_le hdig)]
    exact List.getElem_mem _
  obtain ⟨h1, h2, -, -, h3⟩ := C106_hoisted (dig := K.poolDecompQP) (evk := evk) (c0 := K.poolAt 0) (c1 := K.poolAt 1) r1 hf1 d3
    (fun a ha => hno2 a (hk a ha))
    (fun i hi => ⟨d5 _ (hx i (hlen ▸ hi)) _ (by simp [QPAddr.cells]), d5 _ (hx i (hlen ▸ hi)) _ (by simp [QPAddr.cells])⟩)
    (fun i hi => by rw [hlen]; exact v1 i (hlen ▸ hi))
  rw [hkey] at h1
  refine ⟨h1, fun a ha => (h2 a (hno2 a ha)).trans (f1 a (hno1 a ha)), ksReady_iff.2 fun x hx => ?_⟩
  by_cases e : x = .inl K
  · subst e
    exact h3
  · exact (ksReady_iff.1 hr x hx).congr fun a ha => (h2 a fun hb => ksOwn_disjoint ho hx hhas e ha (d4 a hb)).trans
      (f1 a fun hb => ksOwn_disjoint ho hx hhas e ha (d2 a hb))

end

/-! ## Examples -/

/-- the polynomial to be switched, the four polynomials of a key with one digit, six polynomials for the results -/
def exKsPolys : List KsMake :=
  [.poly ⟨crow 5, true⟩, .poly ⟨crow 1, true⟩, .poly ⟨crow 2, true⟩, .poly ⟨crow 3, true⟩, .poly ⟨crow 4, true⟩, .poly ⟨crow 0, true⟩,
    .poly ⟨crow 0, true⟩, .poly ⟨crow 0, true⟩, .poly ⟨crow 0, true⟩, .poly ⟨crow 0, false⟩, .poly ⟨crow 0, false⟩]

/-- a key switcher and its shallow copy -/
def exKsTwo (rQ rP : Ring) : KsObjects Unit :=
  (exKsPolys ++ [KsMake.newKeySwitcher rQ rP, KsMake.copyKeySwitcher 0]).foldl KsObjects.make KsObjects.empty

/-- also a fast key switcher -/
def exKsObjects (fuel : ℕ) (p : FParams) : KsObjects Unit := (exKsTwo p.ringQ p.ringP).make (.newFKeySwitcher fuel p)

theorem make_fast {o : KsObjects σ} {fuel : ℕ} {p : FParams} {ksw : FKeySwitcher} (h : newFKeySwitcher fuel p = some ksw) :
    o.make (.newFKeySwitcher fuel p) = { o with mem := (ksw.alloc o.mem).2, fkss := (ksw.alloc o.mem).1 :: o.fkss } := by
  rw [KsObjects.make]
  simp only [newFKsMem, h, Option.map_some]

theorem exKsTwo_key (rQ rP : Ring) : (exKsTwo rQ rP).mem.store.rows 3 = crow 2 ∧ 11 < (exKsTwo rQ rP).mem.next := by
  let m0 := (exKsPolys.foldl KsObjects.make (KsObjects.empty (σ := Unit))).mem
  have g := (grow_ks (newKeySwitcher rQ rP) m0).trans (grow_ks (newKeySwitcher rQ rP) ((newKeySwitcher rQ rP).alloc m0).2)
  have hn : m0.next = 12 := rfl
  refine ⟨(g.rows (a := 3) (by omega)).trans rfl, ?_⟩
  have := g.next
  have e : (exKsTwo rQ rP).mem.next = ((newKeySwitcher rQ rP).alloc ((newKeySwitcher rQ rP).alloc m0).2).2.next := rfl
  omega

/-- the hypotheses of `C106_concurrent`: three threads with a key switcher, its copy and a fast key switcher; they share the polynomial
that is switched and the key -/
example : ∃ (fp : FParams) (jobs : Fin 3 → KsJob), let o := exKsObjects 100 fp
    o.Inv ∧ o.Ready o.mem.store ∧ (∀ i, (jobs i).Fits o o.mem.store) ∧ KsIndependent jobs ∧
    (∃ K l cx evk p0 p1, jobs 0 = .switch K l cx evk p0 p1) ∧ (∃ K l cx evk p0 p1, jobs 1 = .switch K l cx evk p0 p1) ∧
    ∃ K l a b0 b1 c0 c1, jobs 2 = .fswitch K l a b0 b1 c0 c1 := by
  obtain ⟨fp, ksw, kg, hfp, hok, -, -, hk, -, hQ, hP⟩ := exampleF
  obtain ⟨-, -, -, -, -, hg⟩ := C26_params hfp (by decide) (by decide) (by decide) (by decide) (by decide) (by decide) (by decide)
  have lQ : fp.ringQ.subs.length = 3 := by simpa [Ring.moduli] using congrArg List.length hQ
  have lP : fp.ringP.subs.length = 2 := by simpa [Ring.moduli] using congrArg List.length hP
  have hinv : (exKsObjects 100 fp).Inv := by
    have := C106_objects_empty (σ := Unit) (exKsPolys ++ [.newKeySwitcher fp.ringQ fp.ringP, .copyKeySwitcher 0] ++ [.newFKeySwitcher 100 fp])
    rw [List.foldl_append] at this
    exact this
  obtain ⟨K1, K0, hks⟩ : ∃ K1 K0, (exKsObjects 100 fp).kss = [K1, K0] := by
    unfold exKsObjects
    rw [make_fast hk]
    exact ⟨_, _, rfl⟩
  obtain ⟨F, hfks, hF⟩ : ∃ F, (exKsObjects 100 fp).fkss = [F] ∧ F.ksw = ksw := by
    unfold exKsObjects
    rw [make_fast hk]
    exact ⟨_, rfl, rfl⟩
  have hp : (exKsObjects 100 fp).polys = [11, 10, 9, 8, 7, 6, 5, 4, 3, 2, 1] := by
    unfold exKsObjects
    rw [make_fast hk]
    rfl
  have hne : K0 ≠ K1 := by
    have hn := hinv.nodup
    unfold KsObjects.cells at hn
    rw [List.append_assoc, hks] at hn
    have hn := (List.nodup_append.1 (List.nodup_append.1 hn).2.1).1
    rintro rfl
    simp only [List.flatMap_cons, List.flatMap_nil, List.append_nil] at hn
    exact (List.nodup_append.1 hn).2.2 K0.be.q (by simp [KsMem.own]) K0.be.q (by simp [KsMem.own]) rfl
  have e1 : ksw.params = fp := (newFKeySwitcher_fields hk).1
  have hkl : keyLen (exKsObjects 100 fp).mem.store [(⟨2, 3⟩, ⟨4, 5⟩)] = 1 := by
    obtain ⟨h1, h2⟩ := exKsTwo_key fp.ringQ fp.ringP
    show ((exKsObjects 100 fp).mem.store.rows 3).length = 1
    unfold exKsObjects
    rw [make_fast hk, (grow_fks ksw (exKsTwo fp.ringQ fp.ringP).mem).rows (by omega), h1]
    rfl
  refine ⟨fp, ![.switch K0 0 1 [(⟨2, 3⟩, ⟨4, 5⟩)] 6 7, .switch K1 0 1 [(⟨2, 3⟩, ⟨4, 5⟩)] 8 9, .fswitch F 0 1 [[2, 3]] [[4, 5]] 10 11], hinv,
    hinv.ready, fun i => ?_, ?_, ⟨_, _, _, _, _, _, rfl⟩, ⟨_, _, _, _, _, _, rfl⟩, ⟨_, _, _, _, _, _, _, rfl⟩⟩
  · have hfit : KeyFits (exKsObjects 100 fp).mem.store 0 [(⟨2, 3⟩, ⟨4, 5⟩)] := by
      constructor <;> first | decide | (rw [hkl]; decide)
    match i with
    | 0 => exact ⟨by rw [hp]; simp [KsJob.inputs, KsJob.outputs, keyCells], by simp [KsJob.outputs],
        by simp [KsJob.inputs, KsJob.outputs, keyCells], by show K0 ∈ (exKsObjects 100 fp).kss; rw [hks]; simp, hfit⟩
    | 1 => exact ⟨by rw [hp]; simp [KsJob.inputs, KsJob.outputs, keyCells], by simp [KsJob.outputs],
        by simp [KsJob.inputs, KsJob.outputs, keyCells], by show K1 ∈ (exKsObjects 100 fp).kss; rw [hks]; simp, hfit⟩
    | 2 =>
      refine ⟨by rw [hp]; simp [KsJob.inputs, KsJob.outputs], by simp [KsJob.outputs], by simp [KsJob.inputs, KsJob.outputs],
        by show F ∈ (exKsObjects 100 fp).fkss; rw [hfks]; simp, ?_⟩
      show KsJob.Sound _ (KsJob.fswitch F 0 1 [[2, 3]] [[4, 5]] 10 11)
      unfold KsJob.Sound
      dsimp only
      rw [hF, e1]
      unfold FParams.alpha
      rw [lP, lQ, hg]
      unfold FKeyFits
      decide
  · intro i j hij
    fin_cases i <;> fin_cases j <;> simp [KsJob.object, KsJob.outputs, KsJob.inputs, keyCells, hne, hne.symm] at hij ⊢

/-! ## Where the hypotheses are needed -/

/-- two key switches with the same key switcher, of different polynomials -/
def exKsShared (K : KsMem) : Fin 2 → KsJob := ![.switch K 0 1 [(⟨2, 3⟩, ⟨4, 5⟩)] 6 7, .switch K 0 9 [(⟨2, 3⟩, ⟨4, 5⟩)] 8 10]

/-- the first thread is interrupted after it has left the NTT of its input in the buffer -/
def exKsSched : List (Fin 2) := List.replicate 4 0 ++ List.replicate 100 1 ++ List.replicate 100 0

set_option maxRecDepth 1000000 in
theorem exKsShared_run : (match newRing 100 16 [97], newRing 100 16 [193] with
    | .ok rQ, .ok rP =>
      let o := exKsTwo rQ rP
      match o.kss with
      | K :: _ =>
        let x := runSched exKsSched (fun i => (exKsShared K i).thread, o.mem.store)
        let s := o.mem.store
        isRet (x.1 0) && isRet (x.1 1) && decide (Store.rows x.2 6 ≠
          (K.ks.switchKeysInPlace 0 (s.poly 1).isNTT (s.rows 1) (s.key [(⟨2, 3⟩, ⟨4, 5⟩)]) (s.rows 6) (s.rows 7)).1)
      | [] => false
    | _, _ => false) = true := by decide +kernel

/-- Without a shallow copy the statement is false: two threads switch different polynomials with the same key switcher and use nothing
else together but the key.  Both calls end, and the result of the first one is wrong. -/
theorem C106_shared_refuted : ∃ (o : KsObjects Unit) (jobs : Fin 2 → KsJob) (sched : List (Fin 2)), o.Inv ∧ o.Ready o.mem.store ∧
    (∀ i, (jobs i).Fits o o.mem.store) ∧ (∀ i j, i ≠ j → ∀ a ∈ (jobs i).outputs, a ∉ (jobs j).inputs ++ (jobs j).outputs) ∧
    (∀ i, ((runSched sched (fun i => (jobs i).thread, o.mem.store)).1 i).Done) ∧
    ∀ ok, ¬ (jobs 0).Result o.mem.store (runSched sched (fun i => (jobs i).thread, o.mem.store)).2 ok := by
  have h := exKsShared_run
  cases hQ : newRing 100 16 [97] with
  | error e => rw [hQ] at h; cases h
  | ok rQ =>
    cases hP : newRing 100 16 [193] with
    | error e => rw [hQ, hP] at h; cases h
    | ok rP =>
      rw [hQ, hP] at h
      dsimp only at h
      cases hk : (exKsTwo rQ rP).kss with
      | nil => rw [hk] at h; cases h
      | cons K Ks =>
        rw [hk] at h
        simp only [Bool.and_eq_true, decide_eq_true_eq] at h
        obtain ⟨⟨h0, h1⟩, h2⟩ := h
        generalize hx : runSched exKsSched (fun i => (exKsShared K i).thread, (exKsTwo rQ rP).mem.store) = x at h0 h1 h2
        have hinv : (exKsTwo rQ rP).Inv := C106_objects_empty _
        have hp : (exKsTwo rQ rP).polys = [11, 10, 9, 8, 7, 6, 5, 4, 3, 2, 1] := rfl
        have hkl : keyLen (exKsTwo rQ rP).mem.store [(⟨2, 3⟩, ⟨4, 5⟩)] = 1 := by
          show ((exKsTwo rQ rP).mem.store.rows 3).length = 1
          rw [(exKsTwo_key rQ rP).1]
          rfl
        have hfit : KeyFits (exKsTwo rQ rP).mem.store 0 [(⟨2, 3⟩, ⟨4, 5⟩)] := by
          constructor <;> first | decide | (rw [hkl]; decide)
        have hK : K ∈ (exKsTwo rQ rP).kss := by
          rw [hk]
          exact List.mem_cons_self ..
        refine ⟨exKsTwo rQ rP, exKsShared K, exKsSched, hinv, hinv.ready, fun i => ?_, ?_, fun i => ?_, fun ok hr => ?_⟩
        · match i with
          | 0 => exact ⟨by rw [hp]; simp [exKsShared, KsJob.inputs, KsJob.outputs, keyCells], by simp [exKsShared, KsJob.outputs],
              by simp [exKsShared, KsJob.inputs, KsJob.outputs, keyCells], hK, hfit⟩
          | 1 => exact ⟨by rw [hp]; simp [exKsShared, KsJob.inputs, KsJob.outputs, keyCells], by simp [exKsShared, KsJob.outputs],
              by simp [exKsShared, KsJob.inputs, KsJob.outputs, keyCells], hK, hfit⟩
        · intro i j hij
          fin_cases i <;> fin_cases j <;> simp [exKsShared, KsJob.outputs, KsJob.inputs, keyCells] at hij ⊢
        · rw [hx]
          match i with
          | 0 => exact isRet.done h0
          | 1 => exact isRet.done h1
        · rw [hx] at hr
          exact h2 (congrArg Prod.fst hr.2)

/-- a polynomial to be switched, the polynomials of a key with two digits, an output; a key switcher -/
def exAlias (rQ rP : Ring) : KsObjects Unit :=
  ([.poly ⟨crow 5 ++ crow 6, true⟩, .poly ⟨crow 1 ++ crow 7, true⟩, .poly ⟨crow 2, true⟩, .poly ⟨crow 3 ++ crow 8, true⟩, .poly ⟨crow 4, true⟩,
    .poly ⟨crow 9 ++ crow 10, true⟩, .newKeySwitcher rQ rP] : List KsMake).foldl KsObjects.make KsObjects.empty

set_option maxRecDepth 1000000 in
theorem exAlias_run : (match newRing 100 16 [97, 193], newRing 100 16 [257] with
    | .ok rQ, .ok rP =>
      let o := exAlias rQ rP
      match o.kss with
      | K :: _ =>
        let s := o.mem.store
        let evk : KeyRef := [(⟨2, 3⟩, ⟨4, 5⟩), (⟨4, 5⟩, ⟨2, 3⟩)]
        decide ((after (K.switchKeysInPlace 1 1 evk 1 6) s).rows 1 ≠
          (K.ks.switchKeysInPlace 1 (s.poly 1).isNTT (s.rows 1) (s.key evk) (s.rows 1) (s.rows 6)).1)
      | [] => false
    | _, _ => false) = true := by decide +kernel

/-- The input of `SwitchKeysInPlace` must not be an output, although nothing says so: the first output is written after the first digit
and before the second one is read from the input.  (The evaluators never call it so.) -/
theorem C106_alias_refuted : ∃ (o : KsObjects Unit) (K : KsMem) (levelQ cx p1 : ℕ) (evk : KeyRef), o.Inv ∧ K ∈ o.kss ∧
    o.Ready o.mem.store ∧ KeyFits o.mem.store levelQ evk ∧ cx ∈ o.polys ∧ p1 ∈ o.polys ∧ (∀ a ∈ keyCells evk, a ∈ o.polys) ∧
    (K.written cx p1).Nodup ∧ (∀ a ∈ keyCells evk, a ∉ K.written cx p1) ∧
    let s := o.mem.store
    (after (K.switchKeysInPlace levelQ cx evk cx p1) s).rows cx ≠
      (K.ks.switchKeysInPlace levelQ (s.poly cx).isNTT (s.rows cx) (s.key evk) (s.rows cx) (s.rows p1)).1 := by
  have h := exAlias_run
  cases hQ : newRing 100 16 [97, 193] with
  | error e => rw [hQ] at h; cases h
  | ok rQ =>
    cases hP : newRing 100 16 [257] with
    | error e => rw [hQ, hP] at h; cases h
    | ok rP =>
      rw [hQ, hP] at h
      dsimp only at h
      cases hk : (exAlias rQ rP).kss with
      | nil => rw [hk] at h; cases h
      | cons K Ks =>
        rw [hk] at h
        simp only [decide_eq_true_eq] at h
        have hinv : (exAlias rQ rP).Inv := C106_objects_empty _
        have hp : (exAlias rQ rP).polys = [6, 5, 4, 3, 2, 1] := rfl
        have hkl : keyLen (exAlias rQ rP).mem.store [(⟨2, 3⟩, ⟨4, 5⟩), (⟨4, 5⟩, ⟨2, 3⟩)] = 1 := by
          show ((exAlias rQ rP).mem.store.rows 3).length = 1
          have g := grow_ks (newKeySwitcher rQ rP) (([.poly ⟨crow 5 ++ crow 6, true⟩, .poly ⟨crow 1 ++ crow 7, true⟩, .poly ⟨crow 2, true⟩,
            .poly ⟨crow 3 ++ crow 8, true⟩, .poly ⟨crow 4, true⟩, .poly ⟨crow 9 ++ crow 10, true⟩] : List KsMake).foldl KsObjects.make
            (KsObjects.empty (σ := Unit))).mem
          exact congrArg List.length ((g.rows (a := 3) (by decide)).trans rfl)
        have hK : K ∈ (exAlias rQ rP).kss := by
          rw [hk]
          exact List.mem_cons_self ..
        have hrd := hinv.ready.1 K hK
        have hhas : (exAlias rQ rP).Has (.inl K) := hK
        have hno : ∀ a ∈ (exAlias rQ rP).polys, a ∉ K.own := fun a ha hb => ksOwn_polys hinv hhas hb ha
        refine ⟨exAlias rQ rP, K, 1, 1, 6, [(⟨2, 3⟩, ⟨4, 5⟩), (⟨4, 5⟩, ⟨2, 3⟩)], hinv, hK, hinv.ready, ?_, by rw [hp]; simp, by rw [hp]; simp,
          by rw [hp]; simp [keyCells], ?_, ?_, h⟩
        · constructor <;> first | decide | (rw [hkl]; decide)
        · exact written_nodup hrd.six (ksOwn_nodup hinv hhas) (hno 1 (by rw [hp]; simp)) (hno 6 (by rw [hp]; simp)) (by decide)
        · intro a ha hw
          have hap : a ∈ (exAlias rQ rP).polys ∧ a ≠ 1 ∧ a ≠ 6 := by
            rw [hp]
            simp only [keyCells, List.flatMap_cons, List.flatMap_nil, List.append_nil, List.cons_append, List.nil_append, List.mem_cons,
              List.not_mem_nil, or_false] at ha ⊢
            omega
          rcases List.mem_append.1 (written_own hrd.six hw) with h1 | h1
          · exact hno a hap.1 h1
          · simp only [List.mem_cons, List.not_mem_nil, or_false] at h1
            exact h1.elim hap.2.1 hap.2.2

end FastKsw.Props
