import Verif.Spec.Session
import Verif.Props.Program
import Verif.Props.Encrypt

/-!
# C96: sessions

Any session that the client's bookkeeping allows runs without panic or error, and every decrypted message is what the client computed,
within the bounds the client computed; all encoding and decoding in complex128 arithmetic.
-/

namespace FastKsw.Props

open FastKsw Finset

/-- what a call may find: samples of an encryption and buffers of the encoder of at least the size that `NewEncoder` allocates -/
structure CallTapeOK (logSlots d : ℕ) (r : Ring) (bound : ℕ) (t : CallTape) : Prop where
  enc : ∃ U G0 G1, TapeIs (logSlots + 1 + d) r bound t.enc U G0 G1
  mem : 2 ^ (logSlots + d) ≤ t.mem.length
  mem16 : 3 ≤ logSlots → 16 ≤ t.mem.length
  pool : t.polypool.length = r.subs.length

/-- a decrypted message is as expected -/
def Expected (logSlots : ℕ) (m : List (ℚ × ℚ)) (x : (ℕ → ℂ) × ℝ) : Prop :=
  m.length = 2 ^ logSlots ∧ ∀ j < 2 ^ logSlots, ‖fC (m.getD j 0) - x.1 j‖ ≤ x.2

/-- The state of a session is as the bookkeeping says. -/
structure SessionInv (logSlots d : ℕ) (r : Ring) (S : ℕ → ℤ) (scale : ℚ) (s : SessionState) (b : Book) : Prop where
  ct : ∀ c I, b.Γ c = some I → CtMsg logSlots d r S (s.heap c) I
  enc : PoolOK r.n (r.subs.length - 1) s.encPool
  scale : s.encPool.scale = scale
  fresh : b.fresh = true → ∀ i ≤ r.subs.length - 1, ∀ k, (s.encPool.value.coeffs.row i).at k = 0
  dec : PoolOK r.n b.level s.decPool
  lvl : b.level < r.subs.length
  out : List.Forall₂ (Expected logSlots) s.out b.expect

section
variable {logSlots d : ℕ} {δ : ℝ} {roots : ℕ → ℚ × ℚ} {rQ rP : Ring} (K : KeyParams (logSlots + 1 + d) rQ rP)
include K

/-- `EncryptMsg` in complex128 arithmetic yields a ciphertext that holds the message -/
theorem encryptMsgF_msg (hroots : RootsNear rQ.nthRoot roots δ) (hδ4 : δ ≤ 1 / 4) {S E : ℕ → ℤ} {pk : PolyQP × PolyQP} {bound : ℕ}
    (hpk : IsPublicKey (logSlots + 1 + d) rQ rP (rQ.subs.length - 1) 0 pk S E)
    (hS : ∀ k, |S k| ≤ 1) (hE : ∀ k < 2 ^ (logSlots + 1 + d), |E k| ≤ bound)
    (hb : ∀ u < rQ.subs.length, bound ≤ rQ.qs u) (hb0 : 2 * bound < rQ.qs 0) (hbp : bound ≤ rP.qs 0)
    {t : CallTape} (ht : CallTapeOK logSlots d rQ bound t) {msg : List (ℚ × ℚ)} {V : ℝ} {B scale : ℚ} {fresh : Bool}
    (hm : MsgOK logSlots δ scale fresh msg V B) {pool : Pt} (hp : PoolOK rQ.n (rQ.subs.length - 1) pool) (hsc : pool.scale = scale)
    (hscale : 0 < scale) (hf : f64 scale = scale)
    (hz : fresh = true → ∀ i ≤ rQ.subs.length - 1, ∀ k, (pool.value.coeffs.row i).at k = 0) {ct : Ct} {lc : ℕ}
    (hc : CtShape 1 lc ct) (hlc : lc < rQ.subs.length) :
    ∃ pool' ct', encryptMsgF rQ rP roots t.mem logSlots pk t.enc msg pool ct = some (pool', ct') ∧
      PoolOK rQ.n (rQ.subs.length - 1) pool' ∧ pool'.scale = scale ∧
      CtMsg logSlots d rQ S ct' (Info.encrypted logSlots d δ (rP.qs 0) bound scale msg V B lc) := by
  subst hsc
  have R := K.rings
  have hM : rQ.nthRoot = 2 ^ (logSlots + 2 + d) := by
    rw [R.hQ.root]; congr 1; omega
  obtain ⟨U, G0, G1, hT⟩ := ht.enc
  obtain ⟨y, w, hy, hw, hwl, hnear⟩ := C92_encode (by rw [← hM]; exact hroots) hδ4 t.mem ⟨ht.mem, ht.mem16⟩ msg hm.len hm.pos hm.le
  rw [← hM] at hy hw
  have hval : ∀ j < 2 ^ logSlots, ‖(msg.map fC).getD j 0‖ ≤ V := by
    intro j _
    rw [fC_getD]
    by_cases hj : j < msg.length
    · rw [List.getD_eq_getElem _ _ hj]; exact hm.le _ (List.getElem_mem hj)
    · rw [List.getD_eq_default _ _ (by omega)]
      rw [show fC (0 : ℚ × ℚ) = 0 from fC_zero, norm_zero]; exact hm.pos
  obtain ⟨pool', ct', e1, e2, e3, e4⟩ :=
    C85_encrypt_partial K hpk hS hE hb hb0 hbp hT (mem := t.mem.map fC) (by rw [List.length_map]; exact ⟨ht.mem, ht.mem16⟩)
      (msg := msg.map fC) (by rw [List.length_map]; exact hm.len) hval hp R.lQ hscale hf
      (hm.pool.imp id fun h i hi k _ _ => hz h i hi k) (fl := fun _ => w)
      (δ := ifftErr δ logSlots V) (B := B) (fun y' hy' => by
        rw [hy] at hy'
        obtain rfl : y = y' := by simpa using hy'
        exact floatOK_of hscale hwl hnear hm.scaled hm.le63) hc
  refine ⟨pool', ct', ?_, e2, e3, ?_⟩
  · unfold encryptMsg Ring.encodeSlots at e1
    unfold encryptMsgF Ring.encodeSlotsF
    rw [hy, Option.map_some] at e1
    rw [hw, Option.map_some]
    exact e1
  · rw [show min (rQ.subs.length - 1) lc = lc by omega] at e4
    have : (fun j => (msg.map fC).getD j 0) = fun j => fC (msg.getD j 0) := funext fun j => fC_getD _ _
    rw [this] at e4
    exact e4

end

/-- `DecryptToMsg` in complex128 arithmetic returns what the ciphertext holds -/
theorem decryptToMsgF_msg {logSlots d : ℕ} {δ : ℝ} {roots : ℕ → ℚ × ℚ} {r : Ring} {S : ℕ → ℤ} (hr : r.Valid (logSlots + 1 + d)) (sr : r.Small)
    (hroots : RootsNear r.nthRoot roots δ) {sk : Rows} {ct : Ct} {I : Info}
    (h : CtMsg logSlots d r S ct I) {pool : Pt} {lp : ℕ} (hp : PoolOK r.n lp pool)
    (hs : EltIs (logSlots + 1 + d) r (min I.level lp) r.qs true sk (fun u => 2 ^ 64 * intR _ _ S))
    (hsize : 2 * (I.M + I.β) + 1 < r.prodQ (min I.level lp)) {bound : ℕ} {t : CallTape} (ht : CallTapeOK logSlots d r bound t) :
    ∃ s pool', decryptToMsgF r roots t.mem t.polypool logSlots sk ct pool = some (s, pool') ∧
      PoolOK r.n (min I.level lp) pool' ∧ Expected logSlots s (I.v, I.decErr logSlots δ) := by
  obtain ⟨z, D, hz1, hz2, hD, hz3, henc⟩ := h.enc
  have hl := h.lvl
  have hb := hz2.add hD
  obtain ⟨s, pool', a1, a2, a3, a4⟩ := decryptToMsgF_is (Z := fun k => z k + D k) hr sr hroots henc
    (Or.inr ⟨fun u hu => by
      have := (hr.subAt (show u < r.subs.length by omega)).prime.one_le
      show r.qs u + 1 ≤ 6 * r.qs u
      unfold Ring.qs
      omega, by norm_num⟩) hp (by omega) hs (by rw [h.scale]; exact h.pos) (bounded_of hr hb hsize) (B := I.M + I.β)
    (fun k hk => hb _ (gap_lt hk)) ⟨le_trans (Nat.pow_le_pow_right (by norm_num) (by omega)) ht.mem, ht.mem16⟩ ht.pool
  refine ⟨s, pool', a1, a2, a3, fun j hj => ?_⟩
  have h1 := a4 j hj
  rw [h.scale] at h1
  exact msg_close h.pos h1 (slotVal_noise (hz3 j hj) hD)

section
variable {fuel logSlots d : ℕ} {p : FParams} {ev : FEvaluator} {kg : FKeyGenerator} {sk : PolyQP} {S : ℕ → ℤ}
  {tape : Option ℤ → ℕ → KeyTape} {e : Option ℤ → ℕ → ℕ → ℤ} {digit Be : ℕ}
  (Q : HomEnv fuel logSlots d p ev kg sk S tape e digit Be)

/-- the client with the keys that the library generates -/
def client (p : FParams) (ev : FEvaluator) (kg : FKeyGenerator) (sk : PolyQP) (tape : Option ℤ → ℕ → KeyTape) (pe : Rows) (mask : PolyQP)
    (roots : ℕ → ℚ × ℚ) (logSlots : ℕ) (scale : ℚ) : Client :=
  ⟨ev, p.ringP, kg.genRelinKey sk (tape none), fun k => kg.genRotKey k sk (tape (some k)), genPublicKey p.ringQ p.ringP sk pe mask, sk.q,
    roots, logSlots, scale⟩

/-- the public key, the table of roots and the default scale of the client -/
structure PubEnv (logSlots d : ℕ) (p : FParams) (S : ℕ → ℤ) (pe : Rows) (mask : PolyQP) (roots : ℕ → ℚ × ℚ) (δ : ℝ) (bound : ℕ) (scale : ℚ) :
    Prop where
  roots : RootsNear p.ringQ.nthRoot roots δ
  quarter : δ ≤ 1 / 4
  small : ∀ k, |S k| ≤ 1
  err : ∃ E, Sampled p.ringQ (p.ringQ.subs.length - 1) pe E ∧ ∀ k < 2 ^ (logSlots + 1 + d), |E k| ≤ bound
  mask : ∃ v w, PolyIs p.ringQ (p.ringQ.subs.length - 1) p.ringQ.qs mask.q v ∧ PolyIs p.ringP (p.ringP.subs.length - 1) p.ringP.qs mask.p w
  bQ : ∀ u < p.ringQ.subs.length, bound ≤ p.ringQ.qs u
  b0 : 2 * bound < p.ringQ.qs 0
  bP : ∀ u < p.ringP.subs.length, bound ≤ p.ringP.qs u
  pos : 0 < scale
  flt : f64 scale = scale

variable {pe : Rows} {mask : PolyQP} {roots : ℕ → ℚ × ℚ} {δ : ℝ} {bound : ℕ} {scale : ℚ}
  (P : PubEnv logSlots d p S pe mask roots δ bound scale)
include Q P

/-- **C96 (one call).** -/
theorem C96_step {s : SessionState} {b b' : Book} {c : ClientCall} {t : CallTape} (h : SessionInv logSlots d p.ringQ S scale s b)
    (hb : BookStep logSlots d δ p.ringQ (p.ringP.qs 0) bound scale (ksErr p (logSlots + 1 + d) digit Be) b c b')
    (ht : CallTapeOK logSlots d p.ringQ bound t) :
    ∃ s', c.run (client p ev kg sk tape pe mask roots logSlots scale) t s = some s' ∧ SessionInv logSlots d p.ringQ S scale s' b' := by
  have K := FParams.OK.keyParams Q.ok
  have R := K.rings
  have hQl := R.lQ
  have hPl := R.lP
  have hring : (client p ev kg sk tape pe mask roots logSlots scale).ev.ckks.ringQ = p.ringQ := Q.ring
  have hskm : sk.IsMont (logSlots + 1 + d) p.ringQ p.ringP (p.ringQ.subs.length - 1) (p.ringP.subs.length - 1) S := Q.hs
  obtain ⟨E, hE, hE1⟩ := P.err
  obtain ⟨v, w, hv, hw⟩ := P.mask
  have hpk := C32_publicKey K hskm hE (fun k hk u hu => by have := hE1 k hk; have := P.bP u hu; omega) hv hw
    (lQ := p.ringQ.subs.length - 1) (lP := 0) (by omega) (by omega)
  cases hb with
  | @op o Γ' ho =>
    obtain ⟨H', a1, a2⟩ := C86_step Q h.ct ho
    exact ⟨{ s with heap := H' }, by rw [ClientCall.run]; exact (congrArg _ a1).trans rfl, ⟨a2, h.enc, h.scale, h.fresh, h.dec, h.lvl, h.out⟩⟩
  | @encrypt msg out V B J hm ho =>
    have hJ := h.ct _ _ ho
    obtain ⟨pool', ct', a1, a2, a3, a4⟩ := encryptMsgF_msg K P.roots P.quarter hpk P.small hE1 P.bQ P.b0 (P.bP 0 (by omega)) ht hm h.enc h.scale
      P.pos P.flt h.fresh hJ.shape hJ.lvl
    refine ⟨{ s with heap := s.heap.set out ct', encPool := pool' }, ?_, ⟨?_, a2, a3, fun hh => by simp at hh, h.dec, h.lvl, h.out⟩⟩
    · rw [ClientCall.run, hring]
      exact (congrArg _ a1).trans rfl
    · exact holds_update Q h.ct (out := out) (fun c hc => by simp [Heap.set, hc]) (by simpa [Heap.set] using a4)
  | @encryptNew msg new V B hm =>
    obtain ⟨pool', ct', a1, a2, a3, a4⟩ := encryptMsgF_msg K P.roots P.quarter hpk P.small hE1 P.bQ P.b0 (P.bP 0 (by omega)) ht hm h.enc h.scale
      P.pos P.flt h.fresh (newCiphertext_shape p.ringQ.n 1 (p.ringQ.subs.length - 1) scale) R.lQ
    refine ⟨{ s with heap := s.heap.set new ct', encPool := pool' }, ?_, ⟨?_, a2, a3, fun hh => by simp at hh, h.dec, h.lvl, h.out⟩⟩
    · rw [ClientCall.run, hring]
      exact (congrArg _ a1).trans rfl
    · exact holds_update Q h.ct (out := new) (fun c hc => by simp [Heap.set, hc]) (by simpa [Heap.set] using a4)
  | @decrypt c I hc hsize =>
    have hI := h.ct _ _ hc
    have hlv := hI.lvl
    obtain ⟨m, pool', a1, a2, a3⟩ := decryptToMsgF_msg R.hQ R.sQ P.roots hI h.dec (sk := sk.q)
      ((elt_mont R.hQ R.lQ hskm.q).below (show min I.level b.level ≤ p.ringQ.subs.length - 1 by omega)) hsize ht
    refine ⟨{ s with decPool := pool', out := m :: s.out }, ?_, ⟨h.ct, h.enc, h.scale, h.fresh, a2, by dsimp only; omega, .cons a3 h.out⟩⟩
    rw [ClientCall.run, hring]
    exact (congrArg _ a1).trans rfl

/-- the calls of a session keep the state as the bookkeeping says -/
theorem session_inv {b b' : Book} : ∀ {cs : List (ClientCall × CallTape)} {s : SessionState},
    Books logSlots d δ p.ringQ (p.ringP.qs 0) bound scale (ksErr p (logSlots + 1 + d) digit Be) b (cs.map Prod.fst) b' →
    (∀ c ∈ cs, CallTapeOK logSlots d p.ringQ bound c.2) → SessionInv logSlots d p.ringQ S scale s b →
    ∃ s', runSession (client p ev kg sk tape pe mask roots logSlots scale) s cs = some s' ∧ SessionInv logSlots d p.ringQ S scale s' b' := by
  intro cs
  induction cs generalizing b with
  | nil =>
    intro s hb _ h
    cases hb
    exact ⟨s, rfl, h⟩
  | cons c cs ih =>
    obtain ⟨c, t⟩ := c
    intro s hb ht h
    cases hb with
    | cons h1 h2 =>
      obtain ⟨s1, a1, a2⟩ := C96_step Q P (t := t) h h1 (ht (c, t) List.mem_cons_self)
      obtain ⟨s2, b1, b2⟩ := ih h2 (fun c hc => ht c (List.mem_cons_of_mem _ hc)) a2
      exact ⟨s2, by rw [runSession, a1]; exact b1, b2⟩

/-- **C96 (sessions).** With generated keys, a new encryptor, evaluator and decryptor and any heap, every session that the bookkeeping allows
runs to its end, and the messages it decrypts, in order, are those of the bookkeeping within its bounds.  The roots are those of `NewEncoder`
up to `δ`; no other error of complex128 arithmetic is left open. -/
theorem C96_session {b' : Book} {cs : List (ClientCall × CallTape)} (H : Heap)
    (hb : Books logSlots d δ p.ringQ (p.ringP.qs 0) bound scale (ksErr p (logSlots + 1 + d) digit Be)
      ⟨fun _ => none, true, p.ringQ.subs.length - 1, []⟩ (cs.map Prod.fst) b')
    (ht : ∀ c ∈ cs, CallTapeOK logSlots d p.ringQ bound c.2) :
    ∃ s', runSession (client p ev kg sk tape pe mask roots logSlots scale)
        ((client p ev kg sk tape pe mask roots logSlots scale).start H) cs = some s' ∧
      s'.out.length = b'.expect.length ∧ ∀ i (hi : i < s'.out.length) (hi' : i < b'.expect.length),
        (s'.out[i]).length = 2 ^ logSlots ∧ ∀ j < 2 ^ logSlots, ‖fC ((s'.out[i]).getD j 0) - (b'.expect[i]).1 j‖ ≤ (b'.expect[i]).2 := by
  have R := (FParams.OK.keyParams Q.ok).rings
  have hring : (client p ev kg sk tape pe mask roots logSlots scale).ev.ckks.ringQ = p.ringQ := Q.ring
  have hok := newPlaintext_ok p.ringQ.n (p.ringQ.subs.length - 1) scale
  have hstart : (client p ev kg sk tape pe mask roots logSlots scale).start H =
      ⟨H, newPlaintext p.ringQ.n (p.ringQ.subs.length - 1) scale, newPlaintext p.ringQ.n (p.ringQ.subs.length - 1) scale, []⟩ := by
    rw [Client.start, hring]; rfl
  obtain ⟨s', a1, a2⟩ := session_inv Q P hb ht (s := (client p ev kg sk tape pe mask roots logSlots scale).start H) (by
    rw [hstart]
    refine ⟨fun c I h => by simp at h, hok, rfl, fun _ i hi k => ?_, hok, R.lQ, .nil⟩
    show ((newPoly p.ringQ.n (p.ringQ.subs.length - 1 + 1)).row i).at k = 0
    rw [row_newPoly (by omega)]
    unfold Row.at
    simp [List.getD_replicate])
  exact ⟨s', a1, a2.out.length_eq, fun i hi hi' => List.Forall₂.get a2.out hi hi'⟩

end


/-- tapes as `CallTapeOK` asks exist, with ternary polynomial `exampleS` and errors of size 2 and 1 -/
theorem exists_callTape {r : Ring} (hr : r.Valid 4) (h0 : 4 < r.qs 0) : ∃ t, CallTapeOK 1 2 r 2 t := by
  obtain ⟨u, hu⟩ := exists_poly hr (level := r.subs.length - 1) (by have := List.length_pos_iff.2 hr.ne_nil; omega) exampleS
  have hS : ∀ k, |exampleS k| ≤ 1 := fun k => by
    unfold exampleS
    split_ifs <;> simp
  have hg : ∀ x : UInt64 × Bool, x.1.toNat ≤ 2 → ∃ G, DrawsOK r.n 2 (List.replicate r.n x) G := by
    intro x hx
    have hget : ∀ k < r.n, (List.replicate r.n x).getD k default = x := fun k hk => by
      rw [List.getD_eq_getElem _ _ (by simpa using hk), List.getElem_replicate]
    exact ⟨fun k => if ((List.replicate r.n x).getD k default).2 then (((List.replicate r.n x).getD k default).1.toNat : ℤ)
      else -((List.replicate r.n x).getD k default).1.toNat, by simp, fun k hk => by rw [hget k hk]; exact hx, fun k _ => rfl⟩
  obtain ⟨G0, hG0⟩ := hg (2, true) (by decide)
  obtain ⟨G1, hG1⟩ := hg (1, false) (by decide)
  refine ⟨⟨⟨[], u, List.replicate r.n (2, true), List.replicate r.n (1, false)⟩, List.replicate 8 (5, 7), newPoly r.n r.subs.length⟩,
    ⟨exampleS, G0, G1, fun l hl => ⟨⟨lt_of_le_of_lt (by omega) hu.lvl, fun i hi => (hu.row i (by omega)).mono (by omega)⟩, fun k _ => ?_⟩, hS, hG0, hG1⟩, by simp, by simp,
    length_newPoly _ _⟩
  have := hS k
  omega

/-- In the environment of `exampleHom`, a session encrypts the message `1/2 + i/2, 1` at scale 1000, adds its rotation by 1 and decrypts the sum and
the message itself. -/
example : ∃ (C : Client) (cs : List (ClientCall × CallTape)) (s' : SessionState) (m0 m1 : List (ℚ × ℚ)),
    cs.map Prod.fst = [.encryptNew [(1 / 2, 1 / 2), (1, 0)] 0, .op (.alloc 2 1000 1), .op (.rotate 1 0 1), .op (.add 0 1 1), .decrypt 1,
      .decrypt 0] ∧ runSession C (C.start fun _ => ⟨[], 0⟩) cs = some s' ∧ s'.out = [m0, m1] ∧
    ‖fC (m0.getD 0 0) - fC (1 / 2, 1 / 2)‖ ≤ 3 / 10 ∧ ‖fC (m1.getD 0 0) - fC (3 / 2, 1 / 2)‖ ≤ 3 / 10 := by
  obtain ⟨fp, ev, kg, s, tape, Q, hQ, ha, hP, hP'⟩ := exampleHom
  obtain ⟨cosF, sinF, hc, hs⟩ := exists_trig
  have hr := Q.ok.hQ
  have q0 := sub_of_moduli hQ 0 97 rfl
  have q1 := sub_of_moduli hQ 1 193 rfl
  have q2 := sub_of_moduli hQ 2 641 rfl
  have p0 := sub_of_moduli hP' 0 257 rfl
  have p1 := sub_of_moduli hP' 1 353 rfl
  have lQ : fp.ringQ.subs.length = 3 := by simpa [Ring.moduli] using congrArg List.length hQ
  have lP : fp.ringP.subs.length = 2 := by simpa [Ring.moduli] using congrArg List.length hP'
  have e0 : fp.ringQ.qs 0 = 97 := by unfold Ring.qs; rw [q0]; rfl
  have e1 : fp.ringQ.qs 1 = 193 := by unfold Ring.qs; rw [q1]; rfl
  have e2 : fp.ringQ.qs 2 = 641 := by unfold Ring.qs; rw [q2]; rfl
  have f0 : fp.ringP.qs 0 = 257 := by unfold Ring.qs; rw [p0]; rfl
  have f1 : fp.ringP.qs 1 = 353 := by unfold Ring.qs; rw [p1]; rfl
  have ep : fp.ringQ.prodQ 2 = 97 * 193 * 641 := by rw [prodQ_succ, prodQ_succ, prodQ_zero, q0, q1, q2]; rfl
  have hM : 0 < fp.ringQ.nthRoot := by rw [hr.root]; positivity
  have T := C92_table hc hs hM
  have bE : ∀ k : ℕ, |(2 - (k : ℤ) % 5)| ≤ 2 := by
    intro k
    rw [abs_le]
    omega
  obtain ⟨pe, hpe⟩ := exists_poly hr (level := fp.ringQ.subs.length - 1) (by omega) (fun k => 2 - k % 5)
  obtain ⟨aq, haq⟩ := exists_poly hr (level := fp.ringQ.subs.length - 1) (by omega) (fun k => k)
  obtain ⟨ap, hap⟩ := exists_poly Q.ok.hP (level := fp.ringP.subs.length - 1) (by omega) (fun k => k)
  have P : PubEnv 1 2 fp exampleS pe ⟨aq, ap⟩ (encRootsF cosF sinF fp.ringQ.nthRoot) (1 / 2 ^ 48) 2 1000 := by
    refine ⟨T, by norm_num, fun k => ?_, ⟨_, ⟨hpe.mono fun u _ => by omega, fun k _ => ?_⟩, fun k _ => by exact_mod_cast bE k⟩, ⟨_, _, haq, hap⟩,
      fun u hu => ?_, by omega, fun u hu => ?_, by norm_num, f64_nat (m := 1000) (by norm_num)⟩
    · unfold exampleS
      split_ifs <;> simp
    · have := bE k
      omega
    · rcases (by omega : u = 0 ∨ u = 1 ∨ u = 2) with rfl | rfl | rfl <;> omega
    · rcases (by omega : u = 0 ∨ u = 1) with rfl | rfl <;> omega
  obtain ⟨t, ht⟩ := exists_callTape hr (by omega)
  set ks := ksErr fp 4 18721 2 with hks
  have hks2 : ks 2 ≤ 31 ∧ 0 ≤ ks 2 := by
    rw [hks, ksErr, ha, show fp.ringP.prodQ (2 - 1) = 257 * 353 from hP]
    norm_num
  have hu : eta ≤ 1 / 2 ^ 100 := eta_le.trans (by unfold uf; norm_num)
  have hI : ifftErr (1 / 2 ^ 48) 1 1 ≤ 1 / 2 ^ 40 :=
    ((C92_size (by norm_num) le_rfl (show 1 < 2 ^ 20 by norm_num) (by norm_num)).1).trans (by push_cast; linarith)
  have hF : ∀ V : ℝ, 0 ≤ V → V ≤ 10 → fftErr (1 / 2 ^ 48) 1 V ≤ 1 / 2 ^ 38 := fun V h0 h1 =>
    ((C92_size (by norm_num) le_rfl (show 1 < 2 ^ 20 by norm_num) h0).2).trans (by push_cast; linarith)
  let msg : List (ℚ × ℚ) := [(1 / 2, 1 / 2), (1, 0)]
  have hmsg : MsgOK 1 (1 / 2 ^ 48) 1000 true msg 1 1001 := by
    refine ⟨by simp [msg], by norm_num, fun v hv => ?_, by push_cast; linarith, by norm_num, Or.inr rfl⟩
    simp only [msg, List.mem_cons, List.not_mem_nil, or_false] at hv
    rcases hv with rfl | rfl
    · refine (norm_fC_le (c := 1 / 2) ?_ ?_).trans (by norm_num) <;> norm_num [abs_of_pos]
    · refine (Complex.norm_le_abs_re_add_abs_im _).trans ?_
      simp [fC]
  let I : Info := Info.encrypted 1 2 (1 / 2 ^ 48) 257 2 1000 msg 1 1001 2
  let J : Info := I.add (I.rotate 1 1 (ks 2) 2) 2
  have hIM : 0 ≤ I.M ∧ I.M ≤ 1002 := by
    show (0 : ℚ) ≤ 1001 + (1001 + 1) / 2 ^ 51 + 1 / 2 ∧ (1001 : ℚ) + (1001 + 1) / 2 ^ 51 + 1 / 2 ≤ 1002
    norm_num
  have hIβ : 0 ≤ I.β ∧ I.β ≤ 18 := by
    show 0 ≤ encBound (2 ^ (1 + 1 + 2)) 257 2 ∧ encBound (2 ^ (1 + 1 + 2)) 257 2 ≤ 18
    unfold encBound
    norm_num
  have hIε : I.ε ≤ 5 / 2 := by
    show 2 ^ (1 + 1) * (ifftErr (1 / 2 ^ 48) 1 1 * ((1000 : ℚ) : ℝ) + ((1 / 2 + (1001 + 1) / 2 ^ 51 : ℚ) : ℝ)) ≤ 5 / 2
    push_cast
    linarith
  have hJM : J.M = I.M + I.M := rfl
  have hJβ : J.β = I.β + (I.β + ks 2) := rfl
  have hJs : J.scale = 1000 := by show max (1000 : ℚ) 1000 = 1000; norm_num
  have hJε : J.ε = I.ε + I.ε := by
    show I.ε + I.ε + ((max (1000 : ℚ) 1000 - 1000 : ℚ) : ℝ) * 1 + ((max (1000 : ℚ) 1000 - 1000 : ℚ) : ℝ) * 1 = I.ε + I.ε
    simp
  have hbook : ∃ Γ, Books 1 2 (1 / 2 ^ 48) fp.ringQ (fp.ringP.qs 0) 2 1000 ks ⟨fun _ => none, true, fp.ringQ.subs.length - 1, []⟩
      [.encryptNew msg 0, .op (.alloc 2 1000 1), .op (.rotate 1 0 1), .op (.add 0 1 1), .decrypt 1, .decrypt 0]
      ⟨Γ, false, 2, [(I.v, I.decErr 1 (1 / 2 ^ 48)), (J.v, J.decErr 1 (1 / 2 ^ 48))]⟩ := by
    rw [f0, lQ]
    refine ⟨_, .cons (.encryptNew (V := 1) (B := 1001) hmsg) (.cons (.op (.alloc (by omega) (by norm_num) (f64_nat (m := 1000) (by norm_num))))
      (.cons (.op (.rotate (I := I) (K := Info.zero 2 1000) ?_ ?_ ?_ ?_)) (.cons (.op (.add (I := I) (J := I.rotate 1 1 (ks 2) 2)
      (K := I.rotate 1 1 (ks 2) 2) ?_ ?_ ?_ ?_)) (.cons (.decrypt (I := J) ?_ ?_) (.cons (.decrypt (I := I) ?_ ?_) .nil)))))⟩
    · simp [Function.update_of_ne, I, lQ]
    · simp
    · simp [Info.zero, I, Info.encrypted]
    · simp [Info.zero, I, Info.encrypted]
    · simp [Function.update_of_ne, I, lQ]
    · simp [Info.zero]
    · simp [Info.zero]
    · exact sameScale_self _
    · simp [J, Info.rotate]
    · rw [show min J.level (3 - 1) = 2 from rfl, ep, hJM, hJβ]
      norm_num
      linarith
    · simp [Function.update_of_ne, I, lQ]
    · rw [show min I.level (min J.level (3 - 1)) = 2 from rfl, ep]
      norm_num
      linarith
  obtain ⟨Γ, hbook⟩ := hbook
  let cs : List (ClientCall × CallTape) := [.encryptNew msg 0, .op (.alloc 2 1000 1), .op (.rotate 1 0 1), .op (.add 0 1 1), .decrypt 1,
    .decrypt 0].map fun c => (c, t)
  obtain ⟨s', a1, a2, a3⟩ := C96_session Q P (cs := cs) (fun _ => ⟨[], 0⟩) hbook (fun c hc => by
    simp only [cs, List.map_cons, List.map_nil, List.mem_cons, List.not_mem_nil, or_false] at hc
    rcases hc with rfl | rfl | rfl | rfl | rfl | rfl <;> exact ht)
  have hlen : s'.out.length = 2 := a2
  obtain ⟨m0, m1, hm⟩ : ∃ m0 m1, s'.out = [m0, m1] := List.length_eq_two.1 hlen
  have hdec : ∀ L : Info, 0 ≤ L.M + L.β → L.M + L.β ≤ 3000 → L.scale = 1000 → L.ε ≤ 5 → L.β ≤ 67 → L.decErr 1 (1 / 2 ^ 48) ≤ 3 / 10 := by
    intro L h0 h1 h2 h3 h4
    have h1' : ((L.M + L.β : ℚ) : ℝ) ≤ 3000 := by exact_mod_cast h1
    have h0' : (0 : ℝ) ≤ ((L.M + L.β : ℚ) : ℝ) := by exact_mod_cast h0
    have h4' : (L.β : ℝ) ≤ 67 := by exact_mod_cast h4
    have hF' := hF ((2 * ((L.M + L.β) + (L.M + L.β) / 2 ^ 51) / L.scale : ℚ) : ℝ) (Rat.cast_nonneg.2 (by rw [h2]; linarith)) (by
      rw [h2]; push_cast at h1' ⊢; linarith)
    unfold Info.decErr
    rw [h2] at hF' ⊢
    push_cast at hF' h1' h0' ⊢
    linarith
  refine ⟨_, cs, s', m0, m1, rfl, a1, hm, ?_, ?_⟩
  · have h := (a3 0 (by omega) (by simp)).2 0 (by norm_num)
    simp only [hm, List.getElem_cons_zero] at h
    exact h.trans (hdec I (by linarith) (by linarith) rfl (by linarith) (by linarith))
  · have h := (a3 1 (by omega) (by simp)).2 0 (by norm_num)
    simp only [hm, List.getElem_cons_zero, List.getElem_cons_succ] at h
    have hJv : J.v 0 = fC (3 / 2, 1 / 2) := by
      show fC (1 / 2, 1 / 2) + fC (1, 0) = _
      apply Complex.ext <;> norm_num [fC]
    rw [← hJv]
    exact h.trans (hdec J (by rw [hJM, hJβ]; linarith) (by rw [hJM, hJβ]; linarith) hJs (by rw [hJε]; linarith) (by rw [hJβ]; linarith))

end FastKsw.Props
