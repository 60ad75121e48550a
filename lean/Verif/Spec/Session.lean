import Verif.Spec.Program
import Verif.Model.FloatFFT
import Verif.Props.FloatFFT

/-!
# Sessions of a client

A session is a sequence of calls on one encryptor, one evaluator and one decryptor of `fckks`, in complex128 arithmetic.  The
plaintext pools of the encryptor and of the decryptor persist from call to call.  The buffers of the encoders persist as well; here each call
finds arbitrary contents in them, which includes what the call before left.
-/

namespace FastKsw

open Props

/-- a call of a client -/
inductive ClientCall
  | op (o : Op)
  | encrypt (msg : List (ℚ × ℚ)) (out : Ref)
  | encryptNew (msg : List (ℚ × ℚ)) (new : Ref)
  | decrypt (c : Ref)

/-- what a call finds: the samples of an encryption and the contents of the buffers of the encoder -/
structure CallTape where
  enc : EncTape
  mem : List (ℚ × ℚ)
  polypool : Rows

/-- keys and tables that do not change -/
structure Client where
  ev : FEvaluator
  ringP : Ring
  rlk : FSwitchingKey × FSwitchingKey
  rtk : ℤ → UInt64 × FSwitchingKey × FSwitchingKey
  pk : PolyQP × PolyQP
  sk : Rows
  roots : ℕ → ℚ × ℚ
  logSlots : ℕ
  defaultScale : ℚ

/-- ciphertexts, the pools of encryptor and decryptor, and the messages decrypted so far, the last one first -/
structure SessionState where
  heap : Heap
  encPool : Pt
  decPool : Pt
  out : List (List (ℚ × ℚ))

/-- `NewEncryptor`, fckks/encryptor.go:15-23, and `NewDecryptor`, fckks/decryptor.go:15-23: both pools are new plaintexts at the highest level
and the default scale -/
def Client.start (C : Client) (H : Heap) : SessionState :=
  let pool := newPlaintext C.ev.ckks.ringQ.n (C.ev.ckks.ringQ.subs.length - 1) C.defaultScale
  ⟨H, pool, pool, []⟩

/-- one call: those of `Op.run`, `EncryptMsg` and `EncryptMsgNew` (fckks/encryptor.go:29-44), `DecryptToMsg` and `DecryptToMsgNew`
(fckks/decryptor.go:29-38, which assign a new slice to the message); `none` is a panic or an error -/
def ClientCall.run (C : Client) (t : CallTape) (s : SessionState) : ClientCall → Option SessionState
  | .op o => (o.run C.ev C.rlk C.rtk s.heap).map fun H => { s with heap := H }
  | .encrypt msg out =>
    (encryptMsgF C.ev.ckks.ringQ C.ringP C.roots t.mem C.logSlots C.pk t.enc msg s.encPool (s.heap out)).map fun r =>
      { s with heap := s.heap.set out r.2, encPool := r.1 }
  | .encryptNew msg new =>
    let ct := newCiphertext C.ev.ckks.ringQ.n 1 (C.ev.ckks.ringQ.subs.length - 1) C.defaultScale
    (encryptMsgF C.ev.ckks.ringQ C.ringP C.roots t.mem C.logSlots C.pk t.enc msg s.encPool ct).map fun r =>
      { s with heap := s.heap.set new r.2, encPool := r.1 }
  | .decrypt c =>
    (decryptToMsgF C.ev.ckks.ringQ C.roots t.mem t.polypool C.logSlots C.sk (s.heap c) s.decPool).map fun r =>
      { s with decPool := r.2, out := r.1 :: s.out }

/-- the calls of a session one after the other, each with its tape -/
def runSession (C : Client) : SessionState → List (ClientCall × CallTape) → Option SessionState
  | s, [] => some s
  | s, (c, t) :: cs => (c.run C t s).bind fun s' => runSession C s' cs

/-- What the client can compute beforehand: what the ciphertexts hold, whether the pool of the encryptor is new, the level of the pool
of the decryptor, and the values expected for the messages decrypted so far, with bounds -/
structure Book where
  Γ : Ref → Option Info
  fresh : Bool
  level : ℕ
  expect : List ((ℕ → ℂ) × ℝ)

/-- what a new encryption of `msg` holds, when the values are at most `V` and the scaled coefficients at most `B` -/
noncomputable def Info.encrypted (logSlots d : ℕ) (δ : ℝ) (P bound : ℕ) (scale : ℚ) (msg : List (ℚ × ℚ)) (V : ℝ) (B : ℚ) (level : ℕ) : Info where
  level := level
  scale := scale
  v j := fC (msg.getD j 0)
  V := V
  M := B + (B + 1) / 2 ^ 51 + 1 / 2
  β := encBound (2 ^ (logSlots + 1 + d)) P bound
  ε := 2 ^ (logSlots + 1) * (ifftErr δ logSlots V * scale + ((1 / 2 + (B + 1) / 2 ^ 51 : ℚ) : ℝ))

/-- the error of a decrypted message -/
noncomputable def Info.decErr (logSlots : ℕ) (δ : ℝ) (I : Info) : ℝ :=
  2 ^ (logSlots + 1) * (((I.M + I.β) / 2 ^ 51 / I.scale : ℚ) : ℝ) +
    fftErr δ logSlots ((2 * ((I.M + I.β) + (I.M + I.β) / 2 ^ 51) / I.scale : ℚ) : ℝ) + (I.ε + 2 ^ (logSlots + 1) * I.β) / I.scale

/-- The conditions on the message of an encryption: at most `2^logSlots` values of size at most `V`, scaled to at most `2^63`; with fewer
than 8 slots the pool must be new. -/
structure MsgOK (logSlots : ℕ) (δ : ℝ) (scale : ℚ) (fresh : Bool) (msg : List (ℚ × ℚ)) (V : ℝ) (B : ℚ) : Prop where
  len : msg.length ≤ 2 ^ logSlots
  pos : 0 ≤ V
  le : ∀ v ∈ msg, ‖fC v‖ ≤ V
  scaled : (V + ifftErr δ logSlots V) * scale ≤ B
  le63 : B ≤ 2 ^ 63
  pool : 3 ≤ logSlots ∨ fresh = true

/-- One call of the bookkeeping.  A decryption needs a plaintext with noise that fits into the modulus at the lower of the levels of the
ciphertext and of the pool of the decryptor, and lowers the level of the pool. -/
inductive BookStep (logSlots d : ℕ) (δ : ℝ) (r : Ring) (P bound : ℕ) (scale : ℚ) (ks : ℕ → ℚ) (b : Book) : ClientCall → Book → Prop
  | op {o Γ'} (h : Track logSlots d r ks b.Γ o Γ') : BookStep logSlots d δ r P bound scale ks b (.op o) { b with Γ := Γ' }
  | encrypt {msg out V B K} (h : MsgOK logSlots δ scale b.fresh msg V B) (ho : b.Γ out = some K) :
      BookStep logSlots d δ r P bound scale ks b (.encrypt msg out) { b with
        Γ := Function.update b.Γ out (some (Info.encrypted logSlots d δ P bound scale msg V B K.level)), fresh := false }
  | encryptNew {msg new V B} (h : MsgOK logSlots δ scale b.fresh msg V B) :
      BookStep logSlots d δ r P bound scale ks b (.encryptNew msg new) { b with
        Γ := Function.update b.Γ new (some (Info.encrypted logSlots d δ P bound scale msg V B (r.subs.length - 1))), fresh := false }
  | decrypt {c I} (hc : b.Γ c = some I) (h : 2 * (I.M + I.β) + 1 < r.prodQ (min I.level b.level)) :
      BookStep logSlots d δ r P bound scale ks b (.decrypt c) { b with
        level := min I.level b.level, expect := (I.v, I.decErr logSlots δ) :: b.expect }

inductive Books (logSlots d : ℕ) (δ : ℝ) (r : Ring) (P bound : ℕ) (scale : ℚ) (ks : ℕ → ℚ) : Book → List ClientCall → Book → Prop
  | nil {b} : Books logSlots d δ r P bound scale ks b [] b
  | cons {b b' b'' c cs} (h : BookStep logSlots d δ r P bound scale ks b c b') (hs : Books logSlots d δ r P bound scale ks b' cs b'') :
      Books logSlots d δ r P bound scale ks b (c :: cs) b''

end FastKsw
