import Verif.Model.Evaluator
import Verif.Model.SlotEncoder

/-!
# `fckks/encryptor.go`, `fckks/decryptor.go` and the wrappers of `ckks/encryptor.go`, `ckks/decryptor.go`

The pools of the encryptor and of the decryptor persist from call to call, so they are arguments and results.  The buffers
of the encoder are arguments (`mem`, `polypool`).  The transforms are exact; `fl` is the vector of float64 values that the
inverse transform leaves in place of its exact result.  `none` is a panic.
-/

namespace FastKsw

/-- `ckks.Plaintext`, ckks/plaintext.go:25-28 -/
structure Pt where
  value : Poly
  scale : ℚ

/-- `NewPlaintext`, ckks/plaintext.go:31-35 -/
def newPlaintext (N level : Nat) (scale : ℚ) : Pt := ⟨⟨newPoly N (level + 1), true⟩, scale⟩

/-- what the samplers of one public-key encryption return: the mask read into `ct.Value[1]`, the ternary polynomial and the
draws of the two errors -/
structure EncTape where
  mask : Rows
  u : Rows
  g0 : List (UInt64 × Bool)
  g1 : List (UInt64 × Bool)

/-- `Encrypt` of `ckks/encryptor.go:47-50` with a public key, and of `rlwe/encryptor.go:126-134` -/
def ckksEncrypt (rQ rP : Ring) (pk : PolyQP × PolyQP) (t : EncTape) (pt : Pt) (ct : Ct) : Option Ct :=
  if ct.value.length < 2 then none
  else
    let c0 := ct.value.getD 0 default
    let c1 := ct.value.getD 1 default
    let c1 : Poly := ⟨writeLvl (min pt.value.level c0.level) t.mask.row c1.coeffs, c1.isNTT⟩
    let v := if rP.subs = [] then pkEncryptNoP rQ (pk.1.q, pk.2.q) t.u t.g0 t.g1 pt.value c0 c1
      else pkEncrypt rQ rP pk t.u t.g0 t.g1 pt.value c0 c1
    some ⟨(ct.value.set 0 v.1).set 1 v.2, pt.scale⟩

/-- `EncryptNew`, ckks/encryptor.go:54-58 -/
def ckksEncryptNew (rQ rP : Ring) (pk : PolyQP × PolyQP) (t : EncTape) (pt : Pt) : Option Ct :=
  (ckksEncrypt rQ rP pk t pt (newCiphertext rQ.n 1 pt.value.level pt.scale)).map fun c => { c with scale := pt.scale }

/-- `Decrypt`, ckks/decryptor.go:49-52: the polynomial of `pt` is truncated in place -/
def ckksDecrypt (r : Ring) (sk : Rows) (ct : Ct) (pt : Pt) : Pt := ⟨decrypt r sk ct.value pt.value, ct.scale⟩

/-- `DecryptNew`, ckks/decryptor.go:42-46 -/
def ckksDecryptNew (r : Ring) (sk : Rows) (ct : Ct) : Pt :=
  let pt := newPlaintext r.n ct.level ct.scale
  ⟨decrypt r sk ct.value pt.value, pt.scale⟩

/-- `Encode`, ckks/encoder.go:190-192, for a ring of type `Standard` -/
def Ring.encodeSlots {K : Type} [Field K] (r : Ring) (roots : Nat → K) (fl : List K → List (ℚ × ℚ)) (mem values : List K)
    (logSlots : Nat) (pt : Pt) : Option Pt :=
  (encodeFFT r.nthRoot roots mem values logSlots).map fun y =>
    { pt with value := ⟨r.embedPoly pt.value.level logSlots (fl y) pt.scale false pt.value.coeffs, pt.value.isNTT⟩ }

/-- `EncryptMsg`, fckks/encryptor.go:29-32; returns the pool as well.  `logSlots` is `enc.params.LogSlots()`. -/
def encryptMsg {K : Type} [Field K] (rQ rP : Ring) (roots : Nat → K) (fl : List K → List (ℚ × ℚ)) (mem : List K)
    (logSlots : Nat) (pk : PolyQP × PolyQP) (t : EncTape) (msg : List K) (pool : Pt) (ct : Ct) : Option (Pt × Ct) :=
  (rQ.encodeSlots roots fl mem msg logSlots pool).bind fun pool =>
    (ckksEncrypt rQ rP pk t pool ct).map fun ct => (pool, ct)

/-- `EncryptMsgNew`, fckks/encryptor.go:38-44 -/
def encryptMsgNew {K : Type} [Field K] (rQ rP : Ring) (roots : Nat → K) (fl : List K → List (ℚ × ℚ)) (mem : List K)
    (logSlots : Nat) (scale : ℚ) (pk : PolyQP × PolyQP) (t : EncTape) (msg : List K) (pool : Pt) : Option (Pt × Ct) :=
  encryptMsg rQ rP roots fl mem logSlots pk t msg pool (newCiphertext rQ.n 1 (rQ.subs.length - 1) scale)

/-- `DecryptToMsg`, fckks/decryptor.go:29-32; returns the message and the pool -/
def decryptToMsg {K : Type} [Field K] (r : Ring) (roots : Nat → K) (im : K) (mem : List K) (polypool : Rows)
    (logSlots : Nat) (sk : Rows) (ct : Ct) (pool : Pt) : Option (List K × Pt) :=
  let pt := ckksDecrypt r sk ct pool
  (r.decodeSlots roots im mem pt.value.isNTT pt.value.level pt.scale logSlots pt.value.coeffs polypool).map fun v => (v, pt)

end FastKsw
