import Verif.Model.KeyGen

/-!
# Method calls of the key generators

`frlwe.KeyGenerator` embeds the interface `rlwe.KeyGenerator` (frlwe/keygen.go:10-17).  A call on it
runs the method declared at the shallowest depth: first a method of `frlwe.KeyGenerator`, then the one of
the embedded value, a `*rlwe.keyGenerator` (rlwe/keygen.go:60-83).  The relation `Returns` is the usual
big-step relation of the bodies.  The random numbers are the tape: what the samplers write.
-/

namespace FastKsw

/-- the two receivers -/
inductive Recv where
  | frlwe
  | rlwe
  deriving DecidableEq

/-- the methods that matter here; `sk` is the argument of `GenPublicKey` -/
inductive Call where
  | genSecretKey
  | genPublicKey (sk : PolyQP)
  | genKeyPair

/-- what the samplers of the embedded generator write during one call -/
structure GenTape where
  s : Rows
  e : Rows
  a : PolyQP

/-- result of a method -/
inductive KeyRes where
  | sk (v : PolyQP)
  | pk (v : PolyQP × PolyQP)
  | pair (s : PolyQP) (p : PolyQP × PolyQP)

/-- methods declared on `*frlwe.KeyGenerator`, frlwe/keygen.go:51-57 -/
def frlweDeclares : Call → Bool
  | .genSecretKey => true
  | .genPublicKey _ => true
  | .genKeyPair => false

/-- Go's selector rule for a call on a `*frlwe.KeyGenerator`; methods of `rlwe` see only their own receiver -/
def dispatch : Recv → Call → Recv
  | .frlwe, c => if frlweDeclares c then .frlwe else .rlwe
  | .rlwe, _ => .rlwe

/-- `Returns recv c res`: the call `recv.c` returns `res` -/
inductive Returns (rQ rP : Ring) (t : GenTape) : Recv → Call → KeyRes → Prop
  /-- `return keygen.GenSecretKey()`, frlwe/keygen.go:51-53 -/
  | fGenSecretKey {res} : dispatch .frlwe .genSecretKey = .frlwe →
      Returns rQ rP t .frlwe .genSecretKey res → Returns rQ rP t .frlwe .genSecretKey res
  /-- `return keygen.GenPublicKey(sk)`, frlwe/keygen.go:55-57 -/
  | fGenPublicKey {sk res} : dispatch .frlwe (.genPublicKey sk) = .frlwe →
      Returns rQ rP t .frlwe (.genPublicKey sk) res → Returns rQ rP t .frlwe (.genPublicKey sk) res
  /-- a promoted method -/
  | promoted {c res} : dispatch .frlwe c = .rlwe → Returns rQ rP t .rlwe c res → Returns rQ rP t .frlwe c res
  /-- rlwe/keygen.go:86-88, 116-136 -/
  | genSecretKey : Returns rQ rP t .rlwe .genSecretKey (.sk (genSecretKey rQ rP t.s))
  /-- rlwe/keygen.go:139-175 -/
  | genPublicKey {sk} : Returns rQ rP t .rlwe (.genPublicKey sk) (.pk (genPublicKey rQ rP sk t.e t.a))
  /-- rlwe/keygen.go:177-180; the receiver is the embedded generator -/
  | genKeyPair {s p} : Returns rQ rP t .rlwe .genSecretKey (.sk s) →
      Returns rQ rP t .rlwe (.genPublicKey s) (.pk p) → Returns rQ rP t .rlwe .genKeyPair (.pair s p)

end FastKsw
