import Verif.Spec.MsgConst
import Verif.Model.EvaluatorMore
import Verif.Model.FEvaluator
import Verif.Lemmas.Rescale
import Verif.Lemmas.AddCt

/-!
# Programs of a client

A client of `fckks` is a sequence of calls on ciphertexts.  `Op.run` runs one call of the model; `Track` is what the client can
compute beforehand from `Info` alone, without keys or ciphertexts: which calls are allowed and what the receiver will hold.
-/

namespace FastKsw

open Props

inductive Op
  | alloc (level : ℕ) (scale : ℚ) (new : Ref)
  | add (a b out : Ref)
  | sub (a b out : Ref)
  | neg (a out : Ref)
  | mulRelin (a b out : Ref)
  | rotate (k : ℤ) (a out : Ref)
  | rescale (a : Ref) (minScale : ℚ) (out : Ref)
  | multByConst (a : Ref) (c : Constant) (out : Ref)
  | multByGaussianInteger (a : Ref) (re im : GInt) (out : Ref)
  | multByi (a out : Ref)
  | divByi (a out : Ref)
  | mulByPow2 (a : Ref) (k : ℕ)
  | scaleUp (a : Ref) (k : ℕ) (out : Ref)
  | addConst (a : Ref) (c : Constant)
  | dropLevel (a : Ref) (k : ℕ)
  | addNew (a b new : Ref)
  | subNew (a b new : Ref)
  | negNew (a new : Ref)
  | mulRelinNew (a b new : Ref)
  | rotateNew (k : ℤ) (a new : Ref)
  | rescaleNew (a : Ref) (minScale : ℚ) (new : Ref)
  | multByConstNew (a : Ref) (c : Constant) (new : Ref)
  | multByiNew (a new : Ref)
  | divByiNew (a new : Ref)
  | scaleUpNew (a : Ref) (k : ℕ) (new : Ref)
  | addConstNew (a : Ref) (c : Constant) (new : Ref)
  | dropLevelNew (a : Ref) (k : ℕ) (new : Ref)

/-- one call: `NewCiphertext` of degree 1; operations of ckks; `MulRelin`, `Rotate`, `MulRelinNew` and `RotateNew` of fckks with the
relinearization key `rlk` and the rotation keys `rtk`; `none` when the call panics or returns an error.  `MulByPow2` and `AddConst` are
called with their operand as the receiver.  `DropLevel` works on its operand, as `DropLevelNew` followed by an assignment. -/
def Op.run (ev : FEvaluator) (rlk : FSwitchingKey × FSwitchingKey) (rtk : ℤ → UInt64 × FSwitchingKey × FSwitchingKey)
    (H : Heap) : Op → Option Heap
  | .alloc level scale new => some (H.set new (newCiphertext ev.ckks.ringQ.n 1 level scale))
  | .add a b out => ev.ckks.add H a b out
  | .sub a b out => ev.ckks.sub H a b out
  | .neg a out => ev.ckks.neg H a out
  | .mulRelin a b out => ev.mulRelin H a b rlk out
  | .rotate k a out => ev.rotate H a (rtk k) out
  | .rescale a minScale out =>
    match ev.ckks.rescale H a minScale out with
    | some (.ok H') => some H'
    | _ => none
  | .multByConst a c out => ev.ckks.multByConst H a c out
  | .multByGaussianInteger a re im out => ev.ckks.multByGaussianInteger H a re im out
  | .multByi a out => ev.ckks.multByi H a out
  | .divByi a out => ev.ckks.divByi H a out
  | .mulByPow2 a k => ev.ckks.mulByPow2 H a k a
  | .scaleUp a k out => ev.ckks.scaleUp H a k out
  | .addConst a c => some (ev.ckks.addConst H a c a)
  | .dropLevel a k => some (H.set a ((H a).dropLevel k))
  | .addNew a b new => ev.ckks.addNew H a b new
  | .subNew a b new => ev.ckks.subNew H a b new
  | .negNew a new => ev.ckks.negNew H a new
  | .mulRelinNew a b new => ev.mulRelinNew H a b rlk new
  | .rotateNew k a new => ev.rotateNew H a (rtk k) new
  | .rescaleNew a minScale new =>
    match ev.ckks.rescaleNew H a minScale new with
    | some (.ok H') => some H'
    | _ => none
  | .multByConstNew a c new => ev.ckks.multByConstNew H a c new
  | .multByiNew a new => ev.ckks.multByiNew H a new
  | .divByiNew a new => ev.ckks.divByiNew H a new
  | .scaleUpNew a k new => ev.ckks.scaleUpNew H a k new
  | .addConstNew a c new => some (ev.ckks.addConstNew H a c new)
  | .dropLevelNew a k new => some (Evaluator.dropLevelNew H a k new)

/-- the calls of a program one after the other -/
def runProgram (ev : FEvaluator) (rlk : FSwitchingKey × FSwitchingKey) (rtk : ℤ → UInt64 × FSwitchingKey × FSwitchingKey) :
    Heap → List Op → Option Heap
  | H, [] => some H
  | H, op :: ops => (op.run ev rlk rtk H).bind fun H' => runProgram ev rlk rtk H' ops

/-- What is known about the ciphertexts after a call, from what is known before; `ks level` bounds the error of a key switch.
`Add` and `Sub` need scales that the code takes as equal, `Neg` and `Rotate` a receiver whose level is not above the input's,
`Rotate` one whose scale is that of the input since it does not set it, and `Rescale` a receiver at the level of the input,
and a number `nb` of moduli below which the scale does not reach half of `minScale`.  The receiver of an operation with a constant is
not above its input.  A new ciphertext has a reference other than those of the operands. -/
inductive Track (logSlots d : ℕ) (r : Ring) (ks : ℕ → ℚ) (Γ : Ref → Option Info) : Op → (Ref → Option Info) → Prop
  | alloc {level scale new} (hl : level < r.subs.length) (hp : 0 < scale) (hf : f64 scale = scale) :
      Track logSlots d r ks Γ (.alloc level scale new) (Function.update Γ new (some (Info.zero level scale)))
  | add {a b out I J K} (ha : Γ a = some I) (hb : Γ b = some J) (ho : Γ out = some K) (hs : SameScale I.scale J.scale) :
      Track logSlots d r ks Γ (.add a b out) (Function.update Γ out (some (I.add J K.level)))
  | sub {a b out I J K} (ha : Γ a = some I) (hb : Γ b = some J) (ho : Γ out = some K) (hs : SameScale I.scale J.scale) :
      Track logSlots d r ks Γ (.sub a b out) (Function.update Γ out (some (I.sub J K.level)))
  | neg {a out I K} (ha : Γ a = some I) (ho : Γ out = some K) (hl : K.level ≤ I.level) :
      Track logSlots d r ks Γ (.neg a out) (Function.update Γ out (some (I.neg K.level)))
  | mulRelin {a b out I J K} (ha : Γ a = some I) (hb : Γ b = some J) (ho : Γ out = some K) :
      Track logSlots d r ks Γ (.mulRelin a b out) (Function.update Γ out (some (I.mul logSlots d ks J K.level)))
  | rotate {k a out I K} (ha : Γ a = some I) (ho : Γ out = some K) (hl : K.level ≤ I.level) (hs : K.scale = I.scale) :
      Track logSlots d r ks Γ (.rotate k a out) (Function.update Γ out (some (I.rotate logSlots k (ks K.level) K.level)))
  | rescale {a minScale out I K} (nb : ℕ) (ha : Γ a = some I) (ho : Γ out = some K) (hl : K.level = I.level) (h0 : 0 < I.level)
      (hm : 0 < minScale) (hnb : nb ≤ I.level) (h1 : nb = 0 ∨ f64Div minScale 2 ≤ scaleAfter r I.level I.scale nb)
      (h2 : scaleAfter r I.level I.scale (nb + 1) < f64Div minScale 2) :
      Track logSlots d r ks Γ (.rescale a minScale out) (Function.update Γ out
        (some (I.rescale logSlots d (scaleAfter r I.level I.scale nb) (topQ r I.level nb) nb)))
  | multByConst {a c out I K} (sc : ℚ) (ha : Γ a = some I) (ho : Γ out = some K) (hl : K.level ≤ I.level)
      (hc : ConstScale (r.qs K.level) c sc) :
      Track logSlots d r ks Γ (.multByConst a c out) (Function.update Γ out (some (I.mulConst c.parts sc K.level)))
  | multByGaussianInteger {a re im out I K} (ha : Γ a = some I) (ho : Γ out = some K) (hl : K.level ≤ I.level) :
      Track logSlots d r ks Γ (.multByGaussianInteger a re im out) (Function.update Γ out (some (I.mulGauss re.val im.val K.level)))
  | multByi {a out I K} (ha : Γ a = some I) (ho : Γ out = some K) (hl : K.level ≤ I.level) :
      Track logSlots d r ks Γ (.multByi a out) (Function.update Γ out (some (I.mulGauss 0 1 K.level)))
  | divByi {a out I K} (ha : Γ a = some I) (ho : Γ out = some K) (hl : K.level ≤ I.level) :
      Track logSlots d r ks Γ (.divByi a out) (Function.update Γ out (some (I.mulGauss 0 (-1) K.level)))
  | mulByPow2 {a k I} (ha : Γ a = some I) (hk : k < 64) :
      Track logSlots d r ks Γ (.mulByPow2 a k) (Function.update Γ a (some (I.mulGauss (2 ^ k) 0 I.level)))
  | scaleUp {a k out I K} (ha : Γ a = some I) (ho : Γ out = some K) (hl : K.level ≤ I.level) (hk : k < 2 ^ 51) (hk0 : 0 < k) :
      Track logSlots d r ks Γ (.scaleUp a k out) (Function.update Γ out (some (I.scaleUp k K.level)))
  | addConst {a c I} (ha : Γ a = some I) :
      Track logSlots d r ks Γ (.addConst a c) (Function.update Γ a (some (I.addConst c.parts)))
  | dropLevel {a k I} (ha : Γ a = some I) (hk : k ≤ I.level) :
      Track logSlots d r ks Γ (.dropLevel a k) (Function.update Γ a (some (I.drop k)))
  | addNew {a b new I J} (ha : Γ a = some I) (hb : Γ b = some J) (hna : a ≠ new) (hnb : b ≠ new) (hs : SameScale I.scale J.scale) :
      Track logSlots d r ks Γ (.addNew a b new) (Function.update Γ new (some (I.add J (min I.level J.level))))
  | subNew {a b new I J} (ha : Γ a = some I) (hb : Γ b = some J) (hna : a ≠ new) (hnb : b ≠ new) (hs : SameScale I.scale J.scale) :
      Track logSlots d r ks Γ (.subNew a b new) (Function.update Γ new (some (I.sub J (min I.level J.level))))
  | negNew {a new I} (ha : Γ a = some I) (hna : a ≠ new) :
      Track logSlots d r ks Γ (.negNew a new) (Function.update Γ new (some (I.neg I.level)))
  | mulRelinNew {a b new I J} (ha : Γ a = some I) (hb : Γ b = some J) (hna : a ≠ new) (hnb : b ≠ new) :
      Track logSlots d r ks Γ (.mulRelinNew a b new) (Function.update Γ new (some (I.mul logSlots d ks J (min I.level J.level))))
  | rotateNew {k a new I} (ha : Γ a = some I) (hna : a ≠ new) :
      Track logSlots d r ks Γ (.rotateNew k a new) (Function.update Γ new (some (I.rotate logSlots k (ks I.level) I.level)))
  | rescaleNew {a minScale new I} (nb : ℕ) (ha : Γ a = some I) (hna : a ≠ new) (h0 : 0 < I.level)
      (hm : 0 < minScale) (hnb : nb ≤ I.level) (h1 : nb = 0 ∨ f64Div minScale 2 ≤ scaleAfter r I.level I.scale nb)
      (h2 : scaleAfter r I.level I.scale (nb + 1) < f64Div minScale 2) :
      Track logSlots d r ks Γ (.rescaleNew a minScale new) (Function.update Γ new
        (some (I.rescale logSlots d (scaleAfter r I.level I.scale nb) (topQ r I.level nb) nb)))
  | multByConstNew {a c new I} (sc : ℚ) (ha : Γ a = some I) (hna : a ≠ new) (hc : ConstScale (r.qs I.level) c sc) :
      Track logSlots d r ks Γ (.multByConstNew a c new) (Function.update Γ new (some (I.mulConst c.parts sc I.level)))
  | multByiNew {a new I} (ha : Γ a = some I) (hna : a ≠ new) :
      Track logSlots d r ks Γ (.multByiNew a new) (Function.update Γ new (some (I.mulGauss 0 1 I.level)))
  | divByiNew {a new I} (ha : Γ a = some I) (hna : a ≠ new) :
      Track logSlots d r ks Γ (.divByiNew a new) (Function.update Γ new (some (I.mulGauss 0 (-1) I.level)))
  | scaleUpNew {a k new I} (ha : Γ a = some I) (hna : a ≠ new) (hk : k < 2 ^ 51) (hk0 : 0 < k) :
      Track logSlots d r ks Γ (.scaleUpNew a k new) (Function.update Γ new (some (I.scaleUp k I.level)))
  | addConstNew {a c new I} (ha : Γ a = some I) (hna : a ≠ new) :
      Track logSlots d r ks Γ (.addConstNew a c new) (Function.update Γ new (some (I.addConst c.parts)))
  | dropLevelNew {a k new I} (ha : Γ a = some I) (hk : k ≤ I.level) :
      Track logSlots d r ks Γ (.dropLevelNew a k new) (Function.update Γ new (some (I.drop k)))

inductive Tracks (logSlots d : ℕ) (r : Ring) (ks : ℕ → ℚ) : (Ref → Option Info) → List Op → (Ref → Option Info) → Prop
  | nil {Γ} : Tracks logSlots d r ks Γ [] Γ
  | cons {Γ Γ' Γ'' op ops} (h : Track logSlots d r ks Γ op Γ') (hs : Tracks logSlots d r ks Γ' ops Γ'') :
      Tracks logSlots d r ks Γ (op :: ops) Γ''

end FastKsw
