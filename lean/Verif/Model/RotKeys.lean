import Verif.Model.KeyGen

/-!
# `rlwe/keygen.go`: sets of rotation keys, with the reused buffers of the key generator

`Model/KeyGen.lean` starts every key from new buffers.  Here the buffers `poolQ` and `poolQP` of the key generator and the memory of
the key carry over from one key to the next: `GenRotationKeys` generates twice into the same key when a Galois element is listed twice.
The map `Keys` is a function with `none` for absent elements.  The secret key is not one of the buffers.
-/

namespace FastKsw

/-- the buffers of `keyGenerator`, rlwe/keygen.go:48-56 -/
structure KgPools where
  poolQ : Rows
  poolQP : PolyQP

/-- one digit of `genSwitchingKey` written over the digit `old`, rlwe/keygen.go:371-411 -/
def genSwitchingDigitInto (rQ rP : Ring) (levelQ levelP : Nat) (poolQ : Rows) (skOut : PolyQP) (i : Nat) (t : KeyTape)
    (old : PolyQP × PolyQP) : PolyQP × PolyQP :=
  let alpha := levelP + 1
  let bQ := writeLvl levelQ (fun j => t.e.row j) old.1.q
  let bP := extendBasisSmallNorm rQ rP levelP bQ old.1.p
  let bQ := rQ.nttLazyLvl levelQ bQ bQ
  let bP := rP.nttLazyLvl levelP bP bP
  let bQ := rQ.mformLvl levelQ bQ bQ
  let bP := rP.mformLvl levelP bP bP
  let aQ := writeLvl levelQ (fun j => t.a.q.row j) old.2.q
  let aP := writeLvl levelP (fun j => t.a.p.row j) old.2.p
  let bQ := (List.range alpha).foldl (fun bQ j =>
    let index := i * alpha + j
    if index ≥ levelQ + 1 then bQ
    else bQ.set index ((List.range rQ.n).map fun w =>
      cred ((bQ.row index).at w + (poolQ.row index).at w) (rQ.sub index).q)) bQ
  (⟨rQ.mulCoeffsMontgomeryAndSubLvl levelQ aQ skOut.q bQ,
    rP.mulCoeffsMontgomeryAndSubLvl levelP aP skOut.p bP⟩, ⟨aQ, aP⟩)

/-- `genSwitchingKey` with the content of `poolQ` and of the key, rlwe/keygen.go:344-411: `poolQ` and the key afterwards -/
def genSwitchingKeyInto (rQ rP : Ring) (poolQ skIn : Rows) (skOut : PolyQP) (tape : Nat → KeyTape) (swk : SwitchingKey) :
    Rows × SwitchingKey :=
  let levelQ := (swk.getD 0 default).1.q.length - 1
  let levelP := (swk.getD 0 default).1.p.length - 1
  let poolQ := rQ.mulScalarBigintLvl levelQ (keyPBig rP levelP) skIn poolQ
  (poolQ, (List.range (ceilDivF (levelQ + 1) (levelP + 1))).foldl (fun swk i =>
    swk.set i (genSwitchingDigitInto rQ rP levelQ levelP poolQ skOut i (tape i) (swk.getD i default))) swk)

/-- `genrotKey`, rlwe/keygen.go:256-267: `skOut` is `poolQP` -/
def genrotKeyInto (rQ rP : Ring) (st : KgPools) (sk : PolyQP) (galEl : UInt64) (tape : Nat → KeyTape) (swk : SwitchingKey) :
    KgPools × SwitchingKey :=
  let index := rQ.permuteNTTIndex galEl
  let skOut : PolyQP :=
    ⟨rQ.permuteNTTWithIndexLvl (rQ.subs.length - 1) sk.q index st.poolQP.q,
     rQ.permuteNTTWithIndexLvl (rP.subs.length - 1) sk.p index st.poolQP.p⟩
  let r := genSwitchingKeyInto rQ rP st.poolQ sk.q skOut tape swk
  (⟨r.1, skOut⟩, r.2)

/-- `NewSwitchingKey` at levels `levelQ`, `levelP`, rlwe/keys.go:97-107, for parameters with special primes -/
def newSwitchingKey (rQ rP : Ring) (levelQ levelP : Nat) : SwitchingKey :=
  let z : PolyQP := ⟨newPoly rQ.n (levelQ + 1), newPoly rP.n (levelP + 1)⟩
  List.replicate (ceilDivF (levelQ + 1) (levelP + 1)) (z, z)

/-- `RotationKeySet.Keys`, rlwe/keys.go:47-49 -/
abbrev RotKeys := UInt64 → Option SwitchingKey

/-- `Keys[galEl] = swk` -/
def RotKeys.put (m : RotKeys) (galEl : UInt64) (swk : SwitchingKey) : RotKeys := fun g => if g = galEl then some swk else m g

/-- `NewRotationKeySet`, rlwe/keys.go:77-84 -/
def newRotationKeySet (rQ rP : Ring) (galEls : List UInt64) : RotKeys :=
  galEls.foldl (fun m g => m.put g (newSwitchingKey rQ rP (rQ.subs.length - 1) (rP.subs.length - 1))) fun _ => none

/-- the loop of `GenRotationKeys`, rlwe/keygen.go:212-214; `i` counts the iterations and selects the random tape.  The key is in the
set because `NewRotationKeySet` put it there. -/
def genRotationKeysLoop (rQ rP : Ring) (sk : PolyQP) (tapes : Nat → Nat → KeyTape) : Nat → List UInt64 → KgPools × RotKeys → KgPools × RotKeys
  | _, [], s => s
  | i, g :: gs, s =>
    let r := genrotKeyInto rQ rP s.1 sk (rQ.inverseGaloisElement g) (tapes i) ((s.2 g).getD [])
    genRotationKeysLoop rQ rP sk tapes (i + 1) gs (r.1, s.2.put g r.2)

/-- `GenRotationKeys`, rlwe/keygen.go:210-216 -/
def genRotationKeys (rQ rP : Ring) (st : KgPools) (galEls : List UInt64) (sk : PolyQP) (tapes : Nat → Nat → KeyTape) :
    KgPools × RotKeys :=
  genRotationKeysLoop rQ rP sk tapes 0 galEls (st, newRotationKeySet rQ rP galEls)

/-- `GenRotationKeysForRotations`, rlwe/keygen.go:228-237; `none`: panic -/
def genRotationKeysForRotations (rQ rP : Ring) (st : KgPools) (ks : List Int) (includeConjugate : Bool) (sk : PolyQP)
    (tapes : Nat → Nat → KeyTape) : Option (KgPools × RotKeys) :=
  let galEls := ks.map rQ.galoisElementForColumnRotationBy
  if includeConjugate then
    rQ.galoisElementForRowRotation.map fun g => genRotationKeys rQ rP st (galEls ++ [g]) sk tapes
  else some (genRotationKeys rQ rP st galEls sk tapes)

/-- `GenRotationKeysForInnerSum`, rlwe/keygen.go:252-254 -/
def genRotationKeysForInnerSum (rQ rP : Ring) (st : KgPools) (logN : Nat) (sk : PolyQP) (tapes : Nat → Nat → KeyTape) :
    Option (KgPools × RotKeys) :=
  (rQ.galoisElementsForRowInnerSum logN).map fun galEls => genRotationKeys rQ rP st galEls sk tapes

end FastKsw
