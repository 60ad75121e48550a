import Verif.Model.Automorphism
import Verif.Model.CRT
import Verif.Model.KeySwitch
import Verif.Model.FKeySwitch

/-!
# `rlwe/keygen.go`

The samplers are replaced by the rows they write: every generating function takes
them as an argument (`KeyTape` and so on).  What the samplers write is modelled in
its own file.  Pool polynomials that are written before they are read start as
zero polynomials.
-/

namespace FastKsw

/-- one word of `ExtendBasisSmallNormAndCenter`, rlwe/ring_qp.go:325-337 -/
def extendWord (q p coeff : UInt64) : UInt64 :=
  let sign : UInt64 := if coeff > q >>> 1 then 0 else 1
  let coeff := if coeff > q >>> 1 then q - coeff else coeff
  (coeff * sign) ||| (p - coeff) * (sign ^^^ 1)

/-- `ExtendBasisSmallNormAndCenter` with `polyOutQ = nil`, rlwe/ring_qp.go:315-339: the new content of
`polyOutP` -/
def extendBasisSmallNorm (rQ rP : Ring) (levelP : Nat) (pQ outP : Rows) : Rows :=
  writeLvl levelP (fun i => (List.range rQ.n).map fun j =>
    extendWord (rQ.sub 0).q (rP.sub i).q ((pQ.row 0).at j)) outP

/-- `genSecretKeyFromSampler`, rlwe/keygen.go:116-136, `P` not empty; `s` is what the sampler writes -/
def genSecretKey (rQ rP : Ring) (s : Rows) : PolyQP :=
  let levelQ := rQ.subs.length - 1
  let levelP := rP.subs.length - 1
  let p := extendBasisSmallNorm rQ rP levelP s (newPoly rP.n rP.subs.length)
  let q := rQ.nttLvl levelQ s s
  let p := rP.nttLvl levelP p p
  ⟨rQ.mformLvl levelQ q q, rP.mformLvl levelP p p⟩

/-- `GenPublicKey`, rlwe/keygen.go:139-159, `P` not empty; `e` and `a` are what the samplers write -/
def genPublicKey (rQ rP : Ring) (sk : PolyQP) (e : Rows) (a : PolyQP) : PolyQP × PolyQP :=
  let levelQ := rQ.subs.length - 1
  let levelP := rP.subs.length - 1
  let eP := extendBasisSmallNorm rQ rP levelP e (newPoly rP.n rP.subs.length)
  let bQ := rQ.nttLvl levelQ e e
  let bP := rP.nttLvl levelP eP eP
  (⟨rQ.mulCoeffsMontgomeryAndSubLvl levelQ sk.q a.q bQ, rP.mulCoeffsMontgomeryAndSubLvl levelP sk.p a.p bP⟩, a)

/-- `GenPublicKey`, rlwe/keygen.go:159-174, `P` empty -/
def genPublicKeyQ (rQ : Ring) (skQ e a : Rows) : Rows × Rows :=
  let levelQ := rQ.subs.length - 1
  let b := rQ.nttLvl levelQ e e
  (rQ.mulCoeffsMontgomeryAndSubLvl levelQ skQ a b, a)

/-- what the samplers write for one digit of a switching key: the error in `swk.Value[i][0].Q` and the
mask `swk.Value[i][1]` -/
structure KeyTape where
  e : Rows
  a : PolyQP

/-- `pBigInt`, rlwe/keygen.go:353-362 -/
def keyPBig (rP : Ring) (levelP : Nat) : Int :=
  if levelP = rP.subs.length - 1 then rP.modulusBigint
  else (List.range levelP).foldl (fun m i => m * ((rP.sub (i + 1)).q.toNat : Int)) ((rP.sub 0).q.toNat : Int)

/-- digit `i` of `genSwitchingKey`, rlwe/keygen.go:371-411.  `poolQ` is `P * skIn`.  The `break` at the
first index above the level (lines 395-397) ends a loop whose later iterations would all break too. -/
def genSwitchingDigit (rQ rP : Ring) (levelQ levelP : Nat) (poolQ : Rows) (skOut : PolyQP) (i : Nat)
    (t : KeyTape) : PolyQP × PolyQP :=
  let alpha := levelP + 1
  let eP := extendBasisSmallNorm rQ rP levelP t.e (newPoly rP.n (levelP + 1))
  let bQ := rQ.nttLazyLvl levelQ t.e t.e
  let bP := rP.nttLazyLvl levelP eP eP
  let bQ := rQ.mformLvl levelQ bQ bQ
  let bP := rP.mformLvl levelP bP bP
  let bQ := (List.range alpha).foldl (fun bQ j =>
    let index := i * alpha + j
    if index ≥ levelQ + 1 then bQ
    else bQ.set index ((List.range rQ.n).map fun w =>
      cred ((bQ.row index).at w + (poolQ.row index).at w) (rQ.sub index).q)) bQ
  (⟨rQ.mulCoeffsMontgomeryAndSubLvl levelQ t.a.q skOut.q bQ,
    rP.mulCoeffsMontgomeryAndSubLvl levelP t.a.p skOut.p bP⟩, t.a)

/-- `genSwitchingKey`, rlwe/keygen.go:345-411, on a key of levels `levelQ`, `levelP` -/
def genSwitchingKeyCore (rQ rP : Ring) (levelQ levelP : Nat) (skIn : Rows) (skOut : PolyQP)
    (tape : Nat → KeyTape) : SwitchingKey :=
  let poolQ := rQ.mulScalarBigintLvl levelQ (keyPBig rP levelP) skIn (newPoly rQ.n rQ.subs.length)
  (List.range (ceilDivF (levelQ + 1) (levelP + 1))).map fun i =>
    genSwitchingDigit rQ rP levelQ levelP poolQ skOut i (tape i)

/-- `GenRelinearizationKey`, rlwe/keygen.go:183-206: the powers `skIn` of the secret (content of
`poolQP.Q`) before iteration `i` -/
def relinPower (rQ : Ring) (sk : Rows) : Nat → Rows
  | 0 => sk
  | i + 1 => rQ.mulCoeffsMontgomeryLvl (rQ.subs.length - 1) (relinPower rQ sk i) sk (relinPower rQ sk i)

/-- `GenRelinearizationKey`, rlwe/keygen.go:183-206; `tape i` for key `i` -/
def genRelinearizationKey (rQ rP : Ring) (sk : PolyQP) (maxDegree : Nat) (tape : Nat → Nat → KeyTape) :
    List SwitchingKey :=
  (List.range maxDegree).map fun i =>
    genSwitchingKeyCore rQ rP (rQ.subs.length - 1) (rP.subs.length - 1) (relinPower rQ sk.q (i + 1)) sk (tape i)

/-- `genrotKey`, rlwe/keygen.go:256-267: `skOut.P` is permuted by `ringQ` too, at level
`PCount - 1` -/
def genrotKey (rQ rP : Ring) (sk : PolyQP) (galEl : UInt64) (tape : Nat → KeyTape) : SwitchingKey :=
  let index := rQ.permuteNTTIndex galEl
  let skOut : PolyQP :=
    ⟨rQ.permuteNTTWithIndexLvl (rQ.subs.length - 1) sk.q index (newPoly rQ.n rQ.subs.length),
     rQ.permuteNTTWithIndexLvl (rP.subs.length - 1) sk.p index (newPoly rP.n rP.subs.length)⟩
  genSwitchingKeyCore rQ rP (rQ.subs.length - 1) (rP.subs.length - 1) sk.q skOut tape

/-- `GenSwitchingKeyForGalois`, rlwe/keygen.go:245-249; also each key of `GenRotationKeys`,
rlwe/keygen.go:210-216 -/
def genSwitchingKeyForGalois (rQ rP : Ring) (galEl : UInt64) (sk : PolyQP) (tape : Nat → KeyTape) : SwitchingKey :=
  genrotKey rQ rP sk (rQ.inverseGaloisElement galEl) tape

/-- `GenSwitchingKeyForRotationBy`, rlwe/keygen.go:218-223 -/
def genSwitchingKeyForRotationBy (rQ rP : Ring) (k : Int) (sk : PolyQP) (tape : Nat → KeyTape) : SwitchingKey :=
  genrotKey rQ rP sk (rQ.galoisElementForColumnRotationBy (-k)) tape

/-- `GenSwitchingKeyForRowRotation`, rlwe/keygen.go:239-243; `none`: panic -/
def genSwitchingKeyForRowRotation (rQ rP : Ring) (sk : PolyQP) (tape : Nat → KeyTape) : Option SwitchingKey :=
  rQ.galoisElementForRowRotation.map fun g => genrotKey rQ rP sk g tape

/-- the lift of a secret known up to level `lIn` to the rows `lIn + 1 … lOut`, rlwe/keygen.go:305-337;
`poolQ` is the secret in NTT and Montgomery form -/
def liftSecret (rQ : Ring) (lIn lOut : Nat) (poolQ : Rows) : Rows :=
  let z := newPoly rQ.n rQ.subs.length
  let polQ := rQ.invNttLvl 0 poolQ z
  let polQ := rQ.invMformLvl 0 polQ polQ
  poolQ.mapIdx fun i x => if lIn + 1 ≤ i ∧ i < lOut + 1 then
      let y := (List.range rQ.n).map fun j => extendWord (rQ.sub 0).q (rQ.sub i).q ((polQ.row 0).at j)
      mformVec ((rQ.sub i).ntt rQ.n y) (rQ.sub i).q (rQ.sub i).bred
    else x

/-- `GenSwitchingKey`, rlwe/keygen.go:290-343, for secrets of the ring degree of the parameters:
`MapSmallDimensionToLargerDimensionNTT` is then a copy -/
def genSwitchingKey (rQ rP : Ring) (skIn skOut : PolyQP) (tape : Nat → KeyTape) : SwitchingKey :=
  let lIn := skIn.q.length - 1
  let lOut := skOut.q.length - 1
  let poolQ := (List.range skIn.q.length).foldl (fun pool i => pool.set i (skIn.q.row i))
    (newPoly rQ.n rQ.subs.length)
  let poolQ := if lIn < lOut then liftSecret rQ lIn lOut poolQ else poolQ
  genSwitchingKeyCore rQ rP lOut (skOut.p.length - 1) poolQ skOut tape

/-- `GenRelinKey`, frlwe/keygen.go:93-117 -/
def FKeyGenerator.genRelinKey (kg : FKeyGenerator) (sk : PolyQP) (tape : Nat → KeyTape) :
    FSwitchingKey × FSwitchingKey :=
  kg.convertKey ((genRelinearizationKey kg.params.ringQ kg.params.ringP sk 1 fun _ => tape).getD 0 [])

/-- `GenRotKey`, frlwe/keygen.go:119-145: the rotation index stored in the key, and the key.  `%` of Go
truncates, and `uint64(rotidx)` wraps a negative index. -/
def FKeyGenerator.genRotKey (kg : FKeyGenerator) (rotidx : Int) (sk : PolyQP) (tape : Nat → KeyTape) :
    UInt64 × (FSwitchingKey × FSwitchingKey) :=
  let rotidx := rotidx.tmod ((kg.params.ringQ.n / 2 : Nat) : Int)
  (UInt64.ofInt rotidx,
    kg.convertKey (genSwitchingKeyForRotationBy kg.params.ringQ kg.params.ringP rotidx sk tape))

end FastKsw
