import Verif.Model.KeySwitch
import Verif.Model.Params
import Verif.Model.CRT

/-!
# `frlwe`: parameters, key blocks and the fast key-switcher

Scratch polynomials are fresh in the model (every row the code reads is written
before in the same call; C106 proves that reused ones make no difference).
-/

namespace FastKsw

/-- `Parameters`, frlwe/params.go:22-29, with the fields of `rlwe.Parameters` it uses -/
structure FParams where
  ringQ : Ring
  ringP : Ring
  ringR : Ring
  ringT : Ring
  gamma : Nat

/-- `NewParametersFromLiteral`, frlwe/params.go:31-59, for a literal that lists the moduli
(`Q`, `P` non-nil, `LogQ = LogP = nil`).  `none` is a panic; an empty `P`, which leaves `ringP` nil
and makes `NewKeySwitcher` panic, is `none` too. -/
def newFParams (fuel logN : Nat) (q p t : List UInt64) (h : Nat) (sigma : UInt64) (gamma : Nat) :
    Option FParams :=
  match newParameters fuel logN q p h sigma .standard with
  | .error _ => none
  | .ok rl =>
    match newRing fuel (2 ^ logN) t with
    | .error _ => none
    | .ok rT =>
      match newRing fuel (2 ^ logN) (p ++ q) with
      | .error _ => none
      | .ok rR =>
        match rl.ringP with
        | none => none
        | some rP => some ⟨rl.ringQ, rP, rR, rT, gamma⟩

/-- `Alpha`, rlwe/params.go:326-328 -/
def FParams.alpha (p : FParams) : Nat := p.ringP.subs.length

/-- `Beta`, rlwe/params.go:331-337 -/
def FParams.beta (p : FParams) : Nat :=
  if p.alpha ≠ 0 then ceilDivF p.ringQ.subs.length p.alpha else 1

/-- `MaxLevel` -/
def FParams.maxLevel (p : FParams) : Nat := p.ringQ.subs.length - 1

/-- block `i` of `size` moduli out of the first `cnt`: frlwe/keyswitch.go:61-66, 77-82,
frlwe/keygen.go:36-41 -/
def blockModuli (moduli : List UInt64) (size cnt i : Nat) : List UInt64 :=
  (List.range size).filterMap fun j => if i * size + j < cnt then some (Row.at moduli (i * size + j)) else none

/-- `KeySwitcher`, frlwe/keyswitch.go:10-30 -/
structure FKeySwitcher where
  params : FParams
  halfTPolyQP : PolyQP
  halfTPolyT : Rows
  convQP : BasisExtender
  ringRi : List Ring
  convTRi : List BasisExtender
  ringQj : List Ring
  convQjT : List BasisExtender

/-- the rings `ring.NewRing(N, block)` of all blocks; `none` when one is in error (a nil ring,
dereferenced by `NewBasisExtender`) -/
def blockRings (fuel N : Nat) (moduli : List UInt64) (size cnt len : Nat) : Option (List Ring) :=
  (List.range len).mapM fun i => (newRing fuel N (blockModuli moduli size cnt i)).toOption

/-- `NewKeySwitcher`, frlwe/keyswitch.go:32-110 -/
def newFKeySwitcher (fuel : Nat) (p : FParams) : Option FKeySwitcher :=
  let cntR := p.maxLevel + p.alpha + 1
  let blockLen := ceilDivF cntR p.gamma
  (blockRings fuel p.ringQ.n p.ringR.moduli p.gamma cntR blockLen).bind fun ringRi =>
    (blockRings fuel p.ringQ.n p.ringQ.moduli p.alpha (p.maxLevel + 1) p.beta).bind fun ringQj =>
      let halfT : Int := p.ringT.modulusBigint / 2
      let zQ := newPoly p.ringQ.n p.ringQ.subs.length
      let zP := newPoly p.ringP.n p.ringP.subs.length
      let zT := newPoly p.ringT.n p.ringT.subs.length
      some {
        params := p
        halfTPolyQP := ⟨(p.ringQ.addScalarBigintLvl (zQ.length - 1) zQ halfT zQ).1,
          (p.ringP.addScalarBigintLvl (zP.length - 1) zP halfT zP).1⟩
        halfTPolyT := (p.ringT.addScalarBigintLvl (zT.length - 1) zT halfT zT).1
        convQP := newBasisExtender p.ringQ p.ringP
        ringRi := ringRi
        convTRi := ringRi.map fun r => newBasisExtender p.ringT r
        ringQj := ringQj
        convQjT := ringQj.map fun r => newBasisExtender r p.ringT }

/-- number of `j < size` with `i*size + j < cnt`; `levelRi + 1` (frlwe/keyswitch.go:160-165,
frlwe/keygen.go:75-84) and `levelQj + 1` (frlwe/keyswitch.go:202-208) -/
def blockCount (size cnt i : Nat) : Nat :=
  (List.range size).foldl (fun c j => if i * size + j < cnt then c + 1 else c) 0

/-- `SwitchingKey`, frlwe/keys.go:8-10: `Value[i][j]`, digit `i`, block `j` -/
abbrev FSwitchingKey := List (List Rows)

/-- `bg.Value[i][j]` -/
def FSwitchingKey.at (k : FSwitchingKey) (i j : Nat) : Rows := (k.getD i []).getD j []

/-- copy of one row to `polyQPPool`, frlwe/keyswitch.go:172-176 -/
def PolyQP.setR (x : PolyQP) (alpha u : Nat) (row : Row) : PolyQP :=
  if u < alpha then ⟨x.q, x.p.set u row⟩ else ⟨x.q.set (u - alpha) row, x.p⟩

/-- the ring `T`: operations without `Lvl` run on all rows -/
def FParams.levelT (p : FParams) : Nat := p.ringT.subs.length - 1

/-- the accumulators `polyTPools2` after the product loops, frlwe/keyswitch.go:127-151 -/
def FKeySwitcher.accumulate (ksw : FKeySwitcher) (levelQ : Nat) (aPolyTs : List Rows)
    (bg : FSwitchingKey) : List Rows :=
  let p := ksw.params
  let beta := ceilDivF (levelQ + 1) p.alpha
  let blockLen := ceilDivF (levelQ + p.alpha + 1) p.gamma
  let m := overflowMargin p.ringT.moduli p.levelT >>> 1
  let pools := (List.range beta).foldl (fun pools i =>
    pools.mapIdx fun j acc => if j < blockLen then
      p.ringT.accStep p.levelT m i (aPolyTs.getD i []) (bg.at i j) acc else acc)
    (List.replicate ksw.ringRi.length (newPoly p.ringT.n p.ringT.subs.length))
  pools.mapIdx fun j acc => if j < blockLen then p.ringT.accEnd p.levelT m beta acc else acc

/-- block `i` brought back to `R_i`, frlwe/keyswitch.go:154-156, 160-169: content of `polyRPool` -/
def FKeySwitcher.blockToR (ksw : FKeySwitcher) (levelQ i : Nat) (acc : Rows) : Rows :=
  let p := ksw.params
  let levelRi := blockCount p.gamma (levelQ + p.alpha + 1) i - 1
  let acc := p.ringT.invNttLazyLvl p.levelT acc acc
  let acc := p.ringT.addLvl p.levelT acc ksw.halfTPolyT acc
  let pool := (ksw.convTRi.getD i ksw.convQP).modUpQtoP p.levelT levelRi acc
    (newPoly p.ringR.n p.ringR.subs.length)
  (ksw.ringRi.getD i p.ringR).reduceLvl levelRi pool pool

/-- `externalProduct` up to the division by `P`, frlwe/keyswitch.go:113-180: content of `polyQPPool` -/
def FKeySwitcher.externalProductQP (ksw : FKeySwitcher) (levelQ : Nat) (aPolyTs : List Rows)
    (bg : FSwitchingKey) : PolyQP :=
  let p := ksw.params
  let levelP := p.alpha - 1
  let cnt := levelQ + p.alpha + 1
  let blockLen := ceilDivF cnt p.gamma
  let pools := ksw.accumulate levelQ aPolyTs bg
  let qp := (List.range blockLen).foldl (fun qp i =>
    let r := ksw.blockToR levelQ i (pools.getD i [])
    (List.range (blockCount p.gamma cnt i)).foldl
      (fun qp j => qp.setR p.alpha (i * p.gamma + j) (r.row j)) qp)
    (⟨newPoly p.ringQ.n p.ringQ.subs.length, newPoly p.ringP.n p.ringP.subs.length⟩ : PolyQP)
  ⟨p.ringQ.subLvl levelQ qp.q ksw.halfTPolyQP.q qp.q, p.ringP.subLvl levelP qp.p ksw.halfTPolyQP.p qp.p⟩

/-- `externalProduct`, frlwe/keyswitch.go:113-186: new content of `c` -/
def FKeySwitcher.externalProduct (ksw : FKeySwitcher) (levelQ : Nat) (aPolyTs : List Rows)
    (bg : FSwitchingKey) (c : Rows) : Rows :=
  let qp := ksw.externalProductQP levelQ aPolyTs bg
  ksw.convQP.modDownQPtoQ levelQ (ksw.params.alpha - 1) qp.q qp.p c

/-- digit `j` of the decomposition of `a` in the ring `T`, frlwe/keyswitch.go:201-218:
content of `polyTPools1[j]` -/
def FKeySwitcher.digit (ksw : FKeySwitcher) (levelQ : Nat) (a : Rows) (j : Nat) : Rows :=
  let p := ksw.params
  let poolQ := (List.range p.alpha).foldl (fun pool i =>
    if j * p.alpha + i < levelQ + 1 then pool.set i (a.row (j * p.alpha + i)) else pool)
    (newPoly p.ringQ.n p.ringQ.subs.length)
  let levelQj := blockCount p.alpha (levelQ + 1) j - 1
  let z := newPoly p.ringT.n p.ringT.subs.length
  let t := if p.alpha = 1 then writeLvl p.levelT (fun _ => poolQ.row 0) z
    else (ksw.convQjT.getD j ksw.convQP).modUpQtoP levelQj p.levelT poolQ z
  p.ringT.nttLazyLvl p.levelT t t

/-- `SwitchKey`, frlwe/keyswitch.go:188-224: new contents of `(c0, c1)`; `none` is the panic -/
def FKeySwitcher.switchKey (ksw : FKeySwitcher) (levelQ : Nat) (isNTT : Bool) (a : Rows)
    (bg0 bg1 : FSwitchingKey) (c0 c1 : Rows) : Option (Rows × Rows) :=
  if isNTT then none
  else
    let dig := (List.range (ceilDivF (levelQ + 1) ksw.params.alpha)).map (ksw.digit levelQ a)
    some (ksw.externalProduct levelQ dig bg0 c0, ksw.externalProduct levelQ dig bg1 c1)

/-! ## Key blocks -/

/-- `KeyGenerator`, frlwe/keygen.go:10-17 -/
structure FKeyGenerator where
  params : FParams
  ringRi : List Ring
  convRiT : List BasisExtender

/-- `NewKeyGenerator`, frlwe/keygen.go:19-49 -/
def newFKeyGenerator (fuel : Nat) (p : FParams) : Option FKeyGenerator :=
  let cntR := p.maxLevel + p.alpha + 1
  (blockRings fuel p.ringQ.n p.ringR.moduli p.gamma cntR (ceilDivF cntR p.gamma)).bind fun ringRi =>
    some ⟨p, ringRi, ringRi.map fun r => newBasisExtender r p.ringT⟩

/-- row `u` of a polynomial over `R = P‖Q`, frlwe/keygen.go:77-83 -/
def PolyQP.getR (x : PolyQP) (alpha u : Nat) : Row :=
  if u < alpha then x.p.row u else x.q.row (u - alpha)

/-- block `i` of `polyQPToPolyTs`, frlwe/keygen.go:74-89: new content of `polyTs[i]` -/
def FKeyGenerator.polyT (kg : FKeyGenerator) (x : PolyQP) (i : Nat) : Rows :=
  let p := kg.params
  let cnt := p.maxLevel + p.alpha + 1
  let pool := (List.range p.gamma).foldl (fun pool j =>
    if i * p.gamma + j < cnt then pool.set j (x.getR p.alpha (i * p.gamma + j)) else pool)
    (newPoly p.ringR.n p.gamma)
  let levelRi := blockCount p.gamma cnt i - 1
  let t := (kg.convRiT.getD i (newBasisExtender p.ringQ p.ringP)).modUpQtoP levelRi p.levelT pool
    (newPoly p.ringT.n p.ringT.subs.length)
  let t := p.ringT.reduceLvl p.levelT t t
  let t := p.ringT.nttLvl p.levelT t t
  p.ringT.mformLvl p.levelT t t

/-- `polyQPToPolyTs`, frlwe/keygen.go:59-91 -/
def FKeyGenerator.polyQPToPolyTs (kg : FKeyGenerator) (x : PolyQP) : List Rows :=
  let p := kg.params
  (List.range (ceilDivF (p.maxLevel + p.alpha + 1) p.gamma)).map (kg.polyT x)

/-- `GenRelinKey` / `GenRotKey` after the rlwe key has been generated, frlwe/keygen.go:106-114,
134-142: the two `SwitchingKey`s made from the key `k` -/
def FKeyGenerator.convertKey (kg : FKeyGenerator) (k : SwitchingKey) : FSwitchingKey × FSwitchingKey :=
  let p := kg.params
  let levelP := p.alpha - 1
  let plain := fun (x : PolyQP) =>
    let x : PolyQP := ⟨p.ringQ.invMformLvl p.maxLevel x.q x.q, p.ringP.invMformLvl levelP x.p x.p⟩
    (⟨p.ringQ.invNttLvl p.maxLevel x.q x.q, p.ringP.invNttLvl levelP x.p x.p⟩ : PolyQP)
  ((List.range p.beta).map fun i => kg.polyQPToPolyTs (plain (k.getD i default).1),
   (List.range p.beta).map fun i => kg.polyQPToPolyTs (plain (k.getD i default).2))

end FastKsw
