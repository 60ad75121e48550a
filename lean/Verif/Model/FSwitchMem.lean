import Verif.Model.FKeySwitch

/-!
# Indices of the fast key-switch

`SwitchKey` of `frlwe` with the conditions under which Go's indices and slices are in range; `none` is a panic.  The buffers of the key
switcher have the numbers of rows that `NewKeySwitcher` allocates (frlwe/keyswitch.go:44-47, 97-107), with `N` words each.
-/

namespace FastKsw

/-- no index and no slice of `modUpExact` on the first `levelQ + 1` of `rowsSrc` rows and the first `levelP + 1` of `rowsDst` rows is out of
range, ring/ring_basis_extension.go:193, 281-301 (arrays of 32 words), 481-590: the last condition is on the index `v` of the correction, which
comes from a sum of floats. -/
def modUpInRange (levelQ levelP rowsSrc rowsDst N : Nat) (src : Rows) (ringQ ringP : Ring) (params : List ModupParams) : Bool :=
  let par := params.getD levelQ default
  decide (levelQ < rowsSrc ∧ levelP < rowsDst ∧ levelQ < params.length ∧ levelQ < 32 ∧
    levelQ < ringQ.subs.length ∧ levelQ < par.qoverqiinvqi.length ∧
    levelP < ringP.subs.length ∧ levelP < par.qoverqimodp.length ∧ levelP < par.vtimesqmodp.length ∧
    ∀ j < levelP + 1, levelQ < (par.qoverqimodp.row j).length ∧ ∀ x < N,
      reconV (levelQ + 1) (reconY (fun i => (src.row i).at x) (fun i => (ringQ.sub i).q) (fun i => (ringQ.sub i).mred) par.qoverqiinvqi)
        (fun i => (ringQ.sub i).q) < (par.vtimesqmodp.row j).length)

/-- digit `j`, frlwe/keyswitch.go:201-218 -/
def FKeySwitcher.digitMem (ksw : FKeySwitcher) (levelQ : Nat) (a : Rows) (j : Nat) : Option Rows :=
  let p := ksw.params
  let poolQ := (List.range p.alpha).foldl (fun pool i =>
    if j * p.alpha + i < levelQ + 1 then pool.set i (a.row (j * p.alpha + i)) else pool)
    (newPoly p.ringQ.n p.ringQ.subs.length)
  let be := ksw.convQjT.getD j ksw.convQP
  if (∀ i < p.alpha, j * p.alpha + i < levelQ + 1 → i < p.ringQ.subs.length ∧ j * p.alpha + i < a.length) ∧ j < p.beta ∧
      0 < p.ringQ.subs.length ∧ (p.alpha = 1 ∨ (j < ksw.convQjT.length ∧
        modUpInRange (blockCount p.alpha (levelQ + 1) j - 1) p.levelT p.ringQ.subs.length p.ringT.subs.length p.ringQ.n poolQ
          be.ringQ be.ringP be.paramsQtoP = true)) then
    some (ksw.digit levelQ a j)
  else none

/-- the products, frlwe/keyswitch.go:127-151: `aPolyTs[i]`, `bg.Value[i][j]`, `polyTPools2[j]` and the modulus of `%` -/
def FKeySwitcher.productsInRange (ksw : FKeySwitcher) (levelQ nDigits : Nat) (bg : FSwitchingKey) : Bool :=
  let p := ksw.params
  decide (0 < overflowMargin p.ringT.moduli p.levelT >>> 1 ∧
    ∀ i < ceilDivF (levelQ + 1) p.alpha, i < nDigits ∧ i < bg.length ∧
      ∀ j < ceilDivF (levelQ + p.alpha + 1) p.gamma, j < (bg.getD i []).length ∧ j < ksw.ringRi.length ∧
        p.levelT < (bg.at i j).length ∧ ∀ t < p.levelT + 1, ((bg.at i j).row t).length = p.ringQ.n)

/-- block `i` brought back to `R_i` and copied, frlwe/keyswitch.go:159-177 -/
def FKeySwitcher.blockInRange (ksw : FKeySwitcher) (levelQ : Nat) (acc : Rows) (i : Nat) : Bool :=
  let p := ksw.params
  let levelRi := blockCount p.gamma (levelQ + p.alpha + 1) i - 1
  let be := ksw.convTRi.getD i ksw.convQP
  let t := p.ringT.addLvl p.levelT (p.ringT.invNttLazyLvl p.levelT acc acc) ksw.halfTPolyT (p.ringT.invNttLazyLvl p.levelT acc acc)
  decide (i < ksw.convTRi.length ∧ i < ksw.ringRi.length ∧ p.levelT < ksw.halfTPolyT.length ∧
    modUpInRange p.levelT levelRi p.ringT.subs.length p.ringR.subs.length p.ringQ.n t be.ringQ be.ringP be.paramsQtoP = true ∧
    levelRi < (ksw.ringRi.getD i p.ringR).subs.length ∧
    ∀ j < levelRi + 1, if i * p.gamma + j < p.alpha then i * p.gamma + j < p.ringP.subs.length
      else i * p.gamma + j - p.alpha < p.ringQ.subs.length)

/-- the division by `P`, frlwe/keyswitch.go:180-183: `SubLvl` and `ModDownQPtoQ` into `c` -/
def FKeySwitcher.divInRange (ksw : FKeySwitcher) (levelQ : Nat) (qp : PolyQP) (c : Rows) : Bool :=
  let p := ksw.params
  let levelP := p.alpha - 1
  decide (levelQ < p.ringQ.subs.length ∧ levelQ < ksw.halfTPolyQP.q.length ∧ levelP < p.ringP.subs.length ∧
    levelP < ksw.halfTPolyQP.p.length ∧
    modUpInRange levelP levelQ p.ringP.subs.length p.ringQ.subs.length p.ringQ.n qp.p ksw.convQP.ringP ksw.convQP.ringQ
      ksw.convQP.paramsPtoQ = true ∧
    levelP < ksw.convQP.modDownPtoQ.length ∧ levelQ < (ksw.convQP.modDownPtoQ.row levelP).length ∧
    levelQ < c.length ∧ ∀ i < levelQ + 1, (c.row i).length = p.ringQ.n)

/-- `externalProduct`, frlwe/keyswitch.go:113-186 -/
def FKeySwitcher.externalProductMem (ksw : FKeySwitcher) (levelQ : Nat) (aPolyTs : List Rows) (bg : FSwitchingKey) (c : Rows) :
    Option Rows :=
  let p := ksw.params
  if ksw.productsInRange levelQ aPolyTs.length bg = true ∧
      (∀ i < ceilDivF (levelQ + p.alpha + 1) p.gamma,
        ksw.blockInRange levelQ ((ksw.accumulate levelQ aPolyTs bg).getD i []) i = true) ∧
      ksw.divInRange levelQ (ksw.externalProductQP levelQ aPolyTs bg) c = true then
    some (ksw.externalProduct levelQ aPolyTs bg c)
  else none

/-- `SwitchKey`, frlwe/keyswitch.go:188-224 -/
def FKeySwitcher.switchKeyMem (ksw : FKeySwitcher) (levelQ : Nat) (isNTT : Bool) (a : Rows) (bg0 bg1 : FSwitchingKey) (c0 c1 : Rows) :
    Option (Rows × Rows) :=
  if isNTT then none
  else
    ((List.range (ceilDivF (levelQ + 1) ksw.params.alpha)).mapM (ksw.digitMem levelQ a)).bind fun dig =>
      (ksw.externalProductMem levelQ dig bg0 c0).bind fun d0 =>
        (ksw.externalProductMem levelQ dig bg1 c1).map fun d1 => (d0, d1)

end FastKsw
