import Verif.Model.Thread
import Verif.Model.FEvaluator

/-!
# The key switchers in memory

`rlwe/keyswitch.go` and `frlwe/keyswitch.go` write their intermediate results to polynomials that belong to the key switcher and are
used again by the next call.  Here these polynomials are cells of the memory of `Thread.lean`, with whatever an earlier call left in
them, and the functions are threads on this memory.  The models of `KeySwitch.lean` and `FKeySwitch.lean`, which start every call
with new polynomials, are not used to define them; only what the functions called compute from their arguments is.

`copy` of a row is between rows of the same length.  The constants of a key switcher that no function writes (rings, tables,
`halfTPolyQP`, `halfTPolyT`) are values, not cells.  `modUpExact` and `DecomposeAndSplit` go through blocks of eight coefficients and
write these of all rows; here they write row after row, which gives the same since none of their outputs is one of their inputs.
-/

namespace FastKsw

variable {σ : Type}

/-- a loop over the indices of a list -/
def forEach (f : Nat → Proc σ Unit) : List Nat → Proc σ Unit
  | [] => .ret ()
  | i :: is => do
    f i
    forEach f is

/-- `copy(out.Coeffs[u], src.Coeffs[v])` -/
def copyRow (out u src v : Nat) : Proc σ Unit := do
  let x ← rd fun s => (s.rows src).row v
  wr fun s => s.setRows out ((s.rows out).set u x)

/-- `if c { p }` -/
def doIf (c : Prop) [Decidable c] (p : Proc σ Unit) : Proc σ Unit := if c then p else .ret ()

/-! ## Basis extender -/

/-- `polypoolQ` and `polypoolP` of a basis extender, ring/ring_basis_extension.go:35-36 -/
structure BeCells where
  q : Nat
  p : Nat

/-- the last loop of `ModDownQPtoQ` and `ModDownQPtoQNTT`, ring/ring_basis_extension.go:218-220 and 249-252 -/
def BasisExtender.divCall (be : BasisExtender) (c : BeCells) (levelQ levelP p1Q p2Q : Nat) : Proc σ Unit :=
  ringCall levelQ p2Q fun s => writeLvl levelQ (fun i =>
    let t := be.ringQ.sub i
    subVecAndMulScalarMontgomeryTwoQiVec ((s.rows c.q).row i) ((s.rows p1Q).row i)
      (t.q - (be.modDownPtoQ.row levelP).at i) t.q t.mred) (s.rows p2Q)

/-- `ModDownQPtoQ`, ring/ring_basis_extension.go:207-223 -/
def BasisExtender.modDownCall (be : BasisExtender) (c : BeCells) (levelQ levelP p1Q p1P p2Q : Nat) : Proc σ Unit := do
  ringCall levelQ c.q fun s => be.modUpPtoQ levelP levelQ (s.rows p1P) (s.rows c.q)
  be.divCall c levelQ levelP p1Q p2Q

/-- `ModDownQPtoQNTT`, ring/ring_basis_extension.go:230-255 -/
def BasisExtender.modDownNTTCall (be : BasisExtender) (c : BeCells) (levelQ levelP p1Q p1P p2Q : Nat) : Proc σ Unit := do
  ringCall levelP c.p fun s => be.ringP.invNttLazyLvl levelP (s.rows p1P) (s.rows c.p)
  ringCall levelQ c.q fun s => be.modUpPtoQ levelP levelQ (s.rows c.p) (s.rows c.q)
  ringCall levelQ c.q fun s => be.ringQ.nttLazyLvl levelQ (s.rows c.q) (s.rows c.q)
  be.divCall c levelQ levelP p1Q p2Q

/-! ## `rlwe.KeySwitcher` -/

/-- the addresses of a `PolyQP` -/
structure QPAddr where
  q : Nat
  p : Nat

instance : Inhabited QPAddr := ⟨⟨0, 0⟩⟩

/-- the addresses of the polynomials of a `SwitchingKey`: `Value[i] = [b_i, a_i]` -/
abbrev KeyRef := List (QPAddr × QPAddr)

/-- what a `PolyQP` holds -/
def Store.qp (s : Store σ) (x : QPAddr) : PolyQP := ⟨s.rows x.q, s.rows x.p⟩

/-- what a `SwitchingKey` holds -/
def Store.key (s : Store σ) (k : KeyRef) : SwitchingKey := k.map fun x => (s.qp x.1, s.qp x.2)

/-- `KeySwitcher`, rlwe/keyswitch.go:26-39, with the addresses of its polynomials -/
structure KsMem where
  ks : KeySwitcher
  pool : List QPAddr
  poolInvNTT : Nat
  poolDecompQP : List QPAddr
  be : BeCells

/-- `Pool[i]` -/
def KsMem.poolAt (K : KsMem) (i : Nat) : QPAddr := K.pool.getD i default

/-- the digit `beta` of `p0Q` modulo `Q`, `DecomposeAndSplit`, ring/ring_basis_extension.go:372-479, and modulo `P` -/
def Decomposer.splitCall (d : Decomposer) (levelQ levelP alpha beta p0Q : Nat) (p1 : QPAddr) : Proc σ Unit := do
  ringCall levelQ p1.q fun s => (d.decomposeAndSplit levelQ levelP alpha beta (s.rows p0Q) (s.qp p1)).q
  ringCall levelP p1.p fun s => (d.decomposeAndSplit levelQ levelP alpha beta (s.rows p0Q) (s.qp p1)).p

/-- `DecomposeSingleNTT`, rlwe/keyswitch.go:131-151 -/
def Decomposer.digitCall (d : Decomposer) (levelQ levelP alpha beta c2NTT c2InvNTT : Nat) (c2Qi : QPAddr) : Proc σ Unit := do
  d.splitCall levelQ levelP alpha beta c2InvNTT c2Qi
  let p0idxst := beta * (levelP + 1)
  let p0idxed := p0idxst + 1
  ringCall levelQ c2Qi.q fun s => writeLvl levelQ (fun x =>
    if p0idxst ≤ x ∧ x < p0idxed then (s.rows c2NTT).row x else (d.ringQ.sub x).nttLazy d.ringQ.n ((s.rows c2Qi.q).row x)) (s.rows c2Qi.q)
  ringCall levelP c2Qi.p fun s => d.ringP.nttLazyLvl levelP (s.rows c2Qi.p) (s.rows c2Qi.p)

/-- `RingQP.MulCoeffsMontgomeryConstantLvl`, rlwe/ring_qp.go:219-226 -/
def KeySwitcher.mulQPCall (ks : KeySwitcher) (levelQ levelP : Nat) (x y z : QPAddr) : Proc σ Unit := do
  ringCall levelQ z.q fun s => ks.ringQ.mulCoeffsMontgomeryConstantLvl levelQ (s.rows x.q) (s.rows y.q) (s.rows z.q)
  ringCall levelP z.p fun s => ks.ringP.mulCoeffsMontgomeryConstantLvl levelP (s.rows x.p) (s.rows y.p) (s.rows z.p)

/-- `RingQP.MulCoeffsMontgomeryConstantAndAddNoModLvl`, rlwe/ring_qp.go:231-238 -/
def KeySwitcher.mulAddQPCall (ks : KeySwitcher) (levelQ levelP : Nat) (x y z : QPAddr) : Proc σ Unit := do
  ringCall levelQ z.q fun s => ks.ringQ.mulCoeffsMontgomeryConstantAndAddNoModLvl levelQ (s.rows x.q) (s.rows y.q) (s.rows z.q)
  ringCall levelP z.p fun s => ks.ringP.mulCoeffsMontgomeryConstantAndAddNoModLvl levelP (s.rows x.p) (s.rows y.p) (s.rows z.p)

/-- `ReduceLvl` of one component of both accumulators -/
def Ring.reduceBoth (r : Ring) (level a b : Nat) : Proc σ Unit := do
  ringCall level a fun s => r.reduceLvl level (s.rows a) (s.rows a)
  ringCall level b fun s => r.reduceLvl level (s.rows b) (s.rows b)

/-- the products of one round, rlwe/keyswitch.go:197-203 and 269-275 -/
def KeySwitcher.productsCall (ks : KeySwitcher) (levelQ levelP i : Nat) (key : QPAddr × QPAddr) (c2 c0 c1 : QPAddr) : Proc σ Unit :=
  if i = 0 then do
    ks.mulQPCall levelQ levelP key.1 c2 c0
    ks.mulQPCall levelQ levelP key.2 c2 c1
  else do
    ks.mulAddQPCall levelQ levelP key.1 c2 c0
    ks.mulAddQPCall levelQ levelP key.2 c2 c1

/-- one round of the loops of `SwitchKeysInPlaceNoModDown` and `KeyswitchHoistedNoModDown` after the digit `c2` has been computed,
rlwe/keyswitch.go:197-216 and 269-288 -/
def KeySwitcher.roundCall (ks : KeySwitcher) (levelQ levelP mQ mP i : Nat) (key : QPAddr × QPAddr) (c2 c0 c1 : QPAddr) : Proc σ Unit := do
  ks.productsCall levelQ levelP i key c2 c0 c1
  doIf (i % mQ = mQ - 1) (ks.ringQ.reduceBoth levelQ c0.q c1.q)
  doIf (i % mP = mP - 1) (ks.ringP.reduceBoth levelP c0.p c1.p)

/-- the reductions after these loops, rlwe/keyswitch.go:218-226 and 290-298 -/
def KeySwitcher.endCall (ks : KeySwitcher) (levelQ levelP mQ mP beta : Nat) (c0 c1 : QPAddr) : Proc σ Unit := do
  doIf (beta % mQ ≠ 0) (ks.ringQ.reduceBoth levelQ c0.q c1.q)
  doIf (beta % mP ≠ 0) (ks.ringP.reduceBoth levelP c0.p c1.p)

/-- the other form of the input in `PoolInvNTT`, rlwe/keyswitch.go:111-119 and 170-178 -/
def KsMem.formsCall (K : KsMem) (levelQ cx : Nat) : Proc σ Bool := do
  let isNTT ← rd fun s => (s.poly cx).isNTT
  (if isNTT then
    ringCall levelQ K.poolInvNTT fun s => K.ks.ringQ.invNttLvl levelQ (s.rows cx) (s.rows K.poolInvNTT)
  else
    ringCall levelQ K.poolInvNTT fun s => K.ks.ringQ.nttLvl levelQ (s.rows cx) (s.rows K.poolInvNTT))
  return isNTT

/-- where the NTT form and the coefficient form of the input are: `cxNTT` and `cxInvNTT` there -/
def KsMem.forms (K : KsMem) (cx : Nat) (isNTT : Bool) : Nat × Nat := if isNTT then (cx, K.poolInvNTT) else (K.poolInvNTT, cx)

/-- `len(evakey.Value[0][0].P.Coeffs)` -/
def keyAlpha (evk : KeyRef) : Proc σ Nat := rd fun s => (s.rows (evk.getD 0 default).1.p).length

/-- `SwitchKeysInPlaceNoModDown`, rlwe/keyswitch.go:159-227 -/
def KsMem.switchKeysNoModDown (K : KsMem) (levelQ cx : Nat) (evk : KeyRef) (c0 c1 : QPAddr) : Proc σ Unit := do
  let c2 := K.poolAt 0
  let isNTT ← K.formsCall levelQ cx
  let f := K.forms cx isNTT
  let alpha ← keyAlpha evk
  let levelP := alpha - 1
  let beta := ceilDivF (levelQ + 1) (levelP + 1)
  let mQ := overflowMargin K.ks.ringQ.moduli levelQ >>> 1
  let mP := overflowMargin K.ks.ringP.moduli levelP >>> 1
  forEach (fun i => do
    K.ks.dec.digitCall levelQ levelP alpha i f.1 f.2 c2
    K.ks.roundCall levelQ levelP mQ mP i (evk.getD i default) c2 c0 c1) (List.range beta)
  K.ks.endCall levelQ levelP mQ mP beta c0 c1

/-- `SwitchKeysInPlace`, rlwe/keyswitch.go:81-99 -/
def KsMem.switchKeysInPlace (K : KsMem) (levelQ cx : Nat) (evk : KeyRef) (p0 p1 : Nat) : Proc σ Unit := do
  let t0 := (K.poolAt 1).p
  let t1 := (K.poolAt 2).p
  K.switchKeysNoModDown levelQ cx evk ⟨p0, t0⟩ ⟨p1, t1⟩
  let alpha ← keyAlpha evk
  let levelP := alpha - 1
  let isNTT ← rd fun s => (s.poly cx).isNTT
  if isNTT then
    K.ks.be.modDownNTTCall K.be levelQ levelP p0 t0 p0
    K.ks.be.modDownNTTCall K.be levelQ levelP p1 t1 p1
  else
    ringCall levelQ p0 fun s => K.ks.ringQ.invNttLazyLvl levelQ (s.rows p0) (s.rows p0)
    ringCall levelQ p1 fun s => K.ks.ringQ.invNttLazyLvl levelQ (s.rows p1) (s.rows p1)
    ringCall levelP t0 fun s => K.ks.ringP.invNttLazyLvl levelP (s.rows t0) (s.rows t0)
    ringCall levelP t1 fun s => K.ks.ringP.invNttLazyLvl levelP (s.rows t1) (s.rows t1)
    K.ks.be.modDownCall K.be levelQ levelP p0 t0 p0
    K.ks.be.modDownCall K.be levelQ levelP p1 t1 p1

/-- `DecomposeNTT`, rlwe/keyswitch.go:105-126 -/
def KsMem.decomposeNTT (K : KsMem) (levelQ levelP alpha c2 : Nat) (dig : List QPAddr) : Proc σ Unit := do
  let isNTT ← K.formsCall levelQ c2
  let f := K.forms c2 isNTT
  forEach (fun i => K.ks.dec.digitCall levelQ levelP alpha i f.1 f.2 (dig.getD i default))
    (List.range (ceilDivF (levelQ + 1) (levelP + 1)))

/-- `KeyswitchHoistedNoModDown`, rlwe/keyswitch.go:249-299 -/
def KsMem.hoistedNoModDown (K : KsMem) (levelQ : Nat) (dig : List QPAddr) (evk : KeyRef) (c0 c1 : QPAddr) : Proc σ Unit := do
  let alpha ← keyAlpha evk
  let levelP := alpha - 1
  let beta := ceilDivF (levelQ + 1) alpha
  let mQ := overflowMargin K.ks.ringQ.moduli levelQ >>> 1
  let mP := overflowMargin K.ks.ringP.moduli levelP >>> 1
  forEach (fun i => K.ks.roundCall levelQ levelP mQ mP i (evk.getD i default) (dig.getD i default) c0 c1) (List.range beta)
  K.ks.endCall levelQ levelP mQ mP beta c0 c1

/-- `KeyswitchHoisted`, rlwe/keyswitch.go:234-243 -/
def KsMem.hoisted (K : KsMem) (levelQ : Nat) (dig : List QPAddr) (evk : KeyRef) (c0 c1 : QPAddr) : Proc σ Unit := do
  K.hoistedNoModDown levelQ dig evk c0 c1
  let alpha ← keyAlpha evk
  let levelP := alpha - 1
  K.ks.be.modDownNTTCall K.be levelQ levelP c0.q c0.p c0.q
  K.ks.be.modDownNTTCall K.be levelQ levelP c1.q c1.p c1.q

/-! ## `frlwe.KeySwitcher` -/

/-- the addresses of the polynomials of a fast `SwitchingKey`: `Value[i][j]` -/
abbrev FKeyRef := List (List Nat)

def FKeyRef.at (k : FKeyRef) (i j : Nat) : Nat := (k.getD i []).getD j 0

/-- what a fast `SwitchingKey` holds -/
def Store.fkey (s : Store σ) (k : FKeyRef) : FSwitchingKey := k.map fun l => l.map s.rows

/-- `KeySwitcher`, frlwe/keyswitch.go:10-30, with the addresses of the polynomials it writes; `be` belongs to `convQP`.
`ModUpQtoP` does not use the polynomials of `convTRi` and `convQjT`; `polyTPool` is not used at all. -/
structure FKsMem where
  ksw : FKeySwitcher
  polyTPools1 : List Nat
  polyTPools2 : List Nat
  polyQPPool : QPAddr
  polyQPool : Nat
  polyRPool : Nat
  be : BeCells

def FKsMem.t1 (K : FKsMem) (i : Nat) : Nat := K.polyTPools1.getD i 0

def FKsMem.t2 (K : FKsMem) (i : Nat) : Nat := K.polyTPools2.getD i 0

/-- one product, frlwe/keyswitch.go:133-141 -/
def FKsMem.productCall (K : FKsMem) (m i j : Nat) (bg : FKeyRef) : Proc σ Unit := do
  let rT := K.ksw.params.ringT
  let levelT := K.ksw.params.levelT
  (if i = 0 then
    ringCall levelT (K.t2 j) fun s =>
      rT.mulCoeffsMontgomeryConstantLvl levelT (s.rows (K.t1 i)) (s.rows (bg.at i j)) (s.rows (K.t2 j))
  else
    ringCall levelT (K.t2 j) fun s =>
      rT.mulCoeffsMontgomeryConstantAndAddNoModLvl levelT (s.rows (K.t1 i)) (s.rows (bg.at i j)) (s.rows (K.t2 j)))
  doIf (i % m = m - 1) (ringCall levelT (K.t2 j) fun s => rT.reduceLvl levelT (s.rows (K.t2 j)) (s.rows (K.t2 j)))

/-- the products, frlwe/keyswitch.go:131-146 -/
def FKsMem.productsCall (K : FKsMem) (m beta blockLen : Nat) (bg : FKeyRef) : Proc σ Unit :=
  forEach (fun i => forEach (fun j => K.productCall m i j bg) (List.range blockLen)) (List.range beta)

/-- one round of the loop that moves the coefficients to the ring modulo `QP`, frlwe/keyswitch.go:159-177 -/
def FKsMem.moveCall (K : FKsMem) (levelQ i : Nat) : Proc σ Unit := do
  let p := K.ksw.params
  let levelRi := blockCount p.gamma (levelQ + p.alpha + 1) i - 1
  ringCall p.levelT (K.t2 i) fun s => p.ringT.addLvl p.levelT (s.rows (K.t2 i)) K.ksw.halfTPolyT (s.rows (K.t2 i))
  ringCall levelRi K.polyRPool fun s =>
    (K.ksw.convTRi.getD i K.ksw.convQP).modUpQtoP p.levelT levelRi (s.rows (K.t2 i)) (s.rows K.polyRPool)
  ringCall levelRi K.polyRPool fun s => (K.ksw.ringRi.getD i p.ringR).reduceLvl levelRi (s.rows K.polyRPool) (s.rows K.polyRPool)
  forEach (fun j =>
    if i * p.gamma + j < p.alpha then copyRow K.polyQPPool.p (i * p.gamma + j) K.polyRPool j
    else copyRow K.polyQPPool.q (i * p.gamma + j - p.alpha) K.polyRPool j) (List.range (blockCount p.gamma (levelQ + p.alpha + 1) i))

/-- `externalProduct(levelQ, ksw.polyTPools1, bg, c)`, frlwe/keyswitch.go:113-186 -/
def FKsMem.externalProduct (K : FKsMem) (levelQ : Nat) (bg : FKeyRef) (c : Nat) : Proc σ Unit := do
  let p := K.ksw.params
  let beta := ceilDivF (levelQ + 1) p.alpha
  let levelP := p.alpha - 1
  let blockLen := ceilDivF (levelQ + p.alpha + 1) p.gamma
  let m := overflowMargin p.ringT.moduli p.levelT >>> 1
  K.productsCall m beta blockLen bg
  doIf (beta % m ≠ 0)
    (forEach (fun i => ringCall p.levelT (K.t2 i) fun s => p.ringT.reduceLvl p.levelT (s.rows (K.t2 i)) (s.rows (K.t2 i)))
      (List.range blockLen))
  forEach (fun i => ringCall p.levelT (K.t2 i) fun s => p.ringT.invNttLazyLvl p.levelT (s.rows (K.t2 i)) (s.rows (K.t2 i)))
    (List.range blockLen)
  forEach (K.moveCall levelQ) (List.range blockLen)
  ringCall levelQ K.polyQPPool.q fun s => p.ringQ.subLvl levelQ (s.rows K.polyQPPool.q) K.ksw.halfTPolyQP.q (s.rows K.polyQPPool.q)
  ringCall levelP K.polyQPPool.p fun s => p.ringP.subLvl levelP (s.rows K.polyQPPool.p) K.ksw.halfTPolyQP.p (s.rows K.polyQPPool.p)
  K.ksw.convQP.modDownCall K.be levelQ levelP K.polyQPPool.q K.polyQPPool.p c

/-- one round of the decomposition, frlwe/keyswitch.go:201-218 -/
def FKsMem.digitCall (K : FKsMem) (levelQ a j : Nat) : Proc σ Unit := do
  let p := K.ksw.params
  let levelQj := blockCount p.alpha (levelQ + 1) j - 1
  forEach (fun i => doIf (j * p.alpha + i < levelQ + 1) (copyRow K.polyQPool i a (j * p.alpha + i))) (List.range p.alpha)
  (if p.alpha = 1 then
    ringCall p.levelT (K.t1 j) fun s => writeLvl p.levelT (fun _ => (s.rows K.polyQPool).row 0) (s.rows (K.t1 j))
  else
    ringCall p.levelT (K.t1 j) fun s =>
      (K.ksw.convQjT.getD j K.ksw.convQP).modUpQtoP levelQj p.levelT (s.rows K.polyQPool) (s.rows (K.t1 j)))
  ringCall p.levelT (K.t1 j) fun s => p.ringT.nttLazyLvl p.levelT (s.rows (K.t1 j)) (s.rows (K.t1 j))

/-- `SwitchKey`, frlwe/keyswitch.go:188-224; the result is `false` when it panics -/
def FKsMem.switchKey (K : FKsMem) (levelQ a : Nat) (bg0 bg1 : FKeyRef) (c0 c1 : Nat) : Proc σ Bool := do
  let isNTT ← rd fun s => (s.poly a).isNTT
  if isNTT then return false
  else
    forEach (K.digitCall levelQ a) (List.range (ceilDivF (levelQ + 1) K.ksw.params.alpha))
    K.externalProduct levelQ bg0 c0
    K.externalProduct levelQ bg1 c1
    return true

/-! ## Construction

Address 0 is `nil`: nothing is allocated there. -/

/-- `n` allocations -/
def Alloc.many {α : Type} (f : Alloc σ → α × Alloc σ) : Nat → Alloc σ → List α × Alloc σ
  | 0, m => ([], m)
  | n + 1, m =>
    let x := f m
    let xs := Alloc.many f n x.2
    (x.1 :: xs.1, xs.2)

/-- `RingQP.NewPoly`, rlwe/ring_qp.go:90-100 -/
def Alloc.newPolyQP (m : Alloc σ) (rQ rP : Ring) : QPAddr × Alloc σ :=
  let q := m.newPoly rQ
  let p := q.2.newPoly rP
  (⟨q.1, p.1⟩, p.2)

/-- the polynomials of `NewBasisExtender`, ring/ring_basis_extension.go:92-93, and of `ShallowCopy`, lines 184-185 -/
def Alloc.newBe (m : Alloc σ) (be : BasisExtender) : BeCells × Alloc σ :=
  let q := m.newPoly be.ringQ
  let p := q.2.newPoly be.ringP
  (⟨q.1, p.1⟩, p.2)

/-- `Beta`, rlwe/params.go:331-337 -/
def betaOf (rQ rP : Ring) : Nat := if rP.subs.length ≠ 0 then ceilDivF rQ.subs.length rP.subs.length else 1

/-- the polynomials of a key switcher: `NewKeySwitcher`, rlwe/keyswitch.go:60-67, with `newKeySwitcherBuffer`, lines 41-58 -/
def KeySwitcher.alloc (ks : KeySwitcher) (m : Alloc σ) : KsMem × Alloc σ :=
  let be := m.newBe ks.be
  let pool := Alloc.many (fun m => m.newPolyQP ks.ringQ ks.ringP) 6 be.2
  let inv := pool.2.newPoly ks.ringQ
  let dec := Alloc.many (fun m => m.newPolyQP ks.ringQ ks.ringP) (betaOf ks.ringQ ks.ringP) inv.2
  (⟨ks, pool.1, inv.1, dec.1, be.1⟩, dec.2)

/-- `NewKeySwitcher`, rlwe/keyswitch.go:60-67 -/
def newKsMem (rQ rP : Ring) (m : Alloc σ) : KsMem × Alloc σ := (newKeySwitcher rQ rP).alloc m

/-- `ShallowCopy`, rlwe/keyswitch.go:70-77 -/
def KsMem.shallowCopy (K : KsMem) (m : Alloc σ) : KsMem × Alloc σ := K.ks.alloc m

/-- the polynomials of `frlwe.NewKeySwitcher`, frlwe/keyswitch.go:43-46 and 97-107 -/
def FKeySwitcher.alloc (ksw : FKeySwitcher) (m : Alloc σ) : FKsMem × Alloc σ :=
  let p := ksw.params
  let blockLen := ceilDivF (p.maxLevel + p.alpha + 1) p.gamma
  let qp := m.newPolyQP p.ringQ p.ringP
  let q := qp.2.newPoly p.ringQ
  let r := q.2.newPoly p.ringR
  let be := r.2.newBe ksw.convQP
  let t1 := Alloc.many (fun m => m.newPoly p.ringT) p.beta be.2
  let t2 := Alloc.many (fun m => m.newPoly p.ringT) blockLen t1.2
  (⟨ksw, t1.1, t2.1, qp.1, q.1, r.1, be.1⟩, t2.2)

/-- `frlwe.NewKeySwitcher`, frlwe/keyswitch.go:32-110 -/
def newFKsMem (fuel : Nat) (p : FParams) (m : Alloc σ) : Option (FKsMem × Alloc σ) := (newFKeySwitcher fuel p).map fun ksw => ksw.alloc m

/-- polynomials and key switchers that have been created -/
structure KsObjects (σ : Type) where
  mem : Alloc σ
  polys : List Nat
  kss : List KsMem
  fkss : List FKsMem

/-- what a program creates; key switchers to be copied are named by their position, the newest first -/
inductive KsMake where
  /-- a polynomial of a key or a ciphertext -/
  | poly : Poly → KsMake
  | newKeySwitcher : Ring → Ring → KsMake
  | copyKeySwitcher : Nat → KsMake
  | newFKeySwitcher : Nat → FParams → KsMake

def KsObjects.make (o : KsObjects σ) : KsMake → KsObjects σ
  | .poly p => let x := o.mem.new (.poly p); { o with mem := x.2, polys := x.1 :: o.polys }
  | .newKeySwitcher rQ rP => let x := newKsMem rQ rP o.mem; { o with mem := x.2, kss := x.1 :: o.kss }
  | .copyKeySwitcher i =>
    match o.kss[i]? with
    | some K => let x := K.shallowCopy o.mem; { o with mem := x.2, kss := x.1 :: o.kss }
    | none => o
  | .newFKeySwitcher fuel p =>
    match newFKsMem fuel p o.mem with
    | some x => { o with mem := x.2, fkss := x.1 :: o.fkss }
    | none => o

/-- an empty memory -/
def KsObjects.empty : KsObjects σ := ⟨⟨fun _ => .poly default, 1⟩, [], [], []⟩

/-- a call -/
inductive KsJob where
  | switch : KsMem → (levelQ cx : Nat) → KeyRef → (p0 p1 : Nat) → KsJob
  | fswitch : FKsMem → (levelQ a : Nat) → FKeyRef → FKeyRef → (c0 c1 : Nat) → KsJob

/-- the result is `false` when the call panics -/
def KsJob.thread : KsJob → Proc σ Bool
  | .switch K levelQ cx evk p0 p1 => do
    K.switchKeysInPlace levelQ cx evk p0 p1
    return true
  | .fswitch K levelQ a bg0 bg1 c0 c1 => K.switchKey levelQ a bg0 bg1 c0 c1

end FastKsw
