import Verif.Lemmas.ThreadFKeySwitch

/-!
# The memory of key switchers
-/

namespace FastKsw

variable {σ : Type}

def QPAddr.cells (x : QPAddr) : List ℕ := [x.q, x.p]

/-- the cells that belong to a key switcher -/
def KsMem.own (K : KsMem) : List ℕ :=
  [K.be.q, K.be.p] ++ K.pool.flatMap QPAddr.cells ++ [K.poolInvNTT] ++ K.poolDecompQP.flatMap QPAddr.cells

/-- the cells that belong to a fast key switcher -/
def FKsMem.own (K : FKsMem) : List ℕ :=
  K.polyQPPool.cells ++ [K.polyQPool] ++ [K.polyRPool] ++ [K.be.q, K.be.p] ++ K.polyTPools1 ++ K.polyTPools2

/-- the cells that `SwitchKeysInPlace` with outputs `p0` and `p1` writes -/
def KsMem.written (K : KsMem) (p0 p1 : ℕ) : List ℕ :=
  [(K.poolAt 0).q, (K.poolAt 0).p, K.poolInvNTT, p0, (K.poolAt 1).p, p1, (K.poolAt 2).p, K.be.q, K.be.p]

/-- the cells that `KeyswitchHoisted` with outputs `c0` and `c1` writes -/
def KsMem.writtenHoisted (K : KsMem) (c0 c1 : QPAddr) : List ℕ := [c0.q, c0.p, c1.q, c1.p, K.be.q, K.be.p]

/-- the cells that `DecomposeNTT` writes to `n` digits -/
def KsMem.writtenDigits (K : KsMem) (dig : List QPAddr) (n : ℕ) : List ℕ := K.poolInvNTT :: (dig.take n).flatMap QPAddr.cells

/-- the cells that `SwitchKey` with outputs `c0` and `c1` writes -/
def FKsMem.written (K : FKsMem) (c0 c1 : ℕ) : List ℕ :=
  [K.polyQPPool.q, K.polyQPPool.p, K.polyQPool, K.polyRPool, K.be.q, c0, c1] ++ (K.polyTPools1 ++ K.polyTPools2)

/-- all cells in use -/
def KsObjects.cells (o : KsObjects σ) : List ℕ := o.polys ++ o.kss.flatMap KsMem.own ++ o.fkss.flatMap FKsMem.own

/-- a fast key switcher as `NewKeySwitcher` makes it -/
structure FKsMem.Made (K : FKsMem) : Prop where
  ksw : ∃ fuel, newFKeySwitcher fuel K.ksw.params = some K.ksw
  t1 : K.polyTPools1.length = K.ksw.params.beta
  t2 : K.polyTPools2.length = ceilDivF (K.ksw.params.maxLevel + K.ksw.params.alpha + 1) K.ksw.params.gamma

/-- the buffers of all key switchers can be used -/
def KsObjects.Ready (o : KsObjects σ) (s : Store σ) : Prop := (∀ K ∈ o.kss, K.Ready s) ∧ ∀ K ∈ o.fkss, K.Ready s

/-- no cell belongs to two objects, none is `nil` or free, and the buffers can be used -/
structure KsObjects.Inv (o : KsObjects σ) : Prop where
  nodup : o.cells.Nodup
  pos : ∀ a ∈ o.cells, 0 < a
  lt : ∀ a ∈ o.cells, a < o.mem.next
  next : 0 < o.mem.next
  ready : o.Ready o.mem.store
  made : ∀ K ∈ o.fkss, K.Made

/-- the polynomials that a call is to write -/
def KsJob.outputs : KsJob → List ℕ
  | .switch _ _ _ _ p0 p1 => [p0, p1]
  | .fswitch _ _ _ _ _ c0 c1 => [c0, c1]

/-- what a call reads, besides what belongs to its key switcher -/
def KsJob.inputs : KsJob → List ℕ
  | .switch _ _ cx evk _ _ => cx :: keyCells evk
  | .fswitch _ _ a bg0 bg1 _ _ => a :: (bg0.flatten ++ bg1.flatten)

/-- the key switcher of a call -/
def KsJob.object : KsJob → KsMem ⊕ FKsMem
  | .switch K _ _ _ _ _ => .inl K
  | .fswitch K _ _ _ _ _ _ => .inr K

/-- the level exists and the key has the digits (and blocks) that it needs; the sizes are such that the quotients which the code
computes with floating point numbers are exact -/
def KsJob.Sound (s : Store σ) : KsJob → Prop
  | .switch _ levelQ _ evk _ _ => KeyFits s levelQ evk
  | .fswitch K levelQ _ bg0 bg1 _ _ =>
    let p := K.ksw.params
    let nb := (levelQ + p.alpha) / p.alpha
    let nl := (levelQ + p.alpha + p.gamma) / p.gamma
    0 < p.alpha ∧ 0 < p.gamma ∧ p.gamma ≤ 2 ^ 20 ∧ p.ringQ.subs.length + p.alpha ≤ 2 ^ 20 ∧ levelQ < p.ringQ.subs.length ∧
      FKeyFits bg0 nb nl ∧ FKeyFits bg1 nb nl

/-- it is one of the key switchers -/
def KsObjects.Has (o : KsObjects σ) : KsMem ⊕ FKsMem → Prop
  | .inl K => K ∈ o.kss
  | .inr K => K ∈ o.fkss

/-- A call with objects of `o`: its inputs and outputs are polynomials of the program, the outputs are different and none of them is
an input. -/
def KsJob.Fits (o : KsObjects σ) (s : Store σ) (j : KsJob) : Prop :=
  (∀ a ∈ j.inputs ++ j.outputs, a ∈ o.polys) ∧ j.outputs.Nodup ∧ (∀ a ∈ j.outputs, a ∉ j.inputs) ∧ o.Has j.object ∧ j.Sound s

/-- the result of a call that begins in memory `s`, ends in `s'` and does (`ok`) or does not panic: the outputs hold what the key
switch of their contents, of the input and of the key in `s` is -/
def KsJob.Result (s s' : Store σ) (ok : Bool) : KsJob → Prop
  | .switch K levelQ cx evk p0 p1 => ok = true ∧
      (s'.rows p0, s'.rows p1) = K.ks.switchKeysInPlace levelQ (s.poly cx).isNTT (s.rows cx) (s.key evk) (s.rows p0) (s.rows p1)
  | .fswitch K levelQ a bg0 bg1 c0 c1 => (ok = false → s' c0 = s c0 ∧ s' c1 = s c1) ∧
      (if ok then some (s'.rows c0, s'.rows c1) else none) =
        K.ksw.switchKey levelQ (s.poly a).isNTT (s.rows a) (s.fkey bg0) (s.fkey bg1) (s.rows c0) (s.rows c1)

/-- calls in different threads use different key switchers, and no output of one is used by another -/
def KsIndependent {ι : Type} (jobs : ι → KsJob) : Prop :=
  ∀ i j, i ≠ j → (jobs i).object ≠ (jobs j).object ∧ ∀ a ∈ (jobs i).outputs, a ∉ (jobs j).inputs ++ (jobs j).outputs

end FastKsw
