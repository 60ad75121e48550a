import Verif.Model.FSwitchMem

/-!
# Indices of the classical key-switch

`SwitchKeysInPlace` of `rlwe` with the conditions under which Go's indices and slices are in range; `none` is a panic.  The buffers of the
key switcher have as many rows as `Q` and `P` have primes (rlwe/keyswitch.go:33-58, ring/ring_basis_extension.go:28-40), with `N` words
each.  Keys without rows modulo `P` are left out: there the code divides by zero in floating point.
-/

namespace FastKsw

/-- no index of `DecomposeAndSplit` is out of range, ring/ring_basis_extension.go:372-479; `rowsQ` and `rowsP` are the numbers of rows of
the receivers, the arrays of line 402 have 32 words, and the last condition is on the index `v` of the correction. -/
def Decomposer.splitInRange (d : Decomposer) (levelQ levelP alpha beta rowsQ rowsP : Nat) (p0Q : Rows) : Bool :=
  let start := beta * alpha
  let dl := decompLvl levelQ alpha beta
  let m := (dl + 2).toNat
  let N := (p0Q.row 0).length
  let par := ((d.modUpParams.getD (alpha - 2) []).getD beta []).getD dl.toNat default
  decide (levelQ < rowsQ ∧ levelP < rowsP ∧ start < p0Q.length ∧ (dl = -1 ∨
    (2 ≤ alpha ∧ alpha - 2 < d.modUpParams.length ∧ beta < (d.modUpParams.getD (alpha - 2) []).length ∧ 0 ≤ dl ∧
      dl.toNat < ((d.modUpParams.getD (alpha - 2) []).getD beta []).length ∧ m ≤ 32 ∧ m ≤ par.qoverqiinvqi.length ∧
      start + m ≤ d.ringQ.subs.length ∧ start + m ≤ p0Q.length ∧ start + m ≤ rowsQ ∧
      (∀ i < m, (p0Q.row (start + i)).length = N) ∧ levelQ < d.ringQ.subs.length ∧ levelP < d.ringP.subs.length ∧
      ∀ j < d.ringQ.subs.length + levelP + 1, j < start ∨ j < levelQ + 1 ∨ d.ringQ.subs.length ≤ j →
        j < par.qoverqimodp.length ∧ j < par.vtimesqmodp.length ∧ m ≤ (par.qoverqimodp.row j).length ∧ ∀ x < N,
          reconV m (reconY (fun i => (p0Q.row (start + i)).at x) (fun i => (d.ringQ.sub (start + i)).q)
            (fun i => (d.ringQ.sub (start + i)).mred) par.qoverqiinvqi) (fun i => (d.ringQ.sub (start + i)).q) < (par.vtimesqmodp.row j).length)))

/-- a polynomial with rows up to the level, of `N` words each -/
def rowsInRange (level N : Nat) (x : Rows) : Bool := decide (level < x.length ∧ ∀ i < level + 1, (x.row i).length = N)

/-- digit `i` and its products, rlwe/keyswitch.go:195-206 -/
def KeySwitcher.digitInRange (ks : KeySwitcher) (levelQ levelP : Nat) (inv : Rows) (evk : SwitchingKey) (i : Nat) : Bool :=
  ks.dec.splitInRange levelQ levelP (levelP + 1) i ks.ringQ.subs.length ks.ringP.subs.length inv &&
    decide (i < evk.length) &&
    rowsInRange levelQ ks.ringQ.n (evk.getD i default).1.q && rowsInRange levelP ks.ringQ.n (evk.getD i default).1.p &&
    rowsInRange levelQ ks.ringQ.n (evk.getD i default).2.q && rowsInRange levelP ks.ringQ.n (evk.getD i default).2.p

/-- `DecomposeNTT` into the `params.Beta()` buffers of the key switcher, rlwe/keyswitch.go:51-54, 105-126 -/
def KeySwitcher.decomposeMem (ks : KeySwitcher) (levelQ levelP : Nat) (isNTT : Bool) (c2 : Rows) : Option (List PolyQP) :=
  if levelQ < ks.ringQ.subs.length ∧ rowsInRange levelQ ks.ringQ.n c2 = true ∧
      ∀ i < ceilDivF (levelQ + 1) (levelP + 1), i < ceilDivF ks.ringQ.subs.length ks.ringP.subs.length ∧
        ks.dec.splitInRange levelQ levelP (levelP + 1) i ks.ringQ.subs.length ks.ringP.subs.length (ks.bothForms levelQ isNTT c2).2 = true then
    some (ks.decomposeNTT levelQ levelP (levelP + 1) isNTT c2)
  else none

/-- `ModDownQPtoQ` and `ModDownQPtoQNTT` on `src` modulo `P`, ring/ring_basis_extension.go:207-255 -/
def KeySwitcher.divInRange (ks : KeySwitcher) (levelQ levelP : Nat) (src : Rows) : Bool :=
  modUpInRange levelP levelQ ks.ringP.subs.length ks.ringQ.subs.length ks.ringQ.n src ks.be.ringP ks.be.ringQ ks.be.paramsPtoQ &&
    decide (levelP < ks.be.modDownPtoQ.length ∧ levelQ < (ks.be.modDownPtoQ.row levelP).length)

/-- `SwitchKeysInPlace`, rlwe/keyswitch.go:81-99, 159-227 -/
def KeySwitcher.switchKeysMem (ks : KeySwitcher) (levelQ : Nat) (isNTT : Bool) (cx : Rows) (evk : SwitchingKey) (p0 p1 : Rows) :
    Option (Rows × Rows) :=
  let levelP := evk.alpha - 1
  let f := ks.bothForms levelQ isNTT cx
  let c := ks.switchKeysNoModDown levelQ isNTT cx evk ⟨p0, ks.newPolyQP.p⟩ ⟨p1, ks.newPolyQP.p⟩
  let back := fun (x : Rows) => if isNTT then ks.be.ringP.invNttLazyLvl levelP x (newPoly ks.be.ringP.n ks.be.ringP.subs.length)
    else ks.ringP.invNttLazyLvl levelP x x
  if 0 < evk.alpha ∧ levelQ < ks.ringQ.subs.length ∧ levelP < ks.ringP.subs.length ∧ rowsInRange levelQ ks.ringQ.n cx = true ∧
      rowsInRange levelQ ks.ringQ.n p0 = true ∧ rowsInRange levelQ ks.ringQ.n p1 = true ∧
      0 < overflowMargin ks.ringQ.moduli levelQ >>> 1 ∧ 0 < overflowMargin ks.ringP.moduli levelP >>> 1 ∧
      (∀ i < ceilDivF (levelQ + 1) (levelP + 1), ks.digitInRange levelQ levelP f.2 evk i = true) ∧
      ks.divInRange levelQ levelP (back c.1.p) = true ∧ ks.divInRange levelQ levelP (back c.2.p) = true then
    some (ks.switchKeysInPlace levelQ isNTT cx evk p0 p1)
  else none

/-- `KeyswitchHoisted`, rlwe/keyswitch.go:234-299 -/
def KeySwitcher.hoistedMem (ks : KeySwitcher) (levelQ : Nat) (dig : List PolyQP) (evk : SwitchingKey) (c0 c1 : PolyQP) : Option (Rows × Rows) :=
  let levelP := evk.alpha - 1
  let c := ks.hoistedNoModDown levelQ dig evk c0 c1
  let back := fun (x : Rows) => ks.be.ringP.invNttLazyLvl levelP x (newPoly ks.be.ringP.n ks.be.ringP.subs.length)
  let qp := fun (x : PolyQP) => rowsInRange levelQ ks.ringQ.n x.q && rowsInRange levelP ks.ringQ.n x.p
  if 0 < evk.alpha ∧ levelQ < ks.ringQ.subs.length ∧ levelP < ks.ringP.subs.length ∧ qp c0 = true ∧ qp c1 = true ∧
      0 < overflowMargin ks.ringQ.moduli levelQ >>> 1 ∧ 0 < overflowMargin ks.ringP.moduli levelP >>> 1 ∧
      (∀ i < ceilDivF (levelQ + 1) evk.alpha, i < dig.length ∧ i < evk.length ∧ qp (dig.getD i default) = true ∧
        qp (evk.getD i default).1 = true ∧ qp (evk.getD i default).2 = true) ∧
      ks.divInRange levelQ levelP (back c.1.p) = true ∧ ks.divInRange levelQ levelP (back c.2.p) = true then
    some (ks.hoisted levelQ dig evk c0 c1)
  else none

end FastKsw
