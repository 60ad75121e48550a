import Verif.Model.BasisExtension

/-!
# `rlwe/keyswitch.go`, `rlwe/ring_qp.go` and the decomposer of `ring/ring_basis_extension.go`

`int(math.Ceil(float64(a) / float64(b)))` and `int(math.Exp2(64) / float64(m))` are
computed on the float64 model of `Model/Float.lean`.  Scratch polynomials of a
`KeySwitcher` are allocated once and reused by the code; every row read is written
before in the same call, so the model starts from fresh ones (C106, on
`Model/ThreadKeySwitch.lean`, proves that the reused ones make no difference).
-/

namespace FastKsw

/-- `int(math.Ceil(float64(a) / float64(b)))` for `b ≠ 0` -/
def ceilDivF (a b : Nat) : Nat := ⌈f64Div (f64OfNat a) (f64OfNat b)⌉.toNat

/-- `MaxSliceUint64`, utils/utils.go:133-138 -/
def maxSlice (l : List UInt64) : UInt64 := l.foldl (fun m x => if m ≥ x then m else x) 0

/-- `int(math.Exp2(64) / float64(max))`: `QiOverflowMargin`, `PiOverflowMargin`
(rlwe/params.go:340-348) on `qi[:level+1]`, `pi[:level+1]` and `TiOverflowMargin`
(frlwe/params.go:69-71) -/
def overflowMargin (moduli : List UInt64) (level : Nat) : Nat :=
  f64ToNat (f64Div (2 ^ 64) (f64OfNat (maxSlice (moduli.take (level + 1))).toNat))

/-- `PolyQP`, rlwe/ring_qp.go:31-33 -/
structure PolyQP where
  q : Rows
  p : Rows

/-! ## Lazy accumulation -/

/-- step `i` of the accumulation loops on one accumulator: rlwe/keyswitch.go:197-216 and 269-288
(the four accumulators `c0.Q, c0.P, c1.Q, c1.P` do not interact) and frlwe/keyswitch.go:133-141;
`i` is also the value of the counter `reduce` -/
def Ring.accStep (r : Ring) (level m i : Nat) (x y acc : Rows) : Rows :=
  let acc := if i = 0 then r.mulCoeffsMontgomeryConstantLvl level x y acc
    else r.mulCoeffsMontgomeryConstantAndAddNoModLvl level x y acc
  if i % m = m - 1 then r.reduceLvl level acc acc else acc

/-- the reduction after the loop, rlwe/keyswitch.go:218-226, 290-298, frlwe/keyswitch.go:147-151 -/
def Ring.accEnd (r : Ring) (level m beta : Nat) (acc : Rows) : Rows :=
  if beta % m ≠ 0 then r.reduceLvl level acc acc else acc

/-! ## Decomposer -/

/-- `Decomposer`, ring_basis_extension.go:306-309 -/
structure Decomposer where
  ringQ : Ring
  ringP : Ring
  modUpParams : List (List (List ModupParams))

/-- `NewDecomposer`, ring_basis_extension.go:312-365 -/
def newDecomposer (ringQ ringP : Ring) : Decomposer where
  ringQ := ringQ
  ringP := ringP
  modUpParams := (List.range (ringP.subs.length - 1)).map fun lvlP =>
    let alpha := lvlP + 2
    let beta := ceilDivF ringQ.subs.length alpha
    (List.range beta).map fun i =>
      let xalpha := if i = beta - 1 ∧ ringQ.subs.length % alpha ≠ 0 then ringQ.subs.length % alpha
        else alpha
      (List.range (xalpha - 1)).map fun j =>
        basisExtenderParameters ((List.range (j + 2)).map fun k => Row.at ringQ.moduli (i * alpha + k))
          (ringQ.moduli ++ ringP.moduli.take alpha)

/-- `decompLvl`, ring_basis_extension.go:376-381 -/
def decompLvl (levelQ alpha beta : Nat) : Int :=
  if (levelQ : Int) > alpha * (beta + 1) - 1 then (alpha : Int) - 2 else (levelQ % alpha : Nat) - 1

/-- `DecomposeAndSplit`, ring_basis_extension.go:372-479: the new contents of `(p1Q, p1P)`.  The
rows of the block that are copied first (lines 433-434) are all overwritten by the loop starting at
`alpha*beta` (line 466), so only the final contents are written down. -/
def Decomposer.decomposeAndSplit (d : Decomposer) (levelQ levelP alpha beta : Nat) (p0Q : Rows)
    (p1 : PolyQP) : PolyQP :=
  let lvlQStart := beta * alpha
  let dl := decompLvl levelQ alpha beta
  if dl = -1 then
    ⟨writeLvl levelQ (fun _ => p0Q.row lvlQStart) p1.q, writeLvl levelP (fun _ => p0Q.row lvlQStart) p1.p⟩
  else
    let par := ((d.modUpParams.getD (alpha - 2) []).getD beta []).getD dl.toNat default
    let coeff := fun (x j : Nat) (s : SubRing) =>
      modUpCoeff (dl + 2).toNat (fun i => (p0Q.row (lvlQStart + i)).at x)
        (fun i => (d.ringQ.sub (lvlQStart + i)).q) (fun i => (d.ringQ.sub (lvlQStart + i)).mred) par j
        s.q s.mred
    ⟨writeLvl levelQ (fun j => (List.range (p0Q.row 0).length).map fun x => coeff x j (d.ringQ.sub j)) p1.q,
     writeLvl levelP (fun j => (List.range (p0Q.row 0).length).map fun x =>
       coeff x (d.ringQ.subs.length + j) (d.ringP.sub j)) p1.p⟩

/-- `DecomposeSingleNTT`, rlwe/keyswitch.go:131-151 -/
def Decomposer.decomposeSingleNTT (d : Decomposer) (levelQ levelP alpha beta : Nat)
    (c2NTT c2InvNTT : Rows) (c2Qi : PolyQP) : PolyQP :=
  let t := d.decomposeAndSplit levelQ levelP alpha beta c2InvNTT c2Qi
  let p0idxst := beta * (levelP + 1)
  let p0idxed := p0idxst + 1
  ⟨writeLvl levelQ (fun x =>
      if p0idxst ≤ x ∧ x < p0idxed then c2NTT.row x else (d.ringQ.sub x).nttLazy d.ringQ.n (t.q.row x)) t.q,
   d.ringP.nttLazyLvl levelP t.p t.p⟩

/-! ## Key switching -/

/-- `KeySwitcher`, rlwe/keyswitch.go:26-31, 60-67 -/
structure KeySwitcher where
  ringQ : Ring
  ringP : Ring
  be : BasisExtender
  dec : Decomposer

/-- `NewKeySwitcher`, rlwe/keyswitch.go:60-67 -/
def newKeySwitcher (ringQ ringP : Ring) : KeySwitcher where
  ringQ := ringQ
  ringP := ringP
  be := newBasisExtender ringQ ringP
  dec := newDecomposer ringQ ringP

/-- `SwitchingKey`, rlwe/keys.go: `Value[i] = [b_i, a_i]` -/
abbrev SwitchingKey := List (PolyQP × PolyQP)

instance : Inhabited PolyQP := ⟨⟨[], []⟩⟩

/-- `len(evakey.Value[0][0].P.Coeffs)` -/
def SwitchingKey.alpha (k : SwitchingKey) : Nat := (k.getD 0 default).1.p.length

/-- the pair (NTT form, coefficient form) of the input, rlwe/keyswitch.go:170-178, 111-119 -/
def KeySwitcher.bothForms (ks : KeySwitcher) (levelQ : Nat) (isNTT : Bool) (cx : Rows) : Rows × Rows :=
  if isNTT then (cx, ks.ringQ.invNttLvl levelQ cx (newPoly ks.ringQ.n ks.ringQ.subs.length))
  else (ks.ringQ.nttLvl levelQ cx (newPoly ks.ringQ.n ks.ringQ.subs.length), cx)

/-- a fresh `PolyQP` -/
def KeySwitcher.newPolyQP (ks : KeySwitcher) : PolyQP :=
  ⟨newPoly ks.ringQ.n ks.ringQ.subs.length, newPoly ks.ringP.n ks.ringP.subs.length⟩

/-- `DecomposeNTT`, rlwe/keyswitch.go:105-126: the digits -/
def KeySwitcher.decomposeNTT (ks : KeySwitcher) (levelQ levelP alpha : Nat) (isNTT : Bool) (c2 : Rows) :
    List PolyQP :=
  let f := ks.bothForms levelQ isNTT c2
  (List.range (ceilDivF (levelQ + 1) (levelP + 1))).map fun i =>
    ks.dec.decomposeSingleNTT levelQ levelP alpha i f.1 f.2 ks.newPolyQP

/-- one step of the two accumulations over `Q` and `P` -/
def KeySwitcher.accStep (ks : KeySwitcher) (levelQ levelP mQ mP i : Nat) (key c2 acc : PolyQP) : PolyQP :=
  ⟨ks.ringQ.accStep levelQ mQ i key.q c2.q acc.q, ks.ringP.accStep levelP mP i key.p c2.p acc.p⟩

/-- final reductions -/
def KeySwitcher.accEnd (ks : KeySwitcher) (levelQ levelP mQ mP beta : Nat) (acc : PolyQP) : PolyQP :=
  ⟨ks.ringQ.accEnd levelQ mQ beta acc.q, ks.ringP.accEnd levelP mP beta acc.p⟩

/-- `KeyswitchHoistedNoModDown`, rlwe/keyswitch.go:249-299; the result is `(c0QP, c1QP)` -/
def KeySwitcher.hoistedNoModDown (ks : KeySwitcher) (levelQ : Nat) (dig : List PolyQP) (evk : SwitchingKey)
    (c0 c1 : PolyQP) : PolyQP × PolyQP :=
  let alpha := evk.alpha
  let levelP := alpha - 1
  let beta := ceilDivF (levelQ + 1) alpha
  let mQ := overflowMargin ks.ringQ.moduli levelQ >>> 1
  let mP := overflowMargin ks.ringP.moduli levelP >>> 1
  let st := (List.range beta).foldl (fun st i =>
    (ks.accStep levelQ levelP mQ mP i (evk.getD i default).1 (dig.getD i default) st.1,
     ks.accStep levelQ levelP mQ mP i (evk.getD i default).2 (dig.getD i default) st.2)) (c0, c1)
  (ks.accEnd levelQ levelP mQ mP beta st.1, ks.accEnd levelQ levelP mQ mP beta st.2)

/-- `SwitchKeysInPlaceNoModDown`, rlwe/keyswitch.go:159-227; the result is `(c0QP, c1QP)`.  `cx`
is not one of the outputs. -/
def KeySwitcher.switchKeysNoModDown (ks : KeySwitcher) (levelQ : Nat) (isNTT : Bool) (cx : Rows)
    (evk : SwitchingKey) (c0 c1 : PolyQP) : PolyQP × PolyQP :=
  let f := ks.bothForms levelQ isNTT cx
  let alpha := evk.alpha
  let levelP := alpha - 1
  let beta := ceilDivF (levelQ + 1) (levelP + 1)
  let mQ := overflowMargin ks.ringQ.moduli levelQ >>> 1
  let mP := overflowMargin ks.ringP.moduli levelP >>> 1
  let st := (List.range beta).foldl (fun st i =>
    let c2 := ks.dec.decomposeSingleNTT levelQ levelP alpha i f.1 f.2 ks.newPolyQP
    (ks.accStep levelQ levelP mQ mP i (evk.getD i default).1 c2 st.1,
     ks.accStep levelQ levelP mQ mP i (evk.getD i default).2 c2 st.2)) (c0, c1)
  (ks.accEnd levelQ levelP mQ mP beta st.1, ks.accEnd levelQ levelP mQ mP beta st.2)

/-- `KeyswitchHoisted`, rlwe/keyswitch.go:234-243: new contents of `(c0Q, c1Q)` -/
def KeySwitcher.hoisted (ks : KeySwitcher) (levelQ : Nat) (dig : List PolyQP) (evk : SwitchingKey)
    (c0 c1 : PolyQP) : Rows × Rows :=
  let c := ks.hoistedNoModDown levelQ dig evk c0 c1
  let levelP := evk.alpha - 1
  (ks.be.modDownQPtoQNTT levelQ levelP c.1.q c.1.p c.1.q,
   ks.be.modDownQPtoQNTT levelQ levelP c.2.q c.2.p c.2.q)

/-- `SwitchKeysInPlace`, rlwe/keyswitch.go:81-99: new contents of `(p0, p1)` -/
def KeySwitcher.switchKeysInPlace (ks : KeySwitcher) (levelQ : Nat) (isNTT : Bool) (cx : Rows)
    (evk : SwitchingKey) (p0 p1 : Rows) : Rows × Rows :=
  let c := ks.switchKeysNoModDown levelQ isNTT cx evk ⟨p0, ks.newPolyQP.p⟩ ⟨p1, ks.newPolyQP.p⟩
  let levelP := evk.alpha - 1
  if isNTT then
    (ks.be.modDownQPtoQNTT levelQ levelP c.1.q c.1.p c.1.q,
     ks.be.modDownQPtoQNTT levelQ levelP c.2.q c.2.p c.2.q)
  else
    let q0 := ks.ringQ.invNttLazyLvl levelQ c.1.q c.1.q
    let q1 := ks.ringQ.invNttLazyLvl levelQ c.2.q c.2.q
    let t0 := ks.ringP.invNttLazyLvl levelP c.1.p c.1.p
    let t1 := ks.ringP.invNttLazyLvl levelP c.2.p c.2.p
    (ks.be.modDownQPtoQ levelQ levelP q0 t0 q0, ks.be.modDownQPtoQ levelQ levelP q1 t1 q1)

end FastKsw
