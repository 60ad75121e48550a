import Verif.Model.Float
import Verif.Model.RingOps

/-!
# `ring/ring_basis_extension.go`

Loops over coefficients, unrolled eight at a time in Go, are maps over the
coefficients (`N` is a multiple of 8).  The scratch arrays `y0 … y7` have 32
entries: Go panics with more than 32 source moduli.  The scratch polynomials of
`BasisExtender` are written before they are read, so they are not part of the
state.
-/

namespace FastKsw

/-- `modupParams`, ring_basis_extension.go:39-47 -/
structure ModupParams where
  qoverqiinvqi : Row
  qoverqimodp : Rows
  vtimesqmodp : Rows
deriving Inhabited

/-- the multiples of `v` in the table `vtimesqmodp[j]`, ring_basis_extension.go:160-164 -/
def vTimes (v pj : UInt64) : Nat → UInt64
  | 0 => 0
  | i + 1 => cred (vTimes v pj i + v) pj

/-- `qoverqiinvqi[i]`, ring_basis_extension.go:123-134 -/
def qoverqiinvqi (Q : List UInt64) (i : Nat) : UInt64 :=
  let qi := Row.at Q i
  let b := bredParams qi
  let m := mredParams qi
  let qiStar := (List.range Q.length).foldl
    (fun s j => if j ≠ i then mred s (mform (Row.at Q j) qi b) qi m else s) (mform 1 qi b)
  modexpMontgomery qiStar (qi - 2).toNat qi m b

/-- `qoverqimodp[j][i]` for the target modulus `pj`, ring_basis_extension.go:136-146 -/
def qoverqimodp (Q : List UInt64) (pj : UInt64) (i : Nat) : UInt64 :=
  let b := bredParams pj
  let m := mredParams pj
  let qiStar := (List.range Q.length).foldl
    (fun s u => if u ≠ i then mred s (mform (Row.at Q u) pj b) pj m else s) 1
  mform qiStar pj b

/-- `vtimesqmodp[j]` for the target modulus `pj`, ring_basis_extension.go:149-165 -/
def vtimesqmodp (Q : List UInt64) (pj : UInt64) : Row :=
  let b := bredParams pj
  let m := mredParams pj
  let qModPi := Q.foldl (fun s qi => mred s (mform qi pj b) pj m) 1
  (List.range (Q.length + 1)).map (vTimes (pj - qModPi) pj)

/-- `basisextenderparameters`, ring_basis_extension.go:98-168 -/
def basisExtenderParameters (Q P : List UInt64) : ModupParams where
  qoverqiinvqi := (List.range Q.length).map (qoverqiinvqi Q)
  qoverqimodp := P.map fun pj => (List.range Q.length).map (qoverqimodp Q pj)
  vtimesqmodp := P.map (vtimesqmodp Q)

/-- `reconstructRNS` for one coefficient: the `y_i`, ring_basis_extension.go:481-502.  `c i` is the
coefficient modulo source modulus `i`. -/
def reconY (c q qInv : Nat → UInt64) (qbMont : Row) (i : Nat) : UInt64 :=
  mred (c i) (qbMont.at i) (q i) (qInv i)

/-- `reconstructRNS` for one coefficient: the index `v` of the correction term,
ring_basis_extension.go:504-522 -/
def reconV (n : Nat) (y q : Nat → UInt64) : Nat :=
  f64ToNat ((List.range n).foldl
    (fun vi i => f64Add vi (f64Div (f64OfNat (y i).toNat) (f64OfNat (q i).toNat))) 0)

/-- the 128-bit accumulator of `multSum`, ring_basis_extension.go:528-564: pair `(rlo, rhi)` -/
def multSumAcc (n : Nat) (y : Nat → UInt64) (qoverqi : Row) : UInt64 × UInt64 :=
  (List.range n).foldl (fun r i =>
    let mhi := mulHi (y i) (qoverqi.at i)
    let mlo := mulLo (y i) (qoverqi.at i)
    let c := addCarry r.1 mlo
    (r.1 + mlo, r.2 + (mhi + c))) (0, 0)

/-- `multSum` for one coefficient, ring_basis_extension.go:526-590 -/
def multSum (n v : Nat) (y : Nat → UInt64) (pj pInv : UInt64) (vtimesq qoverqi : Row) : UInt64 :=
  let r := multSumAcc n y qoverqi
  let hhi := mulHi (r.1 * pInv) pj
  r.2 - hhi + pj + vtimesq.at v

/-- one coefficient of one target row: `reconstructRNS` then `multSum` -/
def modUpCoeff (n : Nat) (c q qInv : Nat → UInt64) (par : ModupParams) (j : Nat) (pj pInv : UInt64) :
    UInt64 :=
  let y := reconY c q qInv par.qoverqiinvqi
  multSum n (reconV n y q) y pj pInv (par.vtimesqmodp.row j) (par.qoverqimodp.row j)

/-- `modUpExact`, ring_basis_extension.go:281-301: from the first `levelQ+1` rows of `p1` to the first
`levelP+1` rows of `p2` -/
def modUpExact (levelQ levelP : Nat) (p1 p2 : Rows) (ringQ ringP : Ring) (par : ModupParams) : Rows :=
  writeLvl levelP (fun j => (List.range (p1.row 0).length).map fun x =>
    modUpCoeff (levelQ + 1) (fun i => (p1.row i).at x) (fun i => (ringQ.sub i).q)
      (fun i => (ringQ.sub i).mred) par j (ringP.sub j).q (ringP.sub j).mred) p2

/-- `params[j][i]` of `genModDownParams`, ring_basis_extension.go:49-69 -/
def modDownParam (ringQ ringP : Ring) (i : Nat) : Nat → UInt64
  | 0 =>
    let s := ringQ.sub i
    mform (modExp (ringP.sub 0).q (s.q - 2) s.q) s.q s.bred
  | j + 1 =>
    let s := ringQ.sub i
    mred (mform (modExp (ringP.sub (j + 1)).q (s.q - 2) s.q) s.q s.bred) (modDownParam ringQ ringP i j)
      s.q s.mred

/-- `genModDownParams`, ring_basis_extension.go:49-69 -/
def genModDownParams (ringQ ringP : Ring) : Rows :=
  (List.range ringP.subs.length).map fun j =>
    (List.range ringQ.subs.length).map fun i => modDownParam ringQ ringP i j

/-- `BasisExtender`, ring_basis_extension.go:27-37 -/
structure BasisExtender where
  ringQ : Ring
  ringP : Ring
  paramsQtoP : List ModupParams
  paramsPtoQ : List ModupParams
  modDownPtoQ : Rows
  modDownQtoP : Rows

/-- `NewBasisExtender`, ring_basis_extension.go:72-96 -/
def newBasisExtender (ringQ ringP : Ring) : BasisExtender where
  ringQ := ringQ
  ringP := ringP
  paramsQtoP := (List.range ringQ.subs.length).map fun i =>
    basisExtenderParameters (ringQ.moduli.take (i + 1)) ringP.moduli
  paramsPtoQ := (List.range ringP.subs.length).map fun i =>
    basisExtenderParameters (ringP.moduli.take (i + 1)) ringQ.moduli
  modDownPtoQ := genModDownParams ringQ ringP
  modDownQtoP := genModDownParams ringP ringQ

/-- `ModUpQtoP`, ring_basis_extension.go:192-194 -/
def BasisExtender.modUpQtoP (be : BasisExtender) (levelQ levelP : Nat) (polQ polP : Rows) : Rows :=
  modUpExact levelQ levelP polQ polP be.ringQ be.ringP (be.paramsQtoP.getD levelQ default)

/-- `ModUpPtoQ`, ring_basis_extension.go:199-201 -/
def BasisExtender.modUpPtoQ (be : BasisExtender) (levelP levelQ : Nat) (polP polQ : Rows) : Rows :=
  modUpExact levelP levelQ polP polQ be.ringP be.ringQ (be.paramsPtoQ.getD levelP default)

/-- `ModDownQPtoQ`, ring_basis_extension.go:207-223 -/
def BasisExtender.modDownQPtoQ (be : BasisExtender) (levelQ levelP : Nat) (p1Q p1P p2Q : Rows) : Rows :=
  let pool := be.modUpPtoQ levelP levelQ p1P (newPoly be.ringQ.n be.ringQ.subs.length)
  writeLvl levelQ (fun i =>
    let s := be.ringQ.sub i
    subVecAndMulScalarMontgomeryTwoQiVec (pool.row i) (p1Q.row i)
      (s.q - (be.modDownPtoQ.row levelP).at i) s.q s.mred) p2Q

/-- `ModDownQPtoQNTT`, ring_basis_extension.go:230-255 -/
def BasisExtender.modDownQPtoQNTT (be : BasisExtender) (levelQ levelP : Nat) (p1Q p1P p2Q : Rows) :
    Rows :=
  let poolP := be.ringP.invNttLazyLvl levelP p1P (newPoly be.ringP.n be.ringP.subs.length)
  let poolQ := be.modUpPtoQ levelP levelQ poolP (newPoly be.ringQ.n be.ringQ.subs.length)
  let poolQ := be.ringQ.nttLazyLvl levelQ poolQ poolQ
  writeLvl levelQ (fun i =>
    let s := be.ringQ.sub i
    subVecAndMulScalarMontgomeryTwoQiVec (poolQ.row i) (p1Q.row i)
      (s.q - (be.modDownPtoQ.row levelP).at i) s.q s.mred) p2Q

/-- `ModDownQPtoP`, ring_basis_extension.go:261-278: the constants are those of `modDownParams[levelP]`
(line 274), not of `levelQ` -/
def BasisExtender.modDownQPtoP (be : BasisExtender) (levelQ levelP : Nat) (p1Q p1P p2P : Rows) : Rows :=
  let pool := be.modUpQtoP levelQ levelP p1Q (newPoly be.ringP.n be.ringP.subs.length)
  writeLvl levelP (fun i =>
    let s := be.ringP.sub i
    subVecAndMulScalarMontgomeryTwoQiVec (pool.row i) (p1P.row i)
      (s.q - (be.modDownQtoP.row levelP).at i) s.q s.mred) p2P

end FastKsw
