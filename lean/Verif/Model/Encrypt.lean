import Verif.Model.KeyGen
import Verif.Model.Samplers

/-!
# `rlwe/encryptor.go`, `rlwe/decryptor.go`

The plaintext, the key and the components of the ciphertext are different polynomials.  Pool polynomials start as
zero polynomials (they are written before they are read).  What the samplers write is an argument: rows for the
ternary sampler, the accepted draws for the Gaussian sampler, rows already in `ct.Value[1]` for the uniform
sampler.
-/

namespace FastKsw

/-- `ring.Poly`, ring/ring_poly.go:28-32: the rows and the flag `IsNTT`.  `IsMForm` is only copied and
serialised. -/
structure Poly where
  coeffs : Rows
  isNTT : Bool
deriving Inhabited

/-- `Level`, ring/ring_poly.go:55-57 -/
def Poly.level (p : Poly) : Nat := p.coeffs.length - 1

/-- `Coeffs = Coeffs[:level+1]` -/
def Poly.trunc (p : Poly) (level : Nat) : Poly := ⟨p.coeffs.take (level + 1), p.isNTT⟩

/-- `skEncryptor.encrypt`, rlwe/encryptor.go:342-394; `c1` holds the mask.  `sk` is `enc.sk.Value.Q`, `g` the
draws of the Gaussian sampler. -/
def skEncrypt (r : Ring) (sk : Rows) (g : List (UInt64 × Bool)) (pt c0 c1 : Poly) : Poly × Poly :=
  let levelQ := min pt.level c0.level
  let pool := newPoly r.n r.subs.length
  let ciphertextNTT := c0.isNTT
  let v0 := r.mulCoeffsMontgomeryLvl levelQ c1.coeffs sk c0.coeffs
  let v0 := r.negLvl levelQ v0 v0
  if ciphertextNTT then
    let pool := gaussWrite r levelQ g pool
    let v0 := if pt.isNTT then
        let pool := r.nttLvl levelQ pool pool
        let v0 := r.addLvl levelQ v0 pool v0
        r.addLvl levelQ v0 pt.coeffs v0
      else
        let pool := r.addLvl levelQ pool pt.coeffs pool
        let pool := r.nttLvl levelQ pool pool
        r.addLvl levelQ v0 pool v0
    (Poly.trunc ⟨v0, true⟩ levelQ, Poly.trunc ⟨c1.coeffs, true⟩ levelQ)
  else
    let v0 := if pt.isNTT then
        let v0 := r.addLvl levelQ v0 pt.coeffs v0
        r.invNttLvl levelQ v0 v0
      else
        let v0 := r.invNttLvl levelQ v0 v0
        r.addLvl levelQ v0 pt.coeffs v0
    let v0 := gaussAdd r c0.level g v0
    let v1 := r.invNttLvl levelQ c1.coeffs c1.coeffs
    (Poly.trunc ⟨v0, false⟩ levelQ, Poly.trunc ⟨v1, false⟩ levelQ)

/-- `pkEncryptor.encrypt`, rlwe/encryptor.go:196-277 (`P` not empty); `u` is what the ternary sampler writes,
`g0`, `g1` the draws for the two errors -/
def pkEncrypt (rQ rP : Ring) (pk : PolyQP × PolyQP) (u : Rows) (g0 g1 : List (UInt64 × Bool)) (pt c0 c1 : Poly) :
    Poly × Poly :=
  let levelQ := min pt.level c0.level
  let levelP := 0
  let poolP := newPoly rP.n rP.subs.length
  let uP := extendBasisSmallNorm rQ rP levelP u poolP
  let uQ := rQ.nttLvl levelQ u u
  let uP := rP.nttLvl levelP uP uP
  let uQ := rQ.mformLvl levelQ uQ uQ
  let uP := rP.mformLvl levelP uP uP
  let q0 := rQ.mulCoeffsMontgomeryLvl levelQ uQ pk.1.q c0.coeffs
  let p0 := rP.mulCoeffsMontgomeryLvl levelP uP pk.1.p poolP
  let q1 := rQ.mulCoeffsMontgomeryLvl levelQ uQ pk.2.q c1.coeffs
  let p1 := rP.mulCoeffsMontgomeryLvl levelP uP pk.2.p poolP
  let q0 := rQ.invNttLvl levelQ q0 q0
  let p0 := rP.invNttLvl levelP p0 p0
  let q1 := rQ.invNttLvl levelQ q1 q1
  let p1 := rP.invNttLvl levelP p1 p1
  let eQ := gaussWrite rQ levelQ g0 uQ
  let eP := extendBasisSmallNorm rQ rP levelP eQ uP
  let q0 := rQ.addLvl levelQ q0 eQ q0
  let p0 := rP.addLvl levelP p0 eP p0
  let eQ := gaussWrite rQ levelQ g1 eQ
  let eP := extendBasisSmallNorm rQ rP levelP eQ eP
  let q1 := rQ.addLvl levelQ q1 eQ q1
  let p1 := rP.addLvl levelP p1 eP p1
  let be := newBasisExtender rQ rP
  let q0 := be.modDownQPtoQ levelQ levelP q0 p0 q0
  let q1 := be.modDownQPtoQ levelQ levelP q1 p1 q1
  let v : Rows × Rows := if c0.isNTT then
      let q0 := if !pt.isNTT then rQ.addLvl levelQ q0 pt.coeffs q0 else q0
      let q0 := rQ.nttLvl levelQ q0 q0
      let q1 := rQ.nttLvl levelQ q1 q1
      let q0 := if pt.isNTT then rQ.addLvl levelQ q0 pt.coeffs q0 else q0
      (q0, q1)
    else if !pt.isNTT then (rQ.addLvl levelQ q0 pt.coeffs q0, q1)
    else
      let pool := rQ.invNttLvl levelQ pt.coeffs eQ
      (rQ.addLvl levelQ q0 pool q0, q1)
  (Poly.trunc ⟨v.1, c0.isNTT⟩ levelQ, Poly.trunc ⟨v.2, c0.isNTT⟩ levelQ)

/-- `pkEncryptor.encryptNoP`, rlwe/encryptor.go:279-340 (`P` empty).  In the NTT branch the first draws are those
of `e1`; below, `g0` always belongs to component 0. -/
def pkEncryptNoP (r : Ring) (pk : Rows × Rows) (u : Rows) (g0 g1 : List (UInt64 × Bool)) (pt c0 c1 : Poly) :
    Poly × Poly :=
  let levelQ := min pt.level c0.level
  let pool := r.nttLvl levelQ u u
  let pool := r.mformLvl levelQ pool pool
  let v0 := r.mulCoeffsMontgomeryLvl levelQ pool pk.1 c0.coeffs
  let v1 := r.mulCoeffsMontgomeryLvl levelQ pool pk.2 c1.coeffs
  let v : Rows × Rows := if c0.isNTT then
      let pool := gaussWrite r levelQ g1 pool
      let pool := r.nttLvl levelQ pool pool
      let v1 := r.addLvl levelQ v1 pool v1
      let pool := gaussWrite r levelQ g0 pool
      if !pt.isNTT then
        let pool := r.addLvl levelQ pool pt.coeffs pool
        let pool := r.nttLvl levelQ pool pool
        (r.addLvl levelQ v0 pool v0, v1)
      else
        let pool := r.nttLvl levelQ pool pool
        let v0 := r.addLvl levelQ v0 pool v0
        (r.addLvl levelQ v0 pt.coeffs v0, v1)
    else
      let v0 := r.invNttLvl levelQ v0 v0
      let v1 := r.invNttLvl levelQ v1 v1
      let v0 := gaussAdd r c0.level g0 v0
      let v1 := gaussAdd r c0.level g1 v1
      if !pt.isNTT then (r.addLvl levelQ v0 pt.coeffs v0, v1)
      else
        let pool := r.invNttLvl levelQ pt.coeffs pool
        (r.addLvl levelQ v0 pool v0, v1)
  (Poly.trunc ⟨v.1, c0.isNTT⟩ levelQ, Poly.trunc ⟨v.2, c0.isNTT⟩ levelQ)

/-- the loop of `Decrypt`, rlwe/decryptor.go:70-84, from index `i` down to 1; `acc` is `plaintext.Value.Coeffs` -/
def decryptLoop (r : Ring) (level : Nat) (sk : Rows) (isNTT : Bool) (ct : Nat → Rows) : Nat → Rows → Rows
  | 0, acc => acc
  | i + 1, acc =>
    let acc := r.mulCoeffsMontgomeryLvl level acc sk acc
    let acc := if !isNTT then
        let pool := r.nttLazyLvl level (ct i) (newPoly r.n r.subs.length)
        r.addLvl level acc pool acc
      else r.addLvl level acc (ct i) acc
    let acc := if (i + 1) % 8 = 7 then r.reduceLvl level acc acc else acc
    decryptLoop r level sk isNTT ct i acc

/-- `Decrypt`, rlwe/decryptor.go:55-93.  `ct` is not empty; its level and domain are those of `Value[0]`
(rlwe/elements.go, `Level`). -/
def decrypt (r : Ring) (sk : Rows) (ct : List Poly) (pt : Poly) : Poly :=
  let isNTT := (ct.getD 0 default).isNTT
  let level := min (ct.getD 0 default).level pt.level
  let degree := ct.length - 1
  let acc := pt.coeffs.take (level + 1)
  let acc := if isNTT then writeLvl level (fun u => (ct.getD degree default).coeffs.row u) acc
    else r.nttLazyLvl level (ct.getD degree default).coeffs acc
  let acc := decryptLoop r level sk isNTT (fun i => (ct.getD i default).coeffs) degree acc
  let acc := if degree % 8 ≠ 7 then r.reduceLvl level acc acc else acc
  let acc := if !pt.isNTT then r.invNttLvl level acc acc else acc
  ⟨acc, pt.isNTT⟩

end FastKsw
