import Verif.Model.Facade
import Verif.Model.SwitchMem

/-!
# Indices of public-key encryption

`Encrypt` of `pkEncryptor` in `rlwe` with the conditions under which Go's indices and slices are in range; `none` is a panic.  Polynomials
without rows are left out.
-/

namespace FastKsw

/-- the rows modulo `P` of `u*pk + e` before the division, rlwe/encryptor.go:214-242: `uQ`, `pkP` are the sampled polynomial and the part of the
key modulo `P`, `e` is the polynomial that the Gaussian sampler leaves in `poolQ0`.  Only `levelP = 0` is used (line 201). -/
def pkSpecialRows (rQ rP : Ring) (uQ pkP e : Rows) : Rows :=
  let pool := newPoly rP.n rP.subs.length
  let u := extendBasisSmallNorm rQ rP 0 uQ pool
  let u := rP.nttLvl 0 u u
  let u := rP.mformLvl 0 u u
  let c := rP.mulCoeffsMontgomeryLvl 0 u pkP pool
  let c := rP.invNttLvl 0 c c
  rP.addLvl 0 c (extendBasisSmallNorm rQ rP 0 e u) c

/-- `Encrypt` of `pkEncryptor` with `P` not empty, rlwe/encryptor.go:126-134, 196-277; `value` is `ciphertext.Value`.  The pool polynomial that
receives `u` and the errors has a row for every prime of `Q` (rlwe/encryptor.go:113-116). -/
def pkEncryptMem (rQ rP : Ring) (pk : PolyQP × PolyQP) (t : EncTape) (pt : Poly) (value : List Poly) : Option (Poly × Poly) :=
  let c0 := value.getD 0 default
  let c1 := value.getD 1 default
  let levelQ := min pt.level c0.level
  let e := fun (g : List (UInt64 × Bool)) => gaussWrite rQ levelQ g (newPoly rQ.n rQ.subs.length)
  if 1 < value.length ∧ levelQ < rQ.subs.length ∧ 0 < rP.subs.length ∧
      rowsInRange levelQ rQ.n c1.coeffs = true ∧ rowsInRange levelQ rQ.n t.u = true ∧
      rowsInRange levelQ rQ.n pk.1.q = true ∧ rowsInRange levelQ rQ.n pk.2.q = true ∧
      rowsInRange 0 rQ.n pk.1.p = true ∧ rowsInRange 0 rQ.n pk.2.p = true ∧
      rowsInRange levelQ rQ.n c0.coeffs = true ∧ rowsInRange levelQ rQ.n pt.coeffs = true ∧
      (newKeySwitcher rQ rP).divInRange levelQ 0 (pkSpecialRows rQ rP t.u pk.1.p (e t.g0)) = true ∧
      (newKeySwitcher rQ rP).divInRange levelQ 0 (pkSpecialRows rQ rP t.u pk.2.p (e t.g1)) = true then
    some (pkEncrypt rQ rP pk t.u t.g0 t.g1 pt c0 ⟨writeLvl levelQ t.mask.row c1.coeffs, c1.isNTT⟩)
  else none

end FastKsw
