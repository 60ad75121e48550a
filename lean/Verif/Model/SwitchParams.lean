import Verif.Model.ModRed

/-!
# Rescaling constants of switching keys
-/

namespace FastKsw

/-- `PBig` of `GenSwitchkeysRescalingParams`, ckks/utils.go:337-340: the product of the words of `P` as a big integer -/
def bigProd (P : List UInt64) : Nat :=
  P.foldl (fun acc pj => acc * pj.toNat) 1

/-- one round of the second loop of `GenSwitchkeysRescalingParams`, ckks/utils.go:346-348.  `Mod` of big integers panics for
a zero modulus; the model has no panic there, and the theorem is about prime moduli. -/
def switchkeysRescalingParam (PBig : Nat) (q : UInt64) : UInt64 :=
  let r := UInt64.ofNat (PBig % q.toNat)
  let r := modExp r (q - 2) q
  mform r q (bredParams q)

/-- `GenSwitchkeysRescalingParams`, ckks/utils.go:333-352 -/
def genSwitchkeysRescalingParams (Q P : List UInt64) : List UInt64 :=
  let PBig := bigProd P
  Q.map (switchkeysRescalingParam PBig)

end FastKsw
