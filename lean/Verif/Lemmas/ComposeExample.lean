import Verif.Lemmas.ConstCt
import Verif.Model.Evaluator

/-!
# The ciphertexts of the witness for C66, evaluated
-/

namespace FastKsw.Props

open FastKsw

/-- the parameter set of `exampleF` -/
@[irreducible] def exF : FParams := (newFParams 100 4 [97, 193, 641] [257, 353] [449, 577, 673, 769, 1153] 5
  0x4009999999999999 2).get exampleF_isSome

/-- the secret 1, masks and errors zero -/
def exSk (F : FParams) : PolyQP := genSecretKey F.ringQ F.ringP (List.replicate 3 (1 :: List.replicate 15 0))

def exTape (F : FParams) : KeyTape := ⟨newPoly F.ringQ.n F.ringQ.subs.length,
  ⟨newPoly F.ringQ.n F.ringQ.subs.length, newPoly F.ringP.n F.ringP.subs.length⟩⟩

def exEv (F : FParams) : Evaluator := newEvaluator F.ringQ F.ringP
  (some ((genRelinearizationKey F.ringQ F.ringP (exSk F) 1 (fun _ _ => exTape F)).getD 0 [])) (fun _ => none) 9

/-- component 0 has the NTT values `0, 1, …, 15`, component 1 is the constant 1 -/
def exRamp : Ct := ⟨[⟨List.replicate 3 [0, 1, 2, 3, 4, 5, 6, 7, 8, 9, 10, 11, 12, 13, 14, 15], true⟩,
  ⟨List.replicate 3 (List.replicate 16 1), true⟩], 1000⟩

def exHeap : Heap := fun a => if a = 0 then exRamp else if a = 1 then constCt 1000 [1, 1] else constCt 1 [0, 0]

/-- the heap after `MulRelin` -/
def exMid (F : FParams) : Heap := ((exEv F).mulRelin exHeap 0 1 true 2).getD exHeap

/-- the same ciphertext with every word reduced -/
def exRed (r : Ring) (c : Ct) : Ct :=
  ⟨c.value.map fun p => ⟨p.coeffs.mapIdx fun u row => row.map fun w => w % (r.sub u).q, p.isNTT⟩, c.scale⟩

/-- row 0 of component 0 of the rescaled ciphertext -/
def exOut (ev : Evaluator) (H : Heap) : Row := match ev.rescale H 2 1000 2 with
  | some (.ok H') => (H'.rows 2 0).row 0
  | _ => []

set_option maxRecDepth 1000000 in
theorem exOut_ne : ((exOut (exEv exF) (exMid exF)).at 2).toNat % 97
    ≠ ((exOut (exEv exF) ((exMid exF).set 2 (exRed (exEv exF).ringQ (exMid exF 2)))).at 2).toNat % 97 := by
  decide +kernel

end FastKsw.Props
