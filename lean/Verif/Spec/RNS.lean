import Verif.Spec.PolyIs
import Mathlib.Algebra.BigOperators.Ring.Finset

/-!
# Integers behind residues
-/

namespace FastKsw

open Finset

/-- product of the first `level + 1` moduli -/
def Ring.prodQ (r : Ring) (level : ℕ) : ℕ := ∏ i ∈ range (level + 1), (r.sub i).q.toNat

/-- residues of an integer vector modulo every modulus of the ring -/
def Ring.intVec (r : Ring) (x : ℕ → ℤ) : ∀ i, ℕ → ZMod (r.sub i).q.toNat := fun _ k => (x k : ZMod _)

/-- `z` lies in `[-2^-42 M, (1 + 2^-42) M)` -/
structure NearRep (M : ℕ) (z : ℤ) : Prop where
  lo : -(M : ℤ) ≤ 2 ^ 42 * z
  hi : 2 ^ 42 * z < (2 ^ 42 + 1) * M

/-- product of the moduli of block `i` when the first `cnt` moduli are cut in blocks of `size` -/
def Ring.blockQ (r : Ring) (size cnt i : ℕ) : ℕ :=
  ∏ j ∈ range (min size (cnt - i * size)), (r.sub (i * size + j)).q.toNat

/-- the integers `Z` represent the residues `v` on the moduli of block `i` -/
structure BlockRep (r : Ring) (size cnt i : ℕ) (v : ∀ u, ℕ → ZMod (r.sub u).q.toNat) (Z : ℕ → ℤ) : Prop where
  near : ∀ k < r.n, NearRep (r.blockQ size cnt i) (Z k)
  cong : ∀ k < r.n, ∀ u, i * size ≤ u → u < i * size + size → u < cnt →
    ((Z k : ℤ) : ZMod (r.sub u).q.toNat) = v u k

/-- repeated rounded division by `q_level, q_{level-1}, …` -/
def roundIter (r : Ring) : ℕ → ℕ → (ℕ → ℤ) → ℕ → ℤ
  | _, 0, X => X
  | level, nb + 1, X => roundIter r (level - 1) nb
      (fun k => (X k + (r.sub level).q.toNat / 2) / (r.sub level).q.toNat)

/-- repeated floored division by `q_level, q_{level-1}, …` -/
def floorIter (r : Ring) : ℕ → ℕ → (ℕ → ℤ) → ℕ → ℤ
  | _, 0, X => X
  | level, nb + 1, X => floorIter r (level - 1) nb (fun k => X k / (r.sub level).q.toNat)

end FastKsw
