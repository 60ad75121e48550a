import Mathlib.Data.List.Basic
import Mathlib.Data.Int.Notation

/-!
# `ckks/params.go`: the rotations for sums over slots

Go's `int` as `ℤ` and `ℕ`, without overflow; a negative `n` runs no loop, as 0.
-/

namespace FastKsw

/-- `RotationsForInnerSum`, ckks/params.go:480-486 -/
def rotationsForInnerSum (batch : ℤ) (n : ℕ) : List ℤ :=
  (List.range' 1 (n - 1)).map fun i : ℕ => (i : ℤ) * batch

/-- the loop of `RotationsForInnerSumLog`, ckks/params.go:496-505: `i` doubles while it is below `n`; `acc` are the keys of `rotIndex` -/
def innerSumLogLoop (batch : ℤ) (n : ℕ) : ℕ → ℕ → List ℤ → List ℤ
  | 0, _, acc => acc
  | fuel + 1, i, acc =>
    if i < n then
      innerSumLogLoop batch n fuel (i <<< 1)
        (List.insert (((n - (n &&& ((i <<< 1) - 1)) : ℕ) : ℤ) * batch) (List.insert ((i : ℤ) * batch) acc))
    else acc

/-- `RotationsForInnerSumLog`, ckks/params.go:490-515.  The order of the result is the order in which Go iterates over the map, which
is unspecified; here it is some order.  `n` iterations reach any `n`. -/
def rotationsForInnerSumLog (batch : ℤ) (n : ℕ) : List ℤ := innerSumLogLoop batch n n 1 []

/-- `RotationsForReplicate`, ckks/params.go:519-521 -/
def rotationsForReplicate (batch : ℤ) (n : ℕ) : List ℤ := rotationsForInnerSum (-batch) n

/-- `RotationsForReplicateLog`, ckks/params.go:525-527 -/
def rotationsForReplicateLog (batch : ℤ) (n : ℕ) : List ℤ := rotationsForInnerSumLog (-batch) n

/-- `RotationsForTrace`, ckks/params.go:531-539 -/
def rotationsForTrace (logSlotsStart logSlotsEnd : ℕ) : List ℤ :=
  (List.range' logSlotsStart (logSlotsEnd - logSlotsStart)).map fun i => ((1 <<< i : ℕ) : ℤ)

end FastKsw
