import Verif.Model.Word

/-!
# Bit tricks of `utils/utils.go`
-/

namespace FastKsw

/-- `bits.Reverse64` by its documented result: bit `k` of the result is bit
`63-k` of the input.  `revBits n x` reverses the low `n` bits of `x`. -/
def revBits : Nat → Nat → Nat
  | 0, _ => 0
  | n + 1, x => (x % 2) * 2 ^ n + revBits n (x / 2)

/-- `BitReverse64(index, bitLen) = bits.Reverse64(index) >> (64 - bitLen)`,
utils/utils.go:141-143. -/
def bitReverse64 (index bitLen : Nat) : Nat :=
  revBits 64 index / 2 ^ (64 - bitLen)

/-- `bits.Len64`. -/
def len64 (x : Nat) : Nat := if x = 0 then 0 else Nat.log2 x + 1

end FastKsw
