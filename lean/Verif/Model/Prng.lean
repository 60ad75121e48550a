import Verif.Model.Word

/-!
# `utils/prng.go`: the keyed PRNG

The extendable-output function `blake2b.XOF` is an external dependency; it is a parameter, a function from
keys to infinite byte streams (its limit of 2^38 bytes is not modelled).
-/

namespace FastKsw

/-- `KeyedPRNG`, utils/prng.go:37-40: the stream of the XOF, the number of bytes read, and `clock` -/
structure Prng where
  stream : Nat → UInt8
  pos : Nat
  clock : UInt64

/-- `NewKeyedPRNG`, utils/prng.go:45-51; `NewPRNG`, 54-64, is the same with a random key -/
def newKeyedPRNG (xof : List UInt8 → Nat → UInt8) (key : List UInt8) : Prng := ⟨xof key, 0, 0⟩

/-- `Clock(sum)`, utils/prng.go:72-77, for a `sum` of `len` bytes: the new content of `sum` and state -/
def Prng.read (p : Prng) (len : Nat) : List UInt8 × Prng :=
  ((List.range len).map fun i => p.stream (p.pos + i), { p with pos := p.pos + len, clock := p.clock + 1 })

theorem setClock_decreases {n c : UInt64} (h : c ≠ n) : (n - (c + 1)).toNat < (n - c).toNat := by
  have h1 : c.toNat ≠ n.toNat := fun e => h (UInt64.toNat_inj.1 e)
  have := n.toNat_lt
  have := c.toNat_lt
  rw [UInt64.toNat_sub, UInt64.toNat_sub, UInt64.toNat_add, show (1 : UInt64).toNat = 1 from rfl]
  omega

/-- the loop of `SetClock`, utils/prng.go:86-91 -/
def Prng.setClockLoop (n : UInt64) (sum : List UInt8) (p : Prng) : List UInt8 × Prng :=
  if _h : p.clock = n then (sum, p)
  else
    let r := p.read sum.length
    Prng.setClockLoop n r.1 r.2
termination_by (n - p.clock).toNat
decreasing_by exact setClock_decreases _h

/-- `SetClock`, utils/prng.go:82-93; `none` is the error -/
def Prng.setClock (p : Prng) (sum : List UInt8) (n : UInt64) : Option (List UInt8 × Prng) :=
  if p.clock > n then none else some (p.setClockLoop n sum)

end FastKsw
