import Verif.Model.Ring

/-!
# `ring/ring_test_params.go`

The parameters that the tests and benchmarks of package `ring` run with.
-/

namespace FastKsw

/-- `Qi60`, ring_test_params.go:36-43 -/
def qi60 : List UInt64 := [
    0x1fffffffffe00001, 0x1fffffffffc80001, 0x1fffffffffb40001, 0x1fffffffff500001,
    0x1fffffffff380001, 0x1fffffffff000001, 0x1ffffffffef00001, 0x1ffffffffee80001,
    0x1ffffffffeb40001, 0x1ffffffffe780001, 0x1ffffffffe600001, 0x1ffffffffe4c0001,
    0x1ffffffffdf40001, 0x1ffffffffdac0001, 0x1ffffffffda40001, 0x1ffffffffc680001,
    0x1ffffffffc000001, 0x1ffffffffb880001, 0x1ffffffffb7c0001, 0x1ffffffffb300001,
    0x1ffffffffb1c0001, 0x1ffffffffadc0001, 0x1ffffffffa400001, 0x1ffffffffa140001,
    0x1ffffffff9d80001, 0x1ffffffff9140001, 0x1ffffffff8ac0001, 0x1ffffffff8a80001,
    0x1ffffffff81c0001, 0x1ffffffff7800001, 0x1ffffffff7680001, 0x1ffffffff7080001]

/-- `Pi60`, ring_test_params.go:46-53 -/
def pi60 : List UInt64 := [
    0x1ffffffff6c80001, 0x1ffffffff6140001, 0x1ffffffff5f40001, 0x1ffffffff5700001,
    0x1ffffffff4bc0001, 0x1ffffffff4380001, 0x1ffffffff3240001, 0x1ffffffff2dc0001,
    0x1ffffffff1a40001, 0x1ffffffff11c0001, 0x1ffffffff0fc0001, 0x1ffffffff0d80001,
    0x1ffffffff0c80001, 0x1ffffffff08c0001, 0x1fffffffefd00001, 0x1fffffffef9c0001,
    0x1fffffffef600001, 0x1fffffffeef40001, 0x1fffffffeed40001, 0x1fffffffeed00001,
    0x1fffffffeebc0001, 0x1fffffffed540001, 0x1fffffffed440001, 0x1fffffffed2c0001,
    0x1fffffffed200001, 0x1fffffffec940001, 0x1fffffffec6c0001, 0x1fffffffebe80001,
    0x1fffffffebac0001, 0x1fffffffeba40001, 0x1fffffffeb4c0001, 0x1fffffffeb280001]

/-- `Qi60[len(Qi60)-k:]` -/
def lastK (k : Nat) (l : List UInt64) : List UInt64 := l.drop (l.length - k)

/-- `DefaultParams` of package `ring`, ring_test_params.go:27-33: `logN`, `qi`, `pi` -/
def ringTestParams : List (Nat × List UInt64 × List UInt64) :=
  [(12, lastK 2 qi60, lastK 2 pi60),
   (13, lastK 4 qi60, lastK 4 pi60),
   (14, lastK 7 qi60, lastK 7 pi60),
   (15, lastK 14 qi60, lastK 14 pi60),
   (16, lastK 29 qi60, lastK 29 pi60)]

/-- `genTestParams`, ring_test.go:48-65, the two rings -/
def genTestRings (fuel : Nat) (p : Nat × List UInt64 × List UInt64) : Except RingErr (Ring × Ring) := do
  let ringQ ← newRing fuel (2 ^ p.1) p.2.1
  let ringP ← newRing fuel (2 ^ p.1) p.2.2
  pure (ringQ, ringP)

end FastKsw
