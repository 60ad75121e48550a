import Verif.Spec.Msg
import Verif.Spec.Gauss
import Verif.Model.Evaluator
import Verif.Props.Constants

/-!
# Constants and messages

What a client knows about a ciphertext after the operations with constants of `ckks/evaluator.go`.  A constant stands for the complex
number `re + im i`; in the ring it becomes `a + b X^(N/2)` for integers `a`, `b`.
-/

namespace FastKsw

open Props

/-- the integer polynomial `a + b X^(N/2)`, `N = 2^n` -/
def gaussPoly (n : ℕ) (a b : ℤ) (k : ℕ) : ℤ := if k = 0 then a else if k = 2 ^ (n - 1) then b else 0

/-- the complex number with rational parts -/
noncomputable def cnum (p : ℚ × ℚ) : ℂ := (p.1 : ℂ) + (p.2 : ℂ) * Complex.I

/-- The scale at which `MultByConst` represents a constant of parts at most `2^52`: 1 for a Gaussian integer, else the top
modulus `q` as a float64. -/
def ConstScale (q : ℕ) (c : Constant) (sc : ℚ) : Prop :=
  |c.parts.1| ≤ 2 ^ 52 ∧ |c.parts.2| ≤ 2 ^ 52 ∧ ((∃ a b : ℤ, c.parts = (↑a, ↑b)) ∧ sc = 1 ∨
    (∀ a b : ℤ, c.parts ≠ (↑a, ↑b)) ∧ (∀ z, c ≠ .int z) ∧ sc = f64OfNat q)

/-- multiplication by the Gaussian integer `a + b i`, into a receiver of level `lo`: exact -/
noncomputable def Info.mulGauss (a b : ℤ) (I : Info) (lo : ℕ) : Info where
  level := lo
  scale := I.scale
  v j := ((a : ℂ) + (b : ℂ) * Complex.I) * I.v j
  V := (|a| + |b| : ℤ) * I.V
  M := (|a| + |b| : ℤ) * I.M
  β := (|a| + |b| : ℤ) * I.β
  ε := (|a| + |b| : ℤ) * I.ε

/-- multiplication by the number `re + im i`, which is represented by integers at the scale `sc` -/
noncomputable def Info.mulConst (c : ℚ × ℚ) (sc : ℚ) (I : Info) (lo : ℕ) : Info where
  level := lo
  scale := f64 (I.scale * sc)
  v j := cnum c * I.v j
  V := (|c.1| + |c.2| : ℚ) * I.V
  M := (|fixedPoint c.1 sc| + |fixedPoint c.2 sc| : ℤ) * I.M
  β := (|fixedPoint c.1 sc| + |fixedPoint c.2 sc| : ℤ) * I.β
  ε := (|fixedPoint c.1 sc| + |fixedPoint c.2 sc| : ℤ) * I.ε +
    (I.scale * (|fixedPoint c.1 sc - sc * c.1| + |fixedPoint c.2 sc - sc * c.2|) : ℚ) * I.V +
    (|f64 (I.scale * sc) - I.scale * sc| * (|c.1| + |c.2|) : ℚ) * I.V

/-- addition of the number `re + im i`, which is represented by integers at the scale of the ciphertext -/
noncomputable def Info.addConst (c : ℚ × ℚ) (I : Info) : Info where
  level := I.level
  scale := I.scale
  v j := I.v j + cnum c
  V := I.V + (|c.1| + |c.2| : ℚ)
  M := I.M + max |fixedPoint c.1 I.scale| |fixedPoint c.2 I.scale|
  β := I.β
  ε := I.ε + (|fixedPoint c.1 I.scale - I.scale * c.1| + |fixedPoint c.2 I.scale - I.scale * c.2| : ℚ)

/-- `ScaleUp` by the integer `k`: values stay, plaintext and scale are multiplied -/
noncomputable def Info.scaleUp (k : ℕ) (I : Info) (lo : ℕ) : Info where
  level := lo
  scale := f64 (I.scale * k)
  v := I.v
  V := I.V
  M := k * I.M
  β := k * I.β
  ε := k * I.ε + (|f64 (I.scale * k) - I.scale * k| : ℚ) * I.V

/-- `DropLevel` -/
def Info.drop (I : Info) (k : ℕ) : Info := { I with level := I.level - k }

end FastKsw
