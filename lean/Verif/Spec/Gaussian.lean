import Verif.Model.GaussianBytes
import Verif.Spec.Random
import Mathlib.Analysis.SpecialFunctions.Log.Basic

/-!
# What the Gaussian sampler should do on random bytes
-/

namespace FastKsw

open MeasureTheory
open scoped ENNReal

variable {F : Type} (O : FloatOps F)

/-- the states of a sampler between calls: the buffer has its size, the pointer is in it and at a word -/
structure GaussState.Ok (st : GaussState) : Prop where
  len : st.buf.length = 1024
  le : st.ptr ≤ 1024
  word : st.ptr % 8 = 0

/-- the integer that an accepted draw stands for -/
def drawInt (g : UInt64 × Bool) : ℤ := if g.2 then g.1.toNat else -g.1.toNat

/-- the probability that the first coefficient drawn by a new sampler from random bytes is `v` -/
noncomputable def gaussLaw (sigma : F) (bound : UInt64) (v : ℤ) : ℝ≥0∞ :=
  randomBytes {s | ∃ fuel g st', gaussCoeff O sigma bound fuel (newGaussState ⟨s, 0, 0⟩).clock = some (g, st') ∧ drawInt g = v}

/-- the bell curve -/
noncomputable def bell (x : ℝ) : ℝ := Real.exp (-(x ^ 2 / 2))

/-- Two facts about the floating-point operations: the draw `0` is within the bound, and in the loop for the base strip
two reads of the largest word (`randFloat64` is 1 and its logarithm 0) are accepted. -/
structure FloatOps.Starts (sigma : F) (bound : UInt64) : Prop where
  zero : O.toU64 (O.mulAdd (O.lit 0.5) (O.mul (O.ofNat 0) (O.lit32 1.7290405e-09)) sigma) ≤ bound
  tail : ∀ y x, y = O.neg (O.log (O.div (O.ofNat (2 ^ 53 - 1)) (O.ofNat (2 ^ 53 - 1)))) →
    x = O.mul y (O.lit (1 / 3.442619855899)) → O.ge (O.add y y) (O.mul x x) = true

/-- What the law of the sampler needs of the floating-point operations.  `V a x` says that `a` is a finite number of value
`x`.  Every operation returns the exact result up to a relative error: one half unit in the last place for `float64` and
`float32` operations rounded once, more for `c + a*b`, which the compiler may or may not fuse, and for `log` and `exp`; and
up to `2^-140`, which covers underflow.  Comparisons are exact, and the conversion to `uint64` drops the fraction. -/
structure FloatOps.Close (V : F → ℝ → Prop) : Prop where
  ofNat : ∀ n : ℕ, n < 2 ^ 53 → V (O.ofNat n) n
  lit : ∀ q : ℚ, |(q : ℝ)| ≤ 2 ^ 100 → ∃ z, V (O.lit q) z ∧ |z - q| ≤ 1 / 2 ^ 53 * |(q : ℝ)| + 1 / 2 ^ 140
  lit32 : ∀ q : ℚ, |(q : ℝ)| ≤ 2 ^ 100 → ∃ z, V (O.lit32 q) z ∧ |z - q| ≤ 1 / 2 ^ 24 * |(q : ℝ)| + 1 / 2 ^ 140
  neg : ∀ {a x}, V a x → V (O.neg a) (-x)
  add : ∀ {a x b y}, V a x → V b y → |x + y| ≤ 2 ^ 100 →
    ∃ z, V (O.add a b) z ∧ |z - (x + y)| ≤ 1 / 2 ^ 53 * |x + y| + 1 / 2 ^ 140
  mul : ∀ {a x b y}, V a x → V b y → |x * y| ≤ 2 ^ 100 →
    ∃ z, V (O.mul a b) z ∧ |z - x * y| ≤ 1 / 2 ^ 53 * |x * y| + 1 / 2 ^ 140
  div : ∀ {a x b y}, V a x → V b y → y ≠ 0 → |x / y| ≤ 2 ^ 100 →
    ∃ z, V (O.div a b) z ∧ |z - x / y| ≤ 1 / 2 ^ 53 * |x / y| + 1 / 2 ^ 140
  mulAdd : ∀ {c w a x b y}, V c w → V a x → V b y → |w| ≤ 2 ^ 100 → |x * y| ≤ 2 ^ 100 →
    ∃ z, V (O.mulAdd c a b) z ∧ |z - (w + x * y)| ≤ 1 / 2 ^ 51 * (|w| + |x * y|) + 1 / 2 ^ 140
  mulAdd32 : ∀ {c w a x b y}, V c w → V a x → V b y → |w| ≤ 2 ^ 100 → |x * y| ≤ 2 ^ 100 →
    ∃ z, V (O.mulAdd32 c a b) z ∧ |z - (w + x * y)| ≤ 1 / 2 ^ 22 * (|w| + |x * y|) + 1 / 2 ^ 140
  sub32 : ∀ {a x b y}, V a x → V b y → |x - y| ≤ 2 ^ 100 →
    ∃ z, V (O.sub32 a b) z ∧ |z - (x - y)| ≤ 1 / 2 ^ 24 * |x - y| + 1 / 2 ^ 140
  to32 : ∀ {a x}, V a x → |x| ≤ 2 ^ 100 → ∃ z, V (O.to32 a) z ∧ |z - x| ≤ 1 / 2 ^ 24 * |x| + 1 / 2 ^ 140
  log : ∀ {a x}, V a x → 0 < x → x ≤ 2 → ∃ z, V (O.log a) z ∧ |z - Real.log x| ≤ 1 / 2 ^ 50 * |Real.log x| + 1 / 2 ^ 140
  exp : ∀ {a x}, V a x → -50 ≤ x → x ≤ 1 → ∃ z, V (O.exp a) z ∧ |z - Real.exp x| ≤ 1 / 2 ^ 50 * Real.exp x + 1 / 2 ^ 140
  lt32 : ∀ {a x b y}, V a x → V b y → (O.lt32 a b = true ↔ x < y)
  ge : ∀ {a x b y}, V a x → V b y → (O.ge a b = true ↔ y ≤ x)
  toU64 : ∀ {a x}, V a x → 0 ≤ x → x < 2 ^ 64 → (O.toU64 a).toNat = ⌊x⌋₊

/-- exact arithmetic on real numbers -/
noncomputable def realOps : FloatOps ℝ where
  ofNat n := n
  lit q := q
  lit32 q := q
  neg x := -x
  add x y := x + y
  mul x y := x * y
  div x y := x / y
  mulAdd c a b := c + a * b
  mulAdd32 c a b := c + a * b
  sub32 x y := x - y
  to32 x := x
  log := Real.log
  exp := Real.exp
  lt32 x y := decide (x < y)
  ge x y := decide (x ≥ y)
  toU64 x := UInt64.ofNat ⌊x⌋₊

theorem realOps_starts (sigma : ℝ) (bound : UInt64) : realOps.Starts sigma bound := by
  constructor
  · simp only [realOps]
    have : ⌊((0.5 : ℚ) : ℝ) + (((0 : ℕ) : ℝ) * ((1.7290405e-09 : ℚ) : ℝ)) * sigma⌋₊ = 0 := by
      rw [Nat.floor_eq_zero]
      norm_num
    rw [this]
    exact UInt64.le_iff_toNat_le.2 (by simp)
  · rintro y x rfl rfl
    simp only [realOps]
    rw [div_self (by norm_num), Real.log_one]
    simp

end FastKsw
