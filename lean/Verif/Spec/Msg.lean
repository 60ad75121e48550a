import Verif.Props.Slots
import Verif.Lemmas.SlotInt
import Verif.Spec.Ct

/-!
# What a ciphertext means

`Info` is what a user of the library knows about a ciphertext: its level and scale, the complex values `v` it is meant to hold and
bounds.  `CtMsg logSlots d r S ct I`: under the key `S`, `ct` decrypts modulo every prime to `z + D` for integer polynomials
`z`, `D`, where `z` is a polynomial in `X^(2^d)` with coefficients at most `M` whose slots are within `ε` of `scale * v`, and the
noise `D` has coefficients at most `β`.  The ring degree is `2^(logSlots + 1 + d)`.
-/

namespace FastKsw

open Finset Props

structure Info where
  level : ℕ
  scale : ℚ
  v : ℕ → ℂ
  V : ℝ
  M : ℚ
  β : ℚ
  ε : ℝ

structure CtMsg (logSlots d : ℕ) (r : Ring) (S : ℕ → ℤ) (ct : Ct) (I : Info) : Prop where
  lvl : I.level < r.subs.length
  scale : ct.scale = I.scale
  pos : 0 < I.scale
  flt : f64 I.scale = I.scale
  val : ∀ j < 2 ^ logSlots, ‖I.v j‖ ≤ I.V
  enc : ∃ z D : ℕ → ℤ, Gapped (logSlots + 1 + d) d z ∧ AbsLe (logSlots + 1 + d) z I.M ∧ AbsLe (logSlots + 1 + d) D I.β ∧
    (∀ j < 2 ^ logSlots, ‖slotVal logSlots d z j - ((I.scale : ℚ) : ℂ) * I.v j‖ ≤ I.ε) ∧
    CtEnc (logSlots + 1 + d) r I.level (fun u => r.qs u + 1) 1 ct (fun u => intR _ _ S) (fun u => intR _ _ fun k => z k + D k)

/-- a ciphertext of zeros, with a receiver's level and scale -/
def Info.zero (level : ℕ) (scale : ℚ) : Info := ⟨level, scale, fun _ => 0, 0, 0, 0, 0⟩

/-- `Add` of ciphertexts whose scales differ by less than a factor 2: the result gets the larger scale, although the operands are
added as they are -/
def Info.add (I J : Info) (lo : ℕ) : Info where
  level := min (min I.level J.level) lo
  scale := max I.scale J.scale
  v j := I.v j + J.v j
  V := I.V + J.V
  M := I.M + J.M
  β := I.β + J.β
  ε := I.ε + J.ε + (max I.scale J.scale - I.scale : ℚ) * I.V + (max I.scale J.scale - J.scale : ℚ) * J.V

/-- `Sub`, likewise -/
def Info.sub (I J : Info) (lo : ℕ) : Info := { I.add J lo with v := fun j => I.v j - J.v j }

/-- `Neg` into a receiver of level `lo` -/
def Info.neg (I : Info) (lo : ℕ) : Info := { I with level := lo, v := fun j => -I.v j }

/-- `Rotate` by `k` into a receiver of level `lo`, with an error of at most `ks` from the key switch -/
def Info.rotate (logSlots : ℕ) (k : ℤ) (ks : ℚ) (I : Info) (lo : ℕ) : Info :=
  { I with level := lo, v := fun j => I.v ((j + k) % 2 ^ logSlots).toNat, β := I.β + ks }

/-- `MulRelin`, with an error of at most `ks level` from the key switch -/
def Info.mul (logSlots d : ℕ) (ks : ℕ → ℚ) (I J : Info) (lo : ℕ) : Info where
  level := min (min I.level J.level) lo
  scale := f64 (I.scale * J.scale)
  v j := I.v j * J.v j
  V := I.V * J.V
  M := 2 ^ (logSlots + 1) * (I.M * J.M)
  β := 2 ^ (logSlots + 1 + d) * (I.M * J.β + I.β * J.M + I.β * J.β) + ks (min (min I.level J.level) lo)
  ε := I.scale * I.V * J.ε + J.scale * J.V * I.ε + I.ε * J.ε + |f64 (I.scale * J.scale) - I.scale * J.scale| * (I.V * J.V)

/-- `Rescale` by the top `nb` moduli of `r`, whose product is `P` -/
noncomputable def Info.rescale (logSlots d : ℕ) (s' : ℚ) (P nb : ℕ) (I : Info) : Info where
  level := I.level - nb
  scale := s'
  v := I.v
  V := I.V
  M := I.M / P + 1 / 2
  β := I.β / P + 1 + 2 ^ (logSlots + 1 + d) / 2
  ε := I.ε / P + 2 ^ logSlots + |I.scale / P - s'| * I.V

end FastKsw
