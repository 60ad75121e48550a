import Mathlib.Probability.ProductMeasure
import Mathlib.Probability.Distributions.Uniform
import Mathlib.Data.FinEnum

/-!
# Random byte streams

The generator behind the samplers (`blake2b.XOF`, or the randomness of the system) is idealised as a stream of
independent, uniformly distributed bytes.
-/

namespace FastKsw

open MeasureTheory

instance : MeasurableSpace UInt8 := ⊤

instance : MeasurableSingletonClass UInt8 := ⟨fun _ => trivial⟩

/-- the uniform distribution of a byte -/
noncomputable def randomByte : Measure UInt8 := (PMF.uniformOfFintype UInt8).toMeasure

noncomputable instance : IsProbabilityMeasure randomByte := by unfold randomByte; infer_instance

/-- the distribution of a stream of independent uniform bytes -/
noncomputable def randomBytes : Measure (ℕ → UInt8) := Measure.infinitePi fun _ => randomByte

instance : IsProbabilityMeasure randomBytes := by unfold randomBytes; infer_instance

theorem card_byte : Fintype.card UInt8 = 256 := by
  let e : UInt8 ≃ Fin 256 :=
    ⟨fun b => ⟨b.toNat, b.toNat_lt⟩, fun i => UInt8.ofNat i.1, fun b => by simp, fun i => by
      ext; simp⟩
  rw [Fintype.card_congr e, Fintype.card_fin]

theorem randomByte_singleton (b : UInt8) : randomByte {b} = (256 : ENNReal)⁻¹ := by
  have h := PMF.toMeasure_apply_singleton (PMF.uniformOfFintype UInt8) b (measurableSet_singleton b)
  rw [PMF.uniformOfFintype_apply, card_byte] at h
  rw [randomByte, h]
  norm_num

end FastKsw
