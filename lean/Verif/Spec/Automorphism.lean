import Verif.Spec.NegaRing
import Verif.Lemmas.NegaRing

/-!
# The automorphisms `X ↦ X^g` of `(Z/q)[X]/(X^N+1)`
-/

namespace FastKsw

open Polynomial

theorem root_pow_odd (N q : ℕ) {g : ℕ} (hg : g % 2 = 1) :
    eval₂ (AdjoinRoot.of ((X : (ZMod q)[X]) ^ N + 1)) (AdjoinRoot.root ((X : (ZMod q)[X]) ^ N + 1) ^ g)
      (X ^ N + 1) = 0 := by
  have : (AdjoinRoot.root ((X : (ZMod q)[X]) ^ N + 1) ^ g) ^ N = -1 := by
    rw [← pow_mul, mul_comm, pow_mul, root_pow, Odd.neg_one_pow (Nat.odd_iff.2 hg)]
  simp [this]

/-- the ring endomorphism fixing the constants and mapping `X` to `X^g`, `g` odd -/
noncomputable def aut (N q : ℕ) {g : ℕ} (hg : g % 2 = 1) : Rq N q →+* Rq N q :=
  AdjoinRoot.lift (AdjoinRoot.of _) (AdjoinRoot.root _ ^ g) (root_pow_odd N q hg)

end FastKsw
