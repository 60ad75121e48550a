import Verif.Spec.EltIs

/-!
# What the Gaussian sampler accepts
-/

namespace FastKsw

/-- `N` draws (magnitude, sign) of magnitude at most `bound`; a draw with sign bit `true` is `+`.  `G` lists the
integers. -/
structure DrawsOK (N bound : ℕ) (g : List (UInt64 × Bool)) (G : ℕ → ℤ) : Prop where
  len : g.length = N
  le : ∀ k < N, (g.getD k default).1.toNat ≤ bound
  val : ∀ k < N, G k = if (g.getD k default).2 then ((g.getD k default).1.toNat : ℤ) else -(g.getD k default).1.toNat

/-- `pk = (b, a)`, reduced and in the NTT domain, is a public key for the secret `S` with error `E`:
`b + a S = E` modulo the first `lQ + 1` primes of `Q` and the first `lP + 1` primes of `P` -/
structure IsPublicKey (n : ℕ) (rQ rP : Ring) (lQ lP : ℕ) (pk : PolyQP × PolyQP) (S E : ℕ → ℤ) : Prop where
  ex : ∃ B A : ℕ → ℤ,
    EltIs n rQ lQ rQ.qs true pk.1.q (fun u => intR (2 ^ n) (rQ.qs u) B) ∧
    EltIs n rQ lQ rQ.qs true pk.2.q (fun u => intR (2 ^ n) (rQ.qs u) A) ∧
    EltIs n rP lP rP.qs true pk.1.p (fun u => intR (2 ^ n) (rP.qs u) B) ∧
    EltIs n rP lP rP.qs true pk.2.p (fun u => intR (2 ^ n) (rP.qs u) A) ∧
    (∀ u ≤ lQ, intR (2 ^ n) (rQ.qs u) B + intR (2 ^ n) (rQ.qs u) A * intR (2 ^ n) (rQ.qs u) S
      = intR (2 ^ n) (rQ.qs u) E) ∧
    ∀ u ≤ lP, intR (2 ^ n) (rP.qs u) B + intR (2 ^ n) (rP.qs u) A * intR (2 ^ n) (rP.qs u) S
      = intR (2 ^ n) (rP.qs u) E

/-- The noise `D` of public-key encryption when the primes `P` are not empty: `P D = U E + E0 + E1 S - Z0 - Z1 S`
over the integers modulo `X^N + 1`, for rounding terms `Z0`, `Z1` within `2^-42` of `[0, P)`. -/
def PkNoise (N P : ℕ) (U E E0 E1 S D : ℕ → ℤ) : Prop :=
  ∃ Z0 Z1 : ℕ → ℤ, (∀ k < N, NearRep P (Z0 k)) ∧ (∀ k < N, NearRep P (Z1 k)) ∧
    ∀ k < N, (P : ℤ) * D k = negConv N U E k + E0 k + negConv N E1 S k - Z0 k - negConv N Z1 S k

end FastKsw
