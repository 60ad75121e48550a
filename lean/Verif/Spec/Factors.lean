import Mathlib.Data.Nat.Prime.Basic
import Mathlib.Data.List.Sort

/-!
# Factorisations and roots as they should be
-/

namespace FastKsw

/-- `fs` is the complete factorisation of `n` promised by `getFactors` ("returns all the prime factors of
m"): the primes that divide `n`, each once -/
structure AllPrimeFactors (n : ℕ) (fs : List ℕ) : Prop where
  nodup : fs.Nodup
  iff : ∀ p, p ∈ fs ↔ p.Prime ∧ p ∣ n

/-- `c` is the part of `n` without prime factors below `B` -/
structure RoughPart (B n c : ℕ) : Prop where
  dvd : c ∣ n
  rough : ∀ p, p.Prime → p ∣ c → B ≤ p
  smooth : ∀ p, p.Prime → p ∣ n / c → p < B

/-- `g` generates the group of units modulo `q`: its powers are all the residues but zero -/
def Generates (q g : ℕ) : Prop := ∀ x, 0 < x → x < q → ∃ e, g ^ e % q = x

end FastKsw
