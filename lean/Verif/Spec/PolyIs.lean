import Verif.Spec.RowIs

/-!
# What an RNS polynomial holds
-/

namespace FastKsw

/-- Rows `0 … level` of `p` have `r.n` entries, entries of row `i` are below `A i`
and congruent to `v i k` modulo `q_i`. -/
structure PolyIs (r : Ring) (level : ℕ) (A : ℕ → ℕ) (p : Rows)
    (v : ∀ i, ℕ → ZMod (r.sub i).q.toNat) : Prop where
  lvl : level < p.length
  row : ∀ i ≤ level, RowIs r.n (r.sub i).q.toNat (A i) (p.row i) (v i)

/-- `new` results from `old` by overwriting rows `0 … level` with `v`. -/
structure PolyWritten (r : Ring) (level : ℕ) (A : ℕ → ℕ) (old new : Rows)
    (v : ∀ i, ℕ → ZMod (r.sub i).q.toNat) : Prop where
  is : PolyIs r level A new v
  len : new.length = old.length
  above : ∀ i > level, new.row i = old.row i

/-- bound `q_i` -/
abbrev Ring.qs (r : Ring) (i : ℕ) : ℕ := (r.sub i).q.toNat

/-- the constants of moduli `0 … level` are right -/
def Ring.ArithLvl (r : Ring) (level : ℕ) : Prop := ∀ i ≤ level, (r.sub i).Arith

end FastKsw
