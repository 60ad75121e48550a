import Verif.Lemmas.ModDown
import Verif.Model.FKeySwitch

/-!
# What key-switching is about
-/

namespace FastKsw

open Finset

/-- `∑_{i < m} a_i b_i` modulo `X^N + 1`, over the integers -/
def convSum (N m : ℕ) (a b : ℕ → ℕ → ℤ) (k : ℕ) : ℤ := ∑ i ∈ range m, negConv N (a i) (b i) k

/-- `2|S| ≤ T - 2^-41 T - 1`: the window that the `T/2` offset of the fast key-switcher tolerates -/
def FitsT (T : ℕ) (S : ℤ) : Prop := 2 ^ 42 * (2 * |S|) + 2 ^ 42 + 2 * T ≤ 2 ^ 42 * T

/-- rows `0 … lQ` over `Q` and `0 … lP` over `P`, reduced, in NTT and Montgomery form, hold the integer
vector `X` -/
structure PolyQP.IsMont (n : ℕ) (rQ rP : Ring) (lQ lP : ℕ) (x : PolyQP) (X : ℕ → ℤ) : Prop where
  q : PolyIs rQ lQ rQ.qs x.q (fun u k => rQ.nttVec n X u k * 2 ^ 64)
  p : PolyIs rP lP rP.qs x.p (fun u k => rP.nttVec n X u k * 2 ^ 64)

/-- `k = [(b_i, a_i)]` is a switching key from `sIn` to `sOut` with errors `e_i`, for the first `lQ + 1`
primes of `Q` and `lP + 1` primes of `P`: with `P` the product of the latter,
`b_i + a_i sOut = e_i + P sIn` modulo the primes of block `i` of `Q` and `b_i + a_i sOut = e_i` modulo
the other primes of `Q` and those of `P`; blocks have `lP + 1` primes. -/
structure IsSwitchKey (n : ℕ) (rQ rP : Ring) (lQ lP : ℕ) (k : SwitchingKey) (sIn sOut : ℕ → ℤ)
    (e : ℕ → ℕ → ℤ) : Prop where
  ex : ∃ B A : ℕ → ℕ → ℤ,
    (∀ i, i * (lP + 1) ≤ lQ →
      (k.getD i default).1.IsMont n rQ rP lQ lP (B i) ∧ (k.getD i default).2.IsMont n rQ rP lQ lP (A i)) ∧
    (∀ i, i * (lP + 1) ≤ lQ → ∀ u ≤ lQ,
      intR (2 ^ n) (rQ.qs u) (B i) + intR (2 ^ n) (rQ.qs u) (A i) * intR (2 ^ n) (rQ.qs u) sOut
        = intR (2 ^ n) (rQ.qs u) (e i)
          + if u / (lP + 1) = i then (rP.prodQ lP : Rq (2 ^ n) (rQ.qs u))
              * intR (2 ^ n) (rQ.qs u) sIn else 0) ∧
    ∀ i, i * (lP + 1) ≤ lQ → ∀ u ≤ lP,
      intR (2 ^ n) (rP.qs u) (B i) + intR (2 ^ n) (rP.qs u) (A i) * intR (2 ^ n) (rP.qs u) sOut
        = intR (2 ^ n) (rP.qs u) (e i)

/-- ring element of row `u` of a polynomial, in NTT or coefficient form -/
noncomputable def Ring.elt (r : Ring) (n : ℕ) (isNTT : Bool) (p : Rows) (u : ℕ) : Rq (2 ^ n) (r.qs u) :=
  if isNTT then nttR (r.sub u).psi n (p.row u) else rowR (2 ^ n) (r.qs u) (p.row u)

/-- The key-switching relation.  `a` is switched from the secret `sIn` to `sOut` into `(d0, d1)`, with a key
whose errors are `e_i`: for digits `A_i` that represent `a` on the blocks of `lP + 1` primes of `Q`, and
rounding terms `Z0`, `Z1` within `2^-42` of `[0, P)`, `d0 + d1 sOut = a sIn + E` modulo every prime up to
`lQ`, where `P E = ∑_i A_i e_i - Z0 - Z1 sOut` over the integers. -/
def KeySwitched (n : ℕ) (rQ rP : Ring) (lQ lP : ℕ) (a d0 d1 : ∀ u, Rq (2 ^ n) (rQ.qs u)) (sIn sOut : ℕ → ℤ)
    (e : ℕ → ℕ → ℤ) (E : ℕ → ℤ) : Prop :=
  ∃ (A : ℕ → ℕ → ℤ) (Z0 Z1 : ℕ → ℤ),
    (∀ i, i * (lP + 1) ≤ lQ → (∀ k < 2 ^ n, NearRep (rQ.blockQ (lP + 1) (lQ + 1) i) (A i k)) ∧
      ∀ u ≤ lQ, u / (lP + 1) = i → intR (2 ^ n) (rQ.qs u) (A i) = a u) ∧
    (∀ k < 2 ^ n, NearRep (rP.prodQ lP) (Z0 k)) ∧ (∀ k < 2 ^ n, NearRep (rP.prodQ lP) (Z1 k)) ∧
    (∀ k < 2 ^ n, (rP.prodQ lP : ℤ) * E k
      = convSum (2 ^ n) ((lQ + lP + 1) / (lP + 1)) A e k - Z0 k - negConv (2 ^ n) Z1 sOut k) ∧
    ∀ u ≤ lQ, d0 u + d1 u * intR (2 ^ n) (rQ.qs u) sOut
      = a u * intR (2 ^ n) (rQ.qs u) sIn + intR (2 ^ n) (rQ.qs u) E

/-- the automorphism `X ↦ X^g` on integer vectors, `g` odd: coefficient `j` goes to position `g j` modulo
`2 N`, with a minus sign when this is `N` or more -/
def autInt (N g : ℕ) (S : ℕ → ℤ) (k : ℕ) : ℤ :=
  ∑ j ∈ range N, if g * j % (2 * N) = k then S j else if g * j % (2 * N) = k + N then -S j else 0

/-- `s^m` modulo `X^N + 1` -/
def negPow (N : ℕ) (s : ℕ → ℤ) : ℕ → ℕ → ℤ
  | 0 => fun k => if k = 0 then 1 else 0
  | m + 1 => negConv N (negPow N s m) s

/-- condition on the size of `T` under which the fast key-switch is exact, at every level:
`2 (1 + 2^-39) beta N Q_i R_j + 2 ≤ T` for all digit blocks `Q_i` and key blocks `R_j` -/
def FParams.Fits (p : FParams) : Prop :=
  ∀ i j, i * p.alpha < p.ringQ.subs.length → j * p.gamma < p.ringR.subs.length →
    2 * (2 ^ 39 + 1) * ((p.ringQ.subs.length + p.alpha - 1) / p.alpha * p.ringQ.n *
      p.ringQ.blockQ p.alpha p.ringQ.subs.length i * p.ringR.blockQ p.gamma p.ringR.subs.length j) + 2 ^ 40
      ≤ 2 ^ 39 * p.ringT.prodQ p.levelT

end FastKsw
