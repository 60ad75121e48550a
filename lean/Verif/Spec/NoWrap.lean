import Verif.Lemmas.NTTLayer

/-!
# What "no intermediate value overflows" means for the transforms

For each butterfly: none of the additions, subtractions and multiplications it
performs on 64-bit words wraps around, and the operands of `MRedConstant` are in
the range where that function does not wrap (C02).  A transform is safe if every
butterfly it executes is safe on the words it reads at that moment.
-/

namespace FastKsw

/-- `V := MRedConstant(V, Psi); U + V, U + twoQ - V` does not wrap -/
def safeNoRed (q qInv u v psi : UInt64) : Prop :=
  2 * q.toNat < 2 ^ 64 ∧ v.toNat * psi.toNat < q.toNat * 2 ^ 64 ∧
  u.toNat + (mredConstant v psi q qInv).toNat < 2 ^ 64 ∧
  u.toNat + 2 * q.toNat < 2 ^ 64 ∧
  (mredConstant v psi q qInv).toNat ≤ u.toNat + 2 * q.toNat

/-- `butterfly`, ring_ntt.go:100-106, does not wrap -/
def safeRed (q qInv u v psi : UInt64) : Prop :=
  4 * q.toNat < 2 ^ 64 ∧
  safeNoRed q qInv (if u.toNat ≥ 4 * q.toNat then UInt64.ofNat (u.toNat - 4 * q.toNat) else u) v psi

/-- `invbutterfly`, ring_ntt.go:109-116, does not wrap -/
def safeInv (q u v psi : UInt64) : Prop :=
  4 * q.toNat < 2 ^ 64 ∧ u.toNat + v.toNat < 2 ^ 64 ∧ u.toNat + 4 * q.toNat < 2 ^ 64 ∧
  v.toNat ≤ u.toNat + 4 * q.toNat ∧
  (u.toNat + 4 * q.toNat - v.toNat) * psi.toNat < q.toNat * 2 ^ 64

/-- Every butterfly of a layer satisfies `safe` on the words it reads: block `i`,
position `j`, the row as left by the preceding iterations. -/
def LayerSafe (safe : UInt64 → UInt64 → UInt64 → Prop)
    (bf : UInt64 → UInt64 → UInt64 → UInt64 × UInt64) (tab : Row) (m t : ℕ) (x : Row) : Prop :=
  ∀ i < m, ∀ j < t,
    let y := innerLoop bf (tab.at (m + i)) (2 * (i * t)) t j (outerLoop bf tab m t i x)
    safe (y.at (2 * (i * t) + j)) (y.at (2 * (i * t) + j + t)) (tab.at (m + i))

/-- the loop of `NTTLazy` (`nttLoop`) executes only safe butterflies -/
def NttLoopSafe (N : ℕ) (tab : Row) (q qInv : UInt64) : ℕ → ℕ → ℕ → Row → Prop
  | 0, _, _, _ => True
  | fuel + 1, m, t, x =>
    m < N →
      if len64 m % 2 = 1 ∨ t / 2 = 1 then
        LayerSafe (safeRed q qInv) (fun u v psi => butterfly u v psi (2 * q) (4 * q) q qInv) tab m
          (t / 2) x ∧
        NttLoopSafe N tab q qInv fuel (2 * m) (t / 2)
          (nttLayer (fun u v psi => butterfly u v psi (2 * q) (4 * q) q qInv) tab m (t / 2) x)
      else
        LayerSafe (safeNoRed q qInv) (fun u v psi => butterflyNoRed u v psi (2 * q) q qInv) tab m
          (t / 2) x ∧
        NttLoopSafe N tab q qInv fuel (2 * m) (t / 2)
          (nttLayer (fun u v psi => butterflyNoRed u v psi (2 * q) q qInv) tab m (t / 2) x)

/-- `NTTLazy` executes only safe butterflies -/
def NttLazySafe (x : Row) (N : ℕ) (tab : Row) (q qInv : UInt64) : Prop :=
  LayerSafe (safeNoRed q qInv) (fun u v psi => butterflyNoRed u v psi (2 * q) q qInv) tab 1
    (N / 2) x ∧
  NttLoopSafe N tab q qInv N 2 (N / 2)
    (nttLayer (fun u v psi => butterflyNoRed u v psi (2 * q) q qInv) tab 1 (N / 2) x)

/-- the loop of `invNTTCore` executes only safe butterflies -/
def InvNttLoopSafe (tab : Row) (q qInv : UInt64) : ℕ → ℕ → ℕ → Row → Prop
  | 0, _, _, _ => True
  | fuel + 1, m, t, x =>
    m > 1 →
      LayerSafe (safeInv q) (fun u v psi => invbutterfly u v psi (q <<< 1) (q <<< 2) q qInv) tab
        (m / 2) t x ∧
      InvNttLoopSafe tab q qInv fuel (m / 2) (2 * t)
        (nttLayer (fun u v psi => invbutterfly u v psi (q <<< 1) (q <<< 2) q qInv) tab (m / 2) t x)

/-- `invNTTCore` executes only safe butterflies -/
def InvNttSafe (x : Row) (N : ℕ) (tab : Row) (q qInv : UInt64) : Prop :=
  LayerSafe (safeInv q) (fun u v psi => invbutterfly u v psi (q <<< 1) (q <<< 2) q qInv) tab
    (N / 2) 1 x ∧
  InvNttLoopSafe tab q qInv N (N / 2) 2
    (nttLayer (fun u v psi => invbutterfly u v psi (q <<< 1) (q <<< 2) q qInv) tab (N / 2) 1 x)

end FastKsw
