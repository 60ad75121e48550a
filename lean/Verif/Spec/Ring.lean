import Verif.Model.Ring
import Verif.Lemmas.NTTAlg
import Verif.Lemmas.NTT
import Mathlib.Data.ZMod.Basic

/-!
# What a correctly built ring holds

`SubRing.Valid N s`: the constants stored for one prime are the ones the NTT in
degree `N` needs.  Nothing here refers to how they are computed.
-/

namespace FastKsw

/-- The root of unity stored (in Montgomery form) for one prime. -/
def SubRing.psi (s : SubRing) : ZMod s.q.toNat := (s.psiMont.toNat : ZMod s.q.toNat) * (2 ^ 64)⁻¹

/-- Twiddle `k` of the degree-`2^n` transform. -/
def SubRing.tw (s : SubRing) (n : ℕ) (k : ℕ) : ZMod s.q.toNat := s.psi ^ revBits n k

/-- Inverse twiddle `k`. -/
def SubRing.twInv (s : SubRing) (n : ℕ) (k : ℕ) : ZMod s.q.toNat := (s.psi⁻¹) ^ revBits n k

structure SubRing.Valid (n : ℕ) (s : SubRing) : Prop where
  prime : s.q.toNat.Prime
  one_mod : s.q.toNat % 2 ^ (n + 1) = 1
  lt : s.q.toNat < 2 ^ 63
  bred : s.bred = bredParams s.q
  mred : s.q * s.mred = 1
  mask : s.mask.toNat = 2 ^ len64 s.q.toNat - 1
  psi_pow : s.psi ^ 2 ^ n = -1
  psiMont : s.psiMont.toNat < s.q.toNat ∧ (s.psiMont.toNat : ZMod s.q.toNat) = s.psi * 2 ^ 64
  psiInvMont : s.psiInvMont.toNat < s.q.toNat ∧
    (s.psiInvMont.toNat : ZMod s.q.toNat) = s.psi⁻¹ * 2 ^ 64
  table : TwTable (2 ^ n) s.q s.nttPsi (s.tw n)
  tableInv : TwTable (2 ^ n) s.q s.nttPsiInv (s.twInv n)
  nInv : s.nttNInv.toNat < s.q.toNat ∧
    (s.nttNInv.toNat : ZMod s.q.toNat) * 2 ^ n = 2 ^ 64

/-- A standard ring of degree `2^n`: every modulus has valid constants and the
moduli are distinct. -/
structure Ring.Valid (n : ℕ) (r : Ring) : Prop where
  four_le : 4 ≤ n
  deg : r.n = 2 ^ n
  root : r.nthRoot = 2 ^ (n + 1)
  type : r.type = .standard
  ne_nil : r.subs ≠ []
  nodup : r.moduli.Nodup
  sub : ∀ s ∈ r.subs, s.Valid n
  rescale : r.rescaleParams = genRescaleParams r.moduli

/-- all moduli below `2^61`, the limit the NTT is written for (ring_ntt.go:114) -/
def Ring.Small (r : Ring) : Prop := ∀ s ∈ r.subs, s.q.toNat < 2 ^ 61

end FastKsw
