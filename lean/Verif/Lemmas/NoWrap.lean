import Verif.Spec.NoWrap
import Verif.Lemmas.SubNTT

/-! Helper lemmas: the transforms never wrap around. -/

namespace FastKsw

theorem layerSafe_of_bound {safe : UInt64 → UInt64 → UInt64 → Prop}
    {bf : UInt64 → UInt64 → UInt64 → UInt64 × UInt64} {tab : Row} {m t N A : ℕ} {x : Row}
    (ht : 0 < t) (hN : m * (2 * t) = N) (hx : x.length = N) (hb : BoundedBy N A x)
    (hs : ∀ u v k, k < N → u.toNat < A → v.toNat < A → safe u v (tab.at k)) :
    LayerSafe safe bf tab m t x := by
  intro i hi j hj
  have hle : (i + 1) * (2 * t) ≤ m * (2 * t) := Nat.mul_le_mul_right _ (by omega)
  have e : (i + 1) * (2 * t) = 2 * (i * t) + 2 * t := by ring
  have hmi : m + i < N := by
    have : m * (2 * 1) ≤ m * (2 * t) := Nat.mul_le_mul_left _ (by omega)
    omega
  have e2 : i * (2 * t) = 2 * (i * t) := by ring
  have r1 : ∀ k, 2 * (i * t) ≤ k → (outerLoop bf tab m t i x).at k = x.at k := by
    intro k hk
    rw [outerLoop_at _ _ _ _ _ _ ht (by omega), if_neg (by omega)]
  intro y
  have y1 : y.at (2 * (i * t) + j) = x.at (2 * (i * t) + j) := by
    change (innerLoop _ _ _ _ _ _).at _ = _
    rw [innerLoop_at _ _ _ _ _ _ (by omega) (by rw [outerLoop_length]; omega),
      if_neg (by omega), if_neg (by omega), r1 _ (by omega)]
  have y2 : y.at (2 * (i * t) + j + t) = x.at (2 * (i * t) + j + t) := by
    change (innerLoop _ _ _ _ _ _).at _ = _
    rw [innerLoop_at _ _ _ _ _ _ (by omega) (by rw [outerLoop_length]; omega),
      if_neg (by omega), if_neg (by omega), r1 _ (by omega)]
  rw [y1, y2]
  exact hs _ _ _ hmi (hb _ (by omega)) (hb _ (by omega))

theorem safeNoRed_of {q qInv : UInt64} (hinv : q * qInv = 1) (hq : q.toNat < 2 ^ 63)
    (u v psi : UInt64) (hp : psi.toNat < q.toNat) (hu : u.toNat + 2 * q.toNat < 2 ^ 64) :
    safeNoRed q qInv u v psi := by
  have hlt := mul_lt_of_lt_right v hp
  have h := (mredConstant_spec hinv hq.le v psi hlt).2.1
  exact ⟨by omega, hlt, by omega, by omega, by omega⟩

theorem safeRed_of {q qInv : UInt64} (hinv : q * qInv = 1) (hq : q.toNat < 2 ^ 62)
    (u v psi : UInt64) (hp : psi.toNat < q.toNat) {B : ℕ} (hB : 4 * q.toNat ≤ B)
    (hB2 : B + 2 * q.toNat ≤ 2 ^ 64) (hu : u.toNat < B + 4 * q.toNat) :
    safeRed q qInv u v psi := by
  refine ⟨by omega, safeNoRed_of hinv (by omega) _ v psi hp ?_⟩
  have := u.toNat_lt
  split
  · have : (UInt64.ofNat (u.toNat - 4 * q.toNat)).toNat = u.toNat - 4 * q.toNat := by
      rw [UInt64.toNat_ofNat']; exact Nat.mod_eq_of_lt (by omega)
    omega
  · omega

theorem safeInv_of {q : UInt64} (hq : q.toNat < 2 ^ 61) (u v psi : UInt64)
    (hp : psi.toNat < q.toNat) (hu : u.toNat < 2 * q.toNat) (hv : v.toNat < 2 * q.toNat) :
    safeInv q u v psi := by
  refine ⟨by omega, by omega, by omega, by omega, ?_⟩
  rw [mul_comm]
  exact Nat.mul_lt_mul'' hp (by omega)

theorem nttLoop_safe {q qInv : UInt64} (hinv : q * qInv = 1) (hq : q.toNat < 2 ^ 62) {N n : ℕ}
    (hNn : N = 2 ^ n)
    {tab : Row} {w : ℕ → ZMod q.toNat} (htab : TwTable N q tab w) {B : ℕ}
    (hB : 4 * q.toNat ≤ B) (hB2 : B + 4 * q.toNat ≤ 2 ^ 64) (fuel : ℕ) :
    ∀ (a b : ℕ) (x : Row), a + b = n → 0 < a → x.length = N →
      BoundedBy N (if a % 2 = 0 then B + 4 * q.toNat else B + 2 * q.toNat) x →
      NttLoopSafe N tab q qInv fuel (2 ^ a) (2 ^ b) x := by
  induction fuel with
  | zero => intro a b x _ _ _ _; trivial
  | succ fuel ih =>
    intro a b x hab ha0 hx hbd hlt
    have hb1 : 1 ≤ b := by
      by_contra hc
      have : b = 0 := by omega
      subst this
      rw [hNn, ← hab] at hlt
      simp at hlt
    obtain ⟨c, rfl⟩ : ∃ c, b = c + 1 := ⟨b - 1, by omega⟩
    have hN2 : 2 ^ a * (2 * 2 ^ c) = N := by rw [hNn, ← hab]; ring
    have hhalf : 2 ^ (c + 1) / 2 = 2 ^ c := by rw [pow_succ]; omega
    have hc0 : 0 < 2 ^ c := Nat.two_pow_pos c
    have e2 : 2 * 2 ^ a = 2 ^ (a + 1) := by ring
    rw [hhalf, len64_two_pow, e2]
    have hbd' : BoundedBy N (B + 4 * q.toNat) x := by
      intro k hk
      have := hbd k hk
      split at this <;> omega
    split
    · rename_i hc
      obtain ⟨y1, y2, -⟩ := fwdLayer_spec (fwdOK_red hinv hq htab hB (by omega)) hc0 hN2 x hx hbd'
      refine ⟨layerSafe_of_bound hc0 hN2 hx hbd' (fun u v k hk hu hv =>
        safeRed_of hinv hq u v _ (htab k hk).1 hB (by omega) hu), ?_⟩
      refine ih (a + 1) c _ (by omega) (by omega) y1 ?_
      intro k hk
      have := y2 k hk
      split <;> omega
    · rename_i hc
      push Not at hc
      have ha : a % 2 ≠ 0 := by omega
      rw [if_neg ha] at hbd
      obtain ⟨y1, y2, -⟩ := fwdLayer_spec
        (fwdOK_noRed hinv (by omega) htab (A := B + 2 * q.toNat) (by omega)) hc0 hN2 x hx hbd
      refine ⟨layerSafe_of_bound hc0 hN2 hx hbd (fun u v k hk hu hv =>
        safeNoRed_of hinv (by omega) u v _ (htab k hk).1 (by omega)), ?_⟩
      refine ih (a + 1) c _ (by omega) (by omega) y1 ?_
      rw [if_pos (by omega)]
      intro k hk
      have := y2 k hk
      omega

theorem nttLazy_safe {q qInv : UInt64} (hinv : q * qInv = 1) (hq : q.toNat < 2 ^ 62) {N n : ℕ}
    (hNn : N = 2 ^ n) (hn : 1 ≤ n)
    {tab : Row} {w : ℕ → ZMod q.toNat} (htab : TwTable N q tab w) {B : ℕ}
    (hB : 4 * q.toNat ≤ B) (hB2 : B + 4 * q.toNat ≤ 2 ^ 64) (x : Row) (hx : x.length = N)
    (hb : BoundedBy N B x) : NttLazySafe x N tab q qInv := by
  obtain ⟨c, rfl⟩ : ∃ c, n = c + 1 := ⟨n - 1, by omega⟩
  have hhalf : N / 2 = 2 ^ c := by rw [hNn, pow_succ]; omega
  have hN2 : 1 * (2 * 2 ^ c) = N := by rw [hNn]; ring
  have hc0 : 0 < 2 ^ c := Nat.two_pow_pos c
  obtain ⟨y1, y2, -⟩ := fwdLayer_spec (fwdOK_noRed hinv (by omega) htab (A := B) (by omega))
    hc0 hN2 x hx hb
  unfold NttLazySafe
  rw [hhalf]
  refine ⟨layerSafe_of_bound hc0 hN2 hx hb (fun u v k hk hu hv =>
        safeNoRed_of hinv (by omega) u v _ (htab k hk).1 (by have := htab k hk; omega)), ?_⟩
  exact nttLoop_safe hinv hq hNn htab hB hB2 N 1 c _ (by omega) (by omega) y1
    (by rw [if_neg (by omega)]; exact y2)

theorem invLayer_bound {q qInv : UInt64} (hinv : q * qInv = 1) (hq : q.toNat < 2 ^ 61) {N : ℕ}
    {tab : Row} {w' : ℕ → ZMod q.toNat} (htab : TwTable N q tab w')
    {m t : ℕ} (ht0 : 0 < t) (hN : m * (2 * t) = N) (x : Row) (hx : x.length = N)
    (hb : BoundedBy N (2 * q.toNat) x) :
    let y := nttLayer (fun u v psi => invbutterfly u v psi (q <<< 1) (q <<< 2) q qInv) tab m t x
    y.length = N ∧ BoundedBy N (2 * q.toNat) y := by
  intro y
  refine ⟨by rw [nttLayer_length, hx], ?_⟩
  intro k hk
  obtain ⟨i1, i2⟩ := layer_idx ht0 hN hk
  obtain ⟨p1, p2⟩ := htab _ i1
  have hyk : y.at k = _ := nttLayer_at _ tab m t x ht0 (by omega) k
  rw [hyk, if_pos (by omega), layerVal]
  split
  · exact (invbutterfly_spec hinv hq (x.at k) (x.at (k + t)) _ _ p1 p2 (hb k hk)
      (hb _ (i2 (by assumption)))).1
  · exact (invbutterfly_spec hinv hq (x.at (k - t)) (x.at k) _ _ p1 p2 (hb (k - t) (by omega))
      (hb k hk)).2.1

theorem invNttLoop_safe {q qInv : UInt64} (hinv : q * qInv = 1) (hq : q.toNat < 2 ^ 61) {N n : ℕ}
    (hNn : N = 2 ^ n)
    {tab : Row} {w' : ℕ → ZMod q.toNat} (htab : TwTable N q tab w') (fuel : ℕ) :
    ∀ (a b : ℕ) (x : Row), a + b = n → x.length = N →
      BoundedBy N (2 * q.toNat) x → InvNttLoopSafe tab q qInv fuel (2 ^ a) (2 ^ b) x := by
  induction fuel with
  | zero => intro a b x _ _ _; trivial
  | succ fuel ih =>
    intro a b x hab hx hb hgt
    obtain ⟨c, rfl⟩ : ∃ c, a = c + 1 := by
      refine ⟨a - 1, ?_⟩
      by_contra hc
      have : a = 0 := by omega
      subst this; simp at hgt
    have hhalf : 2 ^ (c + 1) / 2 = 2 ^ c := by rw [pow_succ]; omega
    have hN2 : 2 ^ c * (2 * 2 ^ b) = N := by rw [hNn, ← hab]; ring
    have hb0 : 0 < 2 ^ b := Nat.two_pow_pos b
    rw [hhalf, show 2 * 2 ^ b = 2 ^ (b + 1) by ring]
    obtain ⟨y1, y2⟩ := invLayer_bound hinv hq htab hb0 hN2 x hx hb
    exact ⟨layerSafe_of_bound hb0 hN2 hx hb (fun u v k hk hu hv =>
      safeInv_of hq u v _ (htab k hk).1 hu hv), ih c (b + 1) _ (by omega) y1 y2⟩

theorem invNtt_safe {q qInv : UInt64} (hinv : q * qInv = 1) (hq : q.toNat < 2 ^ 61) {N n : ℕ}
    (hNn : N = 2 ^ n) (hn : 1 ≤ n)
    {tab : Row} {w' : ℕ → ZMod q.toNat} (htab : TwTable N q tab w') (x : Row) (hx : x.length = N)
    (hb : BoundedBy N (2 * q.toNat) x) : InvNttSafe x N tab q qInv := by
  obtain ⟨c, rfl⟩ : ∃ c, n = c + 1 := ⟨n - 1, by omega⟩
  have hhalf : N / 2 = 2 ^ c := by rw [hNn, pow_succ]; omega
  have hN2 : 2 ^ c * (2 * 1) = N := by rw [hNn]; ring
  obtain ⟨y1, y2⟩ := invLayer_bound hinv hq htab (by omega) hN2 x hx hb
  unfold InvNttSafe
  rw [hhalf]
  exact ⟨layerSafe_of_bound (by omega) hN2 hx hb (fun u v k hk hu hv =>
      safeInv_of hq u v _ (htab k hk).1 hu hv),
    invNttLoop_safe hinv hq hNn htab N c 1 _ (by omega) y1 y2⟩

end FastKsw
