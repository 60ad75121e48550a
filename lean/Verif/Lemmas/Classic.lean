import Verif.Lemmas.Decompose
import Verif.Props.FKeySwitch

/-!
# The classical key-switcher: accumulation over `QP` and division by `P`
-/

namespace FastKsw

open Finset Props

theorem foldl_pair {α β ι : Type*} (f : α → ι → α) (g : β → ι → β) (l : List ι) (a : α) (b : β) :
    l.foldl (fun (st : α × β) i => (f st.1 i, g st.2 i)) (a, b) = (l.foldl f a, l.foldl g b) := by
  induction l generalizing a b with
  | nil => rfl
  | cons i l ih => exact ih _ _

theorem foldl_qp {ι : Type*} (f g : Rows → ι → Rows) (l : List ι) (a : PolyQP) :
    l.foldl (fun (st : PolyQP) i => (⟨f st.q i, g st.p i⟩ : PolyQP)) a = ⟨l.foldl f a.q, l.foldl g a.p⟩ := by
  induction l generalizing a with
  | nil => rfl
  | cons i l ih => exact ih _

theorem IsSwitchKey.mono {n : ℕ} {rQ rP : Ring} {lQ lQ' lP : ℕ} {k : SwitchingKey} {sIn sOut : ℕ → ℤ}
    {e : ℕ → ℕ → ℤ} (h : IsSwitchKey n rQ rP lQ lP k sIn sOut e) (hl : lQ' ≤ lQ) :
    IsSwitchKey n rQ rP lQ' lP k sIn sOut e := by
  obtain ⟨B, A, h1, h2, h3⟩ := h.ex
  have cut : ∀ {x : PolyQP} {X}, x.IsMont n rQ rP lQ lP X → x.IsMont n rQ rP lQ' lP X := fun hx =>
    ⟨⟨by have := hx.q.lvl; omega, fun i hi => hx.q.row i (by omega)⟩, hx.p⟩
  exact ⟨B, A, fun i hi => ⟨cut (h1 i (by omega)).1, cut (h1 i (by omega)).2⟩,
    fun i hi u hu => h2 i (by omega) u (by omega), fun i hi u hu => h3 i (by omega) u hu⟩

/-- accumulation of `∑ key_i dig_i` over `QP` -/
def accAll (rQ rP : Ring) (lQ lP beta : ℕ) (key dig : ℕ → PolyQP) (c : PolyQP) : PolyQP :=
  let mQ := overflowMargin rQ.moduli lQ >>> 1
  let mP := overflowMargin rP.moduli lP >>> 1
  (newKeySwitcher rQ rP).accEnd lQ lP mQ mP beta ((List.range beta).foldl
    (fun a i => (newKeySwitcher rQ rP).accStep lQ lP mQ mP i (key i) (dig i) a) c)

/-- division by `P`, with the result in NTT or in coefficient form -/
def modDownBoth (rQ rP : Ring) (lQ lP : ℕ) (isNTT : Bool) (c : PolyQP) : Rows :=
  if isNTT then (newBasisExtender rQ rP).modDownQPtoQNTT lQ lP c.q c.p c.q
  else (newBasisExtender rQ rP).modDownQPtoQ lQ lP (rQ.invNttLazyLvl lQ c.q c.q)
    (rP.invNttLazyLvl lP c.p c.p) (rQ.invNttLazyLvl lQ c.q c.q)

theorem newKeySwitcher_ringQ (rQ rP : Ring) : (newKeySwitcher rQ rP).ringQ = rQ := rfl
theorem newKeySwitcher_ringP (rQ rP : Ring) : (newKeySwitcher rQ rP).ringP = rP := rfl

section
variable {rQ rP : Ring} {lQ lP beta : ℕ} {evk : SwitchingKey} (hal : evk.alpha = lP + 1)
  (hb : ceilDivF (lQ + 1) (lP + 1) = beta)
include hal hb

theorem hoistedNoModDown_eq (dig : List PolyQP) (c0 c1 : PolyQP) :
    (newKeySwitcher rQ rP).hoistedNoModDown lQ dig evk c0 c1
      = (accAll rQ rP lQ lP beta (fun i => (evk.getD i default).1) (fun i => dig.getD i default) c0,
         accAll rQ rP lQ lP beta (fun i => (evk.getD i default).2) (fun i => dig.getD i default) c1) := by
  unfold KeySwitcher.hoistedNoModDown
  simp only [hal, Nat.add_sub_cancel, hb, newKeySwitcher_ringQ, newKeySwitcher_ringP]
  rw [foldl_pair
    (fun st i => (newKeySwitcher rQ rP).accStep lQ lP (overflowMargin rQ.moduli lQ >>> 1)
      (overflowMargin rP.moduli lP >>> 1) i (evk.getD i default).1 (dig.getD i default) st)
    (fun st i => (newKeySwitcher rQ rP).accStep lQ lP (overflowMargin rQ.moduli lQ >>> 1)
      (overflowMargin rP.moduli lP >>> 1) i (evk.getD i default).2 (dig.getD i default) st)]
  rfl

theorem switchKeysNoModDown_eq (isNTT : Bool) (cx : Rows) (c0 c1 : PolyQP) :
    (newKeySwitcher rQ rP).switchKeysNoModDown lQ isNTT cx evk c0 c1
      = (newKeySwitcher rQ rP).hoistedNoModDown lQ
          ((newKeySwitcher rQ rP).decomposeNTT lQ lP (lP + 1) isNTT cx) evk c0 c1 := by
  rw [hoistedNoModDown_eq hal hb]
  unfold KeySwitcher.switchKeysNoModDown
  simp only [hal, Nat.add_sub_cancel, hb, newKeySwitcher_ringQ, newKeySwitcher_ringP]
  rw [foldl_pair
    (fun st i => (newKeySwitcher rQ rP).accStep lQ lP (overflowMargin rQ.moduli lQ >>> 1)
      (overflowMargin rP.moduli lP >>> 1) i (evk.getD i default).1
      ((newKeySwitcher rQ rP).dec.decomposeSingleNTT lQ lP (lP + 1) i
        ((newKeySwitcher rQ rP).bothForms lQ isNTT cx).1 ((newKeySwitcher rQ rP).bothForms lQ isNTT cx).2
        (newKeySwitcher rQ rP).newPolyQP) st)
    (fun st i => (newKeySwitcher rQ rP).accStep lQ lP (overflowMargin rQ.moduli lQ >>> 1)
      (overflowMargin rP.moduli lP >>> 1) i (evk.getD i default).2
      ((newKeySwitcher rQ rP).dec.decomposeSingleNTT lQ lP (lP + 1) i
        ((newKeySwitcher rQ rP).bothForms lQ isNTT cx).1 ((newKeySwitcher rQ rP).bothForms lQ isNTT cx).2
        (newKeySwitcher rQ rP).newPolyQP) st)]
  unfold accAll KeySwitcher.decomposeNTT
  simp only [hb]
  have e : ∀ (key : ℕ → PolyQP) (c : PolyQP), (List.range beta).foldl (fun st i =>
      (newKeySwitcher rQ rP).accStep lQ lP (overflowMargin rQ.moduli lQ >>> 1)
      (overflowMargin rP.moduli lP >>> 1) i (key i)
      ((newKeySwitcher rQ rP).dec.decomposeSingleNTT lQ lP (lP + 1) i
        ((newKeySwitcher rQ rP).bothForms lQ isNTT cx).1 ((newKeySwitcher rQ rP).bothForms lQ isNTT cx).2
        (newKeySwitcher rQ rP).newPolyQP) st) c
      = (List.range beta).foldl (fun st i =>
      (newKeySwitcher rQ rP).accStep lQ lP (overflowMargin rQ.moduli lQ >>> 1)
      (overflowMargin rP.moduli lP >>> 1) i (key i)
      (((List.range beta).map fun i => (newKeySwitcher rQ rP).dec.decomposeSingleNTT lQ lP (lP + 1) i
        ((newKeySwitcher rQ rP).bothForms lQ isNTT cx).1 ((newKeySwitcher rQ rP).bothForms lQ isNTT cx).2
        (newKeySwitcher rQ rP).newPolyQP).getD i default) st) c := by
    intro key c
    refine List.foldl_ext _ _ _ (fun st i hi => ?_)
    rw [getD_map_range' _ _ _ (List.mem_range.1 hi)]
  rw [e (fun i => (evk.getD i default).1), e (fun i => (evk.getD i default).2)]

theorem hoisted_eq (dig : List PolyQP) (c0 c1 : PolyQP) :
    (newKeySwitcher rQ rP).hoisted lQ dig evk c0 c1
      = (modDownBoth rQ rP lQ lP true ((newKeySwitcher rQ rP).hoistedNoModDown lQ dig evk c0 c1).1,
         modDownBoth rQ rP lQ lP true ((newKeySwitcher rQ rP).hoistedNoModDown lQ dig evk c0 c1).2) := by
  unfold KeySwitcher.hoisted
  simp only [hal, Nat.add_sub_cancel]
  rfl

theorem switchKeysInPlace_eq (isNTT : Bool) (cx p0 p1 : Rows) :
    (newKeySwitcher rQ rP).switchKeysInPlace lQ isNTT cx evk p0 p1
      = (modDownBoth rQ rP lQ lP isNTT ((newKeySwitcher rQ rP).switchKeysNoModDown lQ isNTT cx evk
          ⟨p0, newPoly rP.n rP.subs.length⟩ ⟨p1, newPoly rP.n rP.subs.length⟩).1,
         modDownBoth rQ rP lQ lP isNTT ((newKeySwitcher rQ rP).switchKeysNoModDown lQ isNTT cx evk
          ⟨p0, newPoly rP.n rP.subs.length⟩ ⟨p1, newPoly rP.n rP.subs.length⟩).2) := by
  unfold KeySwitcher.switchKeysInPlace
  simp only [hal, Nat.add_sub_cancel]
  cases isNTT <;> rfl

end

section
variable {n : ℕ} {rQ rP : Ring} {lQ lP : ℕ} (K : KeyRings n rQ rP lQ lP)
include K

theorem accQP_is (hov : lP < 16 ∨
      (∀ u ≤ lQ, 10 * rQ.qs u + 2 ^ 15 ≤ 2 ^ 64) ∧ ∀ u ≤ lP, 10 * rP.qs u + 2 ^ 15 ≤ 2 ^ 64)
    {beta : ℕ} (hb : 0 < beta) {dig key : ℕ → PolyQP} {A B : ℕ → ℕ → ℤ}
    (hdig : ∀ i < beta, PolyIs rQ lQ (fun u => digitBound (lP + 1) (rQ.qs u)) (dig i).q (rQ.nttVec n (A i)) ∧
      PolyIs rP lP (fun u => digitBound (lP + 1) (rP.qs u)) (dig i).p (rP.nttVec n (A i)))
    (hkey : ∀ i < beta, (key i).IsMont n rQ rP lQ lP (B i)) {acc : PolyQP} (h1 : lQ < acc.q.length)
    (h2 : lP < acc.p.length) :
    let res := accAll rQ rP lQ lP beta key dig acc
    PolyWritten rQ lQ rQ.qs acc.q res.q (rQ.nttVec n (convSum (2 ^ n) beta A B)) ∧
    PolyWritten rP lP rP.qs acc.p res.p (rP.nttVec n (convSum (2 ^ n) beta A B)) := by
  intro res
  set mQ := overflowMargin rQ.moduli lQ >>> 1 with hmQ
  set mP := overflowMargin rP.moduli lP >>> 1 with hmP
  have hD : ∀ {r : Ring} {l : ℕ}, r.Small → l < r.subs.length →
      (lP < 16 ∨ ∀ u ≤ l, 10 * r.qs u + 2 ^ 15 ≤ 2 ^ 64) → ∀ t ≤ l,
      digitBound (lP + 1) (r.qs t) ≤ 6 * r.qs t ∨
        digitBound (lP + 1) (r.qs t) + 2 * r.qs t + 2 ^ 15 ≤ 2 ^ 64 := by
    intro r l sr hl hov t ht
    have hlt := sr _ (Ring.sub_mem (show t < r.subs.length by omega))
    unfold digitBound
    unfold Ring.qs at *
    split
    · by_cases hc : 2 ^ 61 + 2 * (r.sub t).q.toNat ≤ 6 * (r.sub t).q.toNat
      · left; omega
      · right; omega
    · have := (hov.resolve_left (by omega)) t ht
      right; omega
  have e : res = ⟨rQ.accEnd lQ mQ beta ((List.range beta).foldl
        (fun a i => rQ.accStep lQ mQ i (key i).q (dig i).q a) acc.q),
      rP.accEnd lP mP beta ((List.range beta).foldl
        (fun a i => rP.accStep lP mP i (key i).p (dig i).p a) acc.p)⟩ := by
    show (newKeySwitcher rQ rP).accEnd lQ lP mQ mP beta ((List.range beta).foldl (fun st i =>
      (⟨rQ.accStep lQ mQ i (key i).q (dig i).q st.q, rP.accStep lP mP i (key i).p (dig i).p st.p⟩ : PolyQP)) acc) = _
    rw [foldl_qp (fun a i => rQ.accStep lQ mQ i (key i).q (dig i).q a)
      (fun a i => rP.accStep lP mP i (key i).p (dig i).p a)]
    rfl
  have gQ := C29_accumulate K.hQ K.sQ K.lQ beta hb (fun i => (key i).q) (fun i => (dig i).q) _
    (hD K.sQ K.lQ (hov.imp id (·.1))) _ _ (fun i hi => (hkey i hi).q) (fun i hi => (hdig i hi).1) acc.q h1
  have gP := C29_accumulate K.hP K.sP K.lP beta hb (fun i => (key i).p) (fun i => (dig i).p) _
    (hD K.sP K.lP (hov.imp id (·.2))) _ _ (fun i hi => (hkey i hi).p) (fun i hi => (hdig i hi).2) acc.p h2
  rw [e]
  refine ⟨⟨gQ.is.congr (fun u hu k hk => ?_), gQ.len, gQ.above⟩,
    ⟨gP.is.congr (fun u hu k hk => ?_), gP.len, gP.above⟩⟩
  · have hl := K.lQ
    rw [K.hQ.deg] at hk
    rw [nttVec_convSum K.hQ (by omega) _ _ _ hk]
    refine sum_congr rfl (fun i _ => ?_)
    have := mul_rinv ((K.hQ.subAt (show u < rQ.subs.length by omega)).odd)
    linear_combination (rQ.nttVec n (A i) u k * rQ.nttVec n (B i) u k) * this
  · have hl := K.lP
    rw [K.hP.deg] at hk
    rw [nttVec_convSum K.hP (by omega) _ _ _ hk]
    refine sum_congr rfl (fun i _ => ?_)
    have := mul_rinv ((K.hP.subAt (show u < rP.subs.length by omega)).odd)
    linear_combination (rP.nttVec n (A i) u k * rP.nttVec n (B i) u k) * this

/-- division by `P` of an accumulator in NTT form, the result in NTT or coefficient form -/
theorem modDown_both (h32 : lP < 32) (isNTT : Bool)
    (hov : isNTT = true → ∀ u ≤ lQ, ((lP + 8) / 8 + 6) * rQ.qs u ≤ 2 ^ 64)
    {c : PolyQP} {X : ℕ → ℤ} (hq : PolyIs rQ lQ rQ.qs c.q (rQ.nttVec n X))
    (hp : PolyIs rP lP rP.qs c.p (rP.nttVec n X)) :
    ∃ Z Y : ℕ → ℤ, ExtInt rP lP (rP.intVec X) Z ∧
      (∀ k < rQ.n, (rP.prodQ lP : ℤ) * Y k = X k - Z k) ∧
      PolyWritten rQ lQ rQ.qs c.q
        (modDownBoth rQ rP lQ lP isNTT c)
        (if isNTT then rQ.nttVec n Y else rQ.intVec Y) := by
  have h4 := K.hQ.four_le
  have hlQ := K.lQ
  have hlP := K.lP
  cases isNTT
  · have i1 : PolyWritten rQ lQ (fun u => 2 * rQ.qs u) c.q (rQ.invNttLazyLvl lQ c.q c.q) (rQ.intVec X) := by
      refine writeLvl_is hq.lvl (fun i hi => ?_)
      have V := K.hQ.subAt (show i < rQ.subs.length by omega)
      have h := hq.row i hi
      rw [K.hQ.deg] at h ⊢
      exact (invNttLazy_is V (by omega) (K.sQ _ (Ring.sub_mem (by omega)))
        (h.mono (by unfold Ring.qs; omega))).congr (coeffsOf_evals V (by omega) _)
    have i2 : PolyWritten rP lP (fun u => 2 * rP.qs u) c.p (rP.invNttLazyLvl lP c.p c.p) (rP.intVec X) := by
      refine writeLvl_is hp.lvl (fun i hi => ?_)
      have V := K.hP.subAt (show i < rP.subs.length by omega)
      have h := hp.row i hi
      rw [K.hP.deg] at h ⊢
      exact (invNttLazy_is V (by omega) (K.sP _ (Ring.sub_mem (by omega)))
        (h.mono (by unfold Ring.qs; omega))).congr (coeffsOf_evals V (by omega) _)
    obtain ⟨Z, Y, z, y, w⟩ := modDownQPtoQ_is K.hQ K.sQ K.hP K.sP K.hd K.lQ K.lP h32
      (i1.is.mono (fun u _ => by omega)) i2.is (p2Q := rQ.invNttLazyLvl lQ c.q c.q) i1.is.lvl
    exact ⟨Z, Y, z, y, ⟨w.is, w.len.trans i1.len, fun u hu => (w.above u hu).trans (i1.above u hu)⟩⟩
  · exact modDownQPtoQNTT_is K.hQ K.sQ K.hP K.sP K.hd K.lQ K.lP h32 (hov rfl)
      (hq.mono (fun u _ => by omega)) (hp.mono (fun u _ => by omega)) hq.lvl

theorem elt_of_is {isNTT : Bool} {p : Rows} {A : ℕ → ℕ} {Y : ℕ → ℤ}
    (h : PolyIs rQ lQ A p (if isNTT then rQ.nttVec n Y else rQ.intVec Y)) {u : ℕ} (hu : u ≤ lQ) :
    rQ.elt n isNTT p u = intR (2 ^ n) (rQ.qs u) Y := by
  have hl := K.lQ
  have h1 := h.row u hu
  rw [K.hQ.deg] at h1
  unfold Ring.elt
  cases isNTT
  · exact toR_congr h1.val
  · rw [← ofNtt_nttVec K.hQ (show u < rQ.subs.length by omega)]
    exact ofNtt_congr h1.val

omit K in
theorem blockRep_intR (hQ : rQ.Valid n) {i : ℕ} {v : ∀ u, ℕ → ZMod (rQ.sub u).q.toNat} {Z : ℕ → ℤ}
    (h : BlockRep rQ (lP + 1) (lQ + 1) i v Z) {u : ℕ} (hu : u ≤ lQ) (hi : u / (lP + 1) = i) :
    intR (2 ^ n) (rQ.qs u) Z = toR (2 ^ n) (rQ.qs u) (v u) := by
  refine toR_congr (fun k hk => ?_)
  rw [← hQ.deg] at hk
  have h1 := Nat.div_add_mod u (lP + 1)
  have h2 := Nat.mod_lt u (show 0 < lP + 1 by omega)
  rw [hi, Nat.mul_comm] at h1
  exact h.cong k hk u (by omega) (by omega) (by omega)

/-- both outputs before and after the division by `P` -/
theorem classic_core (h32 : lP < 32) (hov : lP < 16 ∨
      (∀ u ≤ lQ, 10 * rQ.qs u + 2 ^ 15 ≤ 2 ^ 64) ∧ ∀ u ≤ lP, 10 * rP.qs u + 2 ^ 15 ≤ 2 ^ 64)
    {beta : ℕ} (hb : beta = (lQ + lP + 1) / (lP + 1)) {evk : SwitchingKey} {sIn sOut : ℕ → ℤ} {e : ℕ → ℕ → ℤ}
    (hkey : IsSwitchKey n rQ rP lQ lP evk sIn sOut e) {dig : ℕ → PolyQP} {A : ℕ → ℕ → ℤ}
    {v : ∀ u, ℕ → ZMod (rQ.sub u).q.toNat}
    (hA : ∀ i, i * (lP + 1) ≤ lQ → BlockRep rQ (lP + 1) (lQ + 1) i v (A i) ∧
      PolyIs rQ lQ (fun u => digitBound (lP + 1) (rQ.qs u)) (dig i).q (rQ.nttVec n (A i)) ∧
      PolyIs rP lP (fun u => digitBound (lP + 1) (rP.qs u)) (dig i).p (rP.nttVec n (A i)))
    {c0 c1 : PolyQP} (h0q : lQ < c0.q.length) (h0p : lP < c0.p.length) (h1q : lQ < c1.q.length)
    (h1p : lP < c1.p.length) :
    let r0 := accAll rQ rP lQ lP beta (fun i => (evk.getD i default).1) dig c0
    let r1 := accAll rQ rP lQ lP beta (fun i => (evk.getD i default).2) dig c1
    (∃ X0 X1 : ℕ → ℤ, PolyWritten rQ lQ rQ.qs c0.q r0.q (rQ.nttVec n X0) ∧
      PolyWritten rP lP rP.qs c0.p r0.p (rP.nttVec n X0) ∧
      PolyWritten rQ lQ rQ.qs c1.q r1.q (rQ.nttVec n X1) ∧
      PolyWritten rP lP rP.qs c1.p r1.p (rP.nttVec n X1) ∧
      (∀ u ≤ lQ, intR (2 ^ n) (rQ.qs u) X0 + intR (2 ^ n) (rQ.qs u) X1 * intR (2 ^ n) (rQ.qs u) sOut
        = (rP.prodQ lP : Rq (2 ^ n) (rQ.qs u)) * toR (2 ^ n) (rQ.qs u) (v u) * intR (2 ^ n) (rQ.qs u) sIn
          + intR (2 ^ n) (rQ.qs u) (convSum (2 ^ n) beta A e)) ∧
      ∀ u ≤ lP, intR (2 ^ n) (rP.qs u) X0 + intR (2 ^ n) (rP.qs u) X1 * intR (2 ^ n) (rP.qs u) sOut
        = intR (2 ^ n) (rP.qs u) (convSum (2 ^ n) beta A e)) ∧
    ∀ isNTT : Bool,
      let md := modDownBoth rQ rP lQ lP isNTT
      ∃ (Y0 Y1 E : ℕ → ℤ),
        PolyWritten rQ lQ rQ.qs c0.q (md r0) (if isNTT then rQ.nttVec n Y0 else rQ.intVec Y0) ∧
        PolyWritten rQ lQ rQ.qs c1.q (md r1) (if isNTT then rQ.nttVec n Y1 else rQ.intVec Y1) ∧
        KeySwitched n rQ rP lQ lP (fun u => toR (2 ^ n) (rQ.qs u) (v u))
          (rQ.elt n isNTT (md r0)) (rQ.elt n isNTT (md r1)) sIn sOut e E := by
  intro r0 r1
  have hlQ := K.lQ
  have hlP := K.lP
  obtain ⟨B, A', hm, relQ, relP⟩ := hkey.ex
  have hbl : ∀ i, i < beta ↔ i * (lP + 1) ≤ lQ := fun i => by
    rw [hb, show lQ + lP + 1 = (lQ + 1) + (lP + 1) - 1 by omega, ceil_block (by omega)]
    omega
  have hb0 : 0 < beta := (hbl 0).2 (by omega)
  have hcond : ∀ u ≤ lQ, u / (lP + 1) < beta := by
    intro u hu
    rw [hbl]
    have := Nat.div_mul_le_self u (lP + 1)
    omega
  obtain ⟨q0, p0⟩ := accQP_is K hov hb0 (fun i hi => (hA i ((hbl i).1 hi)).2)
    (key := fun i => (evk.getD i default).1) (fun i hi => (hm i ((hbl i).1 hi)).1) h0q h0p
  obtain ⟨q1, p1⟩ := accQP_is K hov hb0 (fun i hi => (hA i ((hbl i).1 hi)).2)
    (key := fun i => (evk.getD i default).2) (fun i hi => (hm i ((hbl i).1 hi)).2) h1q h1p
  refine ⟨⟨_, _, q0, p0, q1, p1, fun u hu => ?_, fun u hu => ?_⟩, fun isNTT => ?_⟩
  · rw [intR_convSum, intR_convSum, intR_convSum, sum_mul, ← sum_add_distrib]
    have hi := hcond u hu
    have e1 : ∀ i ∈ range beta, intR (2 ^ n) (rQ.qs u) (A i) * intR (2 ^ n) (rQ.qs u) (B i)
        + intR (2 ^ n) (rQ.qs u) (A i) * intR (2 ^ n) (rQ.qs u) (A' i) * intR (2 ^ n) (rQ.qs u) sOut
        = intR (2 ^ n) (rQ.qs u) (A i) * intR (2 ^ n) (rQ.qs u) (e i)
          + if u / (lP + 1) = i then intR (2 ^ n) (rQ.qs u) (A i)
            * ((rP.prodQ lP : Rq (2 ^ n) (rQ.qs u)) * intR (2 ^ n) (rQ.qs u) sIn) else 0 := by
      intro i hi
      have h1 := relQ i ((hbl i).1 (mem_range.1 hi)) u hu
      rw [mul_assoc, ← mul_add, h1, mul_add]
      congr 1
      split
      · rfl
      · rw [mul_zero]
    rw [sum_congr rfl e1, sum_add_distrib, sum_ite_eq, if_pos (mem_range.2 hi),
      blockRep_intR K.hQ (hA _ ((hbl _).1 hi)).1 hu rfl]
    ring
  · rw [intR_convSum, intR_convSum, intR_convSum, sum_mul, ← sum_add_distrib]
    refine sum_congr rfl (fun i hi => ?_)
    rw [← relP i ((hbl i).1 (mem_range.1 hi)) u hu]
    ring
  · intro md
    have hov2 : isNTT = true → ∀ u ≤ lQ, ((lP + 8) / 8 + 6) * rQ.qs u ≤ 2 ^ 64 := by
      intro _ u hu
      have hlt := K.sQ _ (Ring.sub_mem (show u < rQ.subs.length by omega))
      unfold Ring.qs at *
      rcases hov with h | h
      · have : ((lP + 8) / 8 + 6) * (rQ.sub u).q.toNat ≤ 8 * (rQ.sub u).q.toNat :=
          Nat.mul_le_mul_right _ (by omega)
        omega
      · have h1 := h.1 u hu
        have : ((lP + 8) / 8 + 6) * (rQ.sub u).q.toNat ≤ 10 * (rQ.sub u).q.toNat :=
          Nat.mul_le_mul_right _ (by omega)
        omega
    obtain ⟨Z0, Y0, z0, y0, w0⟩ := modDown_both K h32 isNTT hov2 q0.is p0.is
    obtain ⟨Z1, Y1, z1, y1, w1⟩ := modDown_both K h32 isNTT hov2 q1.is p1.is
    rw [K.hQ.deg] at y0 y1
    obtain ⟨E, hE1, hE2⟩ := keyswitch_relation K.hQ K.hP K.hd K.lQ K.lP (Nat.succ_pos lP) hcond
      (fun i hi => relQ i ((hbl i).1 hi)) (fun i hi => relP i ((hbl i).1 hi))
      (fun i hi => (hA i ((hbl i).1 hi)).1) z0 z1 y0 y1
    refine ⟨Y0, Y1, E, ⟨w0.is, w0.len.trans q0.len, fun u hu => (w0.above u hu).trans (q0.above u hu)⟩,
      ⟨w1.is, w1.len.trans q1.len, fun u hu => (w1.above u hu).trans (q1.above u hu)⟩, A, Z0, Z1,
      fun i hi => ⟨fun k hk => (hA i hi).1.near k (by rw [K.hQ.deg]; exact hk),
        fun u hu hui => blockRep_intR K.hQ (hA i hi).1 hu hui⟩,
      fun k hk => z0.near k (by rw [K.hP.deg]; exact hk),
      fun k hk => z1.near k (by rw [K.hP.deg]; exact hk), by rw [← hb]; exact hE1, fun u hu => ?_⟩
    rw [elt_of_is K w0.is hu, elt_of_is K w1.is hu]
    exact hE2 u hu

end

section
variable {n : ℕ} {rQ rP : Ring} {lQ lP : ℕ} (K : KeyRings n rQ rP lQ lP) (hq : rQ.subs.length ≤ 2 ^ 20)
  (hp : rP.subs.length ≤ 2 ^ 20)
include K hq hp

theorem ceil_lvl : ceilDivF (lQ + 1) (lP + 1) = (lQ + lP + 1) / (lP + 1) := by
  have hlQ := K.lQ
  have hlP := K.lP
  rw [ceilDivF_eq (by omega) (by omega) (by omega)]
  congr 1; omega

/-- the digits of `DecomposeNTT` -/
theorem digits_is (h32 : lP < 32) (hov : lP < 16 ∨
      (∀ u ≤ lQ, 10 * rQ.qs u + 2 ^ 15 ≤ 2 ^ 64) ∧ ∀ u ≤ lP, 10 * rP.qs u + 2 ^ 15 ≤ 2 ^ 64)
    (isNTT : Bool) {cx : Rows} {w : ∀ u, ℕ → ZMod (rQ.sub u).q.toNat} (hc : PolyIs rQ lQ rQ.qs cx w) :
    ∃ (v : ∀ u, ℕ → ZMod (rQ.sub u).q.toNat) (A : ℕ → ℕ → ℤ),
      (∀ u ≤ lQ, toR (2 ^ n) (rQ.qs u) (v u) = rQ.elt n isNTT cx u) ∧
      ∀ i, i * (lP + 1) ≤ lQ → BlockRep rQ (lP + 1) (lQ + 1) i v (A i) ∧
        PolyIs rQ lQ (fun u => digitBound (lP + 1) (rQ.qs u))
          (((newKeySwitcher rQ rP).decomposeNTT lQ lP (lP + 1) isNTT cx).getD i default).q (rQ.nttVec n (A i)) ∧
        PolyIs rP lP (fun u => digitBound (lP + 1) (rP.qs u))
          (((newKeySwitcher rQ rP).decomposeNTT lQ lP (lP + 1) isNTT cx).getD i default).p (rP.nttVec n (A i)) := by
  have hlQ := K.lQ
  have hlP := K.lP
  have hce := ceil_lvl K hq hp
  obtain ⟨v, b1, b2, b3⟩ := bothForms_is (rP := rP) K.hQ K.sQ K.lQ isNTT hc
  have hd : ∀ i, ∃ Z : ℕ → ℤ, i * (lP + 1) ≤ lQ → BlockRep rQ (lP + 1) (lQ + 1) i v Z ∧
      PolyIs rQ lQ (fun u => digitBound (lP + 1) (rQ.qs u))
        (((newKeySwitcher rQ rP).decomposeNTT lQ lP (lP + 1) isNTT cx).getD i default).q (rQ.nttVec n Z) ∧
      PolyIs rP lP (fun u => digitBound (lP + 1) (rP.qs u))
        (((newKeySwitcher rQ rP).decomposeNTT lQ lP (lP + 1) isNTT cx).getD i default).p (rP.nttVec n Z) := by
    intro i
    by_cases hi : i * (lP + 1) ≤ lQ
    · obtain ⟨Z, hZ, hw⟩ := decomposeSingleNTT_is K hq hp h32 hov hi b1 b2
      obtain ⟨w1, w2⟩ := hw (newKeySwitcher rQ rP).newPolyQP
        (by show _ < (newPoly _ _).length; rw [length_newPoly]; exact hlQ)
        (by show _ < (newPoly _ _).length; rw [length_newPoly]; exact hlP)
      refine ⟨Z, fun _ => ⟨hZ, ?_⟩⟩
      have e : ((newKeySwitcher rQ rP).decomposeNTT lQ lP (lP + 1) isNTT cx).getD i default
          = (newDecomposer rQ rP).decomposeSingleNTT lQ lP (lP + 1) i
          ((newKeySwitcher rQ rP).bothForms lQ isNTT cx).1 ((newKeySwitcher rQ rP).bothForms lQ isNTT cx).2
          (newKeySwitcher rQ rP).newPolyQP :=
        getD_map_range' _ _ _ (by
          rw [hce, show lQ + lP + 1 = (lQ + 1) + (lP + 1) - 1 by omega]
          exact (ceil_block (by omega)).2 (by omega))
      rw [e]
      exact ⟨w1.is, w2.is⟩
    · exact ⟨0, fun h => absurd h hi⟩
  choose A hA using hd
  exact ⟨v, A, b3, hA⟩

end

theorem KeySwitched.congr {n : ℕ} {rQ rP : Ring} {lQ lP : ℕ} {a a' d0 d1 : ∀ u, Rq (2 ^ n) (rQ.qs u)}
    {sIn sOut : ℕ → ℤ} {e : ℕ → ℕ → ℤ} {E : ℕ → ℤ} (h : KeySwitched n rQ rP lQ lP a d0 d1 sIn sOut e E)
    (ha : ∀ u ≤ lQ, a u = a' u) : KeySwitched n rQ rP lQ lP a' d0 d1 sIn sOut e E := by
  obtain ⟨A, Z0, Z1, h1, h2, h3, h4, h5⟩ := h
  exact ⟨A, Z0, Z1, fun i hi => ⟨(h1 i hi).1, fun u hu hui => ((h1 i hi).2 u hu hui).trans (ha u hu)⟩, h2, h3, h4,
    fun u hu => by rw [h5 u hu, ha u hu]⟩

end FastKsw
