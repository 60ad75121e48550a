import Verif.Model.KeygenCalls

/-!
# C55: key generation terminates
-/

namespace FastKsw

variable (rQ rP : Ring) (t : GenTape)

theorem returns_frlwe {c : Call} {res : KeyRes} (h : Returns rQ rP t .frlwe c res) : frlweDeclares c = false := by
  generalize hr : Recv.frlwe = r at h
  induction h with
  | fGenSecretKey _ _ ih => exact ih hr
  | fGenPublicKey _ _ ih => exact ih hr
  | promoted hd _ _ =>
    unfold dispatch at hd
    dsimp only at hd
    split at hd
    · cases hd
    · rename_i h
      exact Bool.eq_false_iff.2 h
  | genSecretKey => cases hr
  | genPublicKey => cases hr
  | genKeyPair => cases hr

/-- **C55 fails**: for all rings and all random numbers, `GenSecretKey` and `GenPublicKey` of `frlwe.KeyGenerator`
never return. -/
theorem C55_violated : (¬ ∃ res, Returns rQ rP t .frlwe .genSecretKey res) ∧
    ∀ sk, ¬ ∃ res, Returns rQ rP t .frlwe (.genPublicKey sk) res := by
  constructor
  · rintro ⟨res, h⟩
    exact Bool.noConfusion (returns_frlwe rQ rP t h)
  · rintro sk ⟨res, h⟩
    exact Bool.noConfusion (returns_frlwe rQ rP t h)

/-- **C55 (what holds).**  On the embedded generator, and for `GenKeyPair`, which is promoted from it, the calls return,
exactly one result.  Missing: `GenSecretKey` and `GenPublicKey` called on the outer generator. -/
theorem C55_embedded_partial :
    (∀ res, Returns rQ rP t .rlwe .genSecretKey res ↔ res = .sk (genSecretKey rQ rP t.s)) ∧
    (∀ sk res, Returns rQ rP t .rlwe (.genPublicKey sk) res ↔ res = .pk (genPublicKey rQ rP sk t.e t.a)) ∧
    ∀ res, Returns rQ rP t .frlwe .genKeyPair res ↔
      res = .pair (genSecretKey rQ rP t.s) (genPublicKey rQ rP (genSecretKey rQ rP t.s) t.e t.a) := by
  have h1 : ∀ res, Returns rQ rP t .rlwe .genSecretKey res ↔ res = .sk (genSecretKey rQ rP t.s) := by
    intro res
    constructor
    · intro h; cases h; rfl
    · rintro rfl; exact .genSecretKey
  have h2 : ∀ sk res, Returns rQ rP t .rlwe (.genPublicKey sk) res ↔
      res = .pk (genPublicKey rQ rP sk t.e t.a) := by
    intro sk res
    constructor
    · intro h; cases h; rfl
    · rintro rfl; exact .genPublicKey
  refine ⟨h1, h2, fun res => ?_⟩
  constructor
  · intro h
    cases h with
    | promoted _ h =>
      cases h with
      | genKeyPair ha hb =>
        have := (h1 _).1 ha
        injection this with this
        subst this
        have := (h2 _ _).1 hb
        injection this with this
        subst this
        rfl
  · rintro rfl
    exact .promoted rfl (.genKeyPair .genSecretKey .genPublicKey)

end FastKsw
