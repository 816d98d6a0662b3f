import Verif.Props.Report

/-!
# C50: mapping the tokens and ranges of an error
-/

namespace Verif.Easy

variable {T R P U V Q : Type}

private theorem info_id (i : Info T R) : Errors.mapInfo id id i = i := by cases i <;> rfl

private theorem error_id (x : Error T R) : Errors.mapError id id x = x := by
  cases x <;> simp only [Errors.mapError, info_id]

private theorem errors_id : (Errors.mapError id id : Error T R → Error T R) = id := funext error_id

private theorem error_comp {U' V' : Type} (f : T → U) (f' : U → U') (g : R → V) (g' : V → V') (x : Error T R) :
    Errors.mapError f' g' (Errors.mapError f g x) = Errors.mapError (f' ∘ f) (g' ∘ g) x := by
  have h : ∀ i : Info T R, Errors.mapInfo f' g' (Errors.mapInfo f g i) = Errors.mapInfo (f' ∘ f) (g' ∘ g) i :=
    fun i => by cases i <;> rfl
  cases x <;> simp only [Errors.mapError, h]

/-- **C50.**  Mapping with the identity changes nothing: an error that was given as a literal stays one. -/
theorem C50_map_id (e : Errors T R P) : e.mapToken id = e ∧ e.mapRange id = e ∧ e.mapPosition id = e := by
  refine ⟨?_, ?_, rfl⟩
  · simp only [Errors.mapToken, errors_id, List.map_id]
  · simp only [Errors.mapRange, errors_id, List.map_id]

/-- **C50.**  Mapping twice is mapping once with both functions; the order of the kinds of mapping does not matter. -/
theorem C50_map_twice {U' V' Q' : Type} (f : T → U) (f' : U → U') (g : R → V) (g' : V → V') (k : P → Q) (k' : Q → Q')
    (e : Errors T R P) :
    (e.mapToken f).mapToken f' = e.mapToken (f' ∘ f) ∧ (e.mapRange g).mapRange g' = e.mapRange (g' ∘ g) ∧
    (e.mapPosition k).mapPosition k' = e.mapPosition (k' ∘ k) ∧
    (e.mapToken f).mapRange g = (e.mapRange g).mapToken f ∧ (e.mapToken f).mapPosition k = (e.mapPosition k).mapToken f ∧
    (e.mapRange g).mapPosition k = (e.mapPosition k).mapRange g := by
  refine ⟨?_, ?_, rfl, ?_, rfl, rfl⟩
  all_goals
    simp only [Errors.mapToken, Errors.mapRange, List.map_map, Errors.mk.injEq, true_and]
    apply List.map_congr_left
    intro x _
    simp only [Function.comp_apply, error_comp]
    rfl

/-- **C50.**  The number of causes is kept, and a token or range that was unexpected or expected is so after the mapping,
as the one it is mapped to; a text stays the same text. -/
theorem C50_map_causes (f : T → U) (g : R → V) (k : P → Q) (e : Errors T R P) :
    let e' := ((e.mapToken f).mapRange g).mapPosition k
    e'.position = k e.position ∧ e'.errors.length = e.errors.length ∧
    ∀ n (h : n < e.errors.length) (h' : n < e'.errors.length),
      (∀ t, e.errors[n] = .unexpected (.token t) → e'.errors[n] = .unexpected (.token (f t))) ∧
      (∀ t, e.errors[n] = .expected (.token t) → e'.errors[n] = .expected (.token (f t))) ∧
      (∀ t, e.errors[n] = .message (.token t) → e'.errors[n] = .message (.token (f t))) ∧
      (∀ r, e.errors[n] = .unexpected (.range r) → e'.errors[n] = .unexpected (.range (g r))) ∧
      (∀ r, e.errors[n] = .expected (.range r) → e'.errors[n] = .expected (.range (g r))) ∧
      (∀ r, e.errors[n] = .message (.range r) → e'.errors[n] = .message (.range (g r))) ∧
      (∀ s, e.errors[n] = .unexpected (.static s) → e'.errors[n] = .unexpected (.static s)) ∧
      (∀ s, e.errors[n] = .expected (.static s) → e'.errors[n] = .expected (.static s)) ∧
      (∀ s, e.errors[n] = .message (.static s) → e'.errors[n] = .message (.static s)) ∧
      (∀ s, e.errors[n] = .unexpected (.format s) → e'.errors[n] = .unexpected (.format s)) ∧
      (∀ s, e.errors[n] = .expected (.format s) → e'.errors[n] = .expected (.format s)) ∧
      (∀ s, e.errors[n] = .message (.format s) → e'.errors[n] = .message (.format s)) ∧
      ∀ s, e.errors[n] = .other s → e'.errors[n] = .other s := by
  refine ⟨rfl, by simp [Errors.mapToken, Errors.mapRange, Errors.mapPosition], fun n h h' => ?_⟩
  simp only [Errors.mapToken, Errors.mapRange, Errors.mapPosition, List.getElem_map]
  refine ⟨?_, ?_, ?_, ?_, ?_, ?_, ?_, ?_, ?_, ?_, ?_, ?_, ?_⟩ <;> intro x hx <;> rw [hx] <;> rfl

/-! ## Example -/

example : ((⟨3, [.unexpected (.token 'x'), .expected (.static "digit"), .expected (.range "let")]⟩ :
    Errors Char String Nat).mapToken Char.toNat).mapRange String.length =
    ⟨3, [.unexpected (.token 120), .expected (.static "digit"), .expected (.range 3)]⟩ := by decide +kernel

end Verif.Easy
