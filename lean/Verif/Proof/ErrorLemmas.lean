import Verif.Spec.Errors

namespace Verif.Easy

variable {T R P : Type} [DecidableEq T] [DecidableEq R]

theorem info_eqv_iff (a b : Info T R) : Info.eqv a b = true ↔ contentOf a = contentOf b := by
  cases a <;> cases b <;> simp [Info.eqv, contentOf]

theorem eqv_iff (a b : Error T R) : a.eqv b = true ↔ Same a b := by
  constructor
  · intro h
    cases a <;> cases b <;> simp only [Error.eqv, Bool.false_eq_true, info_eqv_iff] at h
    · exact .unexpected h
    · exact .expected h
    · exact .message h
  · intro h
    cases h <;> simpa [Error.eqv, info_eqv_iff]

omit [DecidableEq T] [DecidableEq R]

theorem Same.symm {a b : Error T R} (h : Same a b) : Same b a := by
  cases h with
  | unexpected h => exact .unexpected h.symm
  | expected h => exact .expected h.symm
  | message h => exact .message h.symm

theorem Same.trans {a b c : Error T R} (h : Same a b) (h' : Same b c) : Same a c := by
  cases h <;> cases h' <;> constructor <;> exact Eq.trans ‹_› ‹_›

variable [DecidableEq T] [DecidableEq R]

theorem addError_of_same {s : Errors T R P} {e x : Error T R} (hx : x ∈ s.errors) (h : Same x e) :
    s.addError e = s := by
  unfold Errors.addError
  rw [if_neg]
  simp only [List.all_eq_true, Bool.not_eq_true', Classical.not_forall]
  exact ⟨x, hx, by simp [(eqv_iff x e).2 h]⟩

theorem addError_of_new {s : Errors T R P} {e : Error T R} (h : ∀ x ∈ s.errors, ¬ Same x e) :
    s.addError e = { s with errors := s.errors ++ [e] } := by
  unfold Errors.addError
  rw [if_pos]
  simp only [List.all_eq_true, Bool.not_eq_true']
  intro x hx
  have := h x hx
  rw [← eqv_iff] at this
  simpa using this

theorem addError_cases (s : Errors T R P) (e : Error T R) :
    ((∃ x ∈ s.errors, Same x e) ∧ s.addError e = s) ∨
    ((∀ x ∈ s.errors, ¬ Same x e) ∧ s.addError e = { s with errors := s.errors ++ [e] }) := by
  by_cases h : ∃ x ∈ s.errors, Same x e
  · obtain ⟨x, hx, hs⟩ := h
    exact .inl ⟨⟨x, hx, hs⟩, addError_of_same hx hs⟩
  · have h' : ∀ x ∈ s.errors, ¬ Same x e := fun x hx hs => h ⟨x, hx, hs⟩
    exact .inr ⟨h', addError_of_new h'⟩

theorem addError_position (s : Errors T R P) (e : Error T R) :
    (s.addError e).position = s.position := by
  rcases addError_cases s e with ⟨_, h⟩ | ⟨_, h⟩ <;> rw [h]

/-- Adding several errors. -/
theorem addAll_spec (es : List (Error T R)) (s : Errors T R P) :
    ∃ added, es.foldl Errors.addError s = { s with errors := s.errors ++ added } ∧
      added.Sublist es ∧ (∀ e ∈ es, Listed (s.errors ++ added) e) ∧
      (added.Pairwise fun a b => ¬ Same a b) ∧ ∀ a ∈ s.errors, ∀ b ∈ added, ¬ Same a b := by
  induction es generalizing s with
  | nil => exact ⟨[], by simp, .slnil, by simp, .nil, by simp⟩
  | cons e es ih =>
    simp only [List.foldl_cons]
    rcases addError_cases s e with ⟨⟨x, hx, hs⟩, h⟩ | ⟨hn, h⟩
    · rw [h]
      obtain ⟨added, h1, h2, h3, h4, h5⟩ := ih s
      refine ⟨added, h1, h2.cons e, ?_, h4, h5⟩
      intro y hy
      rcases List.mem_cons.1 hy with rfl | hy
      · exact .inr ⟨x, List.mem_append_left _ hx, hs⟩
      · exact h3 y hy
    · rw [h]
      obtain ⟨added, h1, h2, h3, h4, h5⟩ := ih { s with errors := s.errors ++ [e] }
      refine ⟨e :: added, by simp [h1], h2.cons_cons e, ?_, ?_, ?_⟩
      · intro y hy
        rcases List.mem_cons.1 hy with rfl | hy
        · exact .inl (by simp)
        · simpa using h3 y hy
      · refine List.pairwise_cons.2 ⟨fun b hb => ?_, h4⟩
        exact h5 e (by simp) b hb
      · intro a ha b hb
        rcases List.mem_cons.1 hb with rfl | hb
        · exact hn a ha
        · exact h5 a (by simp [ha]) b hb

/-- Adding errors that are all listed already changes nothing. -/
theorem addAll_of_same (es : List (Error T R)) (s : Errors T R P)
    (h : ∀ e ∈ es, ∃ x ∈ s.errors, Same x e) : es.foldl Errors.addError s = s := by
  induction es with
  | nil => rfl
  | cons e es ih =>
    obtain ⟨x, hx, hs⟩ := h e (by simp)
    rw [List.foldl_cons, addError_of_same hx hs]
    exact ih fun y hy => h y (by simp [hy])

theorem addAll_errors_irrel (es : List (Error T R)) (s t : Errors T R P)
    (h : s.errors = t.errors) :
    (es.foldl Errors.addError s).errors = (es.foldl Errors.addError t).errors := by
  induction es generalizing s t with
  | nil => exact h
  | cons e es ih =>
    simp only [List.foldl_cons]
    apply ih
    rcases addError_cases s e with ⟨⟨x, hx, hs⟩, h1⟩ | ⟨hn, h1⟩
    · rw [h1, addError_of_same (h ▸ hx) hs, h]
    · rw [h1, addError_of_new (h ▸ hn), h]

/-- Adding `es` to a set that already contains (or says) everything in `b`, after having added `es`
to `b`, is the same as adding them directly. -/
theorem addAll_addAll (es : List (Error T R)) (a b : Errors T R P) :
    (es.foldl Errors.addError b).errors.foldl Errors.addError a =
      es.foldl Errors.addError (b.errors.foldl Errors.addError a) := by
  induction es generalizing b with
  | nil => rfl
  | cons e es ih =>
    rw [List.foldl_cons, List.foldl_cons, ih]
    congr 1
    rcases addError_cases b e with ⟨⟨x, hx, hs⟩, h⟩ | ⟨hn, h⟩
    · rw [h]
      obtain ⟨added, h1, _, h3, _, _⟩ := addAll_spec b.errors a
      rw [h1]
      rcases h3 x hx with hl | ⟨y, hy, hys⟩
      · exact (addError_of_same (s := { a with errors := a.errors ++ added }) hl hs).symm
      · exact (addError_of_same (s := { a with errors := a.errors ++ added }) hy (hys.trans hs)).symm
    · rw [h, List.foldl_append]
      rfl

end Verif.Easy
