import Verif.Props.ErrorMerge
import Verif.Proof.Grows
import Verif.Model.Wrap

/-!
# C30: `expected` replaces exactly the parser's own expectations
-/

namespace Verif

open Easy

/-- `b` says the same as `a` and something more, at the same place. -/
def Easy.Extends {T R P : Type} (a b : Errors T R P) : Prop :=
  b.position = a.position ∧ ∃ own, b.errors = a.errors ++ own

private theorem easy_growth {T R P : Type} [DecidableEq T] [DecidableEq R] (cmp : P → P → Ordering) :
    Growth (Errors.ops T R P cmp) Extends where
  refl := fun e => ⟨rfl, [], by simp⟩
  trans := by
    rintro a b c ⟨h1, o1, h2⟩ ⟨h3, o2, h4⟩
    exact ⟨h3.trans h1, o1 ++ o2, by rw [h4, h2, List.append_assoc]⟩
  add := fun (e : Errors T R P) (x : Error T R) => by
    refine ⟨addError_position e x, ?_⟩
    rcases addError_cases e x with ⟨_, h⟩ | ⟨_, h⟩
    · exact ⟨[], by simp [Errors.ops, h]⟩
    · exact ⟨[x], by simp [Errors.ops, h]⟩
  label := fun (t : Tracked (Errors T R P)) (x : Error T R) f h => by
    obtain ⟨h1, own, h2⟩ := h
    change Extends t.error (Errors.setExpected t x f).error
    simp only [Errors.setExpected]
    refine ⟨(addError_position _ _).trans h1, ?_⟩
    rw [h2, List.take_left, List.drop_left]
    rcases addError_cases { (f t).error with errors := t.error.errors ++ own.filter (!·.isExpected) } x with
      ⟨_, h⟩ | ⟨_, h⟩
    · exact ⟨own.filter (!·.isExpected), by rw [h]⟩
    · exact ⟨own.filter (!·.isExpected) ++ [x], by rw [h]; simp⟩

variable {A : Strm} [DecidableEq A.Tok] [DecidableEq A.Rng] {cmp : A.Pos → A.Pos → Ordering}
  {convS : A.SErr → Error A.Tok A.Rng} {conv : A.Err → Errors A.Tok A.Rng A.Pos}
  {R : RangeOps (easyS A cmp convS conv)} {σ α : Type}

/-- **C30.**  Whatever parser one builds, describing it only adds to an easy error: what was there stays, at
the same position. -/
theorem C30_only_adds {p : Parser (easyS A cmp convS conv) σ α} (h : Built R p)
    (t : Tracked (Errors A.Tok A.Rng A.Pos)) : Extends t.error (p.addError t).error :=
  Built.grows (S := easyS A cmp convS conv) (easy_growth cmp) h t

/-- **C30.**  So for every parser `p` built from the library's parsers: if `p` would add the errors `own`,
then `p.expected(x)` adds those of `own` that are not expectations and then `x`, unless `x` was already
said before `p` was asked. -/
theorem C30_expected {p : Parser (easyS A cmp convS conv) σ α} (h : Built R p) (x : Info A.Tok A.Rng)
    (t : Tracked (Errors A.Tok A.Rng A.Pos)) :
    ∃ own : List (Error A.Tok A.Rng), (p.addError t).error.errors = t.error.errors ++ own ∧
      ((∀ e ∈ t.error.errors, ¬ Same e (.expected x)) →
        ((expected p x).addError t).error.errors =
          t.error.errors ++ own.filter (!·.isExpected) ++ [.expected x]) ∧
      ((∃ e ∈ t.error.errors, Same e (.expected x)) →
        ((expected p x).addError t).error.errors = t.error.errors ++ own.filter (!·.isExpected)) := by
  obtain ⟨_, own, h2⟩ := C30_only_adds h t
  refine ⟨own, h2, fun hn => ?_, fun he => ?_⟩
  · rcases C30_setExpected t x p.addError own h2 with ⟨h3, _⟩ | ⟨_, e, h4, h5⟩
    · exact h3
    · exact absurd h5 (hn e h4)
  · rcases C30_setExpected t x p.addError own h2 with ⟨_, h4⟩ | ⟨h3, _⟩
    · obtain ⟨e, h5, h6⟩ := he
      exact absurd h6 (h4 e (List.mem_append_left _ h5))
    · exact h3

/-- **C30.**  `silent` adds nothing at all. -/
theorem C30_silent (p : Parser (easyS A cmp convS conv) σ α) (t : Tracked (Errors A.Tok A.Rng A.Pos)) :
    (silent p).addError t = t := rfl

/-- **C30.**  The method `set_expected` of easy errors: the expectations are replaced by `x`, listed last; the other errors
stay as they were, in their order, at the same position. -/
theorem C30_method {T R P : Type} (e : Errors T R P) (x : Info T R) :
    (e.replaceExpected x).position = e.position ∧
    (e.replaceExpected x).errors.filter (!·.isExpected) = e.errors.filter (!·.isExpected) ∧
    (e.replaceExpected x).errors.filter (·.isExpected) = [.expected x] ∧
    (e.replaceExpected x).errors.getLast? = some (.expected x) := by
  refine ⟨rfl, ?_, ?_, ?_⟩ <;> simp [Errors.replaceExpected, Error.isExpected]

/-! ## Examples -/

private abbrev Z := easySliceS Nat 1
private abbrev ZR : RangeOps Z := convertR _ _ _ _ _ (sliceR Nat 1)

example (t : Tracked (Errors Nat (List Nat) Nat)) :=
  C30_expected (A := sliceS Nat 1) (R := ZR) (p := or (token Z 1) (token Z 2))
    (.or (.token (S := Z) (1 : Nat)) (.token (S := Z) (2 : Nat))) (.static "one or two") t
example : ((expected (or (token Z 1) (token Z 2)) (.static "one or two")).addError
    ⟨⟨0, [.unexpected (.token 7)]⟩, 1⟩).error.errors =
    [.unexpected (.token 7), .expected (.static "one or two")] := rfl
example : ((or (token Z 1) (token Z 2)).addError ⟨⟨0, [.unexpected (.token 7)]⟩, 1⟩).error.errors =
    [.unexpected (.token 7), .expected (.token 1), .expected (.token 2)] := rfl

end Verif
