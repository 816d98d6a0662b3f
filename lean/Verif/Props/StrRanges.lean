import Verif.Proof.StrLaws
import Verif.Model.Range
import Verif.Spec.Answer

/-!
# C27: ranges of a `&str` never split a character
-/

namespace Verif

set_option linter.unusedVariables false

/-- The byte index `n` of a text lies between two characters (or at one of its ends). -/
def Boundary (cs : List Char) (n : Nat) : Prop := ∃ a b, cs = a ++ b ∧ (utf8 a).length = n

/-- **C27.**  The check of the code, which looks at one byte only, finds exactly the character boundaries. -/
theorem C27_boundary (cs : List Char) (n : Nat) : Str.isCharBoundary cs n = true ↔ Boundary cs n :=
  Str.isCharBoundary_iff

/-- **C27.**  Taking `n` bytes never panics (the outer option).  It takes `n` bytes that are whole
characters where there is a boundary; otherwise it reports that there is no boundary or, where the text is
too short, the end of the input. -/
theorem C27_uncons_range (n : Nat) (cs : List Char) :
    (∃ a b, cs = a ++ b ∧ (utf8 a).length = n ∧ Str.uncRange n cs = some (.ok (a, b))) ∨
    (¬Boundary cs n ∧ n < (utf8 cs).length ∧ Str.uncRange n cs = some (.error .characterBoundary)) ∨
    (¬Boundary cs n ∧ (utf8 cs).length < n ∧ Str.uncRange n cs = some (.error .eoi)) := by
  rcases Str.uncRange_spec n cs with ⟨a, b, h1, h2, h3⟩ | ⟨h1, h2⟩
  · exact .inl ⟨a, b, h1, h2, h3⟩
  · have hb : ¬Boundary cs n := fun ⟨a, b, h3, h4⟩ => h1 a b h3 h4
    have hne : (utf8 cs).length ≠ n := fun h => hb ⟨cs, [], by simp, h⟩
    right
    by_cases hle : n ≤ (utf8 cs).length
    · refine .inl ⟨hb, by omega, ?_⟩
      rw [h2]; exact congrArg (fun e => some (Except.error e)) (if_pos hle)
    · refine .inr ⟨hb, by omega, ?_⟩
      rw [h2]; exact congrArg (fun e => some (Except.error e)) (if_neg hle)

/-- **C27.**  `take_while` and the like never panic, however the predicate behaves (it may keep state and answer
differently each time): the text is split between two characters.  `pre` has been examined before. -/
theorem C27_uncons_while {ς : Type} (f : ς → Char → Bool × ς) (pre cs : List Char) (s : ς) :
    ∃ a b s', Str.uncWhile f (pre ++ cs) cs s = some (pre ++ a, b, s') ∧ cs = a ++ b :=
  ⟨_, _, _, Str.uncWhile_eq f pre cs s, (List.take_append_drop _ _).symm⟩

/-- **C27.**  `take(n)` on a `&str`: where it succeeds, the result and the rest together are the text, and
the result has `n` bytes; otherwise the failure is not committed. -/
theorem C27_take (n : Nat) (i : Str) :
    (∃ r rest, i.data = r ++ rest ∧ (utf8 r).length = n ∧
      (take strR n).answer i = .ok (decide (n ≠ 0)) r ⟨i.ptr + n, rest⟩) ∨
    (¬Boundary i.data n ∧ (take strR n).answer i = .soft) := by
  have e : (take strR n).answer i = Answer.of (strR.unconsRangeP n i).1 (strR.unconsRangeP n i).2 := rfl
  rw [e]
  have hx : strR.unconsRange n i = (match Str.uncRange n i.data with
    | some (.ok (r, rest)) => (.ok r, i.after r rest)
    | some (.error e) => (.error e, i)
    | none => (.error StringStreamError.characterBoundary, i)) := rfl
  rcases C27_uncons_range n i.data with ⟨a, b, h1, h2, h3⟩ | ⟨h1, _, h3⟩ | ⟨h1, _, h3⟩
  · rw [h3] at hx
    refine .inl ⟨a, b, h1, h2, ?_⟩
    simp only [RangeOps.unconsRangeP, hx]
    have : i.after a b = ⟨i.ptr + n, b⟩ := by rw [← h2]; rfl
    rw [this]
    by_cases hn : n = 0
    · simp [hn, Answer.of]
    · simp [hn, Answer.of]
  · rw [h3] at hx
    refine .inr ⟨h1, ?_⟩
    simp only [RangeOps.unconsRangeP, hx]
    rfl
  · rw [h3] at hx
    refine .inr ⟨h1, ?_⟩
    simp only [RangeOps.unconsRangeP, hx]
    rfl

/-! ## Examples -/

-- `é` takes two bytes
example : (utf8 ['a', 'é', 'b']).length = 4 := rfl
example : (take strR 3).answer ⟨0, ['a', 'é', 'b']⟩ = .ok true ['a', 'é'] ⟨3, ['b']⟩ := rfl
example : (take strR 2).answer ⟨0, ['a', 'é', 'b']⟩ = .soft := rfl
example : Str.uncRange 2 ['a', 'é', 'b'] = some (.error .characterBoundary) := rfl
example : Str.uncRange 5 ['a', 'é', 'b'] = some (.error .eoi) := rfl
example : ¬Boundary ['a', 'é', 'b'] 2 := fun h => by
  have := (C27_boundary _ _).2 h
  exact absurd this (by decide)

end Verif
