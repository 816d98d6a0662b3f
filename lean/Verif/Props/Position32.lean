import Verif.Model.Position32
import Verif.Props.Positions

/-!
# C75: positions in long texts
-/

namespace Verif

open SourcePosition

variable {T : Type}

private theorem fits (isNl : T → Bool) (ts : List T) (p : SourcePosition) (hl : p.line + ts.length ≤ maxI32)
    (hc : p.column + ts.length ≤ maxI32) (h1 : 1 + ts.length ≤ maxI32) :
    readChecked isNl p ts = some (ts.foldl (update isNl) p) ∧ readWrapping isNl p ts = ts.foldl (update isNl) p := by
  induction ts generalizing p with
  | nil => exact ⟨rfl, rfl⟩
  | cons t ts ih =>
    simp only [List.length_cons, Int.natCast_add, Int.natCast_one] at hl hc h1
    have h2 : ¬ p.column = maxI32 := by omega
    have h3 : ¬ p.line = maxI32 := by omega
    have e1 : updateChecked isNl p t = some (update isNl p t) := by
      unfold updateChecked update succChecked
      rw [if_neg h2, if_neg h3]
      cases isNl t <;> rfl
    have e2 : updateWrapping isNl p t = update isNl p t := by
      simp only [updateWrapping, update, succWrapping, if_neg h2, if_neg h3]
    have := ih (update isNl p t) (by unfold update; cases isNl t <;> simp <;> omega) (by unfold update; cases isNl t <;> simp <;> omega)
      (by omega)
    refine ⟨?_, ?_⟩
    · rw [readChecked, e1]
      exact this.1
    · rw [readWrapping, List.foldl_cons, e2]
      exact this.2

/-- **C75, partial.**  In a text of less than 2³¹ - 1 characters the position of the program, in both kinds of build, is the line
and the column.  (Missing: longer texts, see `C75_long_fails`.) -/
theorem C75_fits_partial (isNl : T → Bool) (text : List T) (h : text.length < 2147483647) :
    readChecked isNl start text = some (textPosition isNl text) ∧ readWrapping isNl start text = textPosition isNl text := by
  have := fits isNl text start (by simp [start, maxI32]; omega) (by simp [start, maxI32]; omega) (by simp [maxI32]; omega)
  rw [source_foldl] at this
  exact this

/-- On one line. -/
private theorem line (isNl : T → Bool) (t : T) (ht : isNl t = false) (n : Nat) (h : (n : Int) < maxI32) :
    readChecked isNl start (List.replicate n t) = some ⟨1, n + 1⟩ ∧ readWrapping isNl start (List.replicate n t) = ⟨1, n + 1⟩ := by
  have := C75_fits_partial isNl (List.replicate n t) (by simp [maxI32] at h ⊢; omega)
  have e : textPosition isNl (List.replicate n t) = ⟨1, n + 1⟩ := by
    have h1 : (List.replicate n t).countP isNl = 0 := by simp [List.countP_eq_zero, ht]
    have h2 : ((List.replicate n t).takeWhile fun x => !isNl x) = List.replicate n t := by
      simp [ht]
    simp only [textPosition, List.reverse_replicate, h1, h2, List.length_replicate]
    simp; omega
  rw [e] at this
  exact this

private theorem checked_append (isNl : T → Bool) (p : SourcePosition) (u v : List T) :
    readChecked isNl p (u ++ v) = (readChecked isNl p u).bind fun q => readChecked isNl q v := by
  induction u generalizing p with
  | nil => rfl
  | cons t ts ih =>
    rw [List.cons_append, readChecked, readChecked]
    cases updateChecked isNl p t with
    | none => rfl
    | some q => exact ih q

/-- **C75, violated.**  After 2³¹ - 1 characters on one line a build with overflow checks panics, and in a release build the column
is negative: the position is before that of the start of the text. -/
theorem C75_long_fails (isNl : T → Bool) (t : T) (ht : isNl t = false) :
    readChecked isNl start (List.replicate 2147483647 t) = none ∧
    readWrapping isNl start (List.replicate 2147483647 t) = ⟨1, -2147483648⟩ ∧
    SourcePosition.cmp (readWrapping isNl start (List.replicate 2147483647 t)) start = .lt := by
  have e : List.replicate 2147483647 t = List.replicate 2147483646 t ++ [t] := List.replicate_succ' (n := 2147483646)
  obtain ⟨h1, h2⟩ := line isNl t ht 2147483646 (by decide)
  have h3 : readWrapping isNl start (List.replicate 2147483647 t) = ⟨1, -2147483648⟩ := by
    rw [e, readWrapping, List.foldl_append]
    rw [readWrapping] at h2
    rw [h2]
    simp only [List.foldl_cons, List.foldl_nil, updateWrapping, ht, succWrapping, maxI32]
    rfl
  refine ⟨?_, h3, ?_⟩
  · rw [e, checked_append, h1]
    simp only [Option.bind_some, readChecked, updateChecked, succChecked, maxI32]
    rfl
  · rw [h3]
    decide

-- the hypotheses are met
example : readChecked (· = '\n') start ['a', '\n', 'b', 'c'] = some ⟨2, 3⟩ := by decide
example : readChecked (· = '\n') start ['a', '\n', 'b', 'c'] = some (textPosition (· = '\n') ['a', '\n', 'b', 'c']) :=
  (C75_fits_partial _ _ (by decide)).1
example := C75_long_fails (· = '\n') 'a' (by decide)

end Verif
