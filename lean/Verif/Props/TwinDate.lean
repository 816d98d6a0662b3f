import Verif.Props.Twin
import Verif.Props.Date

/-!
# C71: `easy_parse` in the program `examples/date.rs`, with its panics
-/

namespace Verif

set_option linter.unusedSectionVars false

variable {S : Strm} {E : ErrOps S.Tok S.Rng S.Pos} {convS : S.SErr → E.SErr} {conv : S.Err → E.Err}
variable {σ α β : Type} {p : Parser S σ α} {q : Parser (S.withErrors E convS conv) σ α}

private theorem twin_mapOrPanic (f : α → Option β) (h : TwinP p q) : TwinP (mapOrPanic p f) (mapOrPanic q f) :=
  .ofMode h.init h.count fun m i s => by
    dsimp only
    twin h.run m i s : p.run m i s, q.run m i s
    case commitOk a => cases f a <;> twins
    case peekOk a => cases f a <;> twins
    all_goals twins

variable [DecidableEq S.Tok] (U : Unicode) (C : Chars S)

private theorem twin_char (c : Char) : TwinP (E := E) (convS := convS) (conv := conv) (Json.char C c) (Json.char (S := S.withErrors E convS conv) (C.withErrors E convS conv) c) :=
  .ofLazy rfl rfl fun i => twin_satisfyImpl _ i

private theorem twin_digit : TwinP (E := E) (convS := convS) (conv := conv) (Json.digit U C) (Json.digit U (C.withErrors E convS conv)) :=
  .expected _ _ (.ofLazy rfl rfl fun i => twin_satisfyImpl _ i)

open Date in
private theorem twin_twoDigits : TwinP (E := E) (convS := convS) (conv := conv) (twoDigits U C) (twoDigits (S := S.withErrors E convS conv) U (C.withErrors E convS conv)) :=
  twin_mapOrPanic _ (.pair (twin_digit U C) (twin_digit U C))

open Date in
private theorem twin_timeZone : TwinP (E := E) (convS := convS) (conv := conv) (timeZone U C) (timeZone (S := S.withErrors E convS conv) U (C.withErrors E convS conv)) :=
  .or (.map _ (twin_char C 'Z')) (.map _ (.tuple (.sliceChoice _ (.cons (twin_char C '-') (.cons (twin_char C '+') .nil)))
    (.cons (twin_twoDigits U C) (.cons (.optional (.with (.optional (twin_char C ':')) (twin_twoDigits U C))) .nil))))

open Date in
private theorem twin_date : TwinP (E := E) (convS := convS) (conv := conv) (date U C) (date (S := S.withErrors E convS conv) U (C.withErrors E convS conv)) :=
  twin_mapOrPanic _ (.tuple (.many (twin_digit U C)) (.cons (twin_char C '-') (.cons (twin_twoDigits U C) (.cons (twin_char C '-')
    (.cons (twin_twoDigits U C) .nil)))))

open Date in
private theorem twin_time : TwinP (E := E) (convS := convS) (conv := conv) (time U C) (time (S := S.withErrors E convS conv) U (C.withErrors E convS conv)) :=
  .map _ (.tuple (twin_twoDigits U C) (.cons (twin_char C ':') (.cons (twin_twoDigits U C) (.cons (twin_char C ':')
    (.cons (twin_twoDigits U C) (.cons (twin_timeZone U C) .nil))))))

open Date in
private theorem twin_dateTime : TwinP (E := E) (convS := convS) (conv := conv) (dateTime U C) (dateTime (S := S.withErrors E convS conv) U (C.withErrors E convS conv)) :=
  .map _ (.tuple (twin_date U C) (.cons (twin_char C 'T') (.cons (twin_time U C) .nil)))

open Date in
/-- **C71.**  The parser of dates gives the same value and rest with every error type, fails with every one or panics with every one. -/
theorem C71_date (i : S.Input) :
    Parser.ParsedTwin (E := E) (convS := convS) (conv := conv) ((dateTime U C).parse i)
      ((dateTime (S := S.withErrors E convS conv) U (C.withErrors E convS conv)).parse i) := by
  have ht := (twin_dateTime (E := E) (convS := convS) (conv := conv) U C).stream i
  unfold Parser.parse
  revert ht
  generalize (dateTime U C).stream i = x
  generalize (dateTime (S := S.withErrors E convS conv) U (C.withErrors E convS conv)).stream i = y
  obtain ⟨a, j⟩ := x
  obtain ⟨b, k⟩ := y
  rintro ⟨ht, hj⟩
  dsimp only at ht hj
  subst hj
  cases ht
  · exact .ok _ _
  · exact .ok _ _
  · exact .err _ _
  · exact .err _ _
  · exact .abort _

open Date in
/-- **C71.**  So `easy_parse` of a date gives what the text stands for (compare `C65_date_time`), -/
theorem C71_date_time (hS : S.Lawful) {i : S.Input} (hi : S.isPartial i = false) (x : DateTime) (k : S.Input) :
    (dateTime (S := S.withErrors E convS conv) U (C.withErrors E convS conv)).parse i = .ok x k ↔
      ∃ w, S.Reads i (w.map C.tok) k ∧ IsDateTime ((S.ahead k).map C.chr) w x := by
  rw [← C65_date_time (U := U) hS hi]
  have ht := C71_date (E := E) (convS := convS) (conv := conv) U C i
  generalize (dateTime U C).parse i = x at ht ⊢
  generalize (dateTime (S := S.withErrors E convS conv) U (C.withErrors E convS conv)).parse i = y at ht ⊢
  cases ht with
  | ok v' r => exact ⟨fun h => by cases h; rfl, fun h => by cases h; rfl⟩
  | err e e' => exact ⟨fun h => (by cases h), fun h => (by cases h)⟩
  | abort a => exact ⟨fun h => (by cases h), fun h => (by cases h)⟩

open Date in
/-- **C71.**  and panics exactly on the years that do not fit (compare `C65_panics`). -/
theorem C71_date_panics (hS : S.Lawful) {i : S.Input} (hi : S.isPartial i = false) (a : Abort) :
    (dateTime (S := S.withErrors E convS conv) U (C.withErrors E convS conv)).parse i = .abort a ↔
      a = .panic ∧ ∃ w year m d k, S.Reads i (w.map C.tok) k ∧ IsDay w year m d ∧ ¬ Fits year := by
  rw [← C65_panics (U := U) hS hi]
  have ht := C71_date (E := E) (convS := convS) (conv := conv) U C i
  generalize (dateTime U C).parse i = x at ht ⊢
  generalize (dateTime (S := S.withErrors E convS conv) U (C.withErrors E convS conv)).parse i = y at ht ⊢
  cases ht with
  | ok v' r => exact ⟨fun h => (by cases h), fun h => (by cases h)⟩
  | err e e' => exact ⟨fun h => (by cases h), fun h => (by cases h)⟩
  | abort a => exact ⟨fun h => by cases h; rfl, fun h => by cases h; rfl⟩

private def noTables : Unicode := ⟨fun _ => false, fun _ => false, fun _ => false, fun _ => false, fun _ => false⟩

/-- A date, with easy errors. -/
example : (easyParse (A := strS) (cmp := compare) (convS := StringStreamError.intoOtherS easyStrE) (conv := StringStreamError.intoOther easyStrE (0 : Nat))
      (Date.dateTime noTables (Date.chars.withErrors easyStrE _ _)) ⟨0, "2015-08-02T18:54:42+02".toList⟩ matches
      .ok ⟨⟨2015, 8, 2⟩, ⟨18, 54, 42, 120⟩⟩ ⟨_, []⟩) = true := by decide +kernel

end Verif
