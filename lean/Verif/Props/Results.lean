import Verif.Model.Result

/-!
# C35: the algebra of results and commitment
-/

namespace Verif

open ParseResult

variable {α β γ E E' : Type}

/-- **C35.**  `ParseResult::and_then` is associative. -/
theorem C35_andThen_assoc (r : ParseResult α E) (f : α → ParseResult β E)
    (g : β → ParseResult γ E) :
    (r.andThen f).andThen g = r.andThen fun a => (f a).andThen g := by
  cases r with
  | commitOk a =>
    simp only [andThen]
    cases f a with
    | commitOk b => simp only; cases g b <;> rfl
    | peekOk b => rfl
    | commitErr e => rfl
    | peekErr e => rfl
    | abort a => rfl
  | peekOk a => rfl
  | commitErr e => rfl
  | peekErr e => rfl
  | abort a => rfl

/-- **C35.**  `PeekOk` is a left unit of `and_then`. -/
theorem C35_peekOk_andThen (a : α) (f : α → ParseResult β E) : (peekOk a).andThen f = f a := rfl

/-- **C35.**  `PeekOk` is a right unit of `and_then`. -/
theorem C35_andThen_peekOk (r : ParseResult α E) : r.andThen peekOk = r := by
  cases r <;> rfl

/-- **C35.**  `map` is `and_then` with `PeekOk`: it changes neither commitment nor failure. -/
theorem C35_map_eq_andThen (r : ParseResult α E) (f : α → β) :
    r.map f = r.andThen fun a => peekOk (f a) := by
  cases r <;> rfl

theorem C35_map_id (r : ParseResult α E) : r.map id = r := by cases r <;> rfl

theorem C35_map_map (r : ParseResult α E) (f : α → β) (g : β → γ) :
    (r.map f).map g = r.map fun a => g (f a) := by cases r <;> rfl

/-- **C35.**  `map_err` changes neither values nor commitment, and commutes with `map`. -/
theorem C35_mapErr_map (r : ParseResult α E) (f : α → β) (g : E → E') :
    (r.mapErr g).map f = (r.map f).mapErr g := by cases r <;> rfl

theorem C35_isOk_mapErr (r : ParseResult α E) (g : E → E') : (r.mapErr g).isOk = r.isOk := by
  cases r <;> rfl

/-- **C35.**  A result survives the conversion to `Result` and back. -/
theorem C35_ofStd_toStd (r : ParseResult α E) : ofStd r.toStd = r := by cases r <;> rfl

/-- **C35.**  A `Result` survives the conversion to a `ParseResult` and back, except that a committed
error's offset becomes 1. -/
theorem C35_toStd_ofStd (r : StdResult α E) :
    (ofStd r).toStd =
      match r with
      | .err (.commit e) => .err (.commit ⟨e.error, 1⟩)
      | r => r := by
  cases r with
  | ok v c => cases c <;> rfl
  | err e => cases e <;> rfl
  | abort a => rfl

/-- **C35.**  `Commit::merge` is associative … -/
theorem C35_merge_assoc (a b c : Commit α) : (a.merge b).merge c = a.merge (b.merge c) := by
  cases a <;> cases b <;> cases c <;> rfl

/-- … with any `Peek` as left unit, … -/
theorem C35_peek_merge (a : α) (c : Commit α) : (Commit.peek a).merge c = c := rfl

/-- … keeps the second value, and is peeking exactly if both are. -/
theorem C35_merge_spec (a b : Commit α) :
    (a.merge b).intoInner = b.intoInner ∧ (a.merge b).isPeek = (a.isPeek && b.isPeek) := by
  cases a <;> cases b <;> exact ⟨rfl, rfl⟩

/-- **C35.**  A continuation run through `combine_commit` commits if the start did and never turns a
success into a failure or conversely. -/
theorem C35_combineCommit (c : Commit α) (f : α → ParseResult β E) :
    combineCommit c f =
      (match c with | .commit a => (commitOk a : ParseResult α E) | .peek a => peekOk a).andThen f := by
  cases c with
  | peek a => rfl
  | commit a => simp only [combineCommit, andThen]; cases f a <;> rfl

/-- **C35.**  `combine` on `Result`s agrees with `combine_commit` on `ParseResult`s. -/
theorem C35_combine (c : Commit α) (f : α → StdResult β E) :
    ofStd (c.combine f) = combineCommit c fun a => ofStd (f a) := by
  cases c with
  | peek a => rfl
  | commit a =>
    simp only [Commit.combine, combineCommit]
    cases f a with
    | ok v c => cases c <;> rfl
    | err e => cases e <;> rfl
    | abort a => rfl

/-- A continuation that peeks after a commit: the whole commits; one that fails without committing
after a commit: the whole fails committed. -/
example : (commitOk 1 : ParseResult Nat String).andThen (fun n => peekOk (n + 1)) = commitOk 2 := rfl
example : (commitOk 1 : ParseResult Nat String).andThen (fun _ => (peekErr ⟨"e", 3⟩ : ParseResult Nat String)) =
    commitErr "e" := rfl

end Verif
