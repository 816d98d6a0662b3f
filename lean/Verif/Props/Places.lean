import Verif.Proof.PlacesRange
import Verif.Props.Positions

/-!
# C47: errors are reported at places of the input (and C40: `tokens` reports them where it started)
-/

namespace Verif

variable {σ α : Type}

private theorem addError_position {T R P : Type} [DecidableEq T] [DecidableEq R] (a : Easy.Errors T R P)
    (e : Easy.Error T R) : (a.addError e).position = a.position := by
  unfold Easy.Errors.addError
  split <;> rfl

private theorem addErrors_position {T R P : Type} [DecidableEq T] [DecidableEq R] (es : List (Easy.Error T R))
    (a : Easy.Errors T R P) : (es.foldl Easy.Errors.addError a).position = a.position := by
  induction es generalizing a with
  | nil => rfl
  | cons e es ih => rw [List.foldl_cons, ih, addError_position]

/-- `easy::Errors` records positions. -/
theorem easy_placing {T R P : Type} [DecidableEq T] [DecidableEq R] (cmp : P → P → Ordering) :
    (Easy.Errors.ops T R P cmp).Placing where
  empty := fun _ => rfl
  fromError := fun _ _ => rfl
  setPosition := fun _ _ => rfl
  add := addError_position
  merge := fun a b => by
    change (Easy.Errors.merge cmp a b).position = _ ∨ (Easy.Errors.merge cmp a b).position = _
    unfold Easy.Errors.merge
    split
    · exact .inr rfl
    · exact .inl rfl
    · exact .inl (addErrors_position _ _)
  clearExpected := fun _ => rfl
  setExpected := fun t x f hf => (addError_position _ _).trans (hf t)

section
variable {A : Strm} [DecidableEq A.Tok] [DecidableEq A.Rng] {cmp : A.Pos → A.Pos → Ordering}
  {convS : A.SErr → Easy.Error A.Tok A.Rng} {conv : A.Err → Easy.Errors A.Tok A.Rng A.Pos}
  {Q : RangeOps A} {toks : A.Rng → List A.Tok} {w : A.Tok → Nat} {Own : A.Pos → Prop}

local notation "Z" => easyS A cmp convS conv
local notation "ZR" => convertR A.decPos id (Easy.Errors.ops A.Tok A.Rng A.Pos cmp) convS conv Q

/-- **C47.**  When `parse` fails, the reported position is that of a place at or after the start, reached by reading
tokens: it is never made up, nor a place behind the start — except for the positions that the user's own functions
put into their errors. -/
theorem C47_parse (hA : A.Lawful) (hQ : Q.Lawful toks w) {p : Parser Z σ α} (hp : Placed ZR Own p) (i : A.Input)
    {e : Easy.Errors A.Tok A.Rng A.Pos} (h : p.parse i = .err e) :
    Own e.position ∨ ∃ ts k, A.Reads i ts k ∧ A.position k = e.position := by
  have hl := (hp.places (convert_lawful hA) (easy_placing cmp) (convertR_lawful hQ)).stream i
  have key : Strm.Spot Z Own i e.position := by
    unfold Parser.parse at h
    revert hl h
    generalize p.stream i = r
    obtain ⟨r, j⟩ := r
    intro h hl
    cases r <;> cases h
    · exact hl
    · exact hl
  rcases key with key | ⟨ts, k, hk, he⟩
  · exact .inl key
  · exact .inr ⟨ts, k, convert_reads.1 hk, he⟩

/-- **C47** for resumed parsing, with any state left by earlier calls: each call's error is at a place of the input
it was given. -/
theorem C47_resume (hA : A.Lawful) (hQ : Q.Lawful toks w) {p : Parser Z σ α} (hp : Placed ZR Own p) (i : A.Input)
    (s : σ) {e : Easy.Errors A.Tok A.Rng A.Pos} (h : (p.parseWithState i s).1 = .error (.inr e)) :
    Own e.position ∨ ∃ ts k, A.Reads i ts k ∧ A.position k = e.position := by
  have hp := hp.places (convert_lawful hA) (easy_placing cmp) (convertR_lawful hQ)
  have hl : Strm.Located Z Own i (p.streamPartial i s).res :=
    describing_located (S := Z) (convert_lawful hA) (easy_placing cmp) hp.addError (hp.moves.run false i s) (hp.run false i s)
  have key : Strm.Spot Z Own i e.position := by
    unfold Parser.parseWithState at h
    revert hl h
    generalize p.streamPartial i s = r
    obtain ⟨r, j, s'⟩ := r
    intro h hl
    cases r <;> cases h
    · exact hl
    · exact hl
  rcases key with key | ⟨ts, k, hk, he⟩
  · exact .inl key
  · exact .inr ⟨ts, k, convert_reads.1 hk, he⟩

end

/-- No user function makes up positions. -/
abbrev noOwn {P : Type} : P → Prop := fun _ => False

/-- `easy::Stream` over a `position::Stream` over a `&str`. -/
abbrev easySource (isNl : Char → Bool) (cmp : SourcePosition → SourcePosition → Ordering) : Strm :=
  convertS (sourceStr isNl) (sourceStr isNl).decPos id (Easy.Errors.ops Char (List Char) SourcePosition cmp)
    (StringStreamError.intoOtherS (Easy.Errors.ops Char (List Char) SourcePosition cmp))
    (StringStreamError.intoOther (Easy.Errors.ops Char (List Char) SourcePosition cmp) .start)

abbrev easySourceR (isNl : Char → Bool) (cmp : SourcePosition → SourcePosition → Ordering) :
    RangeOps (easySource isNl cmp) :=
  convertR (sourceStr isNl).decPos id (Easy.Errors.ops Char (List Char) SourcePosition cmp)
    (StringStreamError.intoOtherS (Easy.Errors.ops Char (List Char) SourcePosition cmp))
    (StringStreamError.intoOther (Easy.Errors.ops Char (List Char) SourcePosition cmp) .start) (sourceStrR isNl)

/-- **C47** on texts: the line and column of an error are those of the end of some prefix of the text. -/
theorem C47_source (isNl : Char → Bool) (cmp : SourcePosition → SourcePosition → Ordering)
    {p : Parser (easySource isNl cmp) σ α} (hp : Placed (easySourceR isNl cmp) noOwn p) (text : List Char) (ptr : Nat)
    {e : Easy.Errors Char (List Char) SourcePosition}
    (h : p.parse (⟨ptr, text⟩, SourcePosition.start) = .err e) :
    ∃ consumed rest, text = consumed ++ rest ∧ e.position = textPosition isNl consumed := by
  rcases C47_parse (A := sourceStr isNl) (Q := sourceStrR isNl) (position_lawful str_lawful (fun _ _ => rfl))
    (positionR_lawful strR_lawful (sourcePositioner_lawful _ _ _ _)) hp _ h with h | ⟨ts, k, hk, he⟩
  · cases h
  · obtain ⟨h1, h2⟩ := position_reads.1 hk
    exact ⟨ts, k.1.data, (str_reads.1 h1).1, he.symm.trans (h2.trans (source_foldl isNl ts))⟩

/-- `easy::Stream` over a `position::Stream` with an `IndexPositioner` over a slice. -/
abbrev easyIndex (T : Type) [DecidableEq T] (sz : Nat) : Strm :=
  convertS (indexSlice T sz) (indexSlice T sz).decPos id (Easy.Errors.ops T (List T) Nat compare)
    (UnexpectedParse.intoOtherS (Easy.Errors.ops T (List T) Nat compare))
    (UnexpectedParse.intoOther (Easy.Errors.ops T (List T) Nat compare) (0 : Nat))

abbrev easyIndexR (T : Type) [DecidableEq T] (sz : Nat) : RangeOps (easyIndex T sz) :=
  convertR (indexSlice T sz).decPos id (Easy.Errors.ops T (List T) Nat compare)
    (UnexpectedParse.intoOtherS (Easy.Errors.ops T (List T) Nat compare))
    (UnexpectedParse.intoOther (Easy.Errors.ops T (List T) Nat compare) (0 : Nat)) (indexSliceR T sz)

/-- **C47** on slices: the index reported by an error is at most the length of the slice. -/
theorem C47_index (T : Type) [DecidableEq T] (sz : Nat) {p : Parser (easyIndex T sz) σ α}
    (hp : Placed (easyIndexR T sz) noOwn p) (text : List T) (ptr : Nat) {e : Easy.Errors T (List T) Nat}
    (h : p.parse (⟨ptr, text⟩, (0 : Nat)) = .err e) : e.position ≤ text.length := by
  rcases C47_parse (A := indexSlice T sz) (Q := indexSliceR T sz)
    (position_lawful (slice_lawful T sz) (fun _ _ => rfl))
    (positionR_lawful (sliceR_lawful T sz) (indexPositioner_lawful _ _ _ _ (fun _ => rfl))) hp _ h with
    h | ⟨ts, k, hk, he⟩
  · cases h
  · obtain ⟨h1, h2⟩ := position_reads.1 hk
    have h3 : e.position = ts.length := he.symm.trans (h2.trans ((index_foldl ts 0).trans (Nat.zero_add _)))
    have h4 : text = ts ++ k.1.data := (slice_reads.1 h1).1
    rw [h3, h4, List.length_append]
    exact Nat.le_add_right _ _

/-- **C40.**  Wherever the mismatch (or the end of input) is, `tokens`, `tokens_cmp` and `string` report it at the
position where they started. -/
theorem C40_error_position {S : Strm} {τ : Type} (hE : S.E.Placing) (cmp : τ → S.Tok → Bool)
    (x : Info S.Tok S.Rng) (ts : List τ) (v : α) (m : Bool) (i : S.Input) :
    S.ErrorAt (S.position i) ((tokens S cmp x ts).run m i ()).res ∧
    S.ErrorAt (S.position i) ((tokensCmp S ts cmp).run m i ()).res ∧
    S.ErrorAt (S.position i) ((stringCmp S ts cmp x v).run m i ()).res := by
  have hmap : ∀ {α β : Type} {r : ParseResult α S.Err} (f : α → β), S.ErrorAt (S.position i) r →
      S.ErrorAt (S.position i) (r.map f) := by
    intro α β r f h
    cases r <;> exact h
  have h := fun bad hb => tokensLoop_located hE cmp (S.position i) bad hb ts false i
  exact ⟨hmap _ (h _ fun t => (hE.add _ _).trans (hE.fromError _ _)), hmap _ (h _ fun t => hE.fromError _ _),
    hmap _ (hmap _ (h _ fun t => hE.fromError _ _))⟩

/-! ## Examples -/

private abbrev Y := easySource (· = '\n') fun a b => (compare a.line b.line).then (compare a.column b.column)

/-- `token('a').skip(token('\n')).with(string("bc"))` -/
private abbrev grammar :=
  «with» (skip (token Y 'a') (token Y '\n')) (stringCmp Y ['b', 'c'] (· = ·) (.static "bc") ())

private theorem grammar_placed : Placed (easySourceR (· = '\n') _) noOwn grammar :=
  .with (.skip (.token _) (.token _)) (.stringCmp _ _ _ _)

example : (match grammar.parse (⟨0, ['a', '\n', 'b', 'd']⟩, .start) with
    | .err e => some (e.position.line, e.position.column)
    | _ => none) = some (2, 1) := rfl

example : (match grammar.parse (⟨0, ['a', 'b']⟩, .start) with
    | .err e => some (e.position.line, e.position.column)
    | _ => none) = some (1, 2) := rfl

example {e} (h : grammar.parse (⟨0, ['a', '\n', 'b', 'd']⟩, .start) = .err e) :
    ∃ consumed rest, ['a', '\n', 'b', 'd'] = consumed ++ rest ∧ e.position = textPosition (· = '\n') consumed :=
  C47_source _ _ grammar_placed _ 0 h

/-- Deviation: over error types that do not record positions the reported position is always the same. -/
example : (match (token (sourceStr (· = '\n')) 'a').parse (⟨0, ['\n']⟩, .start) with
    | .err e => some ((sourceStr (· = '\n')).E.position e)
    | _ => none) = some .start := rfl

end Verif
