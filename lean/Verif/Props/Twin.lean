import Verif.Proof.TwinAll
import Verif.Props.Json
import Verif.Model.EasyParse

/-!
# C71: the error type does not change what is parsed

`parse` and `easy_parse` run the same program with different errors.  On complete input both give the same value and the same rest, or
both fail; a parse that is called by hand also ends with the same commitment, at the same place and in the same partial state.
-/

namespace Verif

set_option linter.unusedSectionVars false

variable {S : Strm} {E : ErrOps S.Tok S.Rng S.Pos} {convS : S.SErr → E.SErr} {conv : S.Err → E.Err}
variable {σ α : Type} {p : Parser S σ α} {q : Parser (S.withErrors E convS conv) σ α}

/-- **C71.**  One call of the parser, in both modes and from every partial state. -/
theorem C71_run (hw : ∀ i, S.isPartial i = false) (hc : ∀ e, E.isEoiS (convS e) = S.E.isEoiS e) (h : Twins S E convS conv p q)
    (m : Bool) (i : S.Input) (s : σ) :
    (p.run m i s).res.Twin (q.run m i s).res ∧ (p.run m i s).inp = (q.run m i s).inp ∧ (p.run m i s).st = (q.run m i s).st :=
  (twin_of hw hc h).run m i s

/-- **C71.**  The partial states begin alike. -/
theorem C71_init (hw : ∀ i, S.isPartial i = false) (hc : ∀ e, E.isEoiS (convS e) = S.E.isEoiS e) (h : Twins S E convS conv p q) :
    p.init = q.init := (twin_of hw hc h).init

/-- **C71.**  A whole parse gives the same value and the same rest, or fails both times. -/
theorem C71_parse (hw : ∀ i, S.isPartial i = false) (hc : ∀ e, E.isEoiS (convS e) = S.E.isEoiS e) (h : Twins S E convS conv p q)
    (i : S.Input) : Parser.ParsedTwin (p.parse i) (q.parse i) := by
  have ht := (twin_of hw hc h).stream i
  unfold Parser.parse
  revert ht
  generalize p.stream i = x
  generalize q.stream i = y
  obtain ⟨a, j⟩ := x
  obtain ⟨b, k⟩ := y
  rintro ⟨ht, hj⟩
  dsimp only at ht hj
  subst hj
  cases ht
  · exact .ok _ _
  · exact .ok _ _
  · exact .err _ _
  · exact .err _ _
  · exact .abort _

/-- **C71.**  In particular a value is given by one exactly if by the other. -/
theorem C71_accepts (hw : ∀ i, S.isPartial i = false) (hc : ∀ e, E.isEoiS (convS e) = S.E.isEoiS e) (h : Twins S E convS conv p q)
    (i : S.Input) (v : α) (rest : S.Input) : p.parse i = .ok v rest ↔ q.parse i = .ok v rest := by
  have ht := C71_parse hw hc h i
  generalize p.parse i = x at ht ⊢
  generalize q.parse i = y at ht ⊢
  cases ht with
  | ok v' r => exact ⟨fun h => by cases h; rfl, fun h => by cases h; rfl⟩
  | err e e' => exact ⟨fun h => (by cases h), fun h => (by cases h)⟩
  | abort a => exact ⟨fun h => (by cases h), fun h => (by cases h)⟩

/-! ## `easy_parse` -/

/-- **C71.**  `easy_parse` instead of `parse`. -/
theorem C71_easy_parse [DecidableEq S.Tok] [DecidableEq S.Rng] {cmp : S.Pos → S.Pos → Ordering} {convS : S.SErr → Easy.Error S.Tok S.Rng}
    {conv : S.Err → Easy.Errors S.Tok S.Rng S.Pos} {q : Parser (easyS S cmp convS conv) σ α} (hw : ∀ i, S.isPartial i = false)
    (hc : ∀ e, (Easy.Errors.ops S.Tok S.Rng S.Pos cmp).isEoiS (convS e) = S.E.isEoiS e)
    (h : Twins S (Easy.Errors.ops S.Tok S.Rng S.Pos cmp) convS conv p q) (i : S.Input) :
    Parser.ParsedTwin (E := Easy.Errors.ops S.Tok S.Rng S.Pos cmp) (convS := convS) (conv := conv) (p.parse i) (easyParse q i) :=
  C71_parse hw hc h i

/-- **C71.**  The errors of slices, strings, readers and easy errors themselves keep their end of input status when they are made
into easy errors (an `io::Error` becomes `other`). -/
theorem C71_conversions {T R P : Type} [DecidableEq T] [DecidableEq R] (cmp : P → P → Ordering) (d : P) (text : String → String) :
    let E := Easy.Errors.ops T R P cmp
    (∀ e, E.isEoiS (UnexpectedParse.intoOtherS E e) = (UnexpectedParse.ops T R P d).isEoiS e) ∧
    (∀ e, E.isEoiS (StringStreamError.intoOtherS E e) = (StringStreamError.ops T R P d).isEoiS e) ∧
    (∀ e, E.isEoiS (ReadError.intoOtherS E (fun s => Easy.Error.other (text s)) e) = (ReadError.ops T R P d).isEoiS e) ∧
    (∀ e, E.isEoiS (Easy.Error.intoOtherS E e) = E.isEoiS e) := by
  refine ⟨fun e => ?_, fun e => ?_, fun e => ?_, fun e => ?_⟩ <;> cases e <;> rfl

/-! ## The JSON parser -/

section Json
variable [DecidableEq S.Tok] (U : Unicode) (C : Chars S)

/-- The characters of the tokens. -/
def Chars.withErrors (E : ErrOps S.Tok S.Rng S.Pos) (convS : S.SErr → E.SErr) (conv : S.Err → E.Err) : Chars (S.withErrors E convS conv) :=
  ⟨C.chr, C.tok, C.chr_tok, C.tok_chr⟩

private theorem same_lex (h : Twins S E convS conv p q) : Twins S E convS conv (Json.lex U C p) (Json.lex U (C.withErrors E convS conv) q) :=
  .skip h (.expected _ _ (.skipMany (.expected _ _ (.satisfy _))))

private theorem same_char (c : Char) : Twins S E convS conv (Json.char C c) (Json.char (S := S.withErrors E convS conv) (C.withErrors E convS conv) c) :=
  .token _

private theorem same_lexChar (c : Char) : Twins S E convS conv (Json.lex U C (Json.char C c))
    (Json.lex U (C.withErrors E convS conv) (Json.char (S := S.withErrors E convS conv) (C.withErrors E convS conv) c)) :=
  same_lex U C (same_char C c)

private theorem same_digit : Twins S E convS conv (Json.digit U C) (Json.digit U (C.withErrors E convS conv)) := .expected _ _ (.satisfy _)

private theorem same_integer : Twins S E convS conv (Json.integer U C) (Json.integer U (C.withErrors E convS conv)) :=
  .expected _ _ (.map _ (same_lex U C (.many1 (same_digit U C))))

private theorem same_map {β : Type} {f g : α → β} (h : Twins S E convS conv p q) (hf : ∀ x, f x = g x) : Twins S E convS conv (map p f) (map q g) := by
  obtain rfl : f = g := funext hf
  exact .map f h

private theorem same_signed : Twins S E convS conv (Json.signed U C) (Json.signed (S := S.withErrors E convS conv) U (C.withErrors E convS conv)) :=
  .map _ (.tuple (.optional (same_char C '-')) (.cons (.or (.map _ (same_char C '0')) (.map _ (same_integer U C))) .nil))

private theorem same_mantissa : Twins S E convS conv (Json.mantissa U C) (Json.mantissa (S := S.withErrors E convS conv) U (C.withErrors E convS conv)) :=
  .map _ (.tuple (same_signed U C) (.cons (.with (.optional (same_char C '.')) (.map _ (.many (same_digit U C)))) .nil))

private theorem same_exp : Twins S E convS conv (Json.exp U C) (Json.exp (S := S.withErrors E convS conv) U (C.withErrors E convS conv)) :=
  .with (.satisfy _) (.tuple (.optional (same_char C '-')) (.cons (same_integer U C) .nil))

private theorem same_number : Twins S E convS conv (Json.number U C) (Json.number (S := S.withErrors E convS conv) U (C.withErrors E convS conv)) :=
  have h : Twins S E convS conv (pair (Json.mantissa U C) (optional (Json.exp U C)))
      (pair (Json.mantissa (S := S.withErrors E convS conv) U (C.withErrors E convS conv)) (optional (Json.exp (S := S.withErrors E convS conv) U (C.withErrors E convS conv)))) :=
    .tuple (same_mantissa U C) (.cons (.optional (same_exp U C)) .nil)
  .expected _ _ (same_lex U C (same_map h fun x => by obtain ⟨_, _ | ⟨_, _, _⟩, _⟩ := x <;> rfl))

private theorem same_jsonChar (hw : ∀ i, S.isPartial i = false) (hc : ∀ e, E.isEoiS (convS e) = S.E.isEoiS e) :
    Twins S E convS conv (Json.jsonChar C) (Json.jsonChar (C.withErrors E convS conv)) := by
  refine .fnParser fun i => ?_
  have ha := twin_uncons (E := E) (convS := convS) (conv := conv) i
  have hb : ∀ j, LazyTwin (S := S) (E := E) ((Json.backSlashChar C).stream j) ((Json.backSlashChar (C.withErrors E convS conv)).stream j) := fun j => (twin_of (conv := conv) hw hc (.satisfyMap _ : Twins S E convS conv (Json.backSlashChar C) (Json.backSlashChar (C.withErrors E convS conv)))).stream j
  generalize h1 : S.unconsP i = x at ha
  generalize h2 : (S.withErrors E convS conv).unconsP i = y at ha
  have h1 : (any S).lazy i = x := h1
  have h2 : (any (S.withErrors E convS conv)).lazy i = y := h2
  simp only [h1, h2]
  obtain ⟨a, j⟩ := x
  obtain ⟨b, k⟩ := y
  obtain ⟨ht, hj⟩ := ha
  obtain rfl : j = k := hj
  have ht : a.Twin b := ht
  have hbj := hb j
  generalize (Json.backSlashChar C).stream j = u at hbj ⊢
  generalize (Json.backSlashChar (C.withErrors E convS conv)).stream j = v at hbj ⊢
  obtain ⟨u, k⟩ := u
  obtain ⟨v, l⟩ := v
  obtain ⟨hu, hk⟩ := hbj
  obtain rfl : k = l := hk
  have hu : u.Twin v := hu
  cases ht with
  | commitErr => exact ⟨.commit _ _, rfl⟩
  | peekErr => exact ⟨.peek _ _, rfl⟩
  | abort => exact ⟨.abort _, rfl⟩
  | _ t =>
    dsimp only [ParseResult.toStd]
    have e : (C.withErrors E convS conv).chr t = C.chr t := rfl
    rw [e]
    split
    · cases hu <;> exact ⟨by constructor, rfl⟩
    · split <;> exact ⟨by constructor, rfl⟩

private theorem same_string (hw : ∀ i, S.isPartial i = false) (hc : ∀ e, E.isEoiS (convS e) = S.E.isEoiS e) :
    Twins S E convS conv (Json.jsonString U C) (Json.jsonString (S := S.withErrors E convS conv) U (C.withErrors E convS conv)) :=
  .expected _ _ (.between (same_char C '"') (same_lexChar U C '"') (.many (same_jsonChar C hw hc)))

private theorem same_word (s : List Char) (v : Json.Value) : Twins S E convS conv (Json.lex U C (map (Json.str C s) fun _ => v))
    (Json.lex U (C.withErrors E convS conv) (map (Json.str (C.withErrors E convS conv) s) fun _ => v)) :=
  same_lex U C (.map _ (.expected _ _ (.map _ (.tokensCmp _ _))))

/-- **C71.**  The JSON parser is the same program for every error type. -/
theorem C71_json_same (hw : ∀ i, S.isPartial i = false) (hc : ∀ e, E.isEoiS (convS e) = S.E.isEoiS e) : ∀ n : Nat,
    Twins S E convS conv (Json.value U C n) (Json.value (S := S.withErrors E convS conv) U (C.withErrors E convS conv) n)
  | 0 => .bottom _ _ _
  | n + 1 =>
    have ih := C71_json_same hw hc n
    .parserMacroUnit (.choice (.cons (.map _ (same_string U C hw hc))
      (.cons (.expected _ _ (.map _ (.between (same_lexChar U C '{') (same_lexChar U C '}')
        (.sepBy (.map _ (.tuple (same_string U C hw hc) (.cons (same_lexChar U C ':') (.cons ih .nil)))) (same_lexChar U C ',')))))
      (.cons (.map _ (.between (same_lexChar U C '[') (same_lexChar U C ']') (.sepBy ih (same_lexChar U C ','))))
      (.cons (.map _ (same_number U C))
      (.cons (same_word U C _ _) (.cons (same_word U C _ _) (.last (same_word U C _ _)))))))))

end Json

/-- The easy errors of `&str`. -/
abbrev easyStrE : ErrOps Char (List Char) Nat := Easy.Errors.ops Char (List Char) Nat compare

/-- **C71.**  So `json_value().easy_parse(text)` gives the value that the text stands for (compare `C61_json_str`). -/
theorem C71_json (U : Unicode) {v : Json.Value} {w rest : List Char} (h : Json.Writes v w) (hr : Json.Stop U rest.head?) {n : Nat}
    (hn : w.length ≤ n) (at' : Nat) :
    easyParse (A := strS) (cmp := compare) (convS := StringStreamError.intoOtherS easyStrE) (conv := StringStreamError.intoOther easyStrE (0 : Nat))
      (Json.value U (Json.text.withErrors easyStrE _ _) n) ⟨at', w ++ rest⟩ = .ok v ⟨at' + Str.byteLen w, rest⟩ :=
  (C71_accepts (fun _ => rfl) (C71_conversions compare (0 : Nat) id).2.1 (C71_json_same U Json.text (fun _ => rfl)
    (C71_conversions compare (0 : Nat) id).2.1 n) _ _ _).1 (C61_json_str U h hr hn at')

/-! ## On partial input the errors matter -/

private abbrev B := partialS (sliceS Nat 1)
private abbrev EB := Easy.Errors.ops Nat (List Nat) Nat compare

/-- **C71, what is missing.**  On partial input `attempt` asks an error whether it is an unexpected end of input, and easy errors answer by
their text: the same program, whose second parser fails with `unexpected("end of input")`, backtracks with the one error type and
commits with the other. -/
theorem C71_partial_fails :
    let p := attempt (pair (any B) (unexpected B Nat (.static "end of input")))
    let q := attempt (pair (any (B.withErrors EB (UnexpectedParse.intoOtherS EB) (UnexpectedParse.intoOther EB (0 : Nat))))
      (unexpected _ Nat (.static "end of input")))
    Twins B EB (UnexpectedParse.intoOtherS EB) (UnexpectedParse.intoOther EB (0 : Nat)) p q ∧
    (∃ e, (p.run true ⟨0, [1, 2]⟩ p.init).res = .peekErr e) ∧ ∃ e, (q.run true ⟨0, [1, 2]⟩ q.init).res = .commitErr e :=
  ⟨.attempt (.tuple .any (.cons (.unexpected _ _ _) .nil)), ⟨_, rfl⟩, ⟨_, rfl⟩⟩

/-! ## Examples -/

/-- Two branches, the second after backtracking, and the end of the input. -/
private abbrev prog (S : Strm) [DecidableEq S.Tok] (a b : S.Tok) :=
  skip (or (attempt (skip (token S a) (token S b))) (expected (token S a) (.static "a"))) (eof S)

private abbrev toEasy := UnexpectedParse.intoOtherS EB
private abbrev toEasys := UnexpectedParse.intoOther EB (0 : Nat)

private theorem prog_same : Twins (sliceS Nat 1) EB toEasy toEasys (prog (sliceS Nat 1) (1 : Nat) (2 : Nat)) (prog ((sliceS Nat 1).withErrors EB toEasy toEasys) (1 : Nat) (2 : Nat)) :=
  .skip (.or (.attempt (.skip (@Twins.token (sliceS Nat 1) _ _ _ _ (1 : Nat)) (@Twins.token (sliceS Nat 1) _ _ _ _ (2 : Nat)))) (.expected _ _ (@Twins.token (sliceS Nat 1) _ _ _ _ (1 : Nat)))) .eof

example (i) : Parser.ParsedTwin ((prog (sliceS Nat 1) (1 : Nat) (2 : Nat)).parse i)
    ((prog ((sliceS Nat 1).withErrors EB toEasy toEasys) (1 : Nat) (2 : Nat)).parse i) :=
  C71_parse (fun _ => rfl) (C71_conversions compare (0 : Nat) id).1 prog_same i
example : (prog (sliceS Nat 1) (1 : Nat) (2 : Nat)).parse ⟨0, [1]⟩ = .ok 1 ⟨1, []⟩ := rfl
example : (prog ((sliceS Nat 1).withErrors EB toEasy toEasys) (1 : Nat) (2 : Nat)).parse ⟨0, [1]⟩ = .ok 1 ⟨1, []⟩ := rfl
example : (prog (sliceS Nat 1) (1 : Nat) (2 : Nat)).parse ⟨0, [1, 3]⟩ = .err .unexpected := rfl

end Verif
