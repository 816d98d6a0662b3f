import Verif.Props.OneToken
import Verif.Props.Json

/-!
# C69: the JSON parser needs to see one character ahead only

The parser of C61 contains a function that calls other parsers by hand; nothing in it goes back by more than one token.
-/

namespace Verif

set_option linter.unusedSectionVars false

section Json
variable {σ τ α β T Rg P : Type} [DecidableEq P] {E : ErrOps T Rg P} {υ γ : Type}

/-- A program that goes back by at most one token on every stream. -/
private structure OneToken (p : (X : Impl E) → Parser X.strm σ α) : Prop where
  program : Program p
  near : ∀ (X : Impl E) (W : Leash X.strm), W.Near (p X)

private theorem of_straight {p : (X : Impl E) → Parser X.strm σ α} (h : Straight p) : OneToken p :=
  ⟨fun M => h.same M, fun _ W => h.near W⟩

variable {p : (X : Impl E) → Parser X.strm σ α} {q : (X : Impl E) → Parser X.strm τ β}

private theorem one_map (h : OneToken p) (f : α → γ) : OneToken fun X => map (p X) f :=
  ⟨fun M => Lockstep.map (h.program M) f, fun X W => Leash.map (h.near X W) f⟩
private theorem one_expected (h : OneToken p) (x : Info T Rg) : OneToken fun X => expected (p X) x :=
  ⟨fun M => Lockstep.expected (h.program M) x, fun X W => Leash.expected (h.near X W) x⟩
private theorem one_skip (h : OneToken p) (h' : OneToken q) : OneToken fun X => skip (p X) (q X) :=
  ⟨fun M => Lockstep.skip (h.program M) (h'.program M), fun X W => Leash.skip (h.near X W) (h'.near X W)⟩
private theorem one_with (h : OneToken p) (h' : OneToken q) : OneToken fun X => «with» (p X) (q X) :=
  ⟨fun M => Lockstep.with (h.program M) (h'.program M), fun X W => Leash.with (h.near X W) (h'.near X W)⟩
private theorem one_sepBy (h : OneToken p) (h' : OneToken q) : OneToken fun X => sepBy (p X) (q X) :=
  ⟨fun M => Lockstep.sepBy (h.program M) (h'.program M), fun X W => Leash.sepBy (h.near X W) (h'.near X W)⟩
private theorem one_many (h : OneToken p) : OneToken fun X => many (p X) :=
  ⟨fun M => Lockstep.many (h.program M), fun X W => Leash.many (h.near X W)⟩
private theorem one_unit (h : OneToken p) : OneToken fun X => parserMacroUnit (p X) :=
  ⟨fun M => Lockstep.parserMacroUnit (h.program M), fun X W => Leash.parserMacroUnit (h.near X W)⟩
private theorem one_between {r : (X : Impl E) → Parser X.strm υ γ} (h : OneToken p) (h' : OneToken q) (h'' : OneToken r) :
    OneToken fun X => between (p X) (q X) (r X) :=
  ⟨fun M => Lockstep.between (h.program M) (h'.program M) (h''.program M),
    fun X W => Leash.between (h.near X W) (h'.near X W) (h''.near X W)⟩

/-- The characters of the tokens, on every stream. -/
def allChars (chr : T → Char) (tok : Char → T) (h1 : ∀ c, chr (tok c) = c) (h2 : ∀ t, tok (chr t) = t) (X : Impl E) : Chars X.strm :=
  ⟨chr, tok, h1, h2⟩


/-! The partial states of the parsers. -/

private abbrev LexSt (σ α : Type) := SeqSt σ ((Option Unit × List Unit × Unit) × Unit) α
private abbrev IntSt (T : Type) := LexSt (Many1St Unit T) (List T)
private abbrev StringSt (T : Type) := SeqSt Unit ((Option (List Char) × List Char × Unit) × (Option T × LexSt Unit T) × Unit) T
private abbrev FieldSt (T : Type) := SeqSt (StringSt T) ((Option T × LexSt Unit T) × (Option Json.Value × Unit) × Unit) (List Char)
private abbrev ListSt (T σ α : Type) := SeqSt (LexSt Unit T)
  ((Option (List α) × Option (Option (Commit Unit) × List α × SepSt σ (LexSt Unit T) α ⊕ Unit)) × (Option T × LexSt Unit T) × Unit) T
private abbrev SignedSt (T : Type) := SeqSt Unit ((Option Rat × Option (Unit ⊕ IntSt T)) × Unit) (Option T)
private abbrev MantissaSt (T : Type) :=
  SeqSt (SignedSt T) ((Option Rat × SeqSt Unit ((Option Rat × List T × Unit) × Unit) Unit) × Unit) Rat
private abbrev ExpSt (T : Type) := SeqSt Unit
  ((Option (Option T × Int × Unit) × SeqSt Unit ((Option Int × IntSt T) × Unit) (Option T)) × Unit) Unit
private abbrev NumberSt (T : Type) :=
  LexSt (SeqSt (MantissaSt T) ((Option (Option (Option T × Int × Unit)) × ExpSt T) × Unit) Rat) Rat

section
variable [DecidableEq T] (U : Unicode) (chr : T → Char) (tok : Char → T) (h1 : ∀ c, chr (tok c) = c) (h2 : ∀ t, tok (chr t) = t)

private theorem one_lex (h : OneToken p) : OneToken fun X => Json.lex U (allChars chr tok h1 h2 X) (p X) :=
  one_skip (q := fun X => charSpaces X.strm U chr) h (of_straight (.expected (.static "whitespaces") (.skipMany
    (.expected (.static "whitespace") (.satisfy fun t => U.isWhitespace (chr t))))))

private theorem one_char (c : Char) : OneToken fun X : Impl E => Json.char (allChars chr tok h1 h2 X) c := of_straight (.token _)

private theorem one_escape : Straight fun X : Impl E => Json.backSlashChar (allChars chr tok h1 h2 X) := by
  dsimp only [Json.backSlashChar, allChars]
  exact .satisfyMap _

private theorem one_jsonChar : OneToken fun X : Impl E => Json.jsonChar (allChars chr tok h1 h2 X) := by
  constructor
  · intro X Y M
    refine Lockstep.fnParser fun {L i j} hr => ?_
    obtain ⟨r, i', j', e1, e2, hr'⟩ := (Lockstep.unconsP hr).cases
    have e1 : (any X.strm).lazy i = (r, i') := e1
    have e2 : (any Y.strm).lazy j = (r, j') := e2
    simp only [e1, e2]
    have key : ∀ (c : Commit Unit), M.Ans L
        (ParseResult.ofStd (c.combine fun _ => ((Json.backSlashChar (allChars chr tok h1 h2 X)).stream i').1.toStd),
          ((Json.backSlashChar (allChars chr tok h1 h2 X)).stream i').2)
        (ParseResult.ofStd (c.combine fun _ => ((Json.backSlashChar (allChars chr tok h1 h2 Y)).stream j').1.toStd),
          ((Json.backSlashChar (allChars chr tok h1 h2 Y)).stream j').2) := by
      intro c
      have hs : M.Ans L ((Json.backSlashChar (allChars chr tok h1 h2 X)).stream i') ((Json.backSlashChar (allChars chr tok h1 h2 Y)).stream j') :=
        ((one_escape chr tok h1 h2).same M).stream hr'
      rcases hs.cases with ⟨x, k, e3, hF, hl⟩ | ⟨x, k, l, e3, e4, hk⟩
      · rw [e3]
        refine .inl ⟨?_, hl⟩
        cases c <;> cases x <;> first | exact hF.elim | trivial
      · rw [e3, e4]
        exact .inr ⟨rfl, hk⟩
    cases r with
    | commitOk t =>
      have hX : (allChars chr tok h1 h2 X).chr t = chr t := rfl
      have hY : (allChars chr tok h1 h2 Y).chr t = chr t := rfl
      simp only [show ∀ v : T, (ParseResult.commitOk v : ParseResult T E.Err).toStd = .ok v (.commit ()) from fun _ => rfl, hX, hY]
      by_cases hc : chr t = '\\'
      · rw [if_pos hc, if_pos hc]; exact key (.commit ())
      · rw [if_neg hc, if_neg hc]
        by_cases hq : chr t = '"'
        · rw [if_pos hq, if_pos hq]
          refine .inr ⟨?_, hr'⟩
          simp only [M.position hr']
        · rw [if_neg hq, if_neg hq]
          exact .inr ⟨rfl, hr'⟩
    | peekOk t =>
      have hX : (allChars chr tok h1 h2 X).chr t = chr t := rfl
      have hY : (allChars chr tok h1 h2 Y).chr t = chr t := rfl
      simp only [show ∀ v : T, (ParseResult.peekOk v : ParseResult T E.Err).toStd = .ok v (.peek ()) from fun _ => rfl, hX, hY]
      by_cases hc : chr t = '\\'
      · rw [if_pos hc, if_pos hc]; exact key (.peek ())
      · rw [if_neg hc, if_neg hc]
        by_cases hq : chr t = '"'
        · rw [if_pos hq, if_pos hq]
          refine .inr ⟨?_, hr'⟩
          simp only [M.position hr']
        · rw [if_neg hq, if_neg hq]
          exact .inr ⟨rfl, hr'⟩
    | _ => exact .inr ⟨rfl, hr'⟩
  · intro X W
    refine Leash.ofLazy fun i ht => ?_
    have hu := W.unconsP ht
    generalize hx : X.strm.unconsP i = x at hu
    obtain ⟨r, j⟩ := x
    have e : (any X.strm).lazy i = (r, j) := hx
    simp only [e]
    cases r with
    | commitOk t =>
      dsimp only [ParseResult.toStd]
      by_cases hc : (allChars chr tok h1 h2 X).chr t = '\\'
      · rw [if_pos hc]
        have hs := ((one_escape (E := E) chr tok h1 h2).near W).stream j hu.1.tame_commit
        revert hs
        dsimp only
        generalize (Json.backSlashChar (allChars chr tok h1 h2 X)).stream j = y
        obtain ⟨r, k⟩ := y
        intro hs
        cases r with
        | commitOk v => exact hs
        | peekOk v => exact hs.tame_peek
        | commitErr e => exact hs
        | peekErr e => exact ⟨hs.1, trivial⟩
        | abort a => exact hs
      · rw [if_neg hc]
        by_cases hq : (allChars chr tok h1 h2 X).chr t = '"'
        · rw [if_pos hq]; exact ⟨hu.1.1, hu.2.1⟩
        · rw [if_neg hq]; exact hu.1
    | peekOk t => exact (hu.2.2 t rfl).elim
    | _ => exact hu.1

private theorem one_digit : Straight fun X : Impl E => Json.digit U (allChars chr tok h1 h2 X) :=
  .expected (.static (TokenClass.digit.char U).2) (.satisfy fun t => (TokenClass.digit.char U).1 (chr t))

private theorem one_spaces : Straight fun X : Impl E => charSpaces X.strm U chr :=
  .expected (.static "whitespaces") (.skipMany (.expected (.static "whitespace") (.satisfy fun t => U.isWhitespace (chr t))))

private theorem straight_char (c : Char) : Straight fun X : Impl E => Json.char (allChars chr tok h1 h2 X) c := .token (tok c)

private theorem straight_integer : Straight (σ := IntSt T) (α := Int) fun X : Impl E => Json.integer U (allChars chr tok h1 h2 X) :=
  .expected (.static "integer") (.map (fun s : List T => s.foldl (fun n c => n * 10 + (((chr c).toNat : Int) - 48)) 0)
    (.skip (.many1 (one_digit U chr tok h1 h2)) (one_spaces U chr)))

private def scaled (x : Rat × Option (Option T × Int × Unit) × Unit) : Rat := match x.2.1 with
  | some (sign, e, _) => x.1 * (10 : Rat) ^ (if sign.isSome then -e else e)
  | none => x.1

private theorem straight_number : Straight (σ := NumberSt T) (α := Rat) fun X : Impl E => Json.number U (allChars chr tok h1 h2 X) := by
  have hi : Straight (σ := Option (Unit ⊕ IntSt T)) (α := Rat) fun X : Impl E => Json.intPart U (allChars chr tok h1 h2 X) :=
    .or (.map (fun _ => (0 : Rat)) (straight_char chr tok h1 h2 '0')) (.map (fun x : Int => (x : Rat)) (straight_integer U chr tok h1 h2))
  have hf : Straight (σ := List T × Unit) (α := Rat) fun X : Impl E => Json.fractional U (allChars chr tok h1 h2 X) :=
    .map (fun s : List T => (s.foldl (fun (x : Rat × Rat) c =>
      (x.1 + (((toDigit 10 (chr c)).getD 0 : Nat) : Rat) * (x.2 / 10), x.2 / 10)) (0, 1)).1) (.many (one_digit U chr tok h1 h2))
  have he : Straight (σ := ExpSt T) (α := Option T × Int × Unit) fun X : Impl E => Json.exp U (allChars chr tok h1 h2 X) :=
    .with (.satisfy fun c => chr c = 'e' || chr c = 'E') (.tuple (.optional (straight_char chr tok h1 h2 '-'))
      (.cons (straight_integer U chr tok h1 h2) .nil))
  have hs : Straight (σ := SignedSt T) (α := Rat) fun X : Impl E => Json.signed U (allChars chr tok h1 h2 X) :=
    .map (fun x : Option T × Rat × Unit => if x.1.isSome then -x.2.1 else x.2.1)
      (.tuple (.optional (straight_char chr tok h1 h2 '-')) (.cons hi .nil))
  have hm : Straight (σ := MantissaSt T) (α := Rat) fun X : Impl E => Json.mantissa U (allChars chr tok h1 h2 X) :=
    .map (fun x : Rat × Rat × Unit => if x.1 ≥ 0 then x.1 + x.2.1 else x.1 - x.2.1)
      (.tuple hs (.cons (.with (.optional (straight_char chr tok h1 h2 '.')) hf) .nil))
  have hn : Straight (σ := NumberSt T) (α := Rat) fun X : Impl E => expected (Json.lex U (allChars chr tok h1 h2 X)
      (map (pair (Json.mantissa U (allChars chr tok h1 h2 X)) (optional (Json.exp U (allChars chr tok h1 h2 X)))) (scaled (T := T)))) (.static "number") :=
    .expected (.static "number") (.skip (.map scaled (.tuple hm (.cons (.optional he) .nil))) (one_spaces U chr))
  have e : (fun X : Impl E => (Json.number U (allChars chr tok h1 h2 X) : Parser X.strm (NumberSt T) Rat)) = fun X : Impl E =>
      expected (Json.lex U (allChars chr tok h1 h2 X)
      (map (pair (Json.mantissa U (allChars chr tok h1 h2 X)) (optional (Json.exp U (allChars chr tok h1 h2 X)))) (scaled (T := T)))) (.static "number") := by
    funext X
    unfold Json.number
    refine congrArg (fun f => expected (Json.lex U (allChars chr tok h1 h2 X) (map (pair (Json.mantissa U (allChars chr tok h1 h2 X)) (optional (Json.exp U (allChars chr tok h1 h2 X)))) f)) (.static "number")) ?_
    funext x; obtain ⟨a, _ | ⟨s, e, _⟩, _⟩ := x <;> rfl
  rw [e]; exact hn

private theorem one_string : OneToken (σ := StringSt T) (α := List Char) fun X : Impl E => Json.jsonString U (allChars chr tok h1 h2 X) :=
  one_expected (one_between (one_char chr tok h1 h2 '"') (one_lex U chr tok h1 h2 (one_char chr tok h1 h2 '"'))
    (one_many (one_jsonChar chr tok h1 h2))) (.static "string")

variable {v : (X : Impl E) → Parser X.strm Unit Json.Value}

private theorem one_field (hv : OneToken v) : OneToken (σ := FieldSt T) (α := List Char × Json.Value) fun X => Json.field U (allChars chr tok h1 h2 X) (v X) := by
  have hc := one_lex (E := E) U chr tok h1 h2 (one_char chr tok h1 h2 ':')
  have hs := one_string (E := E) U chr tok h1 h2
  refine ⟨fun M => ?_, fun X W => ?_⟩
  · exact Lockstep.map (Lockstep.tuple (hs.program M) (.cons (hc.program M) (.cons (hv.program M) .nil))) _
  · refine Leash.map (Leash.tuple (hs.near X W) fun q hq => ?_) _
    rcases hq with rfl | rfl | hq
    · exact hc.near X W
    · exact hv.near X W
    · cases hq

private theorem one_object (hv : OneToken v) : OneToken (σ := ListSt T (FieldSt T) (List Char × Json.Value)) (α := Json.Value) fun X => Json.object U (allChars chr tok h1 h2 X) (v X) :=
  one_expected (one_map (one_between (one_lex U chr tok h1 h2 (one_char chr tok h1 h2 '{')) (one_lex U chr tok h1 h2 (one_char chr tok h1 h2 '}'))
    (one_sepBy (one_field U chr tok h1 h2 hv) (one_lex U chr tok h1 h2 (one_char chr tok h1 h2 ',')))) Json.Value.object) (.static "object")

private theorem one_array (hv : OneToken v) : OneToken (σ := ListSt T Unit Json.Value) (α := Json.Value) fun X => Json.array U (allChars chr tok h1 h2 X) (v X) :=
  one_map (one_between (one_lex U chr tok h1 h2 (one_char chr tok h1 h2 '[')) (one_lex U chr tok h1 h2 (one_char chr tok h1 h2 ']'))
    (one_sepBy hv (one_lex U chr tok h1 h2 (one_char chr tok h1 h2 ',')))) Json.Value.array

private theorem one_word (w : String) (x : Json.Value) :
    OneToken fun X : Impl E => Json.lex U (allChars chr tok h1 h2 X) (map (Json.str (allChars chr tok h1 h2 X) w.toList) fun _ => x) :=
  of_straight (.skip (.map _ (.expected (.static (String.ofList w.toList)) (.map _ (.tokensCmp w.toList fun c t => c == chr t)))) (one_spaces U chr))

private theorem one_body (hv : OneToken v) : OneToken fun X => Json.body U (allChars chr tok h1 h2 X) (v X) := by
  have a1 := one_map (one_string (E := E) U chr tok h1 h2) Json.Value.string
  have a2 := one_object U chr tok h1 h2 hv
  have a3 := one_array U chr tok h1 h2 hv
  have a4 := one_map (of_straight (straight_number (E := E) U chr tok h1 h2)) Json.Value.number
  have a5 := one_word (E := E) U chr tok h1 h2 "false" (.bool false)
  have a6 := one_word (E := E) U chr tok h1 h2 "true" (.bool true)
  have a7 := one_word (E := E) U chr tok h1 h2 "null" .null
  refine ⟨fun M => ?_, fun X W => ?_⟩
  · exact Lockstep.parserMacroUnit (Lockstep.choice (.cons (a1.program M) (.cons (a2.program M) (.cons (a3.program M) (.cons (a4.program M)
      (.cons (a5.program M) (.cons (a6.program M) (.last (a7.program M)))))))))
  · refine Leash.parserMacroUnit (Leash.choice fun q hq => ?_)
    rcases hq with rfl | rfl | rfl | rfl | rfl | rfl | rfl
    · exact a1.near X W
    · exact a2.near X W
    · exact a3.near X W
    · exact a4.near X W
    · exact a5.near X W
    · exact a6.near X W
    · exact a7.near X W

private theorem one_value (n : Nat) : OneToken fun X : Impl E => Json.value U (allChars chr tok h1 h2 X) n := by
  induction n with
  | zero => exact of_straight (.bottom (fun X => Json.body U (allChars chr tok h1 h2 X)) ())
  | succ n ih => exact one_body U chr tok h1 h2 ih

end

end Json

variable {S : Strm} [DecidableEq S.Tok]

/-- The characters of a buffered stream are those of its source. -/
def Json.buffered (C : Chars S) : Chars (bufferedS S) := ⟨C.chr, C.tok, C.chr_tok, C.tok_chr⟩

/-- **C69.**  The JSON parser of C61, then the end of the input, reading from a source through a buffer of any capacity, ends as on
the source. -/
theorem C69_json (hS : S.Rewinds) (U : Unicode) (C : Chars S) (n : Nat) (src : S.Input) (k : Nat) :
    ((skip (Json.value U (Json.buffered C) n) (eof _)).parse (BufState.new src k)).ending =
      ((skip (Json.value U C n) (eof _)).parse src).ending := by
  have h := one_skip (one_value (E := S.E) U C.chr C.tok C.chr_tok C.tok_chr n) (of_straight .eof)
  exact (ending_of_near h.program (h.near (tetherS S).impl (tetherLeash S)) src k).trans (C68_source hS (h.program _) src)

/-- The characters of an iterator of characters. -/
def Json.letters : Chars (iterS Char) := ⟨id, id, fun _ => rfl, fun _ => rfl⟩

/-- **C69.**  So a JSON text is read back from a one-pass iterator of characters, with a buffer of one character. -/
theorem C69_json_written (U : Unicode) {v : Json.Value} {w : List Char} (h : Json.Writes v w) {n : Nat} (hn : w.length ≤ n) (k : Nat) :
    ((skip (Json.value U (Json.buffered Json.letters) n) (eof _)).parse (BufState.new w k)).ending = .ok v () := by
  have hE : (iterS Char).EndsOnly := by
    intro i e j h
    cases i <;> cases h
    rfl
  refine (C69_json (C68_rewinds Char 0).1 U Json.letters n w k).trans ?_
  rw [C61_json_whole (C := Json.letters) (iter_lawful Char) hE h hn rfl (k := []) (iter_reads.2 (by simp [Json.letters])) rfl]
  rfl

private theorem sample : Json.Writes (.array [.null, .bool true]) "[null , true]".toList :=
  .array (a := ['[']) (b := [']']) (x := (.null, "null ".toList)) (xs := [([',', ' '], .bool true, "true".toList)])
    ⟨[], rfl, by simp⟩ (.null ⟨[' '], rfl, by simp [Json.IsSpace]⟩)
    (by simp only [List.mem_singleton, forall_eq]; exact ⟨[' '], rfl, by simp [Json.IsSpace]⟩)
    (by simp only [List.mem_singleton, forall_eq]; exact .true ⟨[], rfl, by simp⟩) ⟨[], rfl, by simp⟩

example (U : Unicode) : ((skip (Json.value U (Json.buffered Json.letters) 20) (eof _)).parse
    (BufState.new "[null , true]".toList 1)).ending = .ok (.array [.null, .bool true]) () :=
  C69_json_written U sample (by decide) 1

end Verif
