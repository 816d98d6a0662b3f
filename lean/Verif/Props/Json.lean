import Verif.Proof.Json
import Verif.Proof.StrLaws

/-!
# C61: the JSON parser of `benches/json.rs`
-/

namespace Verif

open Json

variable {S : Strm} [DecidableEq S.Tok] {U : Unicode} {C : Chars S}

/-- **C61.**  The parser gives the value that the text stands for and stops where the text ends; it never has to nest deeper
than the text is long. -/
theorem C61_json (hS : S.Lawful) {v : Value} {w : List Char} (h : Writes v w) {n : Nat} (hn : w.length ≤ n)
    {i k : S.Input} (hi : S.isPartial i = false) (hr : S.Reads i (w.map C.tok) k) (hk : Stop U ((S.ahead k).map C.chr)) :
    (Json.value U C n).parse i = .ok v k := by
  refine C60_parse (F := fun o => Stop U (o.map C.chr)) ?_ (value_recovers hS h hn fun _ ho => ho) hi hr hk
  cases n with
  | zero => exact (recur_zero hS _ _).2.1
  | succ n => exact .ofMode hS (Json.moves_body hS (Json.moves_value hS n)).run

/-- **C61.**  `json_value().skip(eof())` on a whole text. -/
theorem C61_json_whole (hS : S.Lawful) (hE : S.EndsOnly) {v : Value} {w : List Char} (h : Writes v w) {n : Nat}
    (hn : w.length ≤ n) {i k : S.Input} (hi : S.isPartial i = false) (hr : S.Reads i (w.map C.tok) k)
    (hk : S.ahead k = none) : (skip (Json.value U C n) (eof S)).parse i = .ok v k := by
  refine C60_parse (.ofMode hS (moves_skip hS (Json.moves_value hS n) (moves_eof hS)).run)
    (C60_whole hS hE (Json.value_recovers (F := fun o => o = none) hS h hn fun o ho => ?_)) hi hr hk
  rw [ho]
  trivial

omit [DecidableEq S.Tok] in
private theorem coherent_expected (hS : S.Lawful) {σ α : Type} {p : Parser S σ α} {x : Info S.Tok S.Rng}
    (h : Moves (expected p x)) : Coherent (expected p x) := .ofMode hS h.run

/-- **C61.**  Numbers, before whatever does not go on with them. -/
theorem C61_number (hS : S.Lawful) {n : Numeral} (hv : n.Valid) (hl : ¬ n.Lost) {w : List Char} (hw : Spaced n.text w)
    {i k : S.Input} (hi : S.isPartial i = false) (hr : S.Reads i (w.map C.tok) k) (hk : Stop U ((S.ahead k).map C.chr)) :
    (number U C).parse i = .ok n.value k :=
  C60_parse (F := fun o => Stop U (o.map C.chr)) (coherent_expected hS (repeatable_number hS).moves)
    (number_recovers hS hv hl hw fun _ ho => ho) hi hr hk

/-- **C61.**  Strings, with their escapes. -/
theorem C61_string (hS : S.Lawful) {s w : List Char} (h : WritesString s w) {i k : S.Input} (hi : S.isPartial i = false)
    (hr : S.Reads i (w.map C.tok) k) (hk : Stop U ((S.ahead k).map C.chr)) : (jsonString U C).parse i = .ok s k :=
  C60_parse (F := fun o => Stop U (o.map C.chr)) (coherent_expected hS (repeatable_jsonString hS).moves)
    (jsonString_recovers hS h fun _ ho => ho.1) hi hr hk

/-! ## On text -/

/-- The characters of `&str`. -/
def Json.text : Chars strS := ⟨id, id, fun _ => rfl, fun _ => rfl⟩

/-- **C61.**  On `&str`: the text of a value and then something that does not go on with it. -/
theorem C61_json_str (U : Unicode) {v : Value} {w rest : List Char} (h : Writes v w) (hr : Stop U rest.head?) {n : Nat}
    (hn : w.length ≤ n) (at' : Nat) :
    (Json.value U Json.text n).parse ⟨at', w ++ rest⟩ = .ok v ⟨at' + Str.byteLen w, rest⟩ := by
  refine C61_json str_lawful h hn rfl (str_reads.2 ?_) ?_
  · simp only [Json.text, List.map_id]
    exact ⟨trivial, trivial⟩
  · cases rest <;> exact hr

/-- **C61.**  A text stands for one value only. -/
theorem C61_unambiguous {v v' : Value} {w : List Char} (h : Writes v w) (h' : Writes v' w) : v = v' := by
  have U : Unicode := ⟨fun _ => false, fun _ => false, fun _ => false, fun _ => false, fun _ => false⟩
  have h1 := C61_json_str U (rest := []) h trivial (Nat.le_refl _) 0
  rw [C61_json_str U (rest := []) h' trivial (Nat.le_refl _) 0] at h1
  cases h1
  rfl

/-! A list with an object in it, whitespace, an escape, a fraction and an exponent. -/

private abbrev one : Numeral := ⟨false, [1], none, none⟩
private abbrev tens : Numeral := ⟨true, [2], some [5], some (false, false, [1])⟩

private theorem sample : Writes (.array [.number one.value, .object [(['a', '\n'], .number tens.value)]])
    "[1 , {\"a\\n\": -2.5e1}]".toList := by
  refine .array (a := ['[']) (b := [']']) (x := (.number one.value, ['1', ' ']))
    (xs := [([',', ' '], .object [(['a', '\n'], .number tens.value)], "{\"a\\n\": -2.5e1}".toList)])
    ⟨[], rfl, by simp⟩ ?_ ?_ ?_ ⟨[], rfl, by simp⟩
  · exact .number ⟨.inr ⟨1, [], rfl, by decide⟩, by decide, by simp, by simp⟩ (fun h => by cases h.1) ⟨[' '], rfl, by simp [IsSpace]⟩
  · simp only [List.mem_singleton, forall_eq]
    exact ⟨[' '], rfl, by simp [IsSpace]⟩
  · simp only [List.mem_singleton, forall_eq]
    refine .object (a := ['{']) (b := ['}']) (x := ⟨['a', '\n'], "\"a\\n\"".toList, [':', ' '], .number tens.value, "-2.5e1".toList⟩)
      (xs := []) ⟨[], rfl, by simp⟩ ?_ ⟨[' '], rfl, by simp [IsSpace]⟩ ?_ (by simp) (by simp) (by simp) (by simp) ⟨[], rfl, by simp⟩
    · refine ⟨[('a', ['a']), ('\n', ['\\', 'n'])], rfl, ?_, [], rfl, by simp⟩
      simp only [List.mem_cons, List.not_mem_nil, or_false, forall_eq_or_imp, forall_eq]
      exact ⟨.inl ⟨rfl, by decide, by decide⟩, .inr ⟨'n', by decide, rfl⟩⟩
    · refine .number ⟨.inr ⟨2, [], rfl, by decide⟩, by decide, ?_, ?_⟩ (fun h => ?_) ⟨[], rfl, by simp⟩
      · intro ds h
        cases h
        exact ⟨by decide, by decide⟩
      · intro ds h
        cases h
        exact ⟨by decide, by decide⟩
      · exact absurd h.2.1 (by decide)

example : one.value = 1 ∧ tens.value = -25 := by decide +kernel

example (U : Unicode) : (Json.value U Json.text 100).parse ⟨0, "[1 , {\"a\\n\": -2.5e1}]".toList ++ [';']⟩ =
    .ok (.array [.number one.value, .object [(['a', '\n'], .number tens.value)]]) ⟨21, [';']⟩ :=
  C61_json_str U (rest := [';']) sample ⟨rfl, by decide, by decide, by decide, by decide⟩ (by decide) 0

/-! ## What differs from RFC 8259 -/

private def ascii : Unicode := ⟨fun _ => false, fun _ => false, fun _ => false, fun _ => false, fun _ => false⟩

/-- What the parser makes of a text, if that is a number: the number and what is left of the text. -/
def Json.readNumber (s : String) : Option (Int × Nat × List Char) :=
  match (Json.value ascii Json.text 10).parse ⟨0, s.toList⟩ with
  | .ok (.number x) k => some (x.num, x.den, k.2)
  | _ => none

/-- What the parser makes of a text, if that is a string. -/
def Json.readString (s : String) : Option (List Char × List Char) :=
  match (Json.value ascii Json.text 10).parse ⟨0, s.toList⟩ with
  | .ok (.string x) k => some (x, k.2)
  | _ => none

/-- **C61, violated.**  The sign of `-0.5` is lost (json.rs:87-91: `-0.0 >= 0.0`). -/
theorem C61_negative_fraction_violated :
    (⟨true, [0], some [5], none⟩ : Numeral).Valid ∧ (⟨true, [0], some [5], none⟩ : Numeral).text = "-0.5".toList ∧
    (⟨true, [0], some [5], none⟩ : Numeral).value = -1 / 2 ∧ Json.readNumber "-0.5" = some (1, 2, []) := by
  refine ⟨⟨.inl rfl, by decide, ?_, by simp⟩, rfl, by decide +kernel, by decide +kernel⟩
  intro ds h
  cases h
  exact ⟨by decide, by decide⟩

/-- **C61, violated.**  A `+` in the exponent is an error, though RFC 8259 allows it; so is whitespace before the value; and so
is `\u0041`. -/
theorem C61_rejects_violated : Json.readNumber "1e+5" = none ∧ Json.readNumber "1e5" = some (100000, 1, []) ∧
    Json.readNumber " 1" = none ∧ Json.readString "\"\\u0041\"" = none := by
  decide +kernel

/-- **C61, violated.**  Accepted though RFC 8259 does not allow it: the point may be missing or stand after whitespace, the
digits after it may be missing, and control characters in strings may be unescaped. -/
theorem C61_accepts_violated : Json.readNumber "0123" = some (123, 1000, []) ∧ Json.readNumber "1 5" = some (3, 2, []) ∧
    Json.readNumber "1 .5" = some (3, 2, []) ∧ Json.readNumber "1." = some (1, 1, []) ∧
    Json.readString "\"\n\"" = some (['\n'], []) := by
  decide +kernel

end Verif
