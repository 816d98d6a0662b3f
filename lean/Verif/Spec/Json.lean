import Verif.Model.Json

/-!
# JSON texts

Which texts stand for a JSON value, after RFC 8259: with arbitrary whitespace after every token and arbitrary use of the
escapes.  Not included: `\uXXXX` and a `+` in exponents, which the parser does not know.
-/

namespace Verif

namespace Json

/-- RFC 8259 section 2, `ws`. -/
def IsSpace (c : Char) : Prop := c = ' ' ∨ c = '\t' ∨ c = '\n' ∨ c = '\r'

/-- A token and the whitespace after it. -/
def Spaced (s w : List Char) : Prop := ∃ sp, w = s ++ sp ∧ ∀ c ∈ sp, IsSpace c

/-- RFC 8259 section 7, the two-character escapes. -/
def escapes : List (Char × Char) :=
  [('"', '"'), ('\\', '\\'), ('/', '/'), ('b', '\x08'), ('f', '\x0c'), ('n', '\n'), ('r', '\r'), ('t', '\t')]

/-- How a character is written inside of a string: as itself or as an escape. -/
def WritesChar (c : Char) (w : List Char) : Prop :=
  (w = [c] ∧ c ≠ '"' ∧ c ≠ '\\') ∨ ∃ e, (e, c) ∈ escapes ∧ w = ['\\', e]

/-- A string in quotation marks; `cs` are its characters, each with how it is written. -/
def WritesString (s w : List Char) : Prop :=
  ∃ cs : List (Char × List Char), s = cs.map (·.1) ∧ (∀ x ∈ cs, WritesChar x.1 x.2) ∧
    Spaced ('"' :: (cs.flatMap (·.2) ++ ['"'])) w

/-- The value of a sequence of decimal digits. -/
def decimal (ds : List Nat) : Nat := ds.foldl (fun n d => 10 * n + d) 0

/-- How a digit is written. -/
def digitChar (d : Nat) : Char := Char.ofNat (48 + d)

/-- RFC 8259 section 6: `-`, digits, `.` and digits, `e` or `E` and `-` and digits. -/
structure Numeral where
  negative : Bool
  int : List Nat
  frac : Option (List Nat)
  /-- whether the `e` is an `E`, whether there is a `-`, and the digits -/
  exp : Option (Bool × Bool × List Nat)

namespace Numeral

/-- Digits are digits; no superfluous zero at the beginning; no part is empty. -/
structure Valid (n : Numeral) : Prop where
  int : n.int = [0] ∨ ∃ d ds, n.int = d :: ds ∧ d ≠ 0
  digits : ∀ d ∈ n.int, d < 10
  frac : ∀ ds, n.frac = some ds → ds ≠ [] ∧ ∀ d ∈ ds, d < 10
  exp : ∀ x, n.exp = some x → x.2.2 ≠ [] ∧ ∀ d ∈ x.2.2, d < 10

/-- As it is written. -/
def text (n : Numeral) : List Char :=
  (if n.negative then ['-'] else []) ++ (n.int.map digitChar ++
    ((match n.frac with | none => [] | some ds => '.' :: ds.map digitChar) ++
      (match n.exp with
        | none => []
        | some (E, neg, ds) => (if E then 'E' else 'e') :: ((if neg then ['-'] else []) ++ ds.map digitChar))))

/-- The value without the sign and the exponent. -/
def magnitude (n : Numeral) : Rat :=
  (decimal n.int : Rat) + match n.frac with | none => 0 | some ds => (decimal ds : Rat) / 10 ^ ds.length

/-- The number it stands for. -/
def value (n : Numeral) : Rat :=
  (if n.negative then -n.magnitude else n.magnitude) *
    match n.exp with | none => 1 | some (_, neg, ds) => (10 : Rat) ^ (if neg then -(decimal ds : Int) else (decimal ds : Int))

/-- `-0.5`, which the parser takes for `0.5`. -/
def Lost (n : Numeral) : Prop := n.negative = true ∧ n.int = [0] ∧ ∃ ds, n.frac = some ds ∧ decimal ds ≠ 0

end Numeral

/-- One member of an object as it is written: its key with the text of it, the colon, the value and its text. -/
structure Member where
  key : List Char
  keyText : List Char
  colon : List Char
  value : Value
  text : List Char

/-- `"key": value`. -/
def Member.written (m : Member) : List Char := m.keyText ++ (m.colon ++ m.text)

/-- Which texts stand for a value. -/
inductive Writes : Value → List Char → Prop where
  | null {w : List Char} : Spaced "null".toList w → Writes .null w
  | false {w : List Char} : Spaced "false".toList w → Writes (.bool false) w
  | true {w : List Char} : Spaced "true".toList w → Writes (.bool true) w
  | number {n : Numeral} {w : List Char} : n.Valid → ¬ n.Lost → Spaced n.text w → Writes (.number n.value) w
  | string {s w : List Char} : WritesString s w → Writes (.string s) w
  | array0 {a b : List Char} : Spaced ['['] a → Spaced [']'] b → Writes (.array []) (a ++ b)
  /-- the items after the first come with the comma before them -/
  | array {a b : List Char} {x : Value × List Char} {xs : List (List Char × Value × List Char)} : Spaced ['['] a →
      Writes x.1 x.2 → (∀ y ∈ xs, Spaced [','] y.1) → (∀ y ∈ xs, Writes y.2.1 y.2.2) → Spaced [']'] b →
      Writes (.array (x.1 :: xs.map (·.2.1))) (a ++ ((x.2 ++ xs.flatMap fun y => y.1 ++ y.2.2) ++ b))
  | object0 {a b : List Char} : Spaced ['{'] a → Spaced ['}'] b → Writes (.object []) (a ++ b)
  | object {a b : List Char} {x : Member} {xs : List (List Char × Member)} : Spaced ['{'] a →
      WritesString x.key x.keyText → Spaced [':'] x.colon → Writes x.value x.text →
      (∀ y ∈ xs, Spaced [','] y.1) → (∀ y ∈ xs, WritesString y.2.key y.2.keyText) → (∀ y ∈ xs, Spaced [':'] y.2.colon) →
      (∀ y ∈ xs, Writes y.2.value y.2.text) → Spaced ['}'] b →
      Writes (.object ((x.key, x.value) :: xs.map fun y => (y.2.key, y.2.value)))
        (a ++ ((x.written ++ xs.flatMap fun y => y.1 ++ y.2.written) ++ b))

/-- What may come after a value: the end, or a character that does not belong to a number and is not whitespace. -/
def Stop (U : Unicode) : Option Char → Prop
  | none => True
  | some c => U.isWhitespace c = false ∧ c ≠ '.' ∧ c ≠ 'e' ∧ c ≠ 'E' ∧ ¬ (48 ≤ c.toNat ∧ c.toNat ≤ 57)

end Json

end Verif
