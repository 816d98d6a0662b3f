import Verif.Spec.Json

/-!
# What the JSON parser takes for JSON

A wider notion of JSON text than that of RFC 8259 (`Verif.Spec.Json`), with the values that the parser of `benches/json.rs` gives
them: other whitespace; in numbers whitespace after the digits before the point and after the exponent, no point before the digits
after it, or none after the point; and `-0.5` for `0.5`.
-/

namespace Verif

namespace Json

variable (U : Unicode)

/-- A token and the whitespace after it, whatever Unicode takes for whitespace. -/
def Loose (s w : List Char) : Prop := ∃ sp, w = s ++ sp ∧ ∀ c ∈ sp, U.isWhitespace c = true

/-- A string in quotation marks. -/
def LooseString (s w : List Char) : Prop :=
  ∃ cs : List (Char × List Char), s = cs.map (·.1) ∧ (∀ x ∈ cs, WritesChar x.1 x.2) ∧
    Loose U ('"' :: (cs.flatMap (·.2) ++ ['"'])) w

/-- The parts of a number: `-`, digits and whitespace, `.`, digits, `e` or `E` and `-` and digits. -/
structure LooseNumeral where
  negative : Bool
  int : List Nat
  gap : List Char
  point : Bool
  frac : List Nat
  exp : Option (Bool × Bool × List Nat)

namespace LooseNumeral

/-- The digits before the point are a 0, with no whitespace after it, or begin with another digit. -/
structure Valid (n : LooseNumeral) : Prop where
  int : (n.int = [0] ∧ n.gap = []) ∨ ∃ d ds, n.int = d :: ds ∧ d ≠ 0
  digits : ∀ d ∈ n.int, d < 10
  gap : ∀ c ∈ n.gap, U.isWhitespace c = true
  frac : ∀ d ∈ n.frac, d < 10
  exp : ∀ x, n.exp = some x → x.2.2 ≠ [] ∧ ∀ d ∈ x.2.2, d < 10

/-- As it is written. -/
def text (n : LooseNumeral) : List Char :=
  (if n.negative then ['-'] else []) ++ (n.int.map digitChar ++ (n.gap ++
    ((if n.point then ['.'] else []) ++ (n.frac.map digitChar ++
      (match n.exp with
        | none => []
        | some (E, neg, ds) => (if E then 'E' else 'e') :: ((if neg then ['-'] else []) ++ ds.map digitChar))))))

/-- The number that the parser makes of it: the sign is that of the digits before the point, which 0 has none of. -/
def value (n : LooseNumeral) : Rat :=
  let int : Rat := if n.negative then -(decimal n.int : Rat) else (decimal n.int : Rat)
  let frac : Rat := (decimal n.frac : Rat) / 10 ^ n.frac.length
  (if int ≥ 0 then int + frac else int - frac) *
    match n.exp with | none => 1 | some (_, neg, ds) => (10 : Rat) ^ (if neg then -(decimal ds : Int) else (decimal ds : Int))

end LooseNumeral

/-- Which texts the parser takes for which value. -/
inductive Accepted : Value → List Char → Prop where
  | null {w : List Char} : Loose U "null".toList w → Accepted .null w
  | false {w : List Char} : Loose U "false".toList w → Accepted (.bool false) w
  | true {w : List Char} : Loose U "true".toList w → Accepted (.bool true) w
  | number {n : LooseNumeral} {w : List Char} : n.Valid U → Loose U n.text w → Accepted (.number n.value) w
  | string {s w : List Char} : LooseString U s w → Accepted (.string s) w
  | array0 {a b : List Char} : Loose U ['['] a → Loose U [']'] b → Accepted (.array []) (a ++ b)
  | array {a b : List Char} {x : Value × List Char} {xs : List (List Char × Value × List Char)} : Loose U ['['] a →
      Accepted x.1 x.2 → (∀ y ∈ xs, Loose U [','] y.1) → (∀ y ∈ xs, Accepted y.2.1 y.2.2) → Loose U [']'] b →
      Accepted (.array (x.1 :: xs.map (·.2.1))) (a ++ ((x.2 ++ xs.flatMap fun y => y.1 ++ y.2.2) ++ b))
  | object0 {a b : List Char} : Loose U ['{'] a → Loose U ['}'] b → Accepted (.object []) (a ++ b)
  | object {a b : List Char} {x : Member} {xs : List (List Char × Member)} : Loose U ['{'] a →
      LooseString U x.key x.keyText → Loose U [':'] x.colon → Accepted x.value x.text →
      (∀ y ∈ xs, Loose U [','] y.1) → (∀ y ∈ xs, LooseString U y.2.key y.2.keyText) → (∀ y ∈ xs, Loose U [':'] y.2.colon) →
      (∀ y ∈ xs, Accepted y.2.value y.2.text) → Loose U ['}'] b →
      Accepted (.object ((x.key, x.value) :: xs.map fun y => (y.2.key, y.2.value)))
        (a ++ ((x.written ++ xs.flatMap fun y => y.1 ++ y.2.written) ++ b))

end Json

end Verif
