import Verif.Model.Classes
import Verif.Model.Repeat

/-!
# The JSON parser of `benches/json.rs`

A program written with the library: recursive, with escapes, numbers and insignificant whitespace.  Simplifications: `f64` is
`Rat` (no rounding, no infinities), `i64` is `Int` (no overflow; 64 bits hold every sequence of 18 digits) and `powi(e as i32)`
is the power; a `HashMap` is the list of the pairs it was extended with.
-/

namespace Verif

/-- The tokens of a stream are characters. -/
structure Chars (S : Strm) where
  chr : S.Tok → Char
  tok : Char → S.Tok
  chr_tok : ∀ c, chr (tok c) = c
  tok_chr : ∀ t, tok (chr t) = t

namespace Json

/-- benches/json.rs:32-40 `enum Value`. -/
inductive Value where
  | number (n : Rat)
  | string (s : List Char)
  | bool (b : Bool)
  | null
  | object (fields : List (List Char × Value))
  | array (items : List Value)

variable {S : Strm} [DecidableEq S.Tok] {σ α : Type} (U : Unicode) (C : Chars S)

/-- json.rs:42-53 `lex`. -/
def lex (p : Parser S σ α) := skip p (charSpaces S U C.chr)

/-- char.rs:15-26 `char`. -/
def char (c : Char) : Parser S Unit S.Tok := token S (C.tok c)

/-- char.rs:28-50 `digit`. -/
def digit : Parser S Unit S.Tok := charClass S U C.chr .digit

/-- json.rs:61-65 the value of some digits. -/
def intVal (s : List S.Tok) : Int := s.foldl (fun n c => n * 10 + (((C.chr c).toNat : Int) - 48)) 0

/-- json.rs:55-68 `integer`. -/
def integer := expected (map (lex U C (many1 (digit U C))) (intVal C)) (.static "integer")

/-- json.rs:75-84 the value of the digits after the point; the state of the fold is the sum and `magnitude`.  (The `panic!`
for something else than a digit cannot be reached: `many(digit())` gives digits.) -/
def fracVal (s : List S.Tok) : Rat :=
  (s.foldl (fun (x : Rat × Rat) c => (x.1 + (((toDigit 10 (C.chr c)).getD 0 : Nat) : Rat) * (x.2 / 10), x.2 / 10)) (0, 1)).1

/-- json.rs:74 `i`. -/
def intPart := or (map (char C '0') fun _ => (0 : Rat)) (map (integer U C) fun x => (x : Rat))

/-- json.rs:75-84 `fractional`. -/
def fractional := map (many (digit U C)) (fracVal C)

/-- json.rs:86 `exp`. -/
def exp := «with» (satisfy S fun c => C.chr c = 'e' || C.chr c = 'E') (pair (optional (char C '-')) (integer U C))

/-- json.rs:87-89 the sign and what is before the point. -/
def signed := map (pair (optional (char C '-')) (intPart U C)) fun x => if x.1.isSome then -x.2.1 else x.2.1

/-- json.rs:87-91 with what is after the point. -/
def mantissa := map (pair (signed U C) («with» (optional (char C '.')) (fractional U C))) fun x =>
  if x.1 ≥ 0 then x.1 + x.2.1 else x.1 - x.2.1

/-- json.rs:70-101 `number`. -/
def number := expected (lex U C (map (pair (mantissa U C) (optional (exp U C))) fun x =>
  match x.2.1 with
  | some (sign, e, _) => x.1 * (10 : Rat) ^ (if sign.isSome then -e else e)
  | none => x.1)) (.static "number")

/-- json.rs:109-121 `back_slash_char`. -/
def backSlashChar : Parser S Unit Char := satisfyMap S fun t =>
  match C.chr t with
  | '"' => some '"'
  | '\\' => some '\\'
  | '/' => some '/'
  | 'b' => some '\x08'
  | 'f' => some '\x0c'
  | 'n' => some '\n'
  | 'r' => some '\r'
  | 't' => some '\t'
  | _ => none

/-- json.rs:103-128 `json_char`: a function that calls other parsers. -/
def jsonChar : Parser S Unit Char := fnParser S fun i =>
  match (any S).lazy i with
  | (r, j) =>
    match r.toStd with
    | .ok t committed =>
      if C.chr t = '\\' then
        let o := (backSlashChar C).stream j
        (committed.combine fun _ => o.1.toStd, o.2)
      else if C.chr t = '"' then (.err (.peek (Tracked.of (S.E.empty (S.position j)))), j)
      else (.ok (C.chr t) committed, j)
    | .err e => (.err e, j)
    | .abort a => (.abort a, j)

/-- json.rs:130-135 `json_string`. -/
def jsonString := expected (between (char C '"') (lex U C (char C '"')) (many (jsonChar C))) (.static "string")

/-- json.rs:141 `field`. -/
def field (value : Parser S Unit Value) :=
  map (tuple (jsonString U C) (.cons (lex U C (char C ':')) (.cons value .nil))) fun t => (t.1, t.2.2.1)

/-- json.rs:137-146 `object`. -/
def object (value : Parser S Unit Value) :=
  expected (map (between (lex U C (char C '{')) (lex U C (char C '}')) (sepBy (field U C value) (lex U C (char C ','))))
    Value.object) (.static "object")

/-- json.rs:163-167 `array`. -/
def array (value : Parser S Unit Value) :=
  map (between (lex U C (char C '[')) (lex U C (char C ']')) (sepBy value (lex U C (char C ',')))) Value.array

/-- char.rs:247-258 `string`. -/
def str (s : List Char) : Parser S Unit Unit :=
  stringCmp S s (fun c t => c == C.chr t) (.static (String.ofList s)) ()

/-- json.rs:169-177 the alternatives. -/
def alternatives (value : Parser S Unit Value) :=
  Alts.cons (map (jsonString U C) Value.string) (.cons (object U C value) (.cons (array U C value)
    (.cons (map (number U C) Value.number) (.cons (lex U C (map (str C "false".toList) fun _ => Value.bool false))
    (.cons (lex U C (map (str C "true".toList) fun _ => Value.bool true))
    (.last (lex U C (map (str C "null".toList) fun _ => Value.null))))))))

/-- json.rs:158-179 `json_value_`, made from `json_value`. -/
def body (value : Parser S Unit Value) : Parser S Unit Value := parserMacroUnit (choice (alternatives U C value))

/-- json.rs:149-179 `json_value`, whose calls nest at most `n` deep. -/
def value (n : Nat) : Parser S Unit Value := recur (body U C) () n

end Json

end Verif
