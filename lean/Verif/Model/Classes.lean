import Verif.Model.Byte

/-!
# The named classes of characters and bytes (`src/parser/{char,byte}.rs`)

The predicates of the standard library are modelled as they are written in `core`.  What `core` looks up in its Unicode
tables is a parameter; the tables are only consulted beyond ASCII.
-/

namespace Verif

variable {S : Strm}

/-- `u8::is_ascii_digit`: `b'0'..=b'9'`. -/
def isAsciiDigit (b : UInt8) : Bool := 48 ≤ b && b ≤ 57
/-- `u8::is_ascii_uppercase`: `b'A'..=b'Z'`. -/
def isAsciiUppercase (b : UInt8) : Bool := 65 ≤ b && b ≤ 90
/-- `u8::is_ascii_lowercase`: `b'a'..=b'z'`. -/
def isAsciiLowercase (b : UInt8) : Bool := 97 ≤ b && b ≤ 122
/-- `u8::is_ascii_alphabetic`: `b'A'..=b'Z' | b'a'..=b'z'`. -/
def isAsciiAlphabetic (b : UInt8) : Bool := (65 ≤ b && b ≤ 90) || (97 ≤ b && b ≤ 122)
/-- `u8::is_ascii_alphanumeric`: `b'0'..=b'9' | b'A'..=b'Z' | b'a'..=b'z'`. -/
def isAsciiAlphanumeric (b : UInt8) : Bool := (48 ≤ b && b ≤ 57) || (65 ≤ b && b ≤ 90) || (97 ≤ b && b ≤ 122)
/-- `u8::is_ascii_hexdigit`: `b'0'..=b'9' | b'A'..=b'F' | b'a'..=b'f'`. -/
def isAsciiHexdigit (b : UInt8) : Bool := (48 ≤ b && b ≤ 57) || (65 ≤ b && b ≤ 70) || (97 ≤ b && b ≤ 102)
/-- `u8::is_ascii_whitespace`: `b'\t' | b'\n' | b'\x0C' | b'\r' | b' '`. -/
def isAsciiWhitespace (b : UInt8) : Bool := b == 9 || b == 10 || b == 12 || b == 13 || b == 32

/-- The Unicode tables of `core`. -/
structure Unicode where
  whiteSpace : Char → Bool
  uppercase : Char → Bool
  lowercase : Char → Bool
  alphabetic : Char → Bool
  numeric : Char → Bool

namespace Unicode
variable (U : Unicode)

/-- `char::is_whitespace`: `' ' | '\x09'..='\x0d' => true, c => c > '\x7f' && White_Space(c)`. -/
def isWhitespace (c : Char) : Bool := c == ' ' || (9 ≤ c.toNat && c.toNat ≤ 13) || (c.toNat > 127 && U.whiteSpace c)
/-- `char::is_uppercase`: `'A'..='Z' => true, c => c > '\x7f' && Uppercase(c)`. -/
def isUppercase (c : Char) : Bool := (65 ≤ c.toNat && c.toNat ≤ 90) || (c.toNat > 127 && U.uppercase c)
/-- `char::is_lowercase`: `'a'..='z' => true, c => c > '\x7f' && Lowercase(c)`. -/
def isLowercase (c : Char) : Bool := (97 ≤ c.toNat && c.toNat ≤ 122) || (c.toNat > 127 && U.lowercase c)
/-- `char::is_alphabetic`: `'a'..='z' | 'A'..='Z' => true, c => c > '\x7f' && Alphabetic(c)`. -/
def isAlphabetic (c : Char) : Bool :=
  (97 ≤ c.toNat && c.toNat ≤ 122) || (65 ≤ c.toNat && c.toNat ≤ 90) || (c.toNat > 127 && U.alphabetic c)
/-- `char::is_numeric`: `'0'..='9' => true, c => c > '\x7f' && N(c)`. -/
def isNumeric (c : Char) : Bool := (48 ≤ c.toNat && c.toNat ≤ 57) || (c.toNat > 127 && U.numeric c)
/-- `char::is_alphanumeric`: `is_alphabetic() || is_numeric()`. -/
def isAlphanumeric (c : Char) : Bool := U.isAlphabetic c || U.isNumeric c

end Unicode

/-- `char::to_digit(radix)`: the digits, then (for a radix above ten) the letters of either case. -/
def toDigit (radix : Nat) (c : Char) : Option Nat :=
  let n := c.toNat
  let d := if 48 ≤ n && n ≤ 57 then some (n - 48)
    else if 97 ≤ n && n ≤ 122 then some (n - 97 + 10)
    else if 65 ≤ n && n ≤ 90 then some (n - 65 + 10)
    else none
  d.filter (· < radix)

/-- `char::is_digit(radix)`: `self.to_digit(radix).is_some()`. -/
def isDigit (radix : Nat) (c : Char) : Bool := (toDigit radix c).isSome

/-- The parsers of one token of char.rs and byte.rs. -/
inductive TokenClass where
  | digit | space | newline | tab | upper | lower | alphaNum | letter | octDigit | hexDigit

/-- byte.rs:50-227 `digit`, `space`, `newline`, `tab`, `upper`, `lower`, `alpha_num`, `letter`, `oct_digit`, `hex_digit`:
the predicate and the label. -/
def TokenClass.byte : TokenClass → (UInt8 → Bool) × String
  | digit => (isAsciiDigit, "digit")
  | space => (isAsciiWhitespace, "space")
  | newline => (fun b => b == 10, "lf newline")
  | tab => (fun b => b == 9, "tab")
  | upper => (isAsciiUppercase, "upper")
  | lower => (isAsciiLowercase, "lower")
  | alphaNum => (isAsciiAlphanumeric, "alpha_num")
  | letter => (isAsciiAlphabetic, "letter")
  | octDigit => (fun b => 48 ≤ b && b ≤ 55, "octal digit")
  | hexDigit => (isAsciiHexdigit, "hex_digit")

/-- char.rs:28-232 the same for characters. -/
def TokenClass.char (U : Unicode) : TokenClass → (Char → Bool) × String
  | digit => (isDigit 10, "digit")
  | space => (U.isWhitespace, "whitespace")
  | newline => (fun c => c == '\n', "lf newline")
  | tab => (fun c => c == '\t', "tab")
  | upper => (U.isUppercase, "uppercase letter")
  | lower => (U.isLowercase, "lowercase letter")
  | alphaNum => (U.isAlphanumeric, "letter or digit")
  | letter => (U.isAlphabetic, "letter")
  | octDigit => (isDigit 8, "octal digit")
  | hexDigit => (isDigit 16, "hexadecimal digit")

/-- byte.rs:31-227 the parser of a class; `byte` says that the tokens are bytes. -/
def byteClass (S : Strm) (byte : S.Tok → UInt8) (k : TokenClass) : Parser S Unit S.Tok :=
  satisfyNamed S (fun t => k.byte.1 (byte t)) k.byte.2

/-- char.rs:28-232 the parser of a class; `chr` says that the tokens are characters.  (`digit` is a `parser!`, which
forwards.) -/
def charClass (S : Strm) (U : Unicode) (chr : S.Tok → Char) (k : TokenClass) : Parser S Unit S.Tok :=
  satisfyNamed S (fun t => (k.char U).1 (chr t)) (k.char U).2

/-- byte.rs:84-89 `spaces`. -/
def byteSpaces (S : Strm) (byte : S.Tok → UInt8) : Parser S (List Unit × Unit) Unit :=
  spaces S (fun t => isAsciiWhitespace (byte t)) "space"

/-- char.rs:81-86 `spaces`. -/
def charSpaces (S : Strm) (U : Unicode) (chr : S.Tok → Char) : Parser S (List Unit × Unit) Unit :=
  spaces S (fun t => U.isWhitespace (chr t)) "whitespace"

end Verif
