import Verif.Model.Json

/-!
# The parser of `.ini` files of `examples/ini.rs`

A `HashMap` is the list of the pairs it was extended with, in the order they were read (a later pair replaces an earlier one with
the same key).
-/

namespace Verif

namespace Ini

/-- Properties: names and values. -/
abbrev Properties := List (List Char × List Char)

/-- examples/ini.rs:35-39 `struct Ini`. -/
structure File where
  global : Properties
  sections : List (List Char × Properties)
deriving DecidableEq

variable {S : Strm} [DecidableEq S.Tok] (U : Unicode) (C : Chars S)

open Json (char)

/-- ini.rs:46 the characters of a name. -/
def isKey (c : Char) : Bool := c != '=' && c != '[' && c != ';'

/-- ini.rs:48 the characters of a value. -/
def isValue (c : Char) : Bool := c != '\n' && c != ';'

/-- ini.rs:41-52 `property`. -/
def property := message (map (tuple (many1 (satisfy S fun t => isKey (C.chr t)))
    (.cons (char C '=') (.cons (many1 (satisfy S fun t => isValue (C.chr t))) .nil)))
  fun x => (x.1.map C.chr, x.2.2.1.map C.chr)) (.static "while parsing property")

/-- ini.rs:58 `comment`. -/
def comment := map (pair (char C ';') (skipMany (satisfy S fun t => C.chr t != '\n'))) fun _ => ()

/-- char.rs:52-67 `space`. -/
def space : Parser S Unit S.Tok := charClass S U C.chr .space

/-- ini.rs:54-62 `whitespace`. -/
def whitespace := skipMany (or (skipMany1 (space U C)) (comment C))

/-- ini.rs:64-70 `properties`. -/
def properties := many (skip (property C) (whitespace U C))

/-- ini.rs:72-83 `section`. -/
def «section» := message (map (tuple (between (char C '[') (char C ']') (many (satisfy S fun t => C.chr t != ']')))
    (.cons (whitespace U C) (.cons (properties U C) .nil)))
  fun x => (x.1.map C.chr, x.2.2.1)) (.static "while parsing section")

/-- ini.rs:85-91 `ini`. -/
def ini := map (tuple (whitespace U C) (.cons (properties U C) (.cons (many («section» U C)) .nil)))
  fun x => (⟨x.2.1, x.2.2.1⟩ : File)

end Ini

end Verif
