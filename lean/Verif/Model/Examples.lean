import Verif.Model.Json
import Verif.Model.Slice
import Verif.Model.Range
import Verif.Model.Classes

/-!
# The parsers of `examples/number.rs` and `examples/readme.rs`
-/

namespace Verif

namespace Number

/-- number.rs:31 the input is a `&[u8]`. -/
abbrev Bytes : Strm := sliceS UInt8 1

/-- byte.rs:50-60 `digit`. -/
def digit : Parser Bytes Unit UInt8 := byteClass Bytes id .digit

/-- number.rs:22-25 the text of a number. -/
def text := pair (skipMany1 digit) (optional (pair (token Bytes 46) (skipMany digit)))

/-- number.rs:22-30 the parser; `parse` is the closure, which takes the bytes for a `str` without a check (`from_utf8_unchecked`)
and has `f64::from_str` read it. -/
def number {F : Type} (parse : List UInt8 → Except UnexpectedParse F) := andThen (recognizeRange (sliceR UInt8 1) text) parse

end Number

namespace Readme

variable {S : Strm} (U : Unicode) (C : Chars S)

/-- readme.rs:13 `word`. -/
def word := map (many1 (charClass S U C.chr .letter)) fun ts => ts.map C.chr

/-- readme.rs:15 the parser; `Vec::pop` gives the last element, if there is one. -/
def lastWord := map (sepBy (word U C) (charClass S U C.chr .space)) fun ws => ws.getLast?

end Readme

end Verif
