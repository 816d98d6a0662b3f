import Verif.Model.Wrap
import Verif.Model.Parser

/-!
# `EasyParser` (`src/parser/mod.rs`)
-/

namespace Verif

/-- mod.rs:1010-1031 `EasyParser::easy_parse`: put the input into an `easy::Stream`, parse, take the rest out of it.  (An
`easy::Stream` of the model has the same inputs as the stream inside it, so nothing is to be done there.) -/
def easyParse {A : Strm} [DecidableEq A.Tok] [DecidableEq A.Rng] {cmp : A.Pos → A.Pos → Ordering}
    {convS : A.SErr → Easy.Error A.Tok A.Rng} {conv : A.Err → Easy.Errors A.Tok A.Rng A.Pos} {σ α : Type}
    (p : Parser (easyS A cmp convS conv) σ α) (input : A.Input) : Parser.Parsed (easyS A cmp convS conv) α :=
  p.parse input

end Verif
