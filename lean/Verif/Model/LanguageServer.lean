import Verif.Model.Classes
import Verif.Model.Wrap
import Verif.Model.Range
import Verif.Model.Decoder

/-!
# The decoder of `examples/async.rs`

A program written with the library: the base protocol of language servers, blocks of bytes with their length before them, read
through a codec that is called whenever some bytes have arrived.
-/

namespace Verif.LanguageServer

/-- `"Content-Length: "`. -/
def label : List UInt8 := [67, 111, 110, 116, 101, 110, 116, 45, 76, 101, 110, 103, 116, 104, 58, 32]

/-- `"\r\n"`. -/
def newline : List UInt8 := [13, 10]

/-- combinator.rs:1208-1258 `from_utf8` for bytes.  Simplification: text that is not ASCII is rejected here; `number` (below)
only passes digits on. -/
def utf8 (bs : List UInt8) : Option String :=
  if bs.all (· < 128) then some (String.ofList (bs.map fun b => Char.ofNat b.toNat)) else none

/-- `str::parse::<usize>` of the standard library, where `usize` has 64 bits.  Simplification: a sign `+` is rejected here;
`number` only passes digits on. -/
def parseUsize (s : String) : Except String Nat :=
  if s.toList = [] then .error "cannot parse integer from empty string"
  else
    match s.toList.mapM (toDigit 10) with
    | none => .error "invalid digit found in string"
    | some ds =>
      let n := ds.foldl (fun n d => 10 * n + d) 0
      if n < 2 ^ 64 then .ok n else .error "number too large to fit in target type"

section
variable {S : Strm} [DecidableEq S.Rng] (R : RangeOps S) (lit : List UInt8 → S.Rng) (bytes : S.Rng → List UInt8)
  (byte : S.Tok → UInt8)

/-- examples/async.rs:60 `number`. -/
def number := fromStr (recognizeRange R (skipMany1 (byteClass S byte .digit))) (fun r => utf8 (bytes r)) parseUsize

/-- async.rs:61-64 `content_length`; the closure that counts the calls is left out. -/
def contentLength := «with» (range R (lit label)) (number R bytes byte)

/-- async.rs:69-73 the lines before the content. -/
def header := tuple (skipMany (range R (lit newline))) <| .cons (contentLength R lit bytes byte) <|
  .cons (map (range R (lit (newline ++ newline))) fun _ => ()) .nil

/-- async.rs:53-78 `decode_parser`. -/
def message := anyPartialState (thenPartial (header R lit bytes byte) (fun v => (map (take R v.2.1) bytes, v)) ())

end

end Verif.LanguageServer
