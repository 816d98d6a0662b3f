import Verif.Model.Range
import Verif.Model.Repeat

/-!
# The HTTP parser of `benches/http.rs`

A program written with the library: requests over byte slices, parsed without copying.
-/

namespace Verif

/-- The tokens of a stream are bytes, and its ranges are slices of bytes. -/
structure Octets (S : Strm) where
  byte : S.Tok → UInt8
  tok : UInt8 → S.Tok
  byte_tok : ∀ b, byte (tok b) = b
  tok_byte : ∀ t, tok (byte t) = t
  slice : S.Rng → List UInt8
  lit : List UInt8 → S.Rng
  slice_lit : ∀ w, slice (lit w) = w
  lit_slice : ∀ r, lit (slice r) = r

namespace Http

/-- benches/http.rs:22-26 `struct Request`. -/
structure Request (ρ : Type) where
  method : ρ
  uri : ρ
  version : ρ

/-- http.rs:30-33 `struct Header`. -/
structure Header (ρ : Type) where
  name : ρ
  value : List ρ

/-- http.rs:38-57 what `is_token` excludes besides `128..=255` and `0..=31`: `()<>@,;:\"/[]?={} `. -/
def separators : List UInt8 := [40, 41, 60, 62, 64, 44, 59, 58, 92, 34, 47, 91, 93, 63, 61, 123, 125, 32]

/-- http.rs:35-59 `is_token`. -/
def isToken (c : UInt8) : Bool := !(decide (128 ≤ c) || decide (c ≤ 31) || separators.contains c)

/-- http.rs:61-63 `is_horizontal_space`. -/
def isHorizontalSpace (c : UInt8) : Bool := c == 32 || c == 9

/-- http.rs:64-66 `is_space`. -/
def isSpace (c : UInt8) : Bool := c == 32

/-- http.rs:67-69 `is_not_space`. -/
def isNotSpace (c : UInt8) : Bool := c != 32

/-- http.rs:70-72 `is_http_version`. -/
def isHttpVersion (c : UInt8) : Bool := (decide (48 ≤ c) && decide (c ≤ 57)) || c == 46

/-- http.rs:87 the bytes of a header line. -/
def isContent (c : UInt8) : Bool := c != 13 && c != 10

/-- `"HTTP/"`. -/
def label : List UInt8 := [72, 84, 84, 80, 47]

variable {S : Strm} [DecidableEq S.Tok] [DecidableEq S.Rng] (R : RangeOps S) (B : Octets S)

/-- range.rs:521-567 `take_while1` with a predicate on bytes. -/
def while1 (f : UInt8 → Bool) := takeWhile1 R fun t => f (B.byte t)

/-- http.rs:74-79 `end_of_line`; `B.byte` since the tokens of the program are bytes. -/
def endOfLine := or (map (tuple (token S (B.tok 13)) (.cons (token S (B.tok 10)) .nil)) fun _ => (13 : UInt8))
  (map (token S (B.tok 10)) B.byte)

/-- http.rs:85-90 `message_header_line`. -/
def messageHeaderLine := map (tuple (while1 R B isHorizontalSpace) (.cons (while1 R B isContent) (.cons (endOfLine B) .nil)))
  fun x => x.2.1

/-- http.rs:81-97 `message_header`; `struct_parser!` is a tuple and a `map` (sequence.rs:371-506). -/
def messageHeader := map (tuple (while1 R B isToken) (.cons (token S (B.tok 58)) (.cons (many1 (messageHeaderLine R B)) .nil)))
  fun x => (⟨x.1, x.2.2.1⟩ : Header S.Rng)

/-- http.rs:105 `http_version`. -/
def httpVersion := «with» (range R (B.lit label)) (while1 R B isHttpVersion)

/-- http.rs:107-113 `request_line`. -/
def requestLine := map (tuple (while1 R B isToken) (.cons (while1 R B isSpace) (.cons (while1 R B isNotSpace)
  (.cons (while1 R B isSpace) (.cons (httpVersion R B) .nil))))) fun x => (⟨x.1, x.2.2.1, x.2.2.2.2.1⟩ : Request S.Rng)

/-- http.rs:115-121 `request`. -/
def request := map (tuple (requestLine R B) (.cons (endOfLine B) (.cons (many (messageHeader R B)) (.cons (endOfLine B) .nil))))
  fun x => (x.1, x.2.2.1)

/-- http.rs:157-168 the loop of the benchmark: parse requests while a token comes next; a failure panics (`none`).
The requests, which the benchmark drops, are returned.  `fuel` bounds the number of rounds (one more than the tokens). -/
def requests : Nat → S.Input → Option (List (Request S.Rng × List (Header S.Rng)))
  | 0, _ => none
  | fuel + 1, i =>
    match (S.uncons i).1 with
    | .error _ => some []
    | .ok _ =>
      match (request R B).parse i with
      | .ok v j => (requests fuel j).map (v :: ·)
      | _ => none

end Http

end Verif
