import Verif.Model.Range
import Verif.Model.Wrap

/-!
# Byte, character and regex parsers (`src/parser/{byte,char,regex}.rs`), `spanned`
-/

namespace Verif

variable {S : Strm} {σ α : Type}

/-- byte.rs:31-40 `byte_parser!` and the other `satisfy(..).expected(..)` parsers of byte.rs and
char.rs (96-232). -/
def satisfyNamed (S : Strm) (f : S.Tok → Bool) (name : String) : Parser S Unit S.Tok :=
  expected (satisfy S f) (.static name)

/-- byte.rs:84-89 / char.rs:81-86 `spaces`. -/
def spaces (S : Strm) (isSpace : S.Tok → Bool) (name : String) : Parser S (List Unit × Unit) Unit :=
  expected (skipMany (satisfyNamed S isSpace name)) (.static "whitespaces")

/-- byte.rs:99-104 / char.rs:96-101 `newline`. -/
def newline (S : Strm) [DecidableEq S.Tok] (lf : S.Tok) : Parser S Unit S.Tok :=
  satisfyNamed S (fun c => c = lf) "lf newline"

/-- byte.rs:115-120 / char.rs:112-117 `crlf`. -/
def crlf (S : Strm) [DecidableEq S.Tok] (cr lf : S.Tok) : Parser S Unit S.Tok :=
  expected (noPartial («with» (satisfy S fun c => c = cr) (newline S lf))) (.static "crlf newline")

/-- byte.rs:249-289 `bytes`, `bytes_cmp`; char.rs:247-273 `string`, `string_cmp` (the `parser!`
wrapper of the former has state `()`). -/
def stringCmp {τ : Type} (S : Strm) (ts : List τ) (cmp : τ → S.Tok → Bool)
    (info : Info S.Tok S.Rng) (result : α) : Parser S Unit α :=
  expected (map (tokensCmp S ts cmp) fun _ => result) info

/-- `memchr`, `memchr2`, `memchr3`: the first index whose byte is one of the needles. -/
def memchr (p : UInt8 → Bool) (h : List UInt8) : Option Nat := h.findIdx? p

/-- byte.rs:291-375 `take_until_byte`, `take_until_byte2`, `take_until_byte3`; `bytes` is `as_ref`. -/
def takeUntilByte (R : RangeOps S) (bytes : S.Rng → List UInt8) (p : UInt8 → Bool) :
    Parser S Nat S.Rng :=
  parserMacro (takeFn R fun r =>
    match memchr p (bytes r) with
    | some i => .found i
    | none => .notFound (bytes r).length)

/-- byte.rs:420-425 the loop of `memslice`: candidate positions in order (`memchr_iter`). -/
def memsliceLoop (pre : UInt8) (suffix : List UInt8) : List UInt8 → Nat → Option Nat
  | [], _ => none
  | b :: bs, i =>
    if b = pre && suffix.isPrefixOf bs then some i else memsliceLoop pre suffix bs (i + 1)

/-- byte.rs:415-426 `memslice`. -/
def memslice (needle haystack : List UInt8) : Option Nat :=
  match needle with
  | [] => some 0
  | pre :: suffix => memsliceLoop pre suffix haystack 0

/-- byte.rs:377-413 `take_until_bytes`. -/
def takeUntilBytes (R : RangeOps S) (bytes : S.Rng → List UInt8) (needle : List UInt8) :
    Parser S Nat S.Rng :=
  parserMacro (takeFn R fun r =>
    match memslice needle (bytes r) with
    | some i => .found i
    | none => .notFound ((bytes r).length - (needle.length - 1)))

/-- byte.rs:448-454 (= 469-475) read `n` tokens into a buffer. -/
def readN (S : Strm) : Nat → List S.Tok → S.Input → ParseResult (List S.Tok) S.Err × S.Input
  | 0, buf, i => (.commitOk buf, i)
  | n + 1, buf, i =>
    match S.unconsP i with
    | (.commitOk t, j) | (.peekOk t, j) => readN S n (buf ++ [t]) j
    | (.commitErr e, j) => (.commitErr e, j)
    | (.peekErr e, j) => (.peekErr e, j)
    | (.abort a, j) => (.abort a, j)

/-- byte.rs:435-483 `integer_parser!`: `n` bytes, converted by `from_be_bytes`/`from_le_bytes`. -/
def intParser (S : Strm) (n : Nat) (conv : List S.Tok → α) : Parser S Unit α :=
  fnParser S fun i =>
    let checkpoint := S.checkpoint i
    let r := readN S n [] i
    match r.1 with
    | .commitOk buf => (.ok (conv buf) (.commit ()), r.2)
    | .peekOk buf => (.ok (conv buf) (.peek ()), r.2)
    | .abort a => (.abort a, r.2)
    | .commitErr e =>
      match S.reset checkpoint r.2 with
      | (some e', j) => (.err (.commit (Tracked.of e')), j)
      | (none, j) => (.err (.commit (Tracked.of e)), j)
    | .peekErr e =>
      match S.reset checkpoint r.2 with
      | (some e', j) => (.err (.commit (Tracked.of e')), j)
      | (none, j) => (.err (.peek e), j)

/-- `uN::from_le_bytes`. -/
def fromLe : List UInt8 → Nat
  | [] => 0
  | b :: bs => b.toNat + 256 * fromLe bs

/-- `uN::from_be_bytes`. -/
def fromBe (bs : List UInt8) : Nat := fromLe bs.reverse

/-- `iN::from_*_bytes`: two's complement of `n` bytes. -/
def toSigned (n : Nat) (x : Nat) : Int := if x < 2 ^ (8 * n - 1) then x else (x : Int) - 2 ^ (8 * n)

/-- byte.rs:435-510 `le_u16`, `le_u32`, `le_u64` for `n` = 2, 4, 8; `byte` says that the tokens are bytes. -/
def leUint (S : Strm) (byte : S.Tok → UInt8) (n : Nat) : Parser S Unit Nat :=
  intParser S n fun ts => fromLe (ts.map byte)

/-- byte.rs:435-510 `be_u16`, `be_u32`, `be_u64`. -/
def beUint (S : Strm) (byte : S.Tok → UInt8) (n : Nat) : Parser S Unit Nat :=
  intParser S n fun ts => fromBe (ts.map byte)

/-- byte.rs:511-529 `le_i16`, `le_i32`, `le_i64`. -/
def leInt (S : Strm) (byte : S.Tok → UInt8) (n : Nat) : Parser S Unit Int :=
  intParser S n fun ts => toSigned n (fromLe (ts.map byte))

/-- byte.rs:511-529 `be_i16`, `be_i32`, `be_i64`. -/
def beInt (S : Strm) (byte : S.Tok → UInt8) (n : Nat) : Parser S Unit Int :=
  intParser S n fun ts => toSigned n (fromBe (ts.map byte))

/-- regex.rs:64-74 the trait `Regex`: `find_iter` gives the matches in order, as `(end, range)`;
`captures` the same with all groups.  The engine is arbitrary. -/
structure Regex (R : Type) where
  isMatch : R → Bool
  findIter : R → List (Nat × R)
  captures : R → List (Nat × List R)
  str : String

/-- regex.rs:101-116 `find_iter` collecting into `First` (47-56): `end` is that of the only match
pulled. -/
def regexFirst {β : Type} (ms : List (Nat × β)) : Nat × Option β :=
  match ms with
  | [] => (0, none)
  | m :: _ => (m.1, some m.2)

/-- regex.rs:101-116 collecting everything: `end` is that of the last match. -/
def regexAll {β : Type} (ms : List (Nat × β)) : Nat × List β :=
  (ms.foldl (fun _ m => m.1) 0, ms.map (·.2))

/-- The `add_error` of the regex parsers (regex.rs:240-245). -/
def regexExpected (S : Strm) (re : Regex S.Rng) : Tracked S.Err → Tracked S.Err :=
  addExpected S (.format s!"/{re.str}/")

/-- regex.rs:219-246 `match_`. -/
def regexMatch (R : RangeOps S) (re : Regex S.Rng) : Parser S Unit S.Rng :=
  .ofLazy ()
    (fun i =>
      if re.isMatch (R.range i) then (.peekOk (R.range i), i)
      else (.peekErr (Tracked.of (S.E.empty (S.position i))), i))
    (addError := regexExpected S re)

/-- The shared end of `find` and `captures` (regex.rs:291-295, 411-415). -/
def regexTake {β : Type} (R : RangeOps S) (r : Nat × Option β) (i : S.Input) :
    ParseResult β S.Err × S.Input :=
  match r.2 with
  | some v => let x := (take R r.1).lazy i; (x.1.map fun _ => v, x.2)
  | none => (.peekErr (Tracked.of (S.E.empty (S.position i))), i)

/-- regex.rs:274-303 `find`. -/
def regexFind (R : RangeOps S) (re : Regex S.Rng) : Parser S Unit S.Rng :=
  .ofLazy () (fun i => regexTake R (regexFirst (re.findIter (R.range i))) i)
    (addError := regexExpected S re)

/-- regex.rs:335-362 `find_many`. -/
def regexFindMany (R : RangeOps S) (re : Regex S.Rng) : Parser S Unit (List S.Rng) :=
  .ofLazy ()
    (fun i =>
      let r := regexAll (re.findIter (R.range i))
      let x := (take R r.1).lazy i
      (x.1.map fun _ => r.2, x.2))
    (addError := regexExpected S re)

/-- regex.rs:393-423 `captures`. -/
def regexCaptures (R : RangeOps S) (re : Regex S.Rng) : Parser S Unit (List S.Rng) :=
  .ofLazy () (fun i => regexTake R (regexFirst (re.captures (R.range i))) i)
    (addError := regexExpected S re)

/-- regex.rs:461-489 `captures_many`. -/
def regexCapturesMany (R : RangeOps S) (re : Regex S.Rng) : Parser S Unit (List (List S.Rng)) :=
  .ofLazy ()
    (fun i =>
      let r := regexAll (re.captures (R.range i))
      let x := (take R r.1).lazy i
      (x.1.map fun _ => r.2, x.2))
    (addError := regexExpected S re)

/-- combinator.rs:1535-1571 `spanned` on a stream whose positions are spans (`toSpan`/`ofSpan` expose
that). -/
def spanned {Q : Type} [DecidableEq Q] (toSpan : S.Pos → Span Q) (ofSpan : Span Q → S.Pos)
    (p : Parser S σ α) : Parser S σ α :=
  .ofMode p.init
    (fun m i s =>
      let start := (toSpan (S.position i)).start
      let o := p.run m i s
      o.mapRes (·.mapErr fun err =>
        let errorSpan := toSpan (S.E.position err)
        if errorSpan.start = errorSpan.stop then
          S.E.setPosition err (ofSpan ⟨start, (toSpan (S.position o.inp)).stop⟩)
        else err))
    p.addError p.addCommitted

end Verif
