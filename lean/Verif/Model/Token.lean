import Verif.Model.Parser

/-!
# Token parsers (`src/parser/token.rs`)
-/

namespace Verif

variable {S : Strm}

/-- error.rs:494-501 `ParseError::add_expected` on the error inside a `Tracked`. -/
def addExpected (S : Strm) (x : Info S.Tok S.Rng) (e : Tracked S.Err) : Tracked S.Err :=
  { e with error := S.E.add e.error (S.E.expected x) }

/-- token.rs:15-49 `any`. -/
def any (S : Strm) : Parser S Unit S.Tok := .ofLazy () S.unconsP

/-- token.rs:57-71 `satisfy_impl`. -/
def satisfyImpl {α : Type} (S : Strm) (f : S.Tok → Option α) (i : S.Input) :
    ParseResult α S.Err × S.Input :=
  let position := S.position i
  match S.unconsP i with
  | (.commitOk c, j) | (.peekOk c, j) =>
    match f c with
    | some v => (.commitOk v, j)
    | none => (.peekErr (Tracked.of (S.E.empty position)), j)
  | (.peekErr e, j) => (.peekErr e, j)
  | (.commitErr e, j) => (.commitErr e, j)
  | (.abort a, j) => (.abort a, j)

/-- token.rs:73-113 `satisfy`. -/
def satisfy (S : Strm) (f : S.Tok → Bool) : Parser S Unit S.Tok :=
  .ofLazy () (satisfyImpl S fun c => if f c then some c else none)

/-- token.rs:115-167 `satisfy_map`. -/
def satisfyMap {α : Type} (S : Strm) (f : S.Tok → Option α) : Parser S Unit α :=
  .ofLazy () (satisfyImpl S f)

/-- token.rs:170-217 `token`. -/
def token (S : Strm) [DecidableEq S.Tok] (c : S.Tok) : Parser S Unit S.Tok :=
  .ofLazy () (satisfyImpl S fun x => if x = c then some x else none)
    (addError := addExpected S (.token c))

/-- token.rs:243-273 (= 347-376) the loop over the expected tokens; `bad` builds the committed
mismatch error from the unexpected token. Returns the result with the value `()` on success. -/
def tokensLoop {τ : Type} (S : Strm) (cmp : τ → S.Tok → Bool) (start : S.Pos)
    (bad : S.Tok → S.Err) : List τ → Bool → S.Input → ParseResult Unit S.Err × S.Input
  | [], committed, i => (if committed then .commitOk () else .peekOk (), i)
  | c :: cs, committed, i =>
    match S.unconsP i with
    | (.commitOk other, j) | (.peekOk other, j) =>
      if cmp c other then tokensLoop S cmp start bad cs true j
      else (if committed then .commitErr (bad other)
            else .peekErr (Tracked.of (S.E.empty start)), j)
    | (.peekErr e, j) =>
      let e' : Tracked S.Err := { e with error := S.E.setPosition e.error start }
      (if committed then .commitErr e'.error else .peekErr e', j)
    | (.commitErr e, j) => (.commitErr (S.E.setPosition e start), j)
    | (.abort a, j) => (.abort a, j)

/-- token.rs:220-322 `tokens`. -/
def tokens {τ : Type} (S : Strm) (cmp : τ → S.Tok → Bool) (expected : Info S.Tok S.Rng)
    (ts : List τ) : Parser S Unit (List τ) :=
  .ofLazy ()
    (fun i =>
      let start := S.position i
      let r := tokensLoop S cmp start
        (fun other => S.E.add (S.E.fromError start (S.E.unexpected (.token other)))
          (S.E.expected expected)) ts false i
      (r.1.map fun _ => ts, r.2))
    (addError := addExpected S expected)

/-- token.rs:325-421 `tokens_cmp`. -/
def tokensCmp {τ : Type} (S : Strm) (ts : List τ) (cmp : τ → S.Tok → Bool) :
    Parser S Unit (List τ) :=
  .ofLazy ()
    (fun i =>
      let start := S.position i
      let r := tokensLoop S cmp start
        (fun other => S.E.fromError start (S.E.unexpected (.token other))) ts false i
      (r.1.map fun _ => ts, r.2))

/-- token.rs:424-466 `position`. -/
def position (S : Strm) : Parser S Unit S.Pos := .ofLazy () fun i => (.peekOk (S.position i), i)

/-- token.rs:469-519 `one_of`. -/
def oneOf (S : Strm) [DecidableEq S.Tok] (ts : List S.Tok) : Parser S Unit S.Tok :=
  .ofLazy () (satisfy S fun c => ts.any fun t => t = c).lazy
    (addError := fun e => ts.foldl (fun e t => addExpected S (.token t) e) e)

/-- token.rs:522-577 `none_of`. -/
def noneOf (S : Strm) [DecidableEq S.Tok] (ts : List S.Tok) : Parser S Unit S.Tok :=
  .ofLazy () (satisfy S fun c => ts.all fun t => t ≠ c).lazy

/-- token.rs:580-612 `value`. -/
def value {α : Type} (S : Strm) (v : α) : Parser S Unit α := .ofLazy () fun i => (.peekOk v, i)

/-- token.rs:615-648 `produce`; the closure is pure here, so a value suffices. -/
def produce {α : Type} (S : Strm) (f : Unit → α) : Parser S Unit α :=
  .ofLazy () fun i => (.peekOk (f ()), i)

/-- token.rs:651-700 `eof`. -/
def eof (S : Strm) : Parser S Unit Unit :=
  .ofLazy ()
    (fun i =>
      let before := S.checkpoint i
      match S.uncons i with
      | (.error e, j) =>
        if S.E.isEoiS e then (.peekOk (), j)
        else
          match S.reset before j with
          | (some e', k) => (.commitErr e', k)
          | (none, k) => (.peekErr (Tracked.of (S.E.empty (S.position k))), k)
      | (.ok _, j) =>
        match S.reset before j with
        | (some e', k) => (.commitErr e', k)
        | (none, k) => (.peekErr (Tracked.of (S.E.empty (S.position k))), k))
    (addError := addExpected S (.static "end of input"))

end Verif
