import Verif.Model.Stream

/-!
# The `Parser` trait (`src/parser/mod.rs`)

A Rust type implementing `Parser<Input>` becomes a record of the trait's methods.  The partial state
is an explicit type parameter as in Rust (`type PartialState`).  `&mut` arguments are returned.
`ParseMode` (mod.rs:1106-1209) is represented by `is_first()`: `PartialMode { first: true }` always
runs the parser as `FirstMode` (1203-1204, 313-314).
-/

namespace Verif

/-- What a parser call leaves behind: the result and the new values of the two `&mut` arguments. -/
structure Out (S : Strm) (σ α : Type) where
  res : ParseResult α S.Err
  inp : S.Input
  st : σ

namespace Out
/-- Change the result only (`result.map(..)` in Rust). -/
def mapRes {S : Strm} {σ α β : Type} (o : Out S σ α)
    (f : ParseResult α S.Err → ParseResult β S.Err) : Out S σ β := ⟨f o.res, o.inp, o.st⟩
/-- Embed the state in a larger one. -/
def mapSt {S : Strm} {σ τ α : Type} (o : Out S σ α) (f : σ → τ) : Out S τ α := ⟨o.res, o.inp, f o.st⟩
end Out

/-- mod.rs:84-332 the methods of `Parser` that combinators call. -/
structure Parser (S : Strm) (σ α : Type) where
  /-- `PartialState::default()` (mod.rs:91) -/
  init : σ
  /-- `parse_mode` (mod.rs:267-278): `true` = first mode -/
  run : Bool → S.Input → σ → Out S σ α
  /-- `parse_lazy` (mod.rs:180-198) -/
  lazy : S.Input → ParseResult α S.Err × S.Input
  /-- `parse_committed_mode` (mod.rs:303-318) -/
  committed : Bool → S.Input → σ → Out S σ α
  /-- `parse_stream` (mod.rs:141-159) -/
  stream : S.Input → ParseResult α S.Err × S.Input
  /-- `add_error` (mod.rs:206) -/
  addError : Tracked S.Err → Tracked S.Err
  /-- `add_committed_expected_error` (mod.rs:330-331) -/
  addCommitted : Tracked S.Err → Tracked S.Err
  /-- `parser_count` (mod.rs:324-326) -/
  count : Nat

namespace Strm

variable {S : Strm}

/-- `ctry!(input.reset(before).committed()); k` (error.rs:14-38): on a failing reset return the
committed error. -/
def tryReset {σ α : Type} (before : S.Ckpt) (i : S.Input) (s : σ) (k : S.Input → Out S σ α) :
    Out S σ α :=
  match S.reset before i with
  | (some e, j) => ⟨.commitErr e, j, s⟩
  | (none, j) => k j

/-- mod.rs:149-156 = 218-225 = 1137-1144: describing a `PeekErr`: reset, read one token, reset again,
add what was found, then add the parser's own errors. -/
def describe {σ α : Type} (before : S.Ckpt) (addError : Tracked S.Err → Tracked S.Err)
    (e : Tracked S.Err) (i : S.Input) (s : σ) : Out S σ α :=
  tryReset before i s fun j =>
    match S.uncons j with
    | (.ok t, k) =>
      tryReset before k s fun l =>
        ⟨.peekErr (addError { e with error := S.E.add e.error (S.E.unexpected (.token t)) }), l, s⟩
    | (.error _, k) =>
      ⟨.peekErr (addError { e with error := S.E.add e.error S.E.endOfInput }), k, s⟩

/-- Run, and describe the error when it is a `PeekErr` (mod.rs:145-158, 215-227, 1134-1146). -/
def describing {σ α : Type} (addError : Tracked S.Err → Tracked S.Err)
    (run : S.Input → σ → Out S σ α) (i : S.Input) (s : σ) : Out S σ α :=
  let before := S.checkpoint i
  let o := run i s
  match o.res with
  | .peekErr e => describe before addError e o.inp o.st
  | _ => o

/-- mod.rs:180-198 the default `parse_lazy`. -/
def defaultLazy {σ α : Type} (init : σ) (run : Bool → S.Input → σ → Out S σ α) (i : S.Input) :
    ParseResult α S.Err × S.Input :=
  if S.isPartial i then
    let before := S.checkpoint i
    let o := run true i init
    match o.res with
    | .commitErr e =>
      match S.reset before o.inp with
      | (some e', j) => (.commitErr e', j)
      | (none, j) => (.commitErr e, j)
    | r => (r, o.inp)
  else
    let o := run true i init
    (o.res, o.inp)

end Strm

namespace Parser

variable {S : Strm}

/-- A parser type that implements `parse_mode_impl` and takes the other methods from the trait's
defaults / `parse_mode!` macro (mod.rs:36-56). -/
def ofMode {σ α : Type} (init : σ) (run : Bool → S.Input → σ → Out S σ α)
    (addError : Tracked S.Err → Tracked S.Err := id)
    (addCommitted : Tracked S.Err → Tracked S.Err := id) (count : Nat := 1) : Parser S σ α where
  init := init
  run := run
  lazy := Strm.defaultLazy init run
  committed := fun m => Strm.describing addError (run m)
  stream := fun i => let o := Strm.describing addError (run true) i init; (o.res, o.inp)
  addError := addError
  addCommitted := addCommitted
  count := count

/-- A parser type that implements only `parse_lazy`: `parse_first` → `parse_partial` → `parse_lazy`
(mod.rs:240-262); the state is untouched. -/
def ofLazy {σ α : Type} (init : σ) (lazy : S.Input → ParseResult α S.Err × S.Input)
    (addError : Tracked S.Err → Tracked S.Err := id)
    (addCommitted : Tracked S.Err → Tracked S.Err := id) (count : Nat := 1) : Parser S σ α where
  init := init
  run := fun _ i s => let r := lazy i; ⟨r.1, r.2, s⟩
  lazy := lazy
  committed := fun _ => Strm.describing addError (fun i s => let r := lazy i; ⟨r.1, r.2, s⟩)
  stream := fun i =>
    let o := Strm.describing addError (fun i (s : σ) => let r := lazy i; ⟨r.1, r.2, s⟩) i init
    (o.res, o.inp)
  addError := addError
  addCommitted := addCommitted
  count := count

/-- Outcome of the top level entry points: `Result<(Output, Input), Error>`. -/
inductive Parsed (S : Strm) (α : Type) where
  | ok (v : α) (rest : S.Input)
  | err (e : S.Err)
  | abort (a : Abort)

/-- mod.rs:105-113 `Parser::parse`. -/
def parse {σ α : Type} (p : Parser S σ α) (i : S.Input) : Parsed S α :=
  match p.stream i with
  | (.commitOk v, j) => .ok v j
  | (.peekOk v, j) => .ok v j
  | (.commitErr e, _) => .err e
  | (.peekErr e, _) => .err e.error
  | (.abort a, _) => .abort a

/-- mod.rs:210-228 `Parser::parse_stream_partial` (no type overrides it). -/
def streamPartial {σ α : Type} (p : Parser S σ α) (i : S.Input) (s : σ) : Out S σ α :=
  Strm.describing p.addError (p.run false) i s

/-- mod.rs:120-129 `Parser::parse_with_state`: `(Result<Output, Error>, input, state)`. -/
def parseWithState {σ α : Type} (p : Parser S σ α) (i : S.Input) (s : σ) :
    Except (Abort ⊕ S.Err) α × S.Input × σ :=
  let o := p.streamPartial i s
  match o.res with
  | .commitOk v => (.ok v, o.inp, o.st)
  | .peekOk v => (.ok v, o.inp, o.st)
  | .commitErr e => (.error (.inr e), o.inp, o.st)
  | .peekErr e => (.error (.inr e.error), o.inp, o.st)
  | .abort a => (.error (.inl a), o.inp, o.st)

end Parser

end Verif
