import Verif.Model.Result

/-!
# Streams (`src/stream/mod.rs`) and error types (`src/error.rs` traits) as records of operations
-/

namespace Verif

/-- error.rs:62-67 `enum Info<T, R, F>`; `Display`able payloads are strings. -/
inductive Info (T R : Type) where
  | token (t : T)
  | range (r : R)
  | static (s : String)
  | format (s : String)
deriving DecidableEq, Repr

/-- The operations of an error type: trait `StreamError` (error.rs:366-449) for `SErr` and trait
`ParseError` (error.rs:455-526) for `Err`.  `unexpected`/`expected`/`message` dispatch on the
`Info` (error.rs:372-382, 392-402, 415-425); the conversions `into_other` are modelled separately. -/
structure ErrOps (T R P : Type) where
  SErr : Type
  Err : Type
  /-- error.rs:372-386 `StreamError::unexpected*` -/
  unexpected : Info T R → SErr
  /-- error.rs:387-405 `StreamError::expected*` -/
  expected : Info T R → SErr
  /-- error.rs:407-425 `StreamError::message*` -/
  message : Info T R → SErr
  /-- error.rs:435-437 `StreamError::end_of_input` -/
  endOfInput : SErr
  /-- error.rs:439 `StreamError::is_unexpected_end_of_input` -/
  isEoiS : SErr → Bool
  /-- error.rs:461 `ParseError::empty` -/
  empty : P → Err
  /-- error.rs:464-468 `ParseError::from_error` -/
  fromError : P → SErr → Err
  /-- error.rs:470-473 `ParseError::position` -/
  position : Err → P
  /-- error.rs:476 `ParseError::set_position` -/
  setPosition : Err → P → Err
  /-- error.rs:481-483 `ParseError::merge` -/
  merge : Err → Err → Err
  /-- error.rs:489 `ParseError::add` -/
  add : Err → SErr → Err
  /-- error.rs:513-515 `ParseError::set_expected` -/
  setExpected : Tracked Err → SErr → (Tracked Err → Tracked Err) → Tracked Err
  /-- error.rs:518 `ParseError::clear_expected` -/
  clearExpected : Err → Err
  /-- error.rs:520 `ParseError::is_unexpected_end_of_input` -/
  isEoi : Err → Bool

/-- A stream: `StreamOnce` (stream/mod.rs:116-140), `ResetStream` (143-151), `Positioned` (76-79).
`size` is ghost: the number of tokens left, used only as fuel for loops. -/
structure Strm where
  Input : Type
  Tok : Type
  Rng : Type
  Pos : Type
  Ckpt : Type
  decPos : DecidableEq Pos
  E : ErrOps Tok Rng Pos
  /-- stream/mod.rs:132 `StreamOnce::uncons` -/
  uncons : Input → Except E.SErr Tok × Input
  /-- stream/mod.rs:137-139 `StreamOnce::is_partial` -/
  isPartial : Input → Bool
  /-- stream/mod.rs:148 `ResetStream::checkpoint` -/
  checkpoint : Input → Ckpt
  /-- stream/mod.rs:150 `ResetStream::reset`; `none` is `Ok(())` -/
  reset : Ckpt → Input → Option E.Err × Input
  /-- stream/mod.rs:78 `Positioned::position` -/
  position : Input → Pos
  /-- ghost: number of tokens that can still be read -/
  size : Input → Nat

instance (S : Strm) : DecidableEq S.Pos := S.decPos

abbrev Strm.Err (S : Strm) : Type := S.E.Err
abbrev Strm.SErr (S : Strm) : Type := S.E.SErr

namespace Strm

variable (S : Strm)

/-- stream/mod.rs:246-259 `wrap_stream_error`. -/
def wrapStreamError {α : Type} (i : S.Input) (err : S.SErr) : ParseResult α S.Err :=
  let e := S.E.fromError (S.position i) err
  if S.isPartial i then .commitErr e else .peekErr (Tracked.of e)

/-- stream/mod.rs:172-180 the free function `uncons`. -/
def unconsP (i : S.Input) : ParseResult S.Tok S.Err × S.Input :=
  match S.uncons i with
  | (.ok x, j) => (.commitOk x, j)
  | (.error e, j) => (S.wrapStreamError j e, j)

/-- stream/mod.rs:282-292 `input_at_eof` (with the input it leaves). -/
def inputAtEof (i : S.Input) : Bool × S.Input :=
  let before := S.checkpoint i
  match S.uncons i with
  | (.ok _, j) =>
    match S.reset before j with
    | (_, k) => (false, k)
  | (.error e, j) =>
    match S.reset before j with
    | (none, k) => (S.E.isEoiS e, k)
    | (some _, k) => (false, k)

end Strm

/-- The range operations of a stream: trait `RangeStreamOnce` (stream/mod.rs:183-238) and
`Range::len` (381-390).  Predicates are `FnMut`: they carry a state `ς` that is threaded through the
calls in the order the implementation makes them. -/
structure RangeOps (S : Strm) where
  /-- stream/mod.rs:186 -/
  unconsRange : Nat → S.Input → Except S.SErr S.Rng × S.Input
  /-- stream/mod.rs:190-192 -/
  unconsWhile : {ς : Type} → (ς → S.Tok → Bool × ς) → ς → S.Input →
    (Except S.SErr S.Rng × ς) × S.Input
  /-- stream/mod.rs:201-225 (overridden by slices) -/
  unconsWhile1 : {ς : Type} → (ς → S.Tok → Bool × ς) → ς → S.Input →
    (ParseResult S.Rng S.SErr × ς) × S.Input
  /-- stream/mod.rs:234 `distance(&self, end)` -/
  distance : S.Input → S.Ckpt → Nat
  /-- stream/mod.rs:237 -/
  range : S.Input → S.Rng
  /-- stream/mod.rs:384 `Range::len` -/
  len : S.Rng → Nat

/-- The state of the default `uncons_while1` closure (stream/mod.rs:205-206). -/
structure While1St (ς : Type) where
  committed : Bool
  startedAtEoi : Bool
  inner : ς

/-- stream/mod.rs:201-225 default `RangeStreamOnce::uncons_while1`. -/
def RangeOps.defaultWhile1 {S : Strm}
    (uw : {ς : Type} → (ς → S.Tok → Bool × ς) → ς → S.Input →
      (Except S.SErr S.Rng × ς) × S.Input)
    {ς : Type} (f : ς → S.Tok → Bool × ς) (s : ς) (i : S.Input) :
    (ParseResult S.Rng S.SErr × ς) × S.Input :=
  let g : While1St ς → S.Tok → Bool × While1St ς := fun st c =>
    let r := f st.inner c
    (r.1, ⟨st.committed || r.1, false, r.2⟩)
  let out := uw g ⟨false, true, s⟩ i
  let st := out.1.2
  if st.committed then
    match out.1.1 with
    | .ok x => ((.commitOk x, st.inner), out.2)
    | .error x => ((.commitErr x, st.inner), out.2)
  else if st.startedAtEoi then
    ((.peekErr (Tracked.of S.E.endOfInput), st.inner), out.2)
  else
    ((.peekErr (Tracked.of (S.E.unexpected (.static ""))), st.inner), out.2)

namespace RangeOps

variable {S : Strm} (R : RangeOps S)

/-- stream/mod.rs:262-279 the free function `uncons_range`. -/
def unconsRangeP (size : Nat) (i : S.Input) : ParseResult S.Rng S.Err × S.Input :=
  match R.unconsRange size i with
  | (.error err, j) => (S.wrapStreamError j err, j)
  | (.ok x, j) => (if size = 0 then .peekOk x else .commitOk x, j)

/-- stream/mod.rs:341-347 (repeated in 308-314, 353-359, 365-371): a partial input at its end fails
with a committed end of input error. -/
def eoiErr (j : S.Input) : S.Err := S.E.fromError (S.position j) S.E.endOfInput

/-- stream/mod.rs:296-322 the free function `uncons_while`. -/
def unconsWhileP {ς : Type} (f : ς → S.Tok → Bool × ς) (s : ς) (i : S.Input) :
    (ParseResult S.Rng S.Err × ς) × S.Input :=
  match R.unconsWhile f s i with
  | ((.error err, s'), j) => ((S.wrapStreamError j err, s'), j)
  | ((.ok x, s'), j) =>
    -- `input.is_partial() && input_at_eof(input)`: `input_at_eof` runs only on partial input
    if S.isPartial j then
      match S.inputAtEof j with
      | (true, k) => ((.commitErr (eoiErr k), s'), k)
      | (false, k) => ((if R.len x = 0 then .peekOk x else .commitOk x, s'), k)
    else ((if R.len x = 0 then .peekOk x else .commitOk x, s'), j)

/-- stream/mod.rs:331-378 the free function `uncons_while1`. -/
def unconsWhile1P {ς : Type} (f : ς → S.Tok → Bool × ς) (s : ς) (i : S.Input) :
    (ParseResult S.Rng S.Err × ς) × S.Input :=
  match R.unconsWhile1 f s i with
  | ((.commitOk x, s'), j) =>
    if S.isPartial j then
      match S.inputAtEof j with
      | (true, k) => ((.commitErr (eoiErr k), s'), k)
      | (false, k) => ((.commitOk x, s'), k)
    else ((.commitOk x, s'), j)
  | ((.peekErr _, s'), j) =>
    if S.isPartial j then
      match S.inputAtEof j with
      | (true, k) => ((.commitErr (eoiErr k), s'), k)
      | (false, k) => ((.peekErr (Tracked.of (S.E.empty (S.position k))), s'), k)
    else ((.peekErr (Tracked.of (S.E.empty (S.position j))), s'), j)
  | ((.commitErr err, s'), j) =>
    if S.isPartial j then
      match S.inputAtEof j with
      | (true, k) => ((.commitErr (eoiErr k), s'), k)
      | (false, k) => ((S.wrapStreamError k err, s'), k)
    else ((S.wrapStreamError j err, s'), j)
  | ((.peekOk _, s'), j) => ((.abort .panic, s'), j) -- `unreachable!()`
  | ((.abort a, s'), j) => ((.abort a, s'), j)

end RangeOps

end Verif
