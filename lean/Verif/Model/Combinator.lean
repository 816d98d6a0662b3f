import Verif.Model.Parser

/-!
# General combinators (`src/parser/combinator.rs`, `src/parser/function.rs`, parts of `src/lib.rs`)
-/

namespace Verif

variable {S : Strm} {σ τ α β : Type}

/-- combinator.rs:22-83 `not_followed_by`. -/
def notFollowedBy (p : Parser S σ α) : Parser S σ Unit :=
  .ofMode p.init
    (fun m i s =>
      let checkpoint := S.checkpoint i
      let o := p.run m i s
      S.tryReset checkpoint o.inp o.st fun j =>
        match o.res with
        | .commitOk _ | .peekOk _ => ⟨.peekErr (Tracked.of (S.E.empty (S.position j))), j, o.st⟩
        | .commitErr _ | .peekErr _ => ⟨.peekOk (), j, o.st⟩
        | .abort a => ⟨.abort a, j, o.st⟩)
    (count := p.count)

/-- combinator.rs:118-138 `Try::parse_mode_impl`. -/
def attemptRun (p : Parser S σ α) (m : Bool) (i : S.Input) (s : σ) : Out S σ α :=
  let o := p.committed m i s
  match o.res with
  | .commitErr e =>
    if S.isPartial o.inp && S.E.isEoi e then o
    else ⟨.peekErr (Tracked.of e), o.inp, o.st⟩
  | _ => o

/-- combinator.rs:90-165 `attempt`; `parse_stream` (100-102) and `parse_committed_mode` (106-116)
do not describe the error again. -/
def attempt (p : Parser S σ α) : Parser S σ α where
  init := p.init
  run := attemptRun p
  lazy := Strm.defaultLazy p.init (attemptRun p)
  committed := attemptRun p
  stream := Strm.defaultLazy p.init (attemptRun p)
  addError := p.addError
  addCommitted := p.addCommitted
  count := p.count

/-- combinator.rs:168-212 `look_ahead`. -/
def lookAhead (p : Parser S σ α) : Parser S Unit α :=
  .ofLazy ()
    (fun i =>
      let before := S.checkpoint i
      let r := p.lazy i
      match S.reset before r.2 with
      | (some e, j) => (.commitErr e, j)
      | (none, j) =>
        match r.1 with
        | .commitOk v | .peekOk v => (.peekOk v, j)
        | .commitErr e => (.commitErr e, j)
        | .peekErr e => (.peekErr e, j)
        | .abort a => (.abort a, j))
    p.addError p.addCommitted p.count

/-- combinator.rs:215-257 `map`. -/
def map (p : Parser S σ α) (f : α → β) : Parser S σ β :=
  .ofMode p.init
    (fun m i s => (p.run m i s).mapRes (·.map f))
    p.addError p.addCommitted p.count

/-- combinator.rs:260-302 `map_input`; the closure may change the input. -/
def mapInput (p : Parser S σ α) (f : α → S.Input → β × S.Input) : Parser S σ β :=
  .ofMode p.init
    (fun m i s =>
      let o := p.run m i s
      match o.res with
      | .commitOk x => let r := f x o.inp; ⟨.commitOk r.1, r.2, o.st⟩
      | .peekOk x => let r := f x o.inp; ⟨.peekOk r.1, r.2, o.st⟩
      | .commitErr e => ⟨.commitErr e, o.inp, o.st⟩
      | .peekErr e => ⟨.peekErr e, o.inp, o.st⟩
      | .abort a => ⟨.abort a, o.inp, o.st⟩)
    p.addError p.addCommitted p.count

/-- combinator.rs:305-353 `flat_map`. -/
def flatMap (p : Parser S σ α) (f : α → Except S.Err β) : Parser S σ β :=
  .ofMode p.init
    (fun m i s =>
      let o := p.run m i s
      o.mapRes fun r =>
        match r with
        | .peekOk x =>
          match f x with
          | .ok y => .peekOk y
          | .error e => .peekErr (Tracked.of e)
        | .commitOk x =>
          match f x with
          | .ok y => .commitOk y
          | .error e => .commitErr e
        | .commitErr e => .commitErr e
        | .peekErr e => .peekErr e
        | .abort a => .abort a)
    p.addError p.addCommitted p.count

/-- combinator.rs:356-424 `and_then`; `err.into()` is already applied in `f`. -/
def andThen (p : Parser S σ α) (f : α → Except S.SErr β) : Parser S σ β :=
  .ofMode p.init
    (fun m i s =>
      let position := S.position i
      let checkpoint := S.checkpoint i
      let o := p.run m i s
      match o.res with
      | .peekOk x =>
        match f x with
        | .ok y => ⟨.peekOk y, o.inp, o.st⟩
        | .error err =>
          let e := S.E.fromError position err
          if S.isPartial o.inp then
            match S.inputAtEof o.inp with
            | (true, j) => S.tryReset checkpoint j o.st fun k => ⟨.commitErr e, k, o.st⟩
            | (false, j) => ⟨.peekErr (Tracked.of e), j, o.st⟩
          else ⟨.peekErr (Tracked.of e), o.inp, o.st⟩
      | .commitOk x =>
        match f x with
        | .ok y => ⟨.commitOk y, o.inp, o.st⟩
        | .error err =>
          let e := S.E.fromError position err
          if S.isPartial o.inp then
            match S.inputAtEof o.inp with
            | (true, j) => S.tryReset checkpoint j o.st fun k => ⟨.commitErr e, k, o.st⟩
            | (false, j) => ⟨.commitErr e, j, o.st⟩
          else ⟨.commitErr e, o.inp, o.st⟩
      | .commitErr e => ⟨.commitErr e, o.inp, o.st⟩
      | .peekErr e => ⟨.peekErr e, o.inp, o.st⟩
      | .abort a => ⟨.abort a, o.inp, o.st⟩)
    p.addError p.addCommitted p.count

/-- Outcome of the replay loop of `recognize`. -/
inductive Replay (S : Strm) where
  | done
  | failed (e : S.Err)
  | diverged

/-- combinator.rs:447-457 (= 464-474 = 481-491): re-read tokens until the position is `last`.
The fuel argument is the number of tokens left plus one. -/
def replay (S : Strm) (last : S.Pos) : Nat → S.Input → List S.Tok → Replay S × S.Input × List S.Tok
  | 0, i, els => (.diverged, i, els)
  | n + 1, i, els =>
    if S.position i = last then (.done, i, els)
    else
      match S.uncons i with
      | (.ok t, j) => replay S last n j (els ++ [t])
      | (.error e, j) => (.failed (S.E.fromError (S.position j) e), j, els)

/-- combinator.rs:427-549 `recognize` into a token collection. -/
def recognize (p : Parser S σ α) : Parser S (List S.Tok × σ) (List S.Tok) :=
  .ofMode ([], p.init)
    (fun m i s =>
      let before := S.checkpoint i
      let o := p.run m i s.2
      match o.res with
      | .peekErr e => ⟨.peekErr e, o.inp, (s.1, o.st)⟩
      | .abort a => ⟨.abort a, o.inp, (s.1, o.st)⟩
      | r =>
        let last := S.position o.inp
        S.tryReset before o.inp (s.1, o.st) fun j =>
          match replay S last (S.size j + 1) j s.1 with
          | (.diverged, k, els) => ⟨.abort .diverge, k, (els, o.st)⟩
          | (.failed e, k, els) =>
            match r with
            | .peekOk _ => ⟨.peekErr (Tracked.of e), k, (els, o.st)⟩
            | _ => ⟨.commitErr e, k, (els, o.st)⟩
          | (.done, k, els) =>
            match r with
            | .peekOk _ => ⟨.peekOk els, k, ([], o.st)⟩
            | .commitOk _ => ⟨.commitOk els, k, ([], o.st)⟩
            | .commitErr e => ⟨.commitErr e, k, (els, o.st)⟩
            | .peekErr e => ⟨.peekErr e, k, (els, o.st)⟩
            | .abort a => ⟨.abort a, k, (els, o.st)⟩)
    p.addError

/-- combinator.rs:556-630 `Either::Left(p)`: the stored state is replaced unless it is a left one.
`parse_lazy` (566-574) forwards. -/
def eitherLeft (p : Parser S σ α) (τ : Type) : Parser S (Option (σ ⊕ τ)) α :=
  let run := fun (m : Bool) (i : S.Input) (s : Option (σ ⊕ τ)) =>
    let s' := match s with
      | some (.inl x) => x
      | _ => p.init
    (p.run m i s').mapSt (fun x => some (.inl x))
  { Parser.ofMode (S := S) none run p.addError with lazy := p.lazy }

/-- combinator.rs:556-630 `Either::Right(p)`. -/
def eitherRight (p : Parser S τ α) (σ : Type) : Parser S (Option (σ ⊕ τ)) α :=
  let run := fun (m : Bool) (i : S.Input) (s : Option (σ ⊕ τ)) =>
    let s' := match s with
      | some (.inr x) => x
      | _ => p.init
    (p.run m i s').mapSt (fun x => some (.inr x))
  { Parser.ofMode (S := S) none run p.addError with lazy := p.lazy }

/-- combinator.rs:632-697 `no_partial`. -/
def noPartial (p : Parser S σ α) : Parser S Unit α :=
  .ofLazy () p.lazy p.addError p.addCommitted p.count

/-- combinator.rs:700-741 `ignore`. -/
def ignore (p : Parser S σ α) : Parser S σ Unit :=
  { Parser.ofMode (S := S) p.init (fun m i s => (p.run m i s).mapRes (·.map fun _ => ()))
      p.addError p.addCommitted p.count with
    lazy := fun i => let r := p.lazy i; (r.1.map fun _ => (), r.2) }

/-- combinator.rs:746-844 `any_partial_state` (849-1048 are the same code with `Send`/`Sync`):
the boxed child state is created on demand and stored only on `CommitErr`; a stored box is updated in
place.  The `downcast_mut().unwrap()` of a box created by the same parser succeeds; that of a box made by another
parser, which panics, is not modelled. -/
def anyPartialState (p : Parser S σ α) : Parser S (Option σ) α :=
  { Parser.ofMode (S := S) none
      (fun m i s =>
        match s with
        | some c => (p.run m i c).mapSt some
        | none =>
          let o := p.run m i p.init
          match o.res with
          | .commitErr _ => ⟨o.res, o.inp, some o.st⟩
          | _ => ⟨o.res, o.inp, none⟩)
      p.addError p.addCommitted p.count with
    lazy := p.lazy }

/-- combinator.rs:1051-1119 `lazy`: the closure builds the parser at each call;
`parse_committed_mode` (1071-1081) does not describe errors. -/
def lazyP (f : Unit → Parser S σ α) : Parser S σ α where
  init := (f ()).init
  run := (f ()).run
  lazy := (f ()).lazy
  committed := (f ()).run
  stream := (f ()).stream
  addError := (f ()).addError
  addCommitted := (f ()).addCommitted
  count := 1

/-- combinator.rs:1122-1201 `factory`.  Simplifications: the cached parser, a field of the Rust parser
object, is kept in the partial state and represented by the input it was built from (the closure is
pure and only reads the input); hence `add_error`, which asks the cached parser, is modelled before the
first call (no parser cached) only. -/
def factory (f : S.Input → Parser S σ α) (init : σ) : Parser S (Option S.Input × σ) α :=
  .ofMode (none, init)
    (fun m i s =>
      let c := match (if m then none else s.1) with
        | some c => c
        | none => i
      ((f c).run m i s.2).mapSt (fun x => (some c, x)))

/-- combinator.rs:1313-1429 `opaque`: hands the parser to a continuation; `parser_count` and
`parse_committed_mode` are the defaults. -/
def opaqueP (p : Parser S σ α) : Parser S σ α where
  init := p.init
  run := p.run
  lazy := p.lazy
  committed := fun m => Strm.describing p.addError (p.run m)
  stream := p.stream
  addError := p.addError
  addCommitted := p.addCommitted
  count := 1

/-- mod.rs:1043-1101 `&mut P` and `Box<P>` as parsers (`forward_deref!`): `parse_lazy`,
`parse_stream` and `parse_committed_mode` are the defaults. -/
def boxed (p : Parser S σ α) : Parser S σ α :=
  .ofMode p.init p.run p.addError p.addCommitted p.count

/-- lib.rs:417-524 `parser! { .. type PartialState = ..; .. }` with an explicit state: forwards. -/
def parserMacro (p : Parser S σ α) : Parser S σ α :=
  .ofMode p.init p.run p.addError p.addCommitted

/-- lib.rs:403-413, 417-524 `parser! { .. }` without `PartialState`: every call starts from a fresh
state, which is then dropped. -/
def parserMacroUnit (p : Parser S σ α) : Parser S Unit α :=
  .ofMode () (fun m i _ => (p.run m i p.init).mapSt fun _ => ()) p.addError p.addCommitted

/-- combinator.rs:1296-1310 `from_str` (a `parser!` with the state of `p`): `and_then` with UTF-8 validation then
`str::parse`; the validation and the conversion are parameters. -/
def fromStr (p : Parser S σ α) (utf8 : α → Option String) (parse : String → Except String β) :
    Parser S σ β :=
  parserMacro <| andThen p fun r =>
    match utf8 r with
    | none => .error (S.E.expected (.static "UTF-8"))
    | some s =>
      match parse s with
      | .ok v => .ok v
      | .error msg => .error (S.E.message (.format msg))

/-- function.rs:23-130 `parser(fn)`, `fn` pointers, `dyn FnMut` and `EnvParser`. -/
def fnParser (S : Strm) (f : S.Input → StdResult α S.Err × S.Input) : Parser S Unit α :=
  .ofLazy () fun i => let r := f i; (ParseResult.ofStd r.1, r.2)

/-- combinator.rs:1448-1533 `input_converter`: run a parser of another stream `T`, built by `convert`
from the input; `back` is the effect on the outer input of the inner parser having advanced. -/
def inputConverter {T : Strm} (p : Parser T σ α) (convert : S.Input → Except S.Err T.Input)
    (back : S.Input → T.Input → S.Input) (convertError : S.Input → T.Err → S.Err) : Parser S σ α :=
  .ofMode p.init
    (fun m i s =>
      match convert i with
      | .error e => ⟨.peekErr (Tracked.of e), i, s⟩
      | .ok ii =>
        let o := p.run m ii s
        let j := back i o.inp
        ⟨o.res.mapErr (convertError j), j, o.st⟩)

/-- A recursive grammar `fn expr() -> impl Parser { body(expr()) }` unfolded `n` times; the innermost
call diverges.  Rust ties the knot through `parser!`/`opaque!`, running out of stack instead. -/
def recur (F : Parser S σ α → Parser S σ α) (init : σ) : Nat → Parser S σ α
  | 0 => .ofMode init (fun _ i s => ⟨.abort .diverge, i, s⟩)
  | n + 1 => F (recur F init n)

end Verif
