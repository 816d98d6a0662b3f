/-!
# Results and commitment (`src/error.rs`)

Transcription of the result types.  Every definition cites the Rust code it models.
-/

namespace Verif

/-- Outcomes outside the Rust result type: a panic (or undefined behaviour, e.g. reaching
`unreachable_unchecked`) and non-termination.  Model-only; proving their absence is part of the work. -/
inductive Abort where
  | panic
  | diverge
deriving DecidableEq, Repr

/-- error.rs:212-220 `enum Commit<T>`. -/
inductive Commit (α : Type) where
  | commit (a : α)
  | peek (a : α)
deriving DecidableEq, Repr

namespace Commit

/-- error.rs:240-245 `Commit::is_peek`. -/
def isPeek {α : Type} : Commit α → Bool
  | peek _ => true
  | commit _ => false

/-- error.rs:248-252 `Commit::into_inner`. -/
def intoInner {α : Type} : Commit α → α
  | peek x => x
  | commit x => x

/-- error.rs:255-257 `Commit::into_commit`. -/
def intoCommit {α : Type} (c : Commit α) : Commit α := commit c.intoInner

/-- error.rs:260-262 `Commit::into_peek`. -/
def intoPeek {α : Type} (c : Commit α) : Commit α := peek c.intoInner

/-- error.rs:265-273 `Commit::map`. -/
def map {α β : Type} (f : α → β) : Commit α → Commit β
  | peek x => peek (f x)
  | commit x => commit (f x)

/-- error.rs:275-280 `Commit::merge`. -/
def merge {α : Type} (self current : Commit α) : Commit α :=
  match self with
  | peek _ => current
  | commit _ => current.intoCommit

end Commit

/-- error.rs:924-930 `struct Tracked<E>`; the `ErrorOffset(u8)` (lib.rs:621-623) is a `Nat`. -/
structure Tracked (E : Type) where
  error : E
  offset : Nat
deriving DecidableEq, Repr

/-- error.rs:932-939 `impl From<E> for Tracked<E>`: offset 1. -/
def Tracked.of {E : Type} (e : E) : Tracked E := ⟨e, 1⟩

/-- error.rs:944-956 `enum ParseResult<T, E>`, plus the model-only `abort`. -/
inductive ParseResult (α E : Type) where
  | commitOk (a : α)
  | peekOk (a : α)
  | commitErr (e : E)
  | peekErr (e : Tracked E)
  | abort (a : Abort)
deriving DecidableEq, Repr

/-- error.rs:358-360 `StdParseResult2<O, E> = Result<(O, Commit<()>), Commit<Tracked<E>>>`
(plus the model-only abort). -/
inductive StdResult (α E : Type) where
  | ok (v : α) (c : Commit Unit)
  | err (e : Commit (Tracked E))
  | abort (a : Abort)
deriving DecidableEq, Repr

namespace ParseResult

/-- error.rs:960-965 `ParseResult::is_ok`. -/
def isOk {α E : Type} : ParseResult α E → Bool
  | commitOk _ => true
  | peekOk _ => true
  | _ => false

/-- error.rs:984-998 `ParseResult::and_then`. -/
def andThen {α β E : Type} (r : ParseResult α E) (f : α → ParseResult β E) : ParseResult β E :=
  match r with
  | commitOk t =>
    match f t with
    | commitOk t2 => commitOk t2
    | peekOk t2 => commitOk t2
    | peekErr e => commitErr e.error
    | commitErr e => commitErr e
    | abort a => abort a
  | peekOk t => f t
  | commitErr e => commitErr e
  | peekErr e => peekErr e
  | abort a => abort a

/-- error.rs:1000-1013 `ParseResult::map_err`. -/
def mapErr {α E E' : Type} (f : E → E') : ParseResult α E → ParseResult α E'
  | commitOk t => commitOk t
  | peekOk t => peekOk t
  | commitErr e => commitErr (f e)
  | peekErr e => peekErr ⟨f e.error, e.offset⟩
  | abort a => abort a

/-- error.rs:1015-1025 `ParseResult::map`. -/
def map {α β E : Type} (f : α → β) : ParseResult α E → ParseResult β E
  | commitOk t => commitOk (f t)
  | peekOk t => peekOk (f t)
  | commitErr e => commitErr e
  | peekErr e => peekErr e
  | abort a => abort a

/-- error.rs:1046-1058 `impl Into<StdParseResult2> for ParseResult`
(`CommitErr(e) => Err(Commit::Commit(e.into()))`: the offset is reset to 1). -/
def toStd {α E : Type} : ParseResult α E → StdResult α E
  | commitOk t => .ok t (.commit ())
  | peekOk t => .ok t (.peek ())
  | commitErr e => .err (.commit (Tracked.of e))
  | peekErr e => .err (.peek e)
  | abort a => .abort a

/-- error.rs:1060-1072 `impl From<StdParseResult2> for ParseResult`
(`Err(Commit::Commit(e)) => CommitErr(e.error)`). -/
def ofStd {α E : Type} : StdResult α E → ParseResult α E
  | .ok t (.commit _) => commitOk t
  | .ok t (.peek _) => peekOk t
  | .err (.commit e) => commitErr e.error
  | .err (.peek e) => peekErr e
  | .abort a => abort a

/-- error.rs:337-351 `Commit::combine_commit`. -/
def combineCommit {α β E : Type} (c : Commit α) (f : α → ParseResult β E) : ParseResult β E :=
  match c with
  | .commit x =>
    match f x with
    | peekOk v => commitOk v
    | peekErr err => commitErr err.error
    | y => y
  | .peek x => f x

end ParseResult

/-- error.rs:324-336 `Commit::combine`. -/
def Commit.combine {α β E : Type} (c : Commit α) (f : α → StdResult β E) : StdResult β E :=
  match c with
  | .commit x =>
    match f x with
    | .ok v (.peek _) => .ok v (.commit ())
    | .err (.peek e) => .err (.commit e)
    | y => y
  | .peek x => f x

end Verif
