import Verif.Model.Buffered

/-!
# What a buffered stream should do

An unlimited recording of a one-pass source: every token the source delivered stays on the tape with
the position the source reported before it; reading in the recorded part replays it, reading at its end
asks the source.
-/

namespace Verif

/-- A recording of the source `S` with a reading head. -/
structure Tape (S : Strm) where
  source : S.Input
  past : List (S.Tok × S.Pos)
  head : Nat

/-- One operation of a user of a buffered stream. Checkpoints are kept in a list; any of them can be
restored at any later time. -/
inductive BufOp where
  | read
  | save
  /-- `reset` to the `k`-th saved checkpoint, if there is one -/
  | restore (k : Nat)

/-- What an operation shows. -/
inductive BufSeen (S : Strm) where
  | read (x : Except S.SErr S.Tok)
  | restored
  | refused (e : S.Err)
  | nothing
  | panic

namespace Tape

variable {S : Strm}

/-- A source of which nothing was read. -/
def new (source : S.Input) : Tape S := ⟨source, [], 0⟩

/-- The position of the next token: the recorded one, or the source's. -/
def position (t : Tape S) : S.Pos :=
  match t.past[t.head]? with
  | some x => x.2
  | none => S.position t.source

/-- Replay a recorded token, or ask the source and record. A failing source is asked again next time. -/
def read (t : Tape S) : Except S.SErr S.Tok × Tape S :=
  match t.past[t.head]? with
  | some x => (.ok x.1, { t with head := t.head + 1 })
  | none =>
    match S.uncons t.source with
    | (.ok tok, src) => (.ok tok, ⟨src, t.past ++ [(tok, S.position t.source)], t.head + 1⟩)
    | (.error e, src) => (.error e, { t with source := src })

/-- Operations on a tape that refuses to go back further than `window` tokens before the end of the
recording. -/
def step (window : Nat) (op : BufOp) (st : Tape S × List Nat) :
    BufSeen S × Tape S × List Nat :=
  match op with
  | .read => (.read st.1.read.1, st.1.read.2, st.2)
  | .save => (.nothing, st.1, st.2 ++ [st.1.head])
  | .restore k =>
    match st.2[k]? with
    | some c =>
      if c + window < st.1.past.length then
        (.refused (S.E.fromError st.1.position (S.E.message (.static "Backtracked to far"))), st)
      else (.restored, { st.1 with head := c }, st.2)
    | none => (.nothing, st)

/-- Play a history: what is shown by each operation, with the position after it. -/
def play (window : Nat) : List BufOp → Tape S × List Nat →
    List (BufSeen S × Option S.Pos)
  | [], _ => []
  | op :: ops, st =>
    let r := step window op st
    (r.1, some r.2.1.position) :: play window ops r.2

end Tape

namespace BufState

variable {S : Strm}

/-- The same operations on the buffered stream; a panic shows. -/
def step (op : BufOp) (st : BufState S × List Nat) : BufSeen S × BufState S × List Nat :=
  match op with
  | .read =>
    match st.1.uncons? with
    | some r => (.read r.1, r.2, st.2)
    | none => (.panic, st)
  | .save => (.nothing, st.1, st.2 ++ [(bufferedS S).checkpoint st.1])
  | .restore k =>
    match st.2[k]? with
    | some c =>
      match st.1.reset c with
      | (some e, b) => (.refused e, b, st.2)
      | (none, b) => (.restored, b, st.2)
    | none => (.nothing, st)

/-- Play a history; a panicking `position` shows as `none`. -/
def play : List BufOp → BufState S × List Nat → List (BufSeen S × Option S.Pos)
  | [], _ => []
  | op :: ops, st =>
    let r := step op st
    (r.1, r.2.1.position?) :: play ops r.2

end BufState

end Verif
