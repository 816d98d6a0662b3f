import Verif.Model.Position
import Verif.Model.Slice

/-!
# `IteratorStream`, `read::Stream` and `buffered::Stream`
-/

namespace Verif

/-- stream/mod.rs:1171-1215 `IteratorStream` over a (fused, cloneable) iterator given by the list of
the items it will produce; 156 `clone_resetable!`. -/
abbrev iterS (T : Type) : Strm where
  Input := List T
  Tok := T
  Rng := T
  Pos := Unit
  Ckpt := List T
  decPos := inferInstance
  E := UnexpectedParse.ops T T Unit ()
  uncons := fun l =>
    match l with
    | t :: ts => (.ok t, ts)
    | [] => (.error .eoi, [])
  isPartial := fun _ => false
  checkpoint := id
  reset := fun c _ => (none, c)
  position := fun _ => ()
  size := List.length

/-- stream/read.rs:157-175 `read::Stream`: the reader is the list of what `Bytes::next` will return;
after the list it returns `None`.  Not resettable in Rust (only used under `buffered::Stream`), so
`checkpoint`/`reset` are placeholders. -/
abbrev readS : Strm where
  Input := List (Except String UInt8)
  Tok := UInt8
  Rng := List UInt8
  Pos := Nat
  Ckpt := List (Except String UInt8)
  decPos := inferInstance
  E := ReadError.ops UInt8 (List UInt8) Nat 0
  uncons := fun l =>
    match l with
    | .ok b :: l => (.ok b, l)
    | .error e :: l => (.error (.io e), l)
    | [] => (.error .endOfInput, [])
  isPartial := fun _ => false
  checkpoint := id
  reset := fun c _ => (none, c)
  position := fun _ => 0
  size := List.length

/-- stream/buffered.rs:27-36 `buffered::Stream`; `cap` is the capacity of the `VecDeque`. -/
structure BufState (S : Strm) where
  offset : Nat
  iter : S.Input
  bufferOffset : Nat
  buffer : List (S.Tok × S.Pos)
  cap : Nat

namespace BufState

variable {S : Strm}

/-- buffered.rs:70-77 `Stream::new(iter, lookahead)`.  `VecDeque::with_capacity(n)` has capacity at
least `n`; a push on a deque of capacity 0 makes it grow, so capacity 0 behaves as a positive one
(here 4, what `RawVec` grows to). -/
def new (iter : S.Input) (lookahead : Nat) : BufState S :=
  ⟨0, iter, 0, [], if lookahead = 0 then 4 else lookahead⟩

/-- buffered.rs:95, 130 the buffered element at `offset`; `none` is an index panic. -/
def elem? (b : BufState S) : Option (S.Tok × S.Pos) :=
  b.buffer[b.buffer.length - (b.bufferOffset - b.offset)]?

/-- buffered.rs:85-99 `position`; `none` is a panic. -/
def position? (b : BufState S) : Option S.Pos :=
  if b.bufferOffset ≤ b.offset then some (S.position b.iter)
  else if b.offset < b.bufferOffset - b.buffer.length then b.buffer.head?.map (·.2)
  else b.elem?.map (·.2)

/-- buffered.rs:118-123 push an element, dropping the oldest when the buffer is full. -/
def push (b : BufState S) (x : S.Tok × S.Pos) : List (S.Tok × S.Pos) :=
  (if b.buffer.length = b.cap then b.buffer.tail else b.buffer) ++ [x]

/-- buffered.rs:113-136 `uncons`; `none` is a panic. -/
def uncons? (b : BufState S) : Option (Except S.SErr S.Tok × BufState S) :=
  if b.bufferOffset ≤ b.offset then
    let position := S.position b.iter
    match S.uncons b.iter with
    | (.error e, it) => some (.error e, { b with iter := it })
    | (.ok token, it) =>
      some (.ok token,
        { b with
          iter := it, bufferOffset := b.bufferOffset + 1, buffer := b.push (token, position),
          offset := b.offset + 1 })
  else if b.offset < b.bufferOffset - b.buffer.length then
    some (.error (S.E.message (.static "Backtracked to far")), b)
  else b.elem?.map fun x => (.ok x.1, { b with offset := b.offset + 1 })

/-- `position` with a panic mapped to the iterator's position (excluded by proof). -/
def position (b : BufState S) : S.Pos := b.position?.getD (S.position b.iter)

/-- buffered.rs:48-59 `reset`. -/
def reset (checkpoint : Nat) (b : BufState S) : Option S.Err × BufState S :=
  if checkpoint < b.bufferOffset - b.buffer.length then
    (some (S.E.fromError b.position (S.E.message (.static "Backtracked to far"))), b)
  else (none, { b with offset := checkpoint })

end BufState

/-- stream/buffered.rs:38-141 `buffered::Stream` as a stream.  A panic (excluded by proof under the
invariant of reachable states) is mapped to an error. -/
abbrev bufferedS (S : Strm) : Strm where
  Input := BufState S
  Tok := S.Tok
  Rng := S.Rng
  Pos := S.Pos
  Ckpt := Nat
  decPos := S.decPos
  E := S.E
  uncons := fun b => b.uncons?.getD (.error (S.E.message (.static "panic")), b)
  isPartial := fun b => S.isPartial b.iter
  checkpoint := fun b => b.offset
  reset := BufState.reset
  position := BufState.position
  size := fun b => S.size b.iter + (b.bufferOffset - b.offset)

end Verif
