import Verif.Model.Range
import Verif.Model.Wrap

/-!
# `decode`, `Decoder`, `decode!`, `BufReader` (`src/stream/mod.rs`, `decoder.rs`, `buf_reader.rs`)
-/

namespace Verif

/-- Result of the `decode` function: `Result<(Option<Output>, usize), Error>`, or an abort. -/
inductive Decoded (S : Strm) (α : Type) where
  | ok (v : Option α) (removed : Nat)
  | err (e : S.Err)
  | abort (a : Abort)

/-- stream/mod.rs:1306-1332 `decode`. -/
def decode {S : Strm} {σ α : Type} (R : RangeOps S) (p : Parser S σ α) (i : S.Input) (s : σ) :
    Decoded S α × S.Input × σ :=
  let start := S.checkpoint i
  match p.parseWithState i s with
  | (.ok message, j, s') => (.ok (some message) (R.distance j start), j, s')
  | (.error (.inl a), j, s') => (.abort a, j, s')
  | (.error (.inr err), j, s') =>
    if S.E.isEoi err then
      if S.isPartial j then (.ok none (R.distance j start), j, s') else (.err err, j, s')
    else (.err err, j, s')

/-- stream/mod.rs:1345-1375 `decode_tokio`. -/
def decodeTokio {S : Strm} {σ α : Type} (R : RangeOps S) (p : Parser S σ α) (i : S.Input) (s : σ) :
    Decoded S α × S.Input × σ :=
  let start := S.checkpoint i
  match p.parseWithState i s with
  | (.ok message, j, s') => (.ok (some message) (R.distance j start), j, s')
  | (.error (.inl a), j, s') => (.abort a, j, s')
  | (.error (.inr err), j, s') =>
    if S.E.isEoi err then
      if S.isPartial j then (.ok none (R.distance j start), j, s')
      else
        let r := S.inputAtEof j
        if r.1 && R.distance r.2 start = 0 then (.ok none 0, r.2, s') else (.err err, r.2, s')
    else (.err err, j, s')

/-- An `io::Read`: what its successive `read` calls have to give.  A chunk longer than the buffer
passed to `read` is delivered in pieces; an empty chunk is a read of zero bytes; after the list, reads
give zero bytes. -/
abbrev Reader := List (Except String (List UInt8))

/-- `Read::read` with a buffer of `n` bytes. -/
def Reader.read (n : Nat) : Reader → Except String (List UInt8) × Reader
  | [] => (.ok [], [])
  | .error e :: r => (.error e, r)
  | .ok c :: r => if c.length ≤ n then (.ok c, r) else (.ok (c.take n), .ok (c.drop n) :: r)

/-- `bytes::BytesMut`: contents and capacity. -/
structure BytesMut where
  data : List UInt8
  cap : Nat
deriving DecidableEq, Repr

namespace BytesMut

/-- `BytesMut::default()`. -/
def empty : BytesMut := ⟨[], 0⟩

/-- `BytesMut::advance`; `none` is the panic when `n` exceeds the length. -/
def advance (b : BytesMut) (n : Nat) : Option BytesMut :=
  if n ≤ b.data.length then some ⟨b.data.drop n, b.cap - n⟩ else none

/-- `BytesMut::reserve`: at least `n` spare bytes (here exactly, when it has to grow). -/
def reserve (b : BytesMut) (n : Nat) : BytesMut := ⟨b.data, max b.cap (b.data.length + n)⟩

end BytesMut

/-- stream/buf_reader.rs:356-390 `extend_buf_sync`: the number of bytes read.
The assertion (379-382) cannot fail for a `Reader`. -/
def extendBufSync (buf : BytesMut) (r : Reader) : Except String Nat × BytesMut × Reader :=
  let size := 8 * 1024
  let buf := if buf.cap = buf.data.length then buf.reserve size else buf
  let initialSize := min (buf.cap - buf.data.length) size
  match r.read initialSize with
  | (.error e, r) => (.error e, buf, r)
  | (.ok bs, r) => (.ok bs.length, { buf with data := buf.data ++ bs }, r)

/-- stream/decoder.rs:53-58 `Decoder` with the buffer it parses from: its own `Buffer`
(buf_reader.rs:183-209) or, with `Bufferless` (328-354), the buffer of the `BufReader` that is passed
along; the operations are the same. -/
structure Decoder (P σ : Type) where
  position : P
  state : σ
  buffer : BytesMut
  endOfInput : Bool

/-- decoder.rs:142-152 `__before_parse`. -/
def Decoder.beforeParse {P σ : Type} (d : Decoder P σ) (r : Reader) :
    Except String Unit × Decoder P σ × Reader :=
  match extendBufSync d.buffer r with
  | (.error e, b, r) => (.error e, { d with buffer := b }, r)
  | (.ok n, b, r) =>
    (.ok (), { d with buffer := b, endOfInput := if n = 0 then true else d.endOfInput }, r)

/-- Result of `decode!`: decoder.rs:15-18 `decoder::Error`. -/
inductive DecodeRes (S : Strm) (P α : Type) where
  | ok (v : α)
  | parse (e : S.Err)
  | io (error : String) (position : P)
  | abort (a : Abort)

/-- stream/mod.rs:1418-1461 `decode!`.  `mk` is `$input_stream` applied to
`MaybePartialStream(buffer, !end_of_input)` (given by the bytes and the flag) and the position;
`$post_decode` has no effect here. The argument bounds the number of iterations. -/
def decodeLoop {S : Strm} {σ α : Type} (R : RangeOps S) (p : Parser S σ α)
    (mk : List UInt8 → Bool → S.Pos → S.Input) :
    Nat → Decoder S.Pos σ → Reader → DecodeRes S S.Pos α × Decoder S.Pos σ × Reader
  | 0, d, r => (.abort .diverge, d, r)
  | n + 1, d, r =>
    match decode R p (mk d.buffer.data (!d.endOfInput) d.position) d.state with
    | (res, j, s') =>
      let d := { d with state := s', position := S.position j }
      match res with
      | .abort a => (.abort a, d, r)
      | .err e => (.parse e, d, r)
      | .ok opt removed =>
        match d.buffer.advance removed with
        | none => (.abort .panic, d, r)
        | some b =>
          let d := { d with buffer := b }
          match opt with
          | some v => (.ok v, d, r)
          | none =>
            match d.beforeParse r with
            | (.ok _, d, r) => decodeLoop R p mk n d r
            | (.error e, d, r) => (.io e d.position, d, r)

/-! ## `BufReader` -/

/-- stream/buf_reader.rs:51-55 `BufReader`. -/
structure BufReader where
  inner : Reader
  buf : BytesMut


namespace BufReader

/-- buf_reader.rs:65-69 `with_capacity`. -/
def withCapacity (cap : Nat) (r : Reader) : BufReader := ⟨r, ⟨[], cap⟩⟩

/-- buf_reader.rs:752-762 `fill_buf`. -/
def fillBuf (b : BufReader) : Except String (List UInt8) × BufReader :=
  if b.buf.data = [] then
    match extendBufSync b.buf b.inner with
    | (.error e, buf, r) => (.error e, ⟨r, buf⟩)
    | (.ok _, buf, r) => (.ok buf.data, ⟨r, buf⟩)
  else (.ok b.buf.data, b)

/-- buf_reader.rs:764-766 `consume`; `none` is a panic. -/
def consume (b : BufReader) (n : Nat) : Option BufReader :=
  (b.buf.advance n).map fun buf => ⟨b.inner, buf⟩

/-- buf_reader.rs:733-748 `read` with a buffer of `n` bytes; the outer `none` is a panic.  The first
branch needs a buffer of `usize::MAX` bytes (`BytesMut::remaining_mut` is `usize::MAX - len`) and is
not modelled. -/
def read (n : Nat) (b : BufReader) : Option (Except String (List UInt8) × BufReader) :=
  match b.fillBuf with
  | (.error e, b) => some (.error e, b)
  | (.ok rem, b) =>
    let got := rem.take n
    (b.consume got.length).map fun b => (.ok got, b)

/-- buf_reader.rs:351-353 `Bufferless::extend_buf_sync`. -/
def extend (b : BufReader) : Except String Nat × BufReader :=
  match extendBufSync b.buf b.inner with
  | (x, buf, r) => (x, ⟨r, buf⟩)

end BufReader

end Verif
