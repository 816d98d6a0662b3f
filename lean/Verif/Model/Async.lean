import Verif.Model.Decoder

/-!
# Asynchronous reading (`src/stream/buf_reader.rs`, `decoder.rs`, the `decode_*!` macros of `mod.rs`)

The four asynchronous interfaces (`tokio` 0.2, 0.3, 1 and `futures` 0.3) differ in the types of the readers only; one
model stands for all of them.
-/

namespace Verif

/-- `std::task::Poll`. -/
inductive Poll (α : Type) where
  | pending
  | ready (a : α)

/-- An `AsyncRead`: what its successive polls have to give.  `pending` is a poll that is not ready; the rest is as for
`Reader`. -/
abbrev AReader := List (Poll (Except String (List UInt8)))

/-- `AsyncRead::poll_read` with a buffer of `n` bytes. -/
def AReader.pollRead (n : Nat) : AReader → Poll (Except String (List UInt8)) × AReader
  | [] => (.ready (.ok []), [])
  | .pending :: r => (.pending, r)
  | .ready (.error e) :: r => (.ready (.error e), r)
  | .ready (.ok c) :: r =>
    if c.length ≤ n then (.ready (.ok c), r) else (.ready (.ok (c.take n)), .ready (.ok (c.drop n)) :: r)

/-- The allocation `BytesMut::chunk_mut` makes before it gives out the spare capacity: 64 bytes if there is none. -/
def BytesMut.chunkMut (b : BytesMut) : BytesMut := if b.cap = b.data.length then b.reserve 64 else b

/-- stream/buf_reader.rs:494-524 `poll_extend_buf` (`futures` 0.3; the future made by 224-235/474-490 has already reserved
the same), 281-297 `tokio_03_read_buf`, 314-324 `tokio_read_buf` (with `tokio_util::io::poll_read_buf`), 243-252/413-424
(`tokio` 0.2).  `has_remaining_mut` of a `BytesMut` holds unless it has `usize::MAX` bytes, so that `reserve(8 * 1024)` is
never reached; it is left out.  The assertion (515-518) cannot fail for an `AReader`. -/
def pollExtendBuf (buf : BytesMut) (r : AReader) : Poll (Except String Nat) × BytesMut × AReader :=
  let buf := buf.chunkMut
  match r.pollRead (buf.cap - buf.data.length) with
  | (.pending, r) => (.pending, buf, r)
  | (.ready (.error e), r) => (.ready (.error e), buf, r)
  | (.ready (.ok bs), r) => (.ready (.ok bs.length), { buf with data := buf.data ++ bs }, r)

/-- One poll of the future of decoder.rs:158-171 `__before_parse_tokio_02`, 177-190 `…_tokio_03`, 196-209 `…_tokio`,
215-226 `__before_parse_async`.  All of them keep nothing but references between two polls (future_ext.rs:7-29
`poll_fn`; buf_reader.rs:160-179 `ExtendBuf`). -/
def Decoder.pollBeforeParse {P σ : Type} (d : Decoder P σ) (r : AReader) :
    Poll (Except String Unit) × Decoder P σ × AReader :=
  match pollExtendBuf d.buffer r with
  | (.pending, b, r) => (.pending, { d with buffer := b }, r)
  | (.ready (.error e), b, r) => (.ready (.error e), { d with buffer := b }, r)
  | (.ready (.ok n), b, r) =>
    (.ready (.ok ()), { d with buffer := b, endOfInput := if n = 0 then true else d.endOfInput }, r)

/-- stream/mod.rs:1520-1543 `decode_futures_03!`, 1613-1637 `decode_tokio_02!`, 1709-1733 `decode_tokio_03!`, 1805-1829
`decode_tokio!`: what one turn of their loop does before it reads; `none`: it goes on to read.  `mk` is as for
`decodeLoop`. -/
def decodeTurn {S : Strm} {σ α : Type} (R : RangeOps S) (p : Parser S σ α)
    (mk : List UInt8 → Bool → S.Pos → S.Input) (d : Decoder S.Pos σ) :
    Option (DecodeRes S S.Pos α) × Decoder S.Pos σ :=
  match decode R p (mk d.buffer.data (!d.endOfInput) d.position) d.state with
  | (res, j, s') =>
    let d := { d with state := s', position := S.position j }
    match res with
    | .abort a => (some (.abort a), d)
    | .err e => (some (.parse e), d)
    | .ok opt removed =>
      match d.buffer.advance removed with
      | none => (some (.abort .panic), d)
      | some b => (opt.map .ok, { d with buffer := b })

/-- stream/mod.rs:1516-1558, 1609-1654, 1705-1750, 1801-1846: one poll of the future of an asynchronous `decode_*!`.  The
flag says that the future is suspended at its `.await` (else it has not been polled yet); while it is pending it is.
The number bounds the steps. -/
def pollDecode {S : Strm} {σ α : Type} (R : RangeOps S) (p : Parser S σ α)
    (mk : List UInt8 → Bool → S.Pos → S.Input) :
    Nat → Bool → Decoder S.Pos σ → AReader → Poll (DecodeRes S S.Pos α) × Decoder S.Pos σ × AReader
  | 0, _, d, r => (.ready (.abort .diverge), d, r)
  | n + 1, false, d, r =>
    match decodeTurn R p mk d with
    | (some x, d) => (.ready x, d, r)
    | (none, d) => pollDecode R p mk n true d r
  | n + 1, true, d, r =>
    match d.pollBeforeParse r with
    | (.pending, d, r) => (.pending, d, r)
    | (.ready (.ok _), d, r) => pollDecode R p mk n false d r
    | (.ready (.error e), d, r) => (.ready (.io e d.position), d, r)

/-! ## `BufReader` -/

/-- stream/buf_reader.rs:40-44 `BufReader` over an `AsyncRead`. -/
structure ABufReader where
  inner : AReader
  buf : BytesMut

namespace ABufReader

/-- buf_reader.rs:65-69 `with_capacity`. -/
def withCapacity (cap : Nat) (r : AReader) : ABufReader := ⟨r, ⟨[], cap⟩⟩

/-- buf_reader.rs:557-569, 631-640, 694-703 `poll_fill_buf`. -/
def pollFillBuf (b : ABufReader) : Poll (Except String (List UInt8)) × ABufReader :=
  if b.buf.data = [] then
    match pollExtendBuf b.buf b.inner with
    | (.pending, buf, r) => (.pending, ⟨r, buf⟩)
    | (.ready (.error e), buf, r) => (.ready (.error e), ⟨r, buf⟩)
    | (.ready (.ok _), buf, r) => (.ready (.ok buf.data), ⟨r, buf⟩)
  else (.ready (.ok b.buf.data), b)

/-- buf_reader.rs:571-574, 642-645, 705-708 `consume`; `none` is a panic. -/
def consume (b : ABufReader) (n : Nat) : Option ABufReader :=
  (b.buf.advance n).map fun buf => ⟨b.inner, buf⟩

/-- buf_reader.rs:528-547, 608-626, 671-689 `poll_read` with a buffer of `n` bytes; the outer `none` is a panic.  The first
branch needs a buffer of `usize::MAX` bytes, as for `BufReader.read`, and is not modelled. -/
def pollRead (n : Nat) (b : ABufReader) : Option (Poll (Except String (List UInt8)) × ABufReader) :=
  match b.pollFillBuf with
  | (.pending, b) => some (.pending, b)
  | (.ready (.error e), b) => some (.ready (.error e), b)
  | (.ready (.ok rem), b) =>
    let got := rem.take n
    (b.consume got.length).map fun b => (.ready (.ok got), b)

/-- buf_reader.rs:413-424, 432-440, 448-456, 464-472 `Bufferless::poll_extend_buf`. -/
def pollExtend (b : ABufReader) : Poll (Except String Nat) × ABufReader :=
  match pollExtendBuf b.buf b.inner with
  | (x, buf, r) => (x, ⟨r, buf⟩)

end ABufReader

end Verif
