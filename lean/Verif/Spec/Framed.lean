import Verif.Spec.Decoding

/-!
# A codec: `decode_tokio` inside `tokio_util::codec::Decoder`, driven by `FramedRead`

The codec is what examples/async.rs and tests/async.rs (108-138) write: both `decode` and `decode_eof` call `decode_tokio`
on a `MaybePartialStream` of the buffer, that says whether the end was reached, and then remove the bytes reported.

`FramedRead` calls `decode`; it gives the frame, if there is one, and reads more if there is none; an empty read is the
end, from which on it calls `decode_eof`, and ends when that gives no frame.  The buffer, the state and the flag are kept
in a `Decoder`; polls that are not ready change nothing (C49) and are left out.
-/

namespace Verif

/-- What `FramedRead` gives when it is asked for the next frame. -/
inductive Frame (S : Strm) (P α : Type) where
  | item (v : α)
  /-- the end of the stream -/
  | done
  | parse (e : S.Err)
  | io (error : String) (position : P)
  /-- the error "bytes remaining on stream" -/
  | remaining
  | abort (a : Abort)

section
variable {S : Strm} {σ α : Type} (R : RangeOps S) (p : Parser S σ α) (mk : List UInt8 → Bool → S.Pos → S.Input)

/-- The next frame; the number bounds the calls of the codec. -/
def nextFrame : Nat → Decoder S.Pos σ → Reader → Frame S S.Pos α × Decoder S.Pos σ × Reader
  | 0, d, r => (.abort .diverge, d, r)
  | n + 1, d, r =>
    match decodeTokio R p (mk d.buffer.data (!d.endOfInput) d.position) d.state with
    | (res, j, s') =>
      let d := { d with state := s', position := S.position j }
      match res with
      | .abort a => (.abort a, d, r)
      | .err e => (.parse e, d, r)
      | .ok opt removed =>
        match d.buffer.advance removed with
        | none => (.abort .panic, d, r)
        | some b =>
          let d := { d with buffer := b }
          match opt with
          | some v => (.item v, d, r)
          | none =>
            if d.endOfInput then (.done, d, r)
            else
              match d.beforeParse r with
              | (.ok _, d, r) => nextFrame n d r
              | (.error e, d, r) => (.io e d.position, d, r)

/-- The next frame, asked for again after each failed read, at most `n` times. -/
def nextRetry (fuel : Nat) : Nat → Decoder S.Pos σ → Reader → Frame S S.Pos α × Decoder S.Pos σ × Reader
  | 0, d, r => nextFrame R p mk fuel d r
  | n + 1, d, r =>
    match nextFrame R p mk fuel d r with
    | (.io _ _, d, r) => nextRetry fuel n d r
    | x => x

/-- The frames given one after the other. -/
def frames (fuel n : Nat) : Nat → Decoder S.Pos σ → Reader → List (Frame S S.Pos α) × Decoder S.Pos σ × Reader
  | 0, d, r => ([], d, r)
  | m + 1, d, r =>
    let x := nextRetry R p mk fuel n d r
    let y := frames fuel n m x.2.1 x.2.2
    (x.1 :: y.1, y.2)

/-! ## A codec that knows of no end

The codec of examples/async.rs: `decode` on a `PartialStream` of the buffer, that always says that more may follow, and
the `decode_eof` that `tokio_util` provides: `decode` again; no frame is the end if the buffer is empty, and an error if
it is not. -/

/-- The next frame; the number bounds the calls of the codec. -/
def PartialCodec.next : Nat → Decoder S.Pos σ → Reader → Frame S S.Pos α × Decoder S.Pos σ × Reader
  | 0, d, r => (.abort .diverge, d, r)
  | n + 1, d, r =>
    match decode R p (mk d.buffer.data true d.position) d.state with
    | (res, j, s') =>
      let d := { d with state := s', position := S.position j }
      match res with
      | .abort a => (.abort a, d, r)
      | .err e => (.parse e, d, r)
      | .ok opt removed =>
        match d.buffer.advance removed with
        | none => (.abort .panic, d, r)
        | some b =>
          let d := { d with buffer := b }
          match opt with
          | some v => (.item v, d, r)
          | none =>
            if d.endOfInput then (if b.data.isEmpty then .done else .remaining, d, r)
            else
              match d.beforeParse r with
              | (.ok _, d, r) => PartialCodec.next n d r
              | (.error e, d, r) => (.io e d.position, d, r)

/-- The next frame, asked for again after each failed read, at most `n` times. -/
def PartialCodec.retry (fuel : Nat) : Nat → Decoder S.Pos σ → Reader → Frame S S.Pos α × Decoder S.Pos σ × Reader
  | 0, d, r => PartialCodec.next R p mk fuel d r
  | n + 1, d, r =>
    match PartialCodec.next R p mk fuel d r with
    | (.io _ _, d, r) => PartialCodec.retry fuel n d r
    | x => x

/-- The frames given one after the other. -/
def PartialCodec.frames (fuel n : Nat) : Nat → Decoder S.Pos σ → Reader → List (Frame S S.Pos α) × Decoder S.Pos σ × Reader
  | 0, d, r => ([], d, r)
  | m + 1, d, r =>
    let x := PartialCodec.retry R p mk fuel n d r
    let y := PartialCodec.frames fuel n m x.2.1 x.2.2
    (x.1 :: y.1, y.2)

/-- The messages at the head of some bytes, parsed one after the other, each from the start state and from an input that
may go on: their values and the tokens that are left. -/
inductive OpenMessages (tok : UInt8 → S.Tok) : List UInt8 → List α → List UInt8 → Prop
  | nil (bs : List UInt8) : OpenMessages tok bs [] bs
  | cons {bs bs' rest : List UInt8} {pos : S.Pos} {c : Bool} {v : α} {j : S.Input} {vs : List α} :
    p.answer (mk bs true pos) = .ok c v j → S.left j = bs'.map tok → OpenMessages tok bs' vs rest →
    OpenMessages tok bs (v :: vs) rest

end

end Verif
