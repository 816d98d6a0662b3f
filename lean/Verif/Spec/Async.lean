import Verif.Model.Async
import Verif.Spec.Decoding

/-!
# What an asynchronous reader gives, and how a task uses it
-/

namespace Verif

/-- All bytes an asynchronous reader still has to deliver, in order. -/
def AReader.all : AReader → List UInt8
  | [] => []
  | .ready (.ok c) :: r => c ++ AReader.all r
  | _ :: r => AReader.all r

/-- The bytes it gives until its first empty read, if it is polled again whenever it is not ready or has failed. -/
def AReader.stream : AReader → List UInt8
  | [] => []
  | .pending :: r => AReader.stream r
  | .ready (.error _) :: r => AReader.stream r
  | .ready (.ok []) :: _ => []
  | .ready (.ok (b :: c)) :: r => b :: c ++ AReader.stream r

/-- How often it is not ready, or fails, until then. -/
def AReader.stops : AReader → Nat
  | [] => 0
  | .pending :: r => AReader.stops r + 1
  | .ready (.error _) :: r => AReader.stops r + 1
  | .ready (.ok []) :: _ => 0
  | .ready (.ok (_ :: _)) :: r => AReader.stops r

/-- The reader that is always ready and otherwise gives the same. -/
def AReader.eager : AReader → AReader
  | [] => []
  | .pending :: r => AReader.eager r
  | x :: r => x :: AReader.eager r

/-- How often a reader is not ready. -/
def AReader.pendings : AReader → Nat
  | [] => 0
  | .pending :: r => AReader.pendings r + 1
  | _ :: r => AReader.pendings r

/-- What a decoder has yet to decode: the bytes in its buffer, and those of the reader unless it has noticed the end. -/
def Decoder.aheadA {P σ : Type} (d : Decoder P σ) (r : AReader) : List UInt8 :=
  d.buffer.data ++ if d.endOfInput then [] else r.stream

section
variable {S : Strm} {σ α : Type} (R : RangeOps S) (p : Parser S σ α) (mk : List UInt8 → Bool → S.Pos → S.Input)

/-- A future of `decode_*!` polled until it is ready, at most `n` times more. -/
def decodeAwait (fuel : Nat) :
    Nat → Bool → Decoder S.Pos σ → AReader → Poll (DecodeRes S S.Pos α) × Decoder S.Pos σ × AReader
  | 0, a, d, r => pollDecode R p mk fuel a d r
  | n + 1, a, d, r =>
    match pollDecode R p mk fuel a d r with
    | (.pending, d, r) => decodeAwait fuel n true d r
    | x => x

/-- A task that decodes a message.  Whenever its future is pending it either polls it again or — `true` in the list — drops
it and calls `decode_*!` anew, as happens in a `select!` or with a timeout; if the read failed it calls `decode_*!`
anew. -/
def decodeTask (fuel : Nat) :
    List Bool → Bool → Decoder S.Pos σ → AReader → Poll (DecodeRes S S.Pos α) × Decoder S.Pos σ × AReader
  | [], a, d, r => pollDecode R p mk fuel a d r
  | drop :: acts, a, d, r =>
    match pollDecode R p mk fuel a d r with
    | (.pending, d, r) => decodeTask fuel acts (!drop) d r
    | (.ready (.io _ _), d, r) => decodeTask fuel acts false d r
    | x => x

/-- Tasks that decode one message after the other. -/
def decodeTasks (fuel : Nat) : List (List Bool) → Decoder S.Pos σ → AReader →
    List (Poll (DecodeRes S S.Pos α)) × Decoder S.Pos σ × AReader
  | [], d, r => ([], d, r)
  | acts :: rest, d, r =>
    let x := decodeTask R p mk fuel acts false d r
    let y := decodeTasks fuel rest x.2.1 x.2.2
    (x.1 :: y.1, y.2)

end

/-- One use of a `BufReader`. -/
inductive ABufReadOp where
  /-- `poll_read` into a buffer of `n` bytes -/
  | read (n : Nat)
  | fillBuf
  /-- `consume(n)` -/
  | consume (n : Nat)
  /-- extension of the buffer by a decoder -/
  | extend

/-- The bytes an operation takes out of the reader for good, and what it leaves; `none` is a panic. -/
def ABufReadOp.step (op : ABufReadOp) (b : ABufReader) : Option (List UInt8 × ABufReader) :=
  match op with
  | .read n =>
    (b.pollRead n).map fun r =>
      match r.1 with
      | .ready (.ok got) => (got, r.2)
      | _ => ([], r.2)
  | .fillBuf => some ([], b.pollFillBuf.2)
  | .consume n => (b.consume n).map fun b' => (b.buf.data.take n, b')
  | .extend => some ([], b.pollExtend.2)

/-- Play a history of operations: everything that was taken out, in order. -/
def ABufReadOp.play : List ABufReadOp → ABufReader → Option (List UInt8 × ABufReader)
  | [], b => some ([], b)
  | op :: ops, b =>
    match op.step b with
    | none => none
    | some (got, b') => (ABufReadOp.play ops b').map fun r => (got ++ r.1, r.2)

end Verif
