import Verif.Model.Decoder
import Verif.Spec.Behaved
import Verif.Spec.Resume

/-!
# Accounting for bytes

`Reader.all` is everything a reader still has to give, whatever errors and empty reads come in between.
`ByteInput` says how the parser's input stands for the bytes of the decoder's buffer.
-/

namespace Verif

/-- All bytes a reader still has to deliver, in order. -/
def Reader.all : Reader → List UInt8
  | [] => []
  | .error _ :: r => Reader.all r
  | .ok c :: r => c ++ Reader.all r

/-- The next read gives nothing: the list is at its end or the next chunk is empty. -/
def Reader.ended : Reader → Bool
  | [] => true
  | .error _ :: _ => false
  | .ok c :: _ => c.isEmpty

/-- `bytes i` are the bytes left in the input `i`; `mk` makes an input of the buffer; reading takes
bytes off the front and `distance` counts them. -/
structure ByteInput (S : Strm) (R : RangeOps S) (bytes : S.Input → List UInt8)
    (mk : List UInt8 → Bool → S.Pos → S.Input) : Prop where
  whole : ∀ b more pos, bytes (mk b more pos) = b
  reads : ∀ {i ts j}, S.Reads i ts j →
    ∃ taken, bytes i = taken ++ bytes j ∧ R.distance j (S.checkpoint i) = taken.length

/-- The capacity of the buffer holds its contents. -/
def BytesMut.Ok (b : BytesMut) : Prop := b.data.length ≤ b.cap

/-- The parsers given to successive `decode!` calls on one decoder; each call is retried whatever the
previous one returned. -/
def session {S : Strm} {σ α : Type} (R : RangeOps S)
    (mk : List UInt8 → Bool → S.Pos → S.Input) (fuel : Nat) :
    List (Parser S σ α) → Decoder S.Pos σ → Reader →
    List (DecodeRes S S.Pos α) × Decoder S.Pos σ × Reader
  | [], d, r => ([], d, r)
  | p :: ps, d, r =>
    let x := decodeLoop R p mk fuel d r
    let y := session R mk fuel ps x.2.1 x.2.2
    (x.1 :: y.1, y.2)

/-- The bytes a reader gives until its first empty read, if reads that fail are retried. -/
def Reader.stream : Reader → List UInt8
  | [] => []
  | .error _ :: r => Reader.stream r
  | .ok [] :: _ => []
  | .ok (b :: c) :: r => b :: c ++ Reader.stream r

/-- The number of reads that fail until then. -/
def Reader.faults : Reader → Nat
  | [] => 0
  | .error _ :: r => Reader.faults r + 1
  | .ok [] :: _ => 0
  | .ok (_ :: _) :: r => Reader.faults r

/-- What a decoder has yet to decode: the bytes in its buffer, and those of the reader unless it has noticed
the end. -/
def Decoder.ahead {P σ : Type} (d : Decoder P σ) (r : Reader) : List UInt8 :=
  d.buffer.data ++ if d.endOfInput then [] else r.stream

/-- `decode!`, called again after each failed read, at most `n` times. -/
def decodeRetry {S : Strm} {σ α : Type} (R : RangeOps S) (p : Parser S σ α)
    (mk : List UInt8 → Bool → S.Pos → S.Input) (fuel : Nat) :
    Nat → Decoder S.Pos σ → Reader → DecodeRes S S.Pos α × Decoder S.Pos σ × Reader
  | 0, d, r => decodeLoop R p mk fuel d r
  | n + 1, d, r =>
    match decodeLoop R p mk fuel d r with
    | (.io _ _, d, r) => decodeRetry R p mk fuel n d r
    | x => x

/-- The results of `m` messages, decoded one after the other. -/
def decodeMany {S : Strm} {σ α : Type} (R : RangeOps S) (p : Parser S σ α)
    (mk : List UInt8 → Bool → S.Pos → S.Input) (fuel n : Nat) :
    Nat → Decoder S.Pos σ → Reader → List (DecodeRes S S.Pos α) × Decoder S.Pos σ × Reader
  | 0, d, r => ([], d, r)
  | m + 1, d, r =>
    let x := decodeRetry R p mk fuel n d r
    let y := decodeMany R p mk fuel n m x.2.1 x.2.2
    (x.1 :: y.1, y.2)

/-- The inputs a decoder makes: `tok` is a byte as a token, `distance` counts tokens. -/
structure ByteSource (S : Strm) (R : RangeOps S) (tok : UInt8 → S.Tok)
    (mk : List UInt8 → Bool → S.Pos → S.Input) : Prop where
  left : ∀ b more pos, S.left (mk b more pos) = b.map tok
  isPartial : ∀ b more pos, S.isPartial (mk b more pos) = more
  distance : ∀ {i ts j}, S.Reads i ts j → R.distance j (S.checkpoint i) = ts.length

/-- The messages at the head of some bytes, parsed one after the other, each from the start state and from a complete
input: their values and the tokens that are left. -/
inductive Messages {S : Strm} {σ α : Type} (p : Parser S σ α) (tok : UInt8 → S.Tok)
    (mk : List UInt8 → Bool → S.Pos → S.Input) : List UInt8 → List α → List UInt8 → Prop
  | nil (bs : List UInt8) : Messages p tok mk bs [] bs
  | cons {bs bs' rest : List UInt8} {pos : S.Pos} {c : Bool} {v : α} {j : S.Input} {vs : List α} :
    p.answer (mk bs false pos) = .ok c v j → S.left j = bs'.map tok → Messages p tok mk bs' vs rest →
    Messages p tok mk bs (v :: vs) rest

/-- One use of a `BufReader`. -/
inductive BufReadOp where
  /-- `read` into a buffer of `n` bytes -/
  | read (n : Nat)
  | fillBuf
  /-- `consume(n)` -/
  | consume (n : Nat)
  /-- extension of the buffer by a decoder -/
  | extend

/-- The bytes an operation takes out of the reader for good, and what it leaves; `none` is a panic. -/
def BufReadOp.step (op : BufReadOp) (b : BufReader) : Option (List UInt8 × BufReader) :=
  match op with
  | .read n =>
    (b.read n).map fun r =>
      match r.1 with
      | .ok got => (got, r.2)
      | .error _ => ([], r.2)
  | .fillBuf => some ([], b.fillBuf.2)
  | .consume n => (b.consume n).map fun b' => (b.buf.data.take n, b')
  | .extend => some ([], b.extend.2)

/-- Play a history of operations: everything that was taken out, in order. -/
def BufReadOp.play : List BufReadOp → BufReader → Option (List UInt8 × BufReader)
  | [], b => some ([], b)
  | op :: ops, b =>
    match op.step b with
    | none => none
    | some (got, b') => (BufReadOp.play ops b').map fun r => (got ++ r.1, r.2)

end Verif
