import Verif.Model.LanguageServer
import Verif.Spec.Framed

/-!
# Blocks of bytes with their length before them

How a message of the base protocol of language servers is written: empty lines, `Content-Length: ` and the length in decimal
digits, an empty line, and that many bytes.
-/

namespace Verif.LanguageServer

/-- The value of decimal digits. -/
def value (digits : List UInt8) : Nat := digits.foldl (fun n d => 10 * n + (d.toNat - 48)) 0

/-- `text` is a block with the given content; its length is less than `2 ^ 64`. -/
def IsBlock (content text : List UInt8) : Prop :=
  ∃ k digits, digits ≠ [] ∧ (∀ d ∈ digits, 48 ≤ d ∧ d ≤ 57) ∧ value digits = content.length ∧ content.length < 2 ^ 64 ∧
    text = (List.replicate k newline).flatten ++ label ++ digits ++ newline ++ newline ++ content

/-- `text` consists of blocks with the given contents. -/
inductive AreBlocks : List (List UInt8) → List UInt8 → Prop
  | nil : AreBlocks [] []
  | cons {m t : List UInt8} {ms : List (List UInt8)} {ts : List UInt8} : IsBlock m t → AreBlocks ms ts → AreBlocks (m :: ms) (t ++ ts)

/-! ## The stream: `easy::Stream` over a slice of bytes, which says whether more may follow -/

/-- A slice of bytes that may be only a part of the input. -/
abbrev Bytes := maybeS (sliceS UInt8 1)

abbrev errors := Easy.Errors.ops UInt8 (List UInt8) Nat compare

abbrev easyError : Bytes.SErr → Easy.Error UInt8 (List UInt8) := UnexpectedParse.intoOtherS errors

abbrev easyErrors : Bytes.Err → Easy.Errors UInt8 (List UInt8) Nat := UnexpectedParse.intoOther errors (0 : Nat)

abbrev Stream := easyS Bytes compare easyError easyErrors

abbrev ranges : RangeOps Stream := convertR Bytes.decPos id errors easyError easyErrors (maybeR (sliceR UInt8 1))

/-- The stream for the bytes of a buffer. -/
abbrev input (b : List UInt8) (more : Bool) (pos : Nat) : Bytes.Input := (⟨pos, b⟩, more)

/-- `decode_parser` on this stream. -/
abbrev parser := message (S := Stream) ranges id id id

/-- A decoder nothing was read into. -/
abbrev fresh := Decoder.mk (P := Stream.Pos) (0 : Nat) parser.init .empty false

end Verif.LanguageServer
