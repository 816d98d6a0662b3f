import Verif.Spec.Tape
import Verif.Spec.Lockstep

/-!
# Parsing a recording

An unlimited recording of a source as a stream: what one wants to parse when one puts a buffer between a one-pass source and a
parser.
-/

namespace Verif

/-- The recording of a source as a stream: a checkpoint is the place of the head, going back always works. -/
abbrev tapeS (S : Strm) : Strm where
  Input := Tape S
  Tok := S.Tok
  Rng := S.Rng
  Pos := S.Pos
  Ckpt := Nat
  decPos := S.decPos
  E := S.E
  uncons := Tape.read
  isPartial := fun t => S.isPartial t.source
  checkpoint := fun t => t.head
  reset := fun c t => (none, { t with head := c })
  position := Tape.position
  size := fun t => S.size t.source + (t.past.length - t.head)

variable {S : Strm}

/-- How many tokens the source delivers when it is asked `k` times. -/
def Strm.delivered (S : Strm) : Nat → S.Input → Nat
  | 0, _ => 0
  | k + 1, i =>
    match S.uncons i with
    | (.ok _, j) => S.delivered k j + 1
    | (.error _, j) => S.delivered k j

/-- The source delivers no more than `n` tokens, however often it is asked. -/
def Strm.AtMost (S : Strm) (n : Nat) (i : S.Input) : Prop := ∀ k, S.delivered k i ≤ n

/-- A source that can go back by itself to any place it was at, and that stays where it is when there is nothing to read. -/
structure Strm.Rewinds (S : Strm) : Prop where
  reset : ∀ i j, S.reset (S.checkpoint i) j = (none, i)
  error : ∀ {i j e}, S.uncons i = (.error e, j) → j = i
  size : ∀ {i j t}, S.uncons i = (.ok t, j) → S.size i = S.size j + 1
  isPartial : ∀ {i j t}, S.uncons i = (.ok t, j) → S.isPartial i = S.isPartial j

/-- How a parse ended: with a value at some position, with an error, or not at all. -/
inductive Ending (ε P α : Type) where
  | ok (v : α) (at_ : P)
  | err (e : ε)
  | abort (a : Abort)
  deriving DecidableEq

/-- How a parse ended. -/
def Parser.Parsed.ending {α : Type} : Parsed S α → Ending S.Err S.Pos α
  | .ok v j => .ok v (S.position j)
  | .err e => .err e
  | .abort a => .abort a

end Verif
