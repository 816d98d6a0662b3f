import Verif.Model.Stream

/-!
# What the user of a stream observes

A history of operations that does not mention the stream it is played on, and the observations it
produces.  Checkpoints are kept in a list; any of them can be restored at any later time.
-/

namespace Verif

/-- One operation of a user of a stream with tokens `T`. -/
inductive UseOp (T : Type) : Type 1 where
  /-- `uncons` -/
  | read
  /-- `uncons_range(n)` -/
  | range (n : Nat)
  /-- `uncons_while` with a predicate that may keep state -/
  | scan {ς : Type} (f : ς → T → Bool × ς) (s : ς)
  /-- `uncons_while1` -/
  | scan1 {ς : Type} (f : ς → T → Bool × ς) (s : ς)
  /-- `checkpoint` -/
  | save
  /-- `reset` to the `k`-th saved checkpoint, if there is one -/
  | restore (k : Nat)
  /-- `distance` from the `k`-th saved checkpoint, if there is one -/
  | distance (k : Nat)
  /-- `range()`: what is left -/
  | whole

/-- What an operation shows: a token, a range or a failure, the final state of the predicate, … -/
inductive Seen (T R : Type) : Type 1 where
  | token (t : Option T)
  | range (r : Option R)
  | scanned {ς : Type} (r : Option R) (s : ς)
  | restored (ok : Bool)
  | distance (n : Nat)
  | whole (r : R)
  | nothing

/-- The success value of a read. -/
def okPart {E α : Type} : Except E α → Option α
  | .ok a => some a
  | .error _ => none

/-- The success value of `uncons_while1`. -/
def okPart1 {E α : Type} : ParseResult α E → Option α
  | .commitOk a => some a
  | .peekOk a => some a
  | _ => none

/-- The effect of an operation on the stream and the saved checkpoints, and what it shows. -/
def UseOp.step {S : Strm} (R : RangeOps S) (op : UseOp S.Tok) (st : S.Input × List S.Ckpt) :
    Seen S.Tok S.Rng × S.Input × List S.Ckpt :=
  match op with
  | .read => (.token (okPart (S.uncons st.1).1), (S.uncons st.1).2, st.2)
  | .range n => (.range (okPart (R.unconsRange n st.1).1), (R.unconsRange n st.1).2, st.2)
  | .scan f s =>
    (.scanned (okPart (R.unconsWhile f s st.1).1.1) (R.unconsWhile f s st.1).1.2,
      (R.unconsWhile f s st.1).2, st.2)
  | .scan1 f s =>
    (.scanned (okPart1 (R.unconsWhile1 f s st.1).1.1) (R.unconsWhile1 f s st.1).1.2,
      (R.unconsWhile1 f s st.1).2, st.2)
  | .save => (.nothing, st.1, st.2 ++ [S.checkpoint st.1])
  | .restore k =>
    match st.2[k]? with
    | some c => (.restored (S.reset c st.1).1.isNone, (S.reset c st.1).2, st.2)
    | none => (.nothing, st)
  | .distance k =>
    match st.2[k]? with
    | some c => (.distance (R.distance st.1 c), st)
    | none => (.nothing, st)
  | .whole => (.whole (R.range st.1), st)

/-- Play a history: what was seen, in order, and the stream it leaves. -/
def play {S : Strm} (R : RangeOps S) : List (UseOp S.Tok) → S.Input × List S.Ckpt →
    List (Seen S.Tok S.Rng) × S.Input × List S.Ckpt
  | [], st => ([], st)
  | op :: ops, st =>
    let r := op.step R st
    let rest := play R ops r.2
    (r.1 :: rest.1, rest.2)

/-- What is seen when a history is played on a stream, and the stream at the end. -/
def seen {S : Strm} (R : RangeOps S) (ops : List (UseOp S.Tok)) (i : S.Input) :
    List (Seen S.Tok S.Rng) × S.Input :=
  ((play R ops (i, [])).1, (play R ops (i, [])).2.1)

end Verif
