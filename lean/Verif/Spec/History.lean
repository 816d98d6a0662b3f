import Verif.Model.Position
import Verif.Model.Stream

/-!
# Histories of stream operations, and what positions should be
-/

namespace Verif

/-- One operation of a user of a stream. Checkpoints are kept in a list; any of them can be restored
at any later time, in any order. -/
inductive StreamOp (S : Strm) : Type 1 where
  /-- `uncons` -/
  | read
  /-- `uncons_range(n)` -/
  | range (n : Nat)
  /-- `uncons_while` with a predicate that may keep state -/
  | scan {ς : Type} (f : ς → S.Tok → Bool × ς) (s : ς)
  /-- `uncons_while1` -/
  | scan1 {ς : Type} (f : ς → S.Tok → Bool × ς) (s : ς)
  /-- `checkpoint` -/
  | save
  /-- `reset` to the `k`-th saved checkpoint, if there is one -/
  | restore (k : Nat)

/-- Effect of an operation on the stream and the saved checkpoints, whether it succeeds or fails. -/
def StreamOp.step {S : Strm} (R : RangeOps S) (op : StreamOp S) (st : S.Input × List S.Ckpt) :
    S.Input × List S.Ckpt :=
  match op with
  | .read => ((S.uncons st.1).2, st.2)
  | .range n => ((R.unconsRange n st.1).2, st.2)
  | .scan f s => ((R.unconsWhile f s st.1).2, st.2)
  | .scan1 f s => ((R.unconsWhile1 f s st.1).2, st.2)
  | .save => (st.1, st.2 ++ [S.checkpoint st.1])
  | .restore k =>
    match st.2[k]? with
    | some c => ((S.reset c st.1).2, st.2)
    | none => st

/-- The stream after a history of operations on a fresh stream. -/
def after {S : Strm} (R : RangeOps S) (ops : List (StreamOp S)) (i : S.Input) : S.Input :=
  (ops.foldl (fun st op => op.step R st) (i, [])).1

/-- Line and column after some text: 1 + number of newlines, 1 + number of characters since the last
newline. -/
def textPosition {T : Type} (isNl : T → Bool) (text : List T) : SourcePosition where
  line := 1 + text.countP isNl
  column := 1 + (text.reverse.takeWhile fun t => !isNl t).length

end Verif
