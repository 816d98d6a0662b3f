import Verif.Spec.Answer

/-!
# Ordinary parsers

`Moves`, `Coherent`: what every parser composed from the library's parsers and combinators satisfies
(`Built.moves`, `Built.coherent`), used as hypotheses on arbitrary sub-parsers.
-/

namespace Verif

variable {S : Strm} {σ α : Type}

/-- `j` is `i` after some reads. -/
def Strm.Reach (S : Strm) (i j : S.Input) : Prop := ∃ ts, S.Reads i ts j

/-- Every entry point of the parser leaves an input reachable by reads. -/
structure Moves (p : Parser S σ α) : Prop where
  run : ∀ m i s, S.Reach i (p.run m i s).inp
  lazy : ∀ i, S.Reach i (p.lazy i).2
  committed : ∀ m i s, S.Reach i (p.committed m i s).inp
  stream : ∀ i, S.Reach i (p.stream i).2

/-- All entry points give the answer of `run`. -/
structure Coherent (p : Parser S σ α) : Prop where
  lazy : ∀ i, Answer.of (p.lazy i).1 (p.lazy i).2 = p.answer i
  stream : ∀ i, Answer.of (p.stream i).1 (p.stream i).2 = p.answer i
  committed : ∀ m i s, (p.committed m i s).answer = (p.run m i s).answer
  committed_st : ∀ m i s, (p.committed m i s).st = (p.run m i s).st

/-- A stream all of whose failing reads are the end of the input. -/
def Strm.EndsOnly (S : Strm) : Prop :=
  ∀ i e j, S.uncons i = (.error e, j) → S.E.isEoiS e = true

end Verif
