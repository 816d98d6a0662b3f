import Verif.Model.Repeat

/-!
# Streams that do the same

Two implementations of streams with the same tokens, positions and errors, and what it means that they, and parsers over them, do
the same.
-/

namespace Verif

variable {T Rg P : Type}

/-- An implementation of a stream for given tokens, ranges, positions and errors. -/
structure Impl (E : ErrOps T Rg P) where
  Input : Type
  Ckpt : Type
  uncons : Input → Except E.SErr T × Input
  isPartial : Input → Bool
  checkpoint : Input → Ckpt
  reset : Ckpt → Input → Option E.Err × Input
  position : Input → P
  size : Input → Nat

/-- The stream with this implementation. -/
abbrev Impl.strm [d : DecidableEq P] {E : ErrOps T Rg P} (X : Impl E) : Strm where
  Input := X.Input
  Tok := T
  Rng := Rg
  Pos := P
  Ckpt := X.Ckpt
  decPos := d
  E := E
  uncons := X.uncons
  isPartial := X.isPartial
  checkpoint := X.checkpoint
  reset := X.reset
  position := X.position
  size := X.size

/-- The implementation of a stream. -/
abbrev Strm.impl (S : Strm) : Impl S.E :=
  ⟨S.Input, S.Ckpt, S.uncons, S.isPartial, S.checkpoint, S.reset, S.position, S.size⟩

/-- `X` does the same as `Y` as long as it does not get lost: in states related by `R` all operations show the same and lead to
related states, except that going back to the checkpoint taken last may fail in `X`; then `X` is lost, and stays so: going back to any
checkpoint taken before fails too.  `R` and `Lost` keep account of the checkpoints that were taken. -/
structure Lockstep {E : ErrOps T Rg P} (X Y : Impl E) where
  R : List (X.Ckpt × Y.Ckpt) → X.Input → Y.Input → Prop
  Lost : List (X.Ckpt × Y.Ckpt) → X.Input → Prop
  uncons : ∀ {L i j}, R L i j → (X.uncons i).1 = (Y.uncons j).1 ∧ R L (X.uncons i).2 (Y.uncons j).2
  isPartial : ∀ {L i j}, R L i j → X.isPartial i = Y.isPartial j
  position : ∀ {L i j}, R L i j → X.position i = Y.position j
  size : ∀ {L i j}, R L i j → X.size i = Y.size j
  save : ∀ {L i j}, R L i j → R ((X.checkpoint i, Y.checkpoint j) :: L) i j
  forget : ∀ {L c i j}, R (c :: L) i j → R L i j
  reset : ∀ {L i j c}, R (c :: L) i j →
    ((X.reset c.1 i).1.isSome ∧ Lost (c :: L) (X.reset c.1 i).2) ∨
    ((X.reset c.1 i).1 = (Y.reset c.2 j).1 ∧ R (c :: L) (X.reset c.1 i).2 (Y.reset c.2 j).2)
  lostForget : ∀ {L c i}, Lost (c :: L) i → Lost L i
  lostReset : ∀ {L c i}, Lost (c :: L) i → (X.reset c.1 i).1.isSome ∧ Lost (c :: L) (X.reset c.1 i).2

/-- The result is an error. -/
def ParseResult.Fails {α ε : Type} : ParseResult α ε → Prop
  | .commitErr _ | .peekErr _ => True
  | _ => False

variable [DecidableEq P] {E : ErrOps T Rg P} {X Y : Impl E} {σ τ α β : Type}

/-- The same result, and related inputs. -/
def Lockstep.Res (M : Lockstep X Y) (L : List (X.Ckpt × Y.Ckpt)) (x : α × X.Input) (y : α × Y.Input) : Prop :=
  x.1 = y.1 ∧ M.R L x.2 y.2

/-- The same answer and related inputs, unless the first is an error and its input is lost. -/
def Lockstep.Ans (M : Lockstep X Y) (L : List (X.Ckpt × Y.Ckpt)) (x : ParseResult α E.Err × X.Input)
    (y : ParseResult α E.Err × Y.Input) : Prop :=
  (x.1.Fails ∧ M.Lost L x.2) ∨ (x.1 = y.1 ∧ M.R L x.2 y.2)

/-- The same result and partial state and related inputs, unless the first is an error and its input is lost. -/
def Lockstep.Out (M : Lockstep X Y) (L : List (X.Ckpt × Y.Ckpt)) (x : Out X.strm σ α) (y : Out Y.strm σ α) : Prop :=
  (x.res.Fails ∧ M.Lost L x.inp) ∨ (x.res = y.res ∧ M.R L x.inp y.inp ∧ x.st = y.st)

/-- Parsers that do the same on both streams, in all of their methods, as long as the first is not lost. -/
structure Lockstep.Same (M : Lockstep X Y) (p : Parser X.strm σ α) (q : Parser Y.strm σ α) : Prop where
  init : p.init = q.init
  run : ∀ {L i j}, M.R L i j → ∀ m s, M.Out L (p.run m i s) (q.run m j s)
  lazy : ∀ {L i j}, M.R L i j → M.Ans L (p.lazy i) (q.lazy j)
  committed : ∀ {L i j}, M.R L i j → ∀ m s, M.Out L (p.committed m i s) (q.committed m j s)
  stream : ∀ {L i j}, M.R L i j → M.Ans L (p.stream i) (q.stream j)
  addError : p.addError = q.addError
  addCommitted : p.addCommitted = q.addCommitted
  count : p.count = q.count

/-- Members of sequences that do the same one by one. -/
inductive Lockstep.SameSeq (M : Lockstep X Y) : {τ β : Type} → Seq X.strm τ β → Seq Y.strm τ β → Prop where
  | nil : SameSeq M .nil .nil
  | cons {σ τ α β : Type} {p : Parser X.strm σ α} {q : Parser Y.strm σ α} {ps : Seq X.strm τ β} {qs : Seq Y.strm τ β} :
      M.Same p q → SameSeq M ps qs → SameSeq M (.cons p ps) (.cons q qs)

/-- Alternatives that do the same one by one. -/
inductive Lockstep.SameAlts (M : Lockstep X Y) : {σ : Type} → Alts X.strm α σ → Alts Y.strm α σ → Prop where
  | last {σ : Type} {p : Parser X.strm σ α} {q : Parser Y.strm σ α} : M.Same p q → SameAlts M (.last p) (.last q)
  | cons {σ τ : Type} {p : Parser X.strm σ α} {q : Parser Y.strm σ α} {ps : Alts X.strm α τ} {qs : Alts Y.strm α τ} :
      M.Same p q → SameAlts M ps qs → SameAlts M (.cons p ps) (.cons q qs)

/-- The same program over all streams: whichever two streams do the same, it does the same on them. -/
def Program {E : ErrOps T Rg P} {σ α : Type} (p : (X : Impl E) → Parser X.strm σ α) : Prop :=
  ∀ {X Y : Impl E} (M : Lockstep X Y), M.Same (p X) (p Y)

end Verif
