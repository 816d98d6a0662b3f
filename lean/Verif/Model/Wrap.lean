import Verif.Model.Slice

/-!
# Stream wrappers: `PartialStream`, `CompleteStream`, `MaybePartialStream`, `&mut S`, `state::Stream`,
`easy::Stream`, `span::Stream`
-/

namespace Verif

/-- stream/mod.rs:756-808 `PartialStream(S)`: forwards everything, `is_partial` is `true`. -/
abbrev partialS (S : Strm) : Strm := { S with isPartial := fun _ => true }

/-- stream/mod.rs:810-843 its range operations forward. -/
def partialR {S : Strm} (R : RangeOps S) : RangeOps (partialS S) :=
  ⟨R.unconsRange, R.unconsWhile, R.unconsWhile1, R.distance, R.range, R.len⟩

/-- stream/mod.rs:851-910 `CompleteStream(S)`: `is_partial` is `false`. -/
abbrev completeS (S : Strm) : Strm := { S with isPartial := fun _ => false }

/-- stream/mod.rs:912-945. -/
def completeR {S : Strm} (R : RangeOps S) : RangeOps (completeS S) :=
  ⟨R.unconsRange, R.unconsWhile, R.unconsWhile1, R.distance, R.range, R.len⟩

/-- stream/mod.rs:948-994 `MaybePartialStream(S, bool)`: the flag is not part of the checkpoint. -/
abbrev maybeS (S : Strm) : Strm where
  Input := S.Input × Bool
  Tok := S.Tok
  Rng := S.Rng
  Pos := S.Pos
  Ckpt := S.Ckpt
  decPos := S.decPos
  E := S.E
  uncons := fun i => let r := S.uncons i.1; (r.1, r.2, i.2)
  isPartial := fun i => i.2
  checkpoint := fun i => S.checkpoint i.1
  reset := fun c i => let r := S.reset c i.1; (r.1, r.2, i.2)
  position := fun i => S.position i.1
  size := fun i => S.size i.1

/-- stream/mod.rs:996-1029. -/
def maybeR {S : Strm} (R : RangeOps S) : RangeOps (maybeS S) where
  unconsRange := fun n i => let r := R.unconsRange n i.1; (r.1, r.2, i.2)
  unconsWhile := fun f s i => let r := R.unconsWhile f s i.1; (r.1, r.2, i.2)
  unconsWhile1 := fun f s i => let r := R.unconsWhile1 f s i.1; (r.1, r.2, i.2)
  distance := fun i c => R.distance i.1 c
  range := fun i => R.range i.1
  len := R.len

/-- stream/state.rs:7-56 `state::Stream`: the user state is not part of the checkpoint. -/
abbrev stateS (S : Strm) (U : Type) : Strm where
  Input := S.Input × U
  Tok := S.Tok
  Rng := S.Rng
  Pos := S.Pos
  Ckpt := S.Ckpt
  decPos := S.decPos
  E := S.E
  uncons := fun i => let r := S.uncons i.1; (r.1, r.2, i.2)
  isPartial := fun i => S.isPartial i.1
  checkpoint := fun i => S.checkpoint i.1
  reset := fun c i => let r := S.reset c i.1; (r.1, r.2, i.2)
  position := fun i => S.position i.1
  size := fun i => S.size i.1

/-- stream/state.rs:58-91. -/
def stateR {S : Strm} (U : Type) (R : RangeOps S) : RangeOps (stateS S U) where
  unconsRange := fun n i => let r := R.unconsRange n i.1; (r.1, r.2, i.2)
  unconsWhile := fun f s i => let r := R.unconsWhile f s i.1; (r.1, r.2, i.2)
  unconsWhile1 := fun f s i => let r := R.unconsWhile1 f s i.1; (r.1, r.2, i.2)
  distance := fun i c => R.distance i.1 c
  range := fun i => R.range i.1
  len := R.len

/-- Map the error of an `Except` (`Result::map_err`). -/
def mapExceptErr {E E' α : Type} (f : E → E') : Except E α → Except E' α
  | .ok a => .ok a
  | .error e => .error (f e)

/-- stream/easy.rs:803-897 `easy::Stream(S)` (and stream/span.rs:37-157 `span::Stream`, with its
position type): the same stream with another error type; `convS`, `conv` are the `into_other`
conversions, `toPos` converts positions (`id`, resp. `Span::from`). -/
abbrev convertS (S : Strm) {P : Type} (decPos : DecidableEq P) (toPos : S.Pos → P)
    (E : ErrOps S.Tok S.Rng P) (convS : S.SErr → E.SErr) (conv : S.Err → E.Err) : Strm where
  Input := S.Input
  Tok := S.Tok
  Rng := S.Rng
  Pos := P
  Ckpt := S.Ckpt
  decPos := decPos
  E := E
  uncons := fun i => let r := S.uncons i; (mapExceptErr convS r.1, r.2)
  isPartial := S.isPartial
  checkpoint := S.checkpoint
  reset := fun c i => let r := S.reset c i; (r.1.map conv, r.2)
  position := fun i => toPos (S.position i)
  size := S.size

/-- stream/easy.rs:851-886 = stream/span.rs:97-142. -/
def convertR {S : Strm} {P : Type} (decPos : DecidableEq P) (toPos : S.Pos → P)
    (E : ErrOps S.Tok S.Rng P) (convS : S.SErr → E.SErr) (conv : S.Err → E.Err) (R : RangeOps S) :
    RangeOps (convertS S decPos toPos E convS conv) where
  unconsRange := fun n i => let r := R.unconsRange n i; (mapExceptErr convS r.1, r.2)
  unconsWhile := fun f s i => let r := R.unconsWhile f s i; ((mapExceptErr convS r.1.1, r.1.2), r.2)
  unconsWhile1 := fun f s i => let r := R.unconsWhile1 f s i; ((r.1.1.mapErr convS, r.1.2), r.2)
  distance := R.distance
  range := R.range
  len := R.len

/-- stream/easy.rs:803-897 `easy::Stream(A)` for any stream `A`; `cmp` compares its positions. -/
abbrev easyS (A : Strm) [DecidableEq A.Tok] [DecidableEq A.Rng] (cmp : A.Pos → A.Pos → Ordering)
    (convS : A.SErr → Easy.Error A.Tok A.Rng) (conv : A.Err → Easy.Errors A.Tok A.Rng A.Pos) : Strm :=
  convertS A A.decPos id (Easy.Errors.ops A.Tok A.Rng A.Pos cmp) convS conv

/-- `easy::Stream(S)` over a stream whose errors are `UnexpectedParse`s, e.g. `easy::Stream(&[T])`. -/
abbrev easySliceS (T : Type) [DecidableEq T] (sz : Nat) : Strm :=
  convertS (sliceS T sz) inferInstance id (Easy.Errors.ops T (List T) Nat compare)
    (UnexpectedParse.intoOtherS (Easy.Errors.ops T (List T) Nat compare))
    (UnexpectedParse.intoOther (Easy.Errors.ops T (List T) Nat compare) (0 : Nat))

/-- stream/span.rs:9-26 `Span`. -/
structure Span (P : Type) where
  start : P
  stop : P
deriving DecidableEq, Repr

/-- stream/span.rs:15-26 `Span::from(position)`. -/
def Span.ofPos {P : Type} (p : P) : Span P := ⟨p, p⟩

end Verif
