import Verif.Model.Stream

/-!
# Positions (`src/stream/position.rs`)
-/

namespace Verif

/-- position.rs:14-33 the traits `Positioner` and `RangePositioner` for items `T`, ranges `R`. -/
structure Positioner (T R : Type) where
  X : Type
  Pos : Type
  Ckpt : Type
  decPos : DecidableEq Pos
  /-- position.rs:21 -/
  position : X → Pos
  /-- position.rs:23 -/
  update : X → T → X
  /-- position.rs:25 -/
  checkpoint : X → Ckpt
  /-- position.rs:26 -/
  reset : X → Ckpt → X
  /-- position.rs:32 -/
  updateRange : X → R → X

/-- position.rs:197-246 `IndexPositioner`. `len` is `Range::len`. -/
def indexPositioner (T R : Type) (len : R → Nat) : Positioner T R where
  X := Nat
  Pos := Nat
  Ckpt := Nat
  decPos := inferInstance
  position := id
  update := fun n _ => n + 1
  checkpoint := id
  reset := fun _ c => c
  updateRange := fun n r => n + len r

/-- position.rs:249-261 `SourcePosition`; `i32` is unbounded here (bounded: Model/Position32.lean). -/
structure SourcePosition where
  line : Int
  column : Int
deriving DecidableEq, Repr

namespace SourcePosition

/-- position.rs:257-261 `default`. -/
def start : SourcePosition := ⟨1, 1⟩

/-- position.rs:284-291 (= 313-320) `update`; `isNl` is `*token == '\n'`. -/
def update {T : Type} (isNl : T → Bool) (p : SourcePosition) (t : T) : SourcePosition :=
  let p := { p with column := p.column + 1 }
  if isNl t then { p with column := 1, line := p.line + 1 } else p

/-- position.rs:249 derived `Ord`: by line, then by column. -/
def cmp (a b : SourcePosition) : Ordering :=
  (compare a.line b.line).then (compare a.column b.column)

end SourcePosition

/-- position.rs:275-339 `SourcePosition` as a positioner; `chars` are the tokens of a range. -/
def sourcePositioner (T R : Type) (isNl : T → Bool) (chars : R → List T) : Positioner T R where
  X := SourcePosition
  Pos := SourcePosition
  Ckpt := SourcePosition
  decPos := inferInstance
  position := id
  update := SourcePosition.update isNl
  checkpoint := id
  reset := fun _ c => c
  updateRange := fun p r => (chars r).foldl (SourcePosition.update isNl) p

/-- position.rs:84-152, 403-423 `position::Stream { input, positioner }`.  The error type is the
input's, used with the positioner's positions: a parameter `E` sharing the stream error type. -/
abbrev positionS (S : Strm) (X : Positioner S.Tok S.Rng) (E : ErrOps S.Tok S.Rng X.Pos)
    (convS : S.SErr → E.SErr) (conv : S.Err → E.Err) : Strm where
  Input := S.Input × X.X
  Tok := S.Tok
  Rng := S.Rng
  Pos := X.Pos
  Ckpt := S.Ckpt × X.Ckpt
  decPos := X.decPos
  E := E
  uncons := fun i =>
    match S.uncons i.1 with
    | (.ok c, j) => (.ok c, j, X.update i.2 c)
    | (.error e, j) => (.error (convS e), j, i.2)
  isPartial := fun i => S.isPartial i.1
  checkpoint := fun i => (S.checkpoint i.1, X.checkpoint i.2)
  reset := fun c i =>
    match S.reset c.1 i.1 with
    | (some e, j) => (some (conv e), j, i.2)
    | (none, j) => (none, j, X.reset i.2 c.2)
  position := fun i => X.position i.2
  size := fun i => S.size i.1

/-- position.rs:364-371, 383-390 the predicate passed down: it advances the positioner on acceptance. -/
def positionPred {S : Strm} (X : Positioner S.Tok S.Rng) {ς : Type}
    (f : ς → S.Tok → Bool × ς) (st : ς × X.X) (t : S.Tok) : Bool × ς × X.X :=
  match f st.1 t with
  | (true, s') => (true, s', X.update st.2 t)
  | (false, s') => (false, s', st.2)

/-- position.rs:341-401 its range operations. -/
def positionR {S : Strm} (X : Positioner S.Tok S.Rng) (E : ErrOps S.Tok S.Rng X.Pos)
    (convS : S.SErr → E.SErr) (conv : S.Err → E.Err) (R : RangeOps S) :
    RangeOps (positionS S X E convS conv) where
  unconsRange := fun n i =>
    match R.unconsRange n i.1 with
    | (.ok r, j) => (.ok r, j, X.updateRange i.2 r)
    | (.error e, j) => (.error (convS e), j, i.2)
  unconsWhile := fun f s i =>
    match R.unconsWhile (positionPred X f) (s, i.2) i.1 with
    | ((.ok r, s'), j) => ((.ok r, s'.1), j, s'.2)
    | ((.error e, s'), j) => ((.error (convS e), s'.1), j, s'.2)
  unconsWhile1 := fun f s i =>
    let r := R.unconsWhile1 (positionPred X f) (s, i.2) i.1
    ((r.1.1.mapErr convS, r.1.2.1), r.2, r.1.2.2)
  distance := fun i c => R.distance i.1 c.1
  range := fun i => R.range i.1
  len := R.len

end Verif
