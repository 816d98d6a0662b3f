import Verif.Model.Errors

/-!
# Slices as streams (`src/stream/mod.rs`)
-/

namespace Verif

/-- A sub-slice of some allocation: the address of its first element and its elements. -/
structure Slice (T : Type) where
  ptr : Nat
  data : List T
deriving DecidableEq, Repr

namespace Slice

variable {T : Type}

/-- `slice::split_at` (panics when `n` is out of bounds: callers check, see `sliceWhile`); `sz` is the
size of an element.  A range taken from a slice is represented by its elements alone: ranges are
compared by content. -/
def splitAt (sz n : Nat) (s : Slice T) : List T × Slice T :=
  (s.data.take n, ⟨s.ptr + sz * n, s.data.drop n⟩)

/-- How a group of unrolled checks ends (stream/mod.rs:635-643, 646-655). -/
inductive Checked (ς : Type) where
  /-- all checks passed -/
  | next (i : Nat) (s : ς)
  /-- the predicate rejected the element at `i`: `found = true; break` -/
  | found (i : Nat) (s : ς)
  /-- `get_unchecked` out of bounds: undefined behaviour -/
  | ub

/-- stream/mod.rs:635-643 `k` copies of `check!()` starting at index `i`. -/
def checks {ς : Type} (f : ς → T → Bool × ς) (data : List T) : Nat → Nat → ς → Checked ς
  | 0, i, s => .next i s
  | k + 1, i, s =>
    match data[i]? with
    | none => .ub
    | some t =>
      match f s t with
      | (true, s') => checks f data k (i + 1) s'
      | (false, s') => .found i s'

/-- stream/mod.rs:646-655 `while len - i >= 8 { check! x 8 }`.  The fuel is the length. -/
def unrolled {ς : Type} (f : ς → T → Bool × ς) (data : List T) : Nat → Nat → ς → Checked ς
  | 0, i, s => .next i s
  | n + 1, i, s =>
    if 8 ≤ data.length - i then
      match checks f data 8 i s with
      | .next i s => unrolled f data n i s
      | r => r
    else .next i s

/-- stream/mod.rs:657-664 `while let Some(c) = slice.get(i)`. -/
def tailLoop {ς : Type} (f : ς → T → Bool × ς) (data : List T) : Nat → Nat → ς → Nat × ς
  | 0, i, s => (i, s)
  | n + 1, i, s =>
    match data[i]? with
    | none => (i, s)
    | some t =>
      match f s t with
      | (true, s') => tailLoop f data n (i + 1) s'
      | (false, s') => (i, s')

/-- stream/mod.rs:624-669 `slice_uncons_while` (= 1072-1116 `slice_uncons_while_ref`): the number of
elements taken, and the closure's state; `none` is undefined behaviour or a failed `split_at`. -/
def whileLen {ς : Type} (f : ς → T → Bool × ς) (data : List T) (start : Nat) (s : ς) :
    Option (Nat × ς) :=
  let r := match unrolled f data (data.length + 1) start s with
    | .next i s => some (tailLoop f data (data.length + 1) i s)
    | .found i s => some (i, s)
    | .ub => none
  match r with
  | some (i, s) => if i ≤ data.length then some (i, s) else none
  | none => none

end Slice

/-- stream/mod.rs:733-752, 723-731 and `clone_resetable!` (30-48): `&[T]` as a stream.
`sz` is `size_of::<T>()`.  The position is the address (`PointerOffset`). -/
abbrev sliceS (T : Type) (sz : Nat) : Strm where
  Input := Slice T
  Tok := T
  Rng := List T
  Pos := Nat
  Ckpt := Slice T
  decPos := inferInstance
  E := UnexpectedParse.ops T (List T) Nat 0
  uncons := fun s =>
    match s.data with
    | t :: ts => (.ok t, ⟨s.ptr + sz, ts⟩)
    | [] => (.error .eoi, s)
  isPartial := fun _ => false
  checkpoint := id
  reset := fun c _ => (none, c)
  position := fun s => s.ptr
  size := fun s => s.data.length

/-- stream/mod.rs:686-692 `uncons_while` of a slice; undefined behaviour (excluded by proof) leaves
the input alone. -/
def sliceWhile {T : Type} (sz : Nat) {ς : Type} (f : ς → T → Bool × ς) (start : Nat) (s : ς)
    (i : Slice T) : (List T × ς) × Slice T :=
  match Slice.whileLen f i.data start s with
  | some (n, s') => let r := i.splitAt sz n; ((r.1, s'), r.2)
  | none => (([], s), i)

/-- stream/mod.rs:671-721, 611-616 the range operations of `&[T]` (= 1118-1166 of `SliceStream`). -/
def sliceR (T : Type) (sz : Nat) : RangeOps (sliceS T sz) where
  unconsRange := fun n i =>
    let i : Slice T := i
    if n ≤ i.data.length then
      let r := i.splitAt sz n
      (.ok r.1, r.2)
    else (.error UnexpectedParse.eoi, i)
  unconsWhile := fun f s i =>
    let r := sliceWhile (T := T) sz f 0 s i
    ((.ok r.1.1, r.1.2), r.2)
  unconsWhile1 := fun f s i =>
    let i : Slice T := i
    match i.data with
    | [] => ((.peekErr (Tracked.of UnexpectedParse.eoi), s), i)
    | c :: _ =>
      match f s c with
      | (false, s') => ((.peekErr (Tracked.of UnexpectedParse.unexpected), s'), i)
      | (true, s') =>
        let r := sliceWhile (T := T) sz f 1 s' i
        ((.commitOk r.1.1, r.1.2), r.2)
  distance := fun i e => (e : Slice T).data.length - (i : Slice T).data.length
  range := fun i => (i : Slice T).data
  len := fun r => (r : List T).length

end Verif
