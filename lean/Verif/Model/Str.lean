import Verif.Model.Errors

/-!
# `&str` as a stream (`src/stream/mod.rs`)

A string slice is its address and its characters; sizes and indices are in UTF-8 bytes as in Rust.
-/

namespace Verif

/-- The UTF-8 bytes of a list of characters. -/
def utf8 (cs : List Char) : List UInt8 := cs.flatMap String.utf8EncodeChar

/-- A `&str`. -/
structure Str where
  ptr : Nat
  data : List Char
deriving DecidableEq, Repr

namespace Str

/-- `str::len`: bytes. -/
def byteLen (cs : List Char) : Nat := (utf8 cs).length

/-- `char::len_utf8`. -/
def charLen (c : Char) : Nat := (String.utf8EncodeChar c).length

/-- `str::split_at(n)`; `none` is the panic when byte `n` is not a character boundary of the string. -/
def splitChars : List Char → Nat → Option (List Char × List Char)
  | cs, 0 => some ([], cs)
  | [], _ + 1 => none
  | c :: cs, n + 1 =>
    if charLen c ≤ n + 1 then
      (splitChars cs (n + 1 - charLen c)).map fun r => (c :: r.1, r.2)
    else none

/-- stream/mod.rs:572-580 the local function `is_char_boundary`. -/
def isCharBoundary (cs : List Char) (index : Nat) : Bool :=
  if index = byteLen cs then true
  else
    match (utf8 cs)[index]? with
    | none => false
    | some b => !(128 ≤ b.toNat && b.toNat ≤ 192)

/-- stream/mod.rs:512-536 the loop of `str_uncons_while`: what remains in `chars`, `last_char_size`
and the closure's state.  The eight-fold unrolling repeats the same step without any bound check, so
it is one step per character here. -/
def whileLoop {ς : Type} (f : ς → Char → Bool × ς) : List Char → ς → List Char × Nat × ς
  | [], s => ([], 0, s)
  | c :: cs, s =>
    match f s c with
    | (true, s') => whileLoop f cs s'
    | (false, s') => (cs, charLen c, s')

/-- stream/mod.rs:508-542 `str_uncons_while(slice, chars, f)`; `none` is a panic (subtraction overflow
or a split inside a character). -/
def uncWhile {ς : Type} (f : ς → Char → Bool × ς) (slice chars : List Char) (s : ς) :
    Option (List Char × List Char × ς) :=
  let r := whileLoop f chars s
  if byteLen r.1 + r.2.1 ≤ byteLen slice then
    let len := byteLen slice - byteLen r.1 - r.2.1
    (splitChars slice len).map fun x => (x.1, x.2, r.2.2)
  else none

/-- stream/mod.rs:571-592 `uncons_range` of `&str`; outer `none` is a panic in `split_at`. -/
def uncRange (size : Nat) (cs : List Char) :
    Option (Except StringStreamError (List Char × List Char)) :=
  if size ≤ byteLen cs then
    if isCharBoundary cs size then (splitChars cs size).map .ok
    else some (.error .characterBoundary)
  else some (.error .eoi)

end Str

/-- stream/mod.rs:481-505 and `clone_resetable!`: `&str` as a stream. -/
abbrev strS : Strm where
  Input := Str
  Tok := Char
  Rng := List Char
  Pos := Nat
  Ckpt := Str
  decPos := inferInstance
  E := StringStreamError.ops Char (List Char) Nat 0
  uncons := fun s =>
    match s.data with
    | c :: cs => (.ok c, ⟨s.ptr + Str.charLen c, cs⟩)
    | [] => (.error .eoi, s)
  isPartial := fun _ => false
  checkpoint := id
  reset := fun c _ => (none, c)
  position := fun s => s.ptr
  size := fun s => s.data.length

/-- The string slice left after taking the range `r` from `i`. -/
def Str.after (i : Str) (r rest : List Char) : Str := ⟨i.ptr + Str.byteLen r, rest⟩

/-- stream/mod.rs:544-609 the range operations of `&str`.  A panic (excluded by proof, see
`Verif.Props.StrRanges`) leaves the input alone. -/
def strR : RangeOps strS where
  unconsRange := fun n i =>
    let i : Str := i
    match Str.uncRange n i.data with
    | some (.ok (r, rest)) => (.ok r, i.after r rest)
    | some (.error e) => (.error e, i)
    | none => (.error StringStreamError.characterBoundary, i)
  unconsWhile := fun f s i =>
    let i : Str := i
    match Str.uncWhile f i.data i.data s with
    | some (r, rest, s') => ((.ok r, s'), i.after r rest)
    | none => ((.ok [], s), i)
  unconsWhile1 := fun f s i =>
    let i : Str := i
    match i.data with
    | [] => ((.peekErr (Tracked.of StringStreamError.eoi), s), i)
    | c :: cs =>
      match f s c with
      | (false, s') => ((.peekErr (Tracked.of StringStreamError.unexpectedParse), s'), i)
      | (true, s') =>
        match Str.uncWhile f i.data cs s' with
        | some (r, rest, s'') => ((.commitOk r, s''), i.after r rest)
        | none => ((.commitOk [], s'), i)
  distance := fun i e => (i : Str).ptr - (e : Str).ptr
  range := fun i => (i : Str).data
  len := fun r => Str.byteLen r

end Verif
