import Verif.Model.Json

/-!
# The date parser of `examples/date.rs`

A program written with the library whose closures use `unwrap` and `expect`: a panic of a closure is a panic of the parser.
-/

namespace Verif

/-- combinator.rs:215-257 `map` with a closure that may panic: `none` is a panic.  (What the parser leaves behind then is not
observable.) -/
def mapOrPanic {S : Strm} {σ α β : Type} (p : Parser S σ α) (f : α → Option β) : Parser S σ β :=
  .ofMode p.init
    (fun m i s =>
      let o := p.run m i s
      match o.res with
      | .commitOk x => ⟨match f x with | some y => .commitOk y | none => .abort .panic, o.inp, o.st⟩
      | .peekOk x => ⟨match f x with | some y => .peekOk y | none => .abort .panic, o.inp, o.st⟩
      | .commitErr e => ⟨.commitErr e, o.inp, o.st⟩
      | .peekErr e => ⟨.peekErr e, o.inp, o.st⟩
      | .abort a => ⟨.abort a, o.inp, o.st⟩)
    p.addError p.addCommitted p.count

namespace Date

/-- examples/date.rs:41-46 `struct Date`. -/
structure Day where
  year : Int
  month : Int
  day : Int
deriving DecidableEq

/-- examples/date.rs:48-54 `struct Time`. -/
structure Time where
  hour : Int
  minute : Int
  second : Int
  zone : Int
deriving DecidableEq

/-- examples/date.rs:56-60 `struct DateTime`. -/
structure DateTime where
  date : Day
  time : Time
deriving DecidableEq

/-- core `<i32 as FromStr>::from_str`, on strings of digits: an error if the string is empty, or as soon as the number does not
fit.  (Signs are not modelled: the program passes digits only.) -/
def parseI32 (s : List Char) : Option Int :=
  if s.isEmpty then none
  else s.foldlM (fun n c => do
    let d ← toDigit 10 c
    if n * 10 + (d : Int) ≤ 2147483647 then some (n * 10 + (d : Int)) else none) 0

variable {S : Strm} [DecidableEq S.Tok] (U : Unicode) (C : Chars S)

open Json (char digit)

/-- date.rs:66-70 the closure. -/
def twoVal (x : S.Tok × S.Tok × Unit) : Option Int := do
  let a ← toDigit 10 (C.chr x.1)
  let b ← toDigit 10 (C.chr x.2.1)
  some ((a * 10 + b : Nat) : Int)

/-- date.rs:62-71 `two_digits`. -/
def twoDigits := mapOrPanic (pair (digit U C) (digit U C)) (twoVal C)

/-- date.rs:84 `choice([char('-'), char('+')])`, an array. -/
def sign := sliceChoice [char C '-', char C '+'] ()

/-- date.rs:86 the minutes of an offset. -/
def offsetMinutes := optional («with» (optional (char C ':')) (twoDigits U C))

/-- date.rs:88-95 the closure. -/
def offsetVal (x : S.Tok × Int × Option Int × Unit) : Int :=
  let offset := x.2.1 * 60 + x.2.2.1.getD 0
  if C.chr x.1 = '-' then -offset else offset

/-- date.rs:83-95 `offset`. -/
def offset := map (tuple (sign C) (.cons (twoDigits U C) (.cons (offsetMinutes U C) .nil))) (offsetVal C)

/-- date.rs:78-98 `time_zone`. -/
def timeZone := or (map (char C 'Z') fun _ => (0 : Int)) (offset U C)

/-- date.rs:106-112 the parts of a date. -/
def dateParts := tuple (many (digit U C))
  (.cons (char C '-') (.cons (twoDigits U C) (.cons (char C '-') (.cons (twoDigits U C) .nil))))

/-- date.rs:113-120 the closure. -/
def dateVal (x : List S.Tok × S.Tok × Int × S.Tok × Int × Unit) : Option Day :=
  (parseI32 (x.1.map C.chr)).map fun y => ⟨y, x.2.2.1, x.2.2.2.2.1⟩

/-- date.rs:102-121 `date`. -/
def date := mapOrPanic (dateParts U C) (dateVal C)

/-- date.rs:125-146 `time`. -/
def time := map (tuple (twoDigits U C) (.cons (char C ':') (.cons (twoDigits U C) (.cons (char C ':') (.cons (twoDigits U C)
  (.cons (timeZone U C) .nil)))))) fun x => (⟨x.1, x.2.2.1, x.2.2.2.2.1, x.2.2.2.2.2.1⟩ : Time)

/-- date.rs:150-155 `date_time`. -/
def dateTime := map (tuple (date U C) (.cons (char C 'T') (.cons (time U C) .nil))) fun x => (⟨x.1, x.2.2.1⟩ : DateTime)

end Date

end Verif
