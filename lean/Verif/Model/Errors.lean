import Verif.Model.Stream

/-!
# Concrete error types (`src/error.rs`, `src/stream/easy.rs`, `src/stream/read.rs`)
-/

namespace Verif

/-! ## `UnexpectedParse` -/

/-- error.rs:553-557 `enum UnexpectedParse`. -/
inductive UnexpectedParse where
  | eoi
  | unexpected
deriving DecidableEq, Repr

namespace UnexpectedParse

/-- error.rs:675-680 `add`: an end of input error stays one. -/
def add (self err : UnexpectedParse) : UnexpectedParse :=
  match self, err with
  | eoi, _ => eoi
  | _, err => err

/-- error.rs:582-702 `StreamError` and `ParseError` for `UnexpectedParse`; `dflt` is
`Position::default()`.  `merge` and `clear_expected` are the trait's defaults (481-483, 518). -/
def ops (T R P : Type) (dflt : P) : ErrOps T R P where
  SErr := UnexpectedParse
  Err := UnexpectedParse
  unexpected := fun _ => unexpected
  expected := fun _ => unexpected
  message := fun _ => unexpected
  endOfInput := eoi
  isEoiS := fun e => e = eoi
  empty := fun _ => unexpected
  fromError := fun _ e => e
  position := fun _ => dflt
  setPosition := fun e _ => e
  merge := fun _ other => other
  add := add
  setExpected := fun t info f => { f t with error := info }
  clearExpected := id
  isEoi := fun e => e = eoi

/-- error.rs:641-649 (= 723-730) `StreamError::into_other`. -/
def intoOtherS {T R P : Type} (E : ErrOps T R P) : UnexpectedParse → E.SErr
  | unexpected => E.unexpected (.static "parse")
  | eoi => E.endOfInput

/-- error.rs:696-701 `ParseError::into_other`. -/
def intoOther {T R P : Type} (E : ErrOps T R P) (dflt : P) (e : UnexpectedParse) : E.Err :=
  E.fromError dflt (intoOtherS E e)

end UnexpectedParse

/-! ## `StringStreamError` -/

/-- error.rs:733-738 `enum StringStreamError`. -/
inductive StringStreamError where
  | unexpectedParse
  | eoi
  | characterBoundary
deriving DecidableEq, Repr

/-- error.rs:740 `CHAR_BOUNDARY_ERROR_MESSAGE`. -/
def charBoundaryMessage : String := "unexpected slice on character boundary"

namespace StringStreamError

/-- error.rs:863-868 `add`. -/
def add (self err : StringStreamError) : StringStreamError :=
  match self, err with
  | eoi, _ => eoi
  | _, err => err

/-- error.rs:766-890 `StreamError` and `ParseError` for `StringStreamError`. -/
def ops (T R P : Type) (dflt : P) : ErrOps T R P where
  SErr := StringStreamError
  Err := StringStreamError
  unexpected := fun _ => unexpectedParse
  expected := fun _ => unexpectedParse
  message := fun i =>
    match i with
    | .static s => if s = charBoundaryMessage then characterBoundary else unexpectedParse
    | _ => unexpectedParse
  endOfInput := eoi
  isEoiS := fun e => e = eoi
  empty := fun _ => unexpectedParse
  fromError := fun _ e => e
  position := fun _ => dflt
  setPosition := fun e _ => e
  merge := fun _ other => other
  add := add
  setExpected := fun t info f => { f t with error := info }
  clearExpected := id
  isEoi := fun e => e = eoi

/-- error.rs:829-839 (= 911-918) `StreamError::into_other`. -/
def intoOtherS {T R P : Type} (E : ErrOps T R P) : StringStreamError → E.SErr
  | characterBoundary => E.unexpected (.static charBoundaryMessage)
  | unexpectedParse => E.unexpected (.static "parse")
  | eoi => E.endOfInput

/-- error.rs:884-889 `ParseError::into_other`. -/
def intoOther {T R P : Type} (E : ErrOps T R P) (dflt : P) (e : StringStreamError) : E.Err :=
  E.fromError dflt (intoOtherS E e)

end StringStreamError

/-! ## `read::Error` -/

/-- stream/read.rs:11-16 `enum Error`; an `io::Error` is its message. -/
inductive ReadError where
  | unexpected
  | endOfInput
  | io (msg : String)
deriving DecidableEq, Repr

namespace ReadError

/-- read.rs:28-36 `PartialEq`: an `Io` error differs from everything, itself included. -/
def eqv : ReadError → ReadError → Bool
  | unexpected, unexpected => true
  | endOfInput, endOfInput => true
  | _, _ => false

/-- read.rs:128-133 `add`. -/
def add (self err : ReadError) : ReadError :=
  match self, err with
  | endOfInput, _ => endOfInput
  | _, err => err

/-- read.rs:38-155 `StreamError` and `ParseError` for `read::Error`.  `position` is the trait's
default, `unimplemented!()` (error.rs:470-473): modelled as the default position. -/
def ops (T R P : Type) (dflt : P) : ErrOps T R P where
  SErr := ReadError
  Err := ReadError
  unexpected := fun _ => unexpected
  expected := fun _ => unexpected
  message := fun _ => unexpected
  endOfInput := endOfInput
  isEoiS := fun e => e.eqv endOfInput
  empty := fun _ => unexpected
  fromError := fun _ e => e
  position := fun _ => dflt
  setPosition := fun e _ => e
  merge := fun _ other => other
  add := add
  setExpected := fun t info f => { f t with error := info }
  clearExpected := id
  isEoi := fun e => e.eqv endOfInput

/-- read.rs:97-106 `into_other`; `other(err)` is `message_format(err)` (error.rs:428-433) unless
overridden (easy.rs:279-284): a parameter. -/
def intoOtherS {T R P : Type} (E : ErrOps T R P) (other : String → E.SErr) : ReadError → E.SErr
  | unexpected => E.unexpected (.static "parse")
  | endOfInput => E.endOfInput
  | io msg => other msg

end ReadError

/-! ## `easy` errors -/

namespace Easy

/-- easy.rs:149-161 `PartialEq for Info`: an owned and a static string may be equal.
(`Info::Owned` is `Info.format`, easy.rs:105-117.) -/
def Info.eqv {T R : Type} [DecidableEq T] [DecidableEq R] : Info T R → Info T R → Bool
  | .token l, .token r => l = r
  | .range l, .range r => l = r
  | .format l, .format r => l = r
  | .static l, .format r => l = r
  | .format l, .static r => l = r
  | .static l, .static r => l = r
  | _, _ => false

/-- easy.rs:197-207 `enum Error`; a boxed `dyn Error` is its message. -/
inductive Error (T R : Type) where
  | unexpected (i : Info T R)
  | expected (i : Info T R)
  | message (i : Info T R)
  | other (s : String)
deriving DecidableEq, Repr

namespace Error

variable {T R : Type} [DecidableEq T] [DecidableEq R]

/-- easy.rs:531-540 `PartialEq for Error`: `Other` differs from everything, itself included. -/
def eqv : Error T R → Error T R → Bool
  | unexpected l, unexpected r => Info.eqv l r
  | expected l, expected r => Info.eqv l r
  | message l, message r => Info.eqv l r
  | _, _ => false

/-- easy.rs:553-555 `end_of_input` (= the trait's default, error.rs:435-437). -/
def endOfInput : Error T R := unexpected (.static "end of input")

/-- easy.rs:468-469, 477-480: is this an `Expected` error? -/
def isExpected : Error T R → Bool
  | expected _ => true
  | _ => false

/-- easy.rs:287-312 (= 385-412) `into_other`; note that a `Message` becomes an `Expected`. -/
def intoOtherS {P : Type} (E : ErrOps T R P) : Error T R → E.SErr
  | unexpected i => E.unexpected i
  | expected i => E.expected i
  | message i => E.expected i
  | other s => E.message (.format s)

/-- easy.rs:209-364 `StreamError` and `ParseError` for a single easy `Error`. -/
def ops (P : Type) (dflt : P) : ErrOps T R P where
  SErr := Error T R
  Err := Error T R
  unexpected := unexpected
  expected := expected
  message := message
  endOfInput := endOfInput
  isEoiS := fun e => e.eqv endOfInput
  empty := fun _ => message (.static "")
  fromError := fun _ e => e
  position := fun _ => dflt
  setPosition := fun e _ => e
  merge := fun _ other => other
  add := fun _ err => err
  setExpected := fun t info f => { f t with error := info }
  clearExpected := id
  isEoi := fun e => e.eqv endOfInput

end Error

/-- easy.rs:636-645 `struct Errors`. -/
structure Errors (T R P : Type) where
  position : P
  errors : List (Error T R)
deriving DecidableEq, Repr

namespace Errors

variable {T R P : Type} [DecidableEq T] [DecidableEq R]

/-- easy.rs:675-684 `add_error`: duplicates are not added. -/
def addError (self : Errors T R P) (error : Error T R) : Errors T R P :=
  if self.errors.all fun err => !err.eqv error then { self with errors := self.errors ++ [error] }
  else self

/-- easy.rs:699-718 `merge`: keep the errors at the later position; at equal positions, all.
`cmp` is `Ord::cmp` of the positions. -/
def merge (cmp : P → P → Ordering) (self other : Errors T R P) : Errors T R P :=
  match cmp self.position other.position with
  | .lt => other
  | .gt => self
  | .eq => other.errors.foldl addError self

/-- easy.rs:453-474 `set_expected`: drop the `Expected` errors that `f` added, then add `info`. -/
def setExpected (self : Tracked (Errors T R P)) (info : Error T R)
    (f : Tracked (Errors T R P) → Tracked (Errors T R P)) : Tracked (Errors T R P) :=
  let start := self.error.errors.length
  let t := f self
  let kept := t.error.errors.take start ++ (t.error.errors.drop start).filter (!·.isExpected)
  { t with error := addError { t.error with errors := kept } info }

/-- easy.rs:687-694 the public method `set_expected`. -/
def replaceExpected (self : Errors T R P) (info : Info T R) : Errors T R P :=
  { self with errors := self.errors.filter (!·.isExpected) ++ [.expected info] }

/-- easy.rs:476-481 `clear_expected`. -/
def clearExpected (self : Errors T R P) : Errors T R P :=
  { self with errors := self.errors.filter (!·.isExpected) }

/-- easy.rs:483-487 `is_unexpected_end_of_input`. -/
def isEoi (self : Errors T R P) : Bool := self.errors.any fun e => e.eqv Error.endOfInput

/-- easy.rs:415-499 `ParseError for Errors`. -/
def ops (T R P : Type) [DecidableEq T] [DecidableEq R] (cmp : P → P → Ordering) : ErrOps T R P where
  SErr := Error T R
  Err := Errors T R P
  unexpected := .unexpected
  expected := .expected
  message := .message
  endOfInput := .endOfInput
  isEoiS := fun e => e.eqv .endOfInput
  empty := fun p => ⟨p, []⟩
  fromError := fun p e => ⟨p, [e]⟩
  position := fun e => e.position
  setPosition := fun e p => { e with position := p }
  merge := merge cmp
  add := addError
  setExpected := setExpected
  clearExpected := clearExpected
  isEoi := isEoi

/-- easy.rs:490-498 `ParseError::into_other`: only the last error survives. -/
def intoOther (E : ErrOps T R P) (self : Errors T R P) : E.Err :=
  match self.errors.getLast? with
  | some err => E.fromError self.position (err.intoOtherS E)
  | none => E.empty self.position

/-- easy.rs:366-382 `ParseErrorInto::into_other_error` (identity conversions of items, ranges;
`conv` converts the position). -/
def intoOtherError {Q : Type} (E : ErrOps T R Q) (conv : P → Q) (self : Errors T R P) : E.Err :=
  self.errors.foldl (fun e x => E.add e (x.intoOtherS E)) (E.empty (conv self.position))

/-- easy.rs:721-726 `map_position`. -/
def mapPosition {Q : Type} (self : Errors T R P) (f : P → Q) : Errors T R Q :=
  ⟨f self.position, self.errors⟩

/-- easy.rs:120-146, 502-528 token and range mapping of an `Info`. -/
def mapInfo {U S : Type} (f : T → U) (g : R → S) : Info T R → Info U S
  | .token t => .token (f t)
  | .range r => .range (g r)
  | .static s => .static s
  | .format s => .format s

/-- easy.rs:502-528 `Error::map_token`/`map_range`. -/
def mapError {U S : Type} (f : T → U) (g : R → S) : Error T R → Error U S
  | .unexpected i => .unexpected (mapInfo f g i)
  | .expected i => .expected (mapInfo f g i)
  | .message i => .message (mapInfo f g i)
  | .other s => .other s

/-- easy.rs:729-740 `map_token`. -/
def mapToken {U : Type} (self : Errors T R P) (f : T → U) : Errors U R P :=
  ⟨self.position, self.errors.map (mapError f id)⟩

/-- easy.rs:755-766 `map_range`. -/
def mapRange {S : Type} (self : Errors T R P) (f : R → S) : Errors T S P :=
  ⟨self.position, self.errors.map (mapError id f)⟩

end Errors

end Easy

end Verif
