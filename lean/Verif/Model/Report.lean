import Verif.Model.Errors

/-!
# How `easy` errors are shown, and pointer positions turned into offsets

A formatter is the text written so far; writing never fails (a simplification: the real sink may return an error,
which ends the formatting).  `dt`, `dr`, `dp` are the `Display` implementations of tokens, ranges and positions.
-/

namespace Verif.Easy

variable {T R P : Type}

/-- easy.rs:162-171 `Display for Info`. -/
def Info.display (dt : T → String) (dr : R → String) : Info T R → String
  | .token c => "`" ++ dt c ++ "`"
  | .range c => "`" ++ dr c ++ "`"
  | .format s => s
  | .static s => s

/-- easy.rs:792-801 `Display for Error`. -/
def Error.display (dt : T → String) (dr : R → String) : Error T R → String
  | .unexpected c => "Unexpected " ++ Info.display dt dr c
  | .expected s => "Expected " ++ Info.display dt dr s
  | .message msg => Info.display dt dr msg
  | .other err => err

/-- easy.rs:587-590. -/
def Error.isUnexpected : Error T R → Bool
  | .unexpected _ => true
  | _ => false

/-- easy.rs:598-601. -/
def Error.expectation : Error T R → Option (Info T R)
  | .expected err => some err
  | _ => none

/-- easy.rs:617-620. -/
def Error.isMessage : Error T R → Bool
  | .message _ => true
  | .other _ => true
  | _ => false

/-- easy.rs:591-593 (= 621-623) `for error in … { writeln!(f, "{}", error)?; }`. -/
def writeAll (dt : T → String) (dr : R → String) (f : String) (errors : List (Error T R)) : String :=
  errors.foldl (fun f error => f ++ error.display dt dr ++ "\n") f

/-- easy.rs:604-612 `for (i, message) in iter().enumerate()`; `count` is `expected_count`. -/
def writeExpected (dt : T → String) (dr : R → String) (count : Nat) : String → Nat → List (Info T R) → String
  | f, _, [] => f
  | f, i, message :: rest =>
    let s := if i = 0 then "Expected" else if i < count - 1 then "," else " or"
    writeExpected dt dr count (f ++ s ++ " " ++ Info.display dt dr message) (i + 1) rest

/-- easy.rs:579-625 `fmt_errors`. -/
def fmtErrors (dt : T → String) (dr : R → String) (errors : List (Error T R)) (f : String) : String :=
  let f := writeAll dt dr f (errors.filter Error.isUnexpected)
  let iter := errors.filterMap Error.expectation
  let count := iter.length
  let f := writeExpected dt dr count f 0 iter
  let f := if count ≠ 0 then f ++ "\n" else f
  writeAll dt dr f (errors.filter Error.isMessage)

/-- easy.rs:780-790 `Display for Errors`. -/
def Errors.display (dt : T → String) (dr : R → String) (dp : P → String) (self : Errors T R P) : String :=
  fmtErrors dt dr self.errors ("" ++ "Parse error at " ++ dp self.position ++ "\n")

end Verif.Easy

namespace Verif

/-- stream/mod.rs:1292-1295 `PointerOffset::translate_position`; `none` is the overflow of the subtraction
(a panic in debug builds). -/
def translatePosition (self initial : Nat) : Option Nat :=
  if initial ≤ self then some (self - initial) else none

end Verif
