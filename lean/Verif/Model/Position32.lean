import Verif.Model.Position

/-!
# Source positions as `i32` (position.rs:249-255, 283-291)

`SourcePosition` of the model has unbounded lines and columns; here they are the program's `i32`.
-/

namespace Verif

namespace SourcePosition

/-- The largest `i32`. -/
def maxI32 : Int := 2147483647

/-- `+= 1` on an `i32` in a build with overflow checks: `none` is the panic. -/
def succChecked (n : Int) : Option Int := if n = maxI32 then none else some (n + 1)

/-- `+= 1` on an `i32` in a release build. -/
def succWrapping (n : Int) : Int := if n = maxI32 then -2147483648 else n + 1

/-- position.rs:284-291 (= 313-320) `update` in a build with overflow checks. -/
def updateChecked {T : Type} (isNl : T → Bool) (p : SourcePosition) (t : T) : Option SourcePosition :=
  match succChecked p.column with
  | none => none
  | some c => if isNl t then (succChecked p.line).map fun l => ⟨l, 1⟩ else some ⟨p.line, c⟩

/-- position.rs:284-291 (= 313-320) `update` in a release build. -/
def updateWrapping {T : Type} (isNl : T → Bool) (p : SourcePosition) (t : T) : SourcePosition :=
  let p := { p with column := succWrapping p.column }
  if isNl t then { p with column := 1, line := succWrapping p.line } else p

/-- Over a text. -/
def readChecked {T : Type} (isNl : T → Bool) : SourcePosition → List T → Option SourcePosition
  | p, [] => some p
  | p, t :: ts =>
    match updateChecked isNl p t with
    | none => none
    | some q => readChecked isNl q ts

/-- Over a text. -/
def readWrapping {T : Type} (isNl : T → Bool) (p : SourcePosition) (ts : List T) : SourcePosition :=
  ts.foldl (updateWrapping isNl) p

end SourcePosition

end Verif
