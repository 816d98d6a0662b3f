import Verif.Model.Errors

/-!
# What the text of an error should say

First, each on its own line, what was found and not expected; then one line with all that was expected, as an English
enumeration; then each message on its own line.
-/

namespace Verif.Easy

/-- Each text on a line of its own. -/
def lines (xs : List String) : String := String.join (xs.map (· ++ "\n"))

/-- `a`; `a or b`; `a, b or c`; … -/
def enumeration : List String → String
  | [] => ""
  | [a] => a
  | [a, b] => a ++ " or " ++ b
  | a :: b :: c :: rest => a ++ ", " ++ enumeration (b :: c :: rest)

/-- The line listing what was expected: absent when nothing was. -/
def expectedLine : List String → String
  | [] => ""
  | a :: rest => "Expected " ++ enumeration (a :: rest) ++ "\n"

/-- The texts of the three parts of a report. -/
structure Parts where
  found : List String
  expected : List String
  messages : List String

def Parts.text (p : Parts) : String := lines p.found ++ expectedLine p.expected ++ lines p.messages

/-- How an item of an error is quoted: tokens and ranges in back quotes, texts as they are. -/
def quoted {T R : Type} (dt : T → String) (dr : R → String) : Info T R → String
  | .token t => "`" ++ dt t ++ "`"
  | .range r => "`" ++ dr r ++ "`"
  | .static s => s
  | .format s => s

/-- What a list of errors has to say, in the order in which it was recorded. -/
def parts {T R : Type} (dt : T → String) (dr : R → String) : List (Error T R) → Parts
  | [] => ⟨[], [], []⟩
  | e :: es =>
    let p := parts dt dr es
    match e with
    | .unexpected i => { p with found := ("Unexpected " ++ quoted dt dr i) :: p.found }
    | .expected i => { p with expected := quoted dt dr i :: p.expected }
    | .message i => { p with messages := quoted dt dr i :: p.messages }
    | .other s => { p with messages := s :: p.messages }

end Verif.Easy
