import Verif.Model.Errors

/-!
# When two easy errors say the same
-/

namespace Verif.Easy

variable {T R : Type}

/-- What an `Info` says, whoever owns the text. -/
inductive Content (T R : Type) where
  | token (t : T)
  | range (r : R)
  | text (s : String)
deriving DecidableEq

def contentOf : Info T R → Content T R
  | .token t => .token t
  | .range r => .range r
  | .static s => .text s
  | .format s => .text s

/-- Two errors are duplicates: same kind, same content.  Errors wrapping foreign errors (`Other`) are
never duplicates of anything. -/
inductive Same : Error T R → Error T R → Prop where
  | unexpected {i j} : contentOf i = contentOf j → Same (.unexpected i) (.unexpected j)
  | expected {i j} : contentOf i = contentOf j → Same (.expected i) (.expected j)
  | message {i j} : contentOf i = contentOf j → Same (.message i) (.message j)

/-- No error of the list repeats an earlier one. -/
def NoDuplicates (es : List (Error T R)) : Prop := es.Pairwise fun a b => ¬ Same a b

/-- The error is in the list, or the list says the same already. -/
def Listed (es : List (Error T R)) (e : Error T R) : Prop := e ∈ es ∨ ∃ x ∈ es, Same x e

end Verif.Easy
