import Verif.Model.Examples

/-!
# What the example programs are to read
-/

namespace Verif

namespace Number

/-- `0` to `9`. -/
def IsDigit (b : UInt8) : Prop := 48 ≤ b.toNat ∧ b.toNat ≤ 57

/-- The longest number at the beginning of a text: digits, possibly followed by a dot and (possibly) more digits.  `o` is what comes
after it (`none`: the end of the text). -/
inductive Numeral : List UInt8 → Option UInt8 → Prop where
  | whole {ds : List UInt8} {o : Option UInt8} : ds ≠ [] → (∀ d ∈ ds, IsDigit d) → (∀ b, o = some b → ¬ IsDigit b ∧ b ≠ 46) →
      Numeral ds o
  | fraction {ds es : List UInt8} {o : Option UInt8} : ds ≠ [] → (∀ d ∈ ds, IsDigit d) → (∀ d ∈ es, IsDigit d) →
      (∀ b, o = some b → ¬ IsDigit b) → Numeral (ds ++ 46 :: es) o

end Number

namespace Readme

/-- A word: one letter or more. -/
def IsWord (letter : Char → Bool) (w : List Char) : Prop := w ≠ [] ∧ ∀ c ∈ w, letter c = true

/-- Words with one white space character between each two of them. -/
inductive Sentence (letter white : Char → Bool) : List Char → List (List Char) → Prop where
  | one {w : List Char} : IsWord letter w → Sentence letter white w [w]
  | more {w u : List Char} {c : Char} {ws : List (List Char)} : IsWord letter w → white c = true → letter c = false →
      Sentence letter white u ws → Sentence letter white (w ++ c :: u) (w :: ws)

end Readme

end Verif
