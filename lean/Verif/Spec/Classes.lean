import Verif.Model.Classes
import Verif.Spec.Answer
import Verif.Spec.Laws

/-!
# What the parsers of one token should do, and which tokens they are for
-/

namespace Verif

/-- What a parser of one token should answer on `i`, if `f` says which tokens it is for and what it makes of them: it
reads that token, or fails without commitment; on a partial input without a token it asks for more. -/
def Strm.IsOne (S : Strm) {α : Type} (f : S.Tok → Option α) (i : S.Input) (a : Answer S.Input Unit α) : Prop :=
  (∃ t j, S.uncons i = (.ok t, j) ∧ a = match f t with | some v => .ok true v j | none => .soft) ∨
  (S.AtEnd i ∧ a = if S.isPartial i then .hard () else .soft)

/-- What a parser that skips all tokens with `f` should answer: it skips the longest run of them, which may be empty; on
a partial input that ends within the run it asks for more. -/
def Strm.IsSkip (S : Strm) (f : S.Tok → Bool) (i : S.Input) (a : Answer S.Input Unit Unit) : Prop :=
  ∃ ts j, S.Reads i ts j ∧ (∀ t ∈ ts, f t = true) ∧
    ((∃ t k, S.uncons j = (.ok t, k) ∧ f t = false ∧ a = .ok (!ts.isEmpty) () j) ∨
     (S.AtEnd j ∧ a = if S.isPartial i then .hard () else .ok (!ts.isEmpty) () j))

/-- The ASCII characters of a class. -/
def TokenClass.ascii : TokenClass → List Char
  | digit => "0123456789".toList
  | space => "\t\n\x0c\r ".toList
  | newline => ['\n']
  | tab => ['\t']
  | upper => "ABCDEFGHIJKLMNOPQRSTUVWXYZ".toList
  | lower => "abcdefghijklmnopqrstuvwxyz".toList
  | alphaNum => "0123456789ABCDEFGHIJKLMNOPQRSTUVWXYZabcdefghijklmnopqrstuvwxyz".toList
  | letter => "ABCDEFGHIJKLMNOPQRSTUVWXYZabcdefghijklmnopqrstuvwxyz".toList
  | octDigit => "01234567".toList
  | hexDigit => "0123456789ABCDEFabcdef".toList

/-- The classes that have no members beyond ASCII. -/
def TokenClass.asciiOnly : TokenClass → Bool
  | digit | newline | tab | octDigit | hexDigit => true
  | _ => false

/-- The value of a digit. -/
def digits : List (Char × Nat) :=
  [('0', 0), ('1', 1), ('2', 2), ('3', 3), ('4', 4), ('5', 5), ('6', 6), ('7', 7), ('8', 8), ('9', 9),
   ('a', 10), ('b', 11), ('c', 12), ('d', 13), ('e', 14), ('f', 15),
   ('A', 10), ('B', 11), ('C', 12), ('D', 13), ('E', 14), ('F', 15)]

end Verif
