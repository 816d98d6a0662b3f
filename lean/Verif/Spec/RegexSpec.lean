import Verif.Model.Byte
import Verif.Spec.Behaved

/-!
# What the regex parsers may assume of the engine

Whatever the engine finds, it reports where the match ends: the size of the text before and in the match.
-/

namespace Verif

variable {S : Strm}

/-- `e` is the size of a beginning of the text that ends with the match `m`. -/
def EndsAt (toks : S.Rng → List S.Tok) (w : S.Tok → Nat) (text : S.Rng) (e : Nat) (m : S.Rng) : Prop :=
  ∃ pre post, toks text = pre ++ toks m ++ post ∧ e = weight w (pre ++ toks m)

/-- The matches (and the whole match, group 0, of the captures) are parts of the text that end where the
engine says. -/
structure Regex.Sound (re : Regex S.Rng) (toks : S.Rng → List S.Tok) (w : S.Tok → Nat) : Prop where
  find : ∀ text e m, (e, m) ∈ re.findIter text → EndsAt toks w text e m
  captures : ∀ text e gs, (e, gs) ∈ re.captures text → ∃ m, gs.head? = some m ∧ EndsAt toks w text e m

/-- The input is consumed up to `j`, where a match `m` ends. -/
def Strm.UpTo (S : Strm) (toks : S.Rng → List S.Tok) (w : S.Tok → Nat) (i : S.Input) (e : Nat) (m : S.Rng)
    (j : S.Input) : Prop :=
  ∃ pre, S.Reads i (pre ++ toks m) j ∧ weight w (pre ++ toks m) = e

end Verif
