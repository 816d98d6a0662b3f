import Verif.Spec.Behaved

/-!
# Reference semantics of the range parsers

`toks r` are the tokens a range `r` stands for.
-/

namespace Verif

/-- `ts` is the longest prefix of `i` all of whose tokens satisfy `f`, and `j` what follows it. -/
def Strm.LongestPrefix (S : Strm) (f : S.Tok → Bool) (i : S.Input) (ts : List S.Tok) (j : S.Input) : Prop :=
  S.Reads i ts j ∧ (∀ t ∈ ts, f t = true) ∧
    (S.AtEnd j ∨ ∃ t k, S.uncons j = (.ok t, k) ∧ f t = false)

/-- The longest prefix is the result.  On a partial input that ends with it, more is asked for. -/
def Strm.IsTakeWhile (S : Strm) (toks : S.Rng → List S.Tok) (f : S.Tok → Bool) (i : S.Input)
    (a : Answer S.Input Unit S.Rng) : Prop :=
  ∃ r j, S.LongestPrefix f i (toks r) j ∧
    (S.isPartial i = true ∧ S.AtEnd j ∧ a = .hard () ∨
      ¬(S.isPartial i = true ∧ S.AtEnd j) ∧ a = .ok (!(toks r).isEmpty) r j)

/-- As above, but it fails softly where the prefix is empty. -/
def Strm.IsTakeWhile1 (S : Strm) (toks : S.Rng → List S.Tok) (f : S.Tok → Bool) (i : S.Input)
    (a : Answer S.Input Unit S.Rng) : Prop :=
  ∃ ts j, S.LongestPrefix f i ts j ∧
    (S.isPartial i = true ∧ S.AtEnd j ∧ a = .hard () ∨
      ¬(S.isPartial i = true ∧ S.AtEnd j) ∧
        (ts = [] ∧ a = .soft ∨ ts ≠ [] ∧ ∃ r, toks r = ts ∧ a = .ok true r j))

/-- `needle` comes next. -/
def Strm.Occurs (S : Strm) (needle : List S.Tok) (i : S.Input) : Prop := ∃ j, S.Reads i needle j

/-- The shortest prefix that is followed by `needle`; a failure if there is none (on a partial input: a
request for more). -/
def Strm.IsTakeUntilRange (S : Strm) (toks : S.Rng → List S.Tok) (needle : List S.Tok) (i : S.Input)
    (a : Answer S.Input Unit S.Rng) : Prop :=
  (∃ r k, S.Reads i (toks r) k ∧ S.Occurs needle k ∧
    (∀ ts l, S.Reads i ts l → S.Occurs needle l → (toks r).length ≤ ts.length) ∧
    a = .ok (!(toks r).isEmpty) r k) ∨
  ((∀ ts l, S.Reads i ts l → ¬S.Occurs needle l) ∧ a = if S.isPartial i then .hard () else .soft)

/-- `range(r)`: what `r` stands for comes next, or the failure is not committed; on a partial input more is asked for
unless as much as `r` is there (`w` is the size of a token). -/
def Strm.IsRange (S : Strm) (toks : S.Rng → List S.Tok) (w : S.Tok → Nat) (r : S.Rng) (i : S.Input)
    (a : Answer S.Input Unit S.Rng) : Prop :=
  (∃ k, S.Reads i (toks r) k ∧ a = .ok true r k) ∨
  (¬S.Occurs (toks r) i ∧ (S.isPartial i = false ∨ ∃ ts k, S.Reads i ts k ∧ weight w ts = weight w (toks r)) ∧ a = .soft) ∨
  (S.isPartial i = true ∧ (∀ ts k, S.Reads i ts k → weight w ts ≠ weight w (toks r)) ∧ a = .hard ())

/-- `take(n)`: the prefix of size `n`, if there is one. -/
def Strm.IsTake (S : Strm) (toks : S.Rng → List S.Tok) (w : S.Tok → Nat) (n : Nat) (i : S.Input)
    (a : Answer S.Input Unit S.Rng) : Prop :=
  (∃ r k, S.Reads i (toks r) k ∧ weight w (toks r) = n ∧ a = .ok (decide (n ≠ 0)) r k) ∨
  ((∀ ts k, S.Reads i ts k → weight w ts ≠ n) ∧ a = if S.isPartial i then .hard () else .soft)

/-- Positions tell places of the same input apart. -/
def Strm.Positioned (S : Strm) : Prop :=
  ∀ i ts j, S.Reads i ts j → S.position i = S.position j → ts = []

end Verif
