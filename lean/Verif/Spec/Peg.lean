import Verif.Spec.Answer
import Verif.Model.Combinator
import Verif.Model.Sequence
import Verif.Model.Choice
import Verif.Model.Repeat
import Verif.Model.Token

/-!
# Parsing expression grammars

Parsing expressions in the sense of Ford (POPL 2004), independent of parsers, and the parser one writes down for them with
`attempt` wherever there is a choice.
-/

namespace Verif

/-- Parsing expressions: nothing, one token out of a class, sequence, ordered choice, greedy repetition, the two predicates
"and" and "not", and nonterminals. -/
inductive Peg (N T : Type) where
  | empty
  | one (f : T → Bool)
  | seq (a b : Peg N T)
  | alt (a b : Peg N T)
  | star (a : Peg N T)
  | look (a : Peg N T)
  | not (a : Peg N T)
  | ref (n : N)

namespace Peg

variable {N T : Type}

/-- `Matches rules e xs r`: on the text `xs` the expression succeeds and leaves `ys` (`r = some ys`), or fails
(`r = none`).  Ford's rules. -/
inductive Matches (rules : N → Peg N T) : Peg N T → List T → Option (List T) → Prop where
  | empty {xs : List T} : Matches rules empty xs (some xs)
  | one {f : T → Bool} {t : T} {xs : List T} : f t = true → Matches rules (one f) (t :: xs) (some xs)
  | other {f : T → Bool} {t : T} {xs : List T} : f t = false → Matches rules (one f) (t :: xs) none
  | ended {f : T → Bool} : Matches rules (one f) [] none
  | seq {a b : Peg N T} {xs ys : List T} {r : Option (List T)} : Matches rules a xs (some ys) → Matches rules b ys r →
      Matches rules (seq a b) xs r
  | seqFail {a b : Peg N T} {xs : List T} : Matches rules a xs none → Matches rules (seq a b) xs none
  | left {a b : Peg N T} {xs ys : List T} : Matches rules a xs (some ys) → Matches rules (alt a b) xs (some ys)
  | right {a b : Peg N T} {xs : List T} {r : Option (List T)} : Matches rules a xs none → Matches rules b xs r →
      Matches rules (alt a b) xs r
  | more {a : Peg N T} {xs ys : List T} {r : Option (List T)} : Matches rules a xs (some ys) → Matches rules (star a) ys r →
      Matches rules (star a) xs r
  | stop {a : Peg N T} {xs : List T} : Matches rules a xs none → Matches rules (star a) xs (some xs)
  | look {a : Peg N T} {xs ys : List T} : Matches rules a xs (some ys) → Matches rules (look a) xs (some xs)
  | lookFail {a : Peg N T} {xs : List T} : Matches rules a xs none → Matches rules (look a) xs none
  | not {a : Peg N T} {xs : List T} : Matches rules a xs none → Matches rules (not a) xs (some xs)
  | notFail {a : Peg N T} {xs ys : List T} : Matches rules a xs (some ys) → Matches rules (not a) xs none
  | ref {n : N} {xs : List T} {r : Option (List T)} : Matches rules (rules n) xs r → Matches rules (ref n) xs r

/-- From `lo` to `hi` times, as often as possible. -/
def times (e : Peg N T) : (lo hi : Nat) → Peg N T
  | _, 0 => .empty
  | 0, hi + 1 => .alt (.seq e (e.times 0 hi)) .empty
  | lo + 1, hi + 1 => .seq e (e.times lo hi)

/-- It can succeed without consuming anything. -/
def Null (rules : N → Peg N T) (e : Peg N T) : Prop := ∃ xs, Matches rules e xs (some xs)

/-- What is repeated consumes something. -/
def Steady (rules : N → Peg N T) : Peg N T → Prop
  | empty => True
  | one _ => True
  | seq a b => Steady rules a ∧ Steady rules b
  | alt a b => Steady rules a ∧ Steady rules b
  | star a => Steady rules a ∧ ¬ Null rules a
  | look a => Steady rules a
  | not a => Steady rules a
  | ref _ => True

/-- No left recursion: the nonterminals met before a token has been consumed have a rank below `k`. -/
def LeftBelow (rules : N → Peg N T) (rank : N → Nat) (k : Nat) : Peg N T → Prop
  | empty => True
  | one _ => True
  | seq a b => LeftBelow rules rank k a ∧ (Null rules a → LeftBelow rules rank k b)
  | alt a b => LeftBelow rules rank k a ∧ LeftBelow rules rank k b
  | star a => LeftBelow rules rank k a
  | look a => LeftBelow rules rank k a
  | not a => LeftBelow rules rank k a
  | ref n => rank n < k

/-- Ford's "well-formed" grammars: no left recursion, nothing empty repeated. -/
structure WellFormed (rules : N → Peg N T) (rank : N → Nat) (R : Nat) : Prop where
  steady : ∀ n, (rules n).Steady rules
  left : ∀ n, (rules n).LeftBelow rules rank (rank n)
  rank : ∀ n, rank n < R

end Peg

/-! ## Its parser -/

variable {N : Type}

/-- The parser for an expression, each part of which is a `parser! { .. }` of its own; with `attempt` around the first of two
alternatives and around what is repeated. -/
def Peg.parser (S : Strm) (call : N → Parser S Unit Unit) : Peg N S.Tok → Parser S Unit Unit
  | .empty => value S ()
  | .one f => ignore (satisfy S f)
  | .seq a b => parserMacroUnit («with» (a.parser S call) (b.parser S call))
  | .alt a b => parserMacroUnit (or (attempt (a.parser S call)) (b.parser S call))
  | .star a => parserMacroUnit (skipMany (attempt (a.parser S call)))
  | .look a => parserMacroUnit (lookAhead (a.parser S call))
  | .not a => parserMacroUnit (notFollowedBy (a.parser S call))
  | .ref n => call n

/-- The parsers of the nonterminals, whose calls nest `d` deep (compare `recur`). -/
def Peg.parsers (S : Strm) (rules : N → Peg N S.Tok) : Nat → N → Parser S Unit Unit
  | 0, _ => recur (fun q => q) () 0
  | d + 1, n => parserMacroUnit ((rules n).parser S (Peg.parsers S rules d))

/-! ## What it means for a parser to follow it -/

variable {S : Strm} {σ α : Type}

/-- The tokens that are left in `i`. -/
def Strm.Left (S : Strm) (i : S.Input) (xs : List S.Tok) : Prop := ∃ k, S.Reads i xs k ∧ S.AtEnd k

/-- On complete input the parser succeeds where the expression does and leaves what it leaves, and fails (with commitment or
without) where it fails; unless the call never comes back. -/
def Backtracks (rules : N → Peg N S.Tok) (e : Peg N S.Tok) (m : Sem S.Input Unit α) : Prop :=
  ∀ i xs, S.isPartial i = false → S.Left i xs →
    match m i with
    | .ok _ _ j => ∃ u ys, S.Reads i u j ∧ S.Left j ys ∧ e.Matches rules xs (some ys)
    | .soft => e.Matches rules xs none
    | .hard _ => e.Matches rules xs none
    | .abort _ => True

/-- On complete input the parser fails without commitment only, as `attempt` does. -/
def Softly (p : Parser S σ α) : Prop := ∀ i, S.isPartial i = false → ∀ e, p.shape i ≠ .hard e

/-- The members of a tuple are parsers for the members of a sequence. -/
inductive SeqBacktracks (rules : N → Peg N S.Tok) : {σ α : Type} → Peg N S.Tok → Seq S σ α → Prop where
  | nil : SeqBacktracks rules .empty .nil
  | cons {σ τ α β : Type} {a b : Peg N S.Tok} {p : Parser S σ α} {ps : Seq S τ β} :
      Backtracks rules a p.shape → SeqBacktracks rules b ps → SeqBacktracks rules (a.seq b) (.cons p ps)

/-- The alternatives of a choice are parsers for the alternatives of an expression; all but the last fail softly. -/
inductive AltsBacktrack (rules : N → Peg N S.Tok) : {σ : Type} → Peg N S.Tok → Alts S α σ → Prop where
  | last {σ : Type} {a : Peg N S.Tok} {p : Parser S σ α} : Backtracks rules a p.shape → AltsBacktrack rules a (.last p)
  | cons {σ τ : Type} {a b : Peg N S.Tok} {p : Parser S σ α} {ps : Alts S α τ} : Backtracks rules a p.shape → Softly p →
      AltsBacktrack rules b ps → AltsBacktrack rules (a.alt b) (.cons p ps)

end Verif
