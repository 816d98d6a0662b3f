import Verif.Spec.Answer
import Verif.Model.Combinator
import Verif.Model.Sequence
import Verif.Model.Choice
import Verif.Model.Repeat
import Verif.Model.Token

/-!
# Context-free grammars

The textbook notions, independent of parsers: what a grammar derives, the tokens with which a derived text can begin, and
when one token of look-ahead suffices (LL(1)).  At the end: the parser one writes down for a grammar.
-/

namespace Verif

/-- The right-hand side of a rule: nothing, one token out of a class, one after the other, one or the other, any number of
times, what another nonterminal stands for. -/
inductive Gram (N T : Type) where
  | empty
  | one (f : T → Bool)
  | seq (a b : Gram N T)
  | alt (a b : Gram N T)
  | star (a : Gram N T)
  | ref (n : N)

namespace Gram

variable {N T : Type}

/-- Possibly nothing. -/
abbrev opt (a : Gram N T) : Gram N T := alt a empty

/-- At least once. -/
abbrev plus (a : Gram N T) : Gram N T := seq a (star a)

/-- `a s a s ... a`. -/
abbrev sepBy1 (a s : Gram N T) : Gram N T := seq a (star (seq s a))

/-- `a s a s ... a`, possibly with an `s` at the end. -/
abbrev sepEndBy1 (a s : Gram N T) : Gram N T := seq a (seq (star (seq s a)) (opt s))

/-- From `lo` to `hi` times. -/
def times (a : Gram N T) : (lo hi : Nat) → Gram N T
  | _, 0 => empty
  | 0, hi + 1 => opt (seq a (times a 0 hi))
  | lo + 1, hi + 1 => seq a (times a lo hi)

/-- Which texts a right-hand side derives. -/
inductive Derives (rules : N → Gram N T) : Gram N T → List T → Prop where
  | empty : Derives rules empty []
  | one {f : T → Bool} {t : T} : f t = true → Derives rules (one f) [t]
  | seq {a b : Gram N T} {u v : List T} : Derives rules a u → Derives rules b v → Derives rules (seq a b) (u ++ v)
  | left {a b : Gram N T} {u : List T} : Derives rules a u → Derives rules (alt a b) u
  | right {a b : Gram N T} {u : List T} : Derives rules b u → Derives rules (alt a b) u
  | stop {a : Gram N T} : Derives rules (star a) []
  | more {a : Gram N T} {u v : List T} : Derives rules a u → Derives rules (star a) v → Derives rules (star a) (u ++ v)
  | ref {n : N} {u : List T} : Derives rules (rules n) u → Derives rules (ref n) u

/-- It derives the empty text. -/
def Null (rules : N → Gram N T) (a : Gram N T) : Prop := Derives rules a []

/-- The FIRST sets. -/
inductive First (rules : N → Gram N T) : Gram N T → T → Prop where
  | one {f : T → Bool} {t : T} : f t = true → First rules (one f) t
  | seq {a b : Gram N T} {t : T} : First rules a t → First rules (seq a b) t
  | next {a b : Gram N T} {t : T} : Null rules a → First rules b t → First rules (seq a b) t
  | left {a b : Gram N T} {t : T} : First rules a t → First rules (alt a b) t
  | right {a b : Gram N T} {t : T} : First rules b t → First rules (alt a b) t
  | star {a : Gram N T} {t : T} : First rules a t → First rules (star a) t
  | ref {n : N} {t : T} : First rules (rules n) t → First rules (ref n) t

/-- What can come after `a` in `seq a b`, when `F` can come after the whole. -/
def Then (rules : N → Gram N T) (b : Gram N T) (F : T → Prop) (t : T) : Prop :=
  First rules b t ∨ (Null rules b ∧ F t)

/-- No token begins both. -/
def Apart (p q : T → Prop) : Prop := ∀ t, p t → ¬ q t

/-- One token of look-ahead suffices for `a`, when a token from `F` or the end of the text comes after it; `follow n` are
the tokens that can come after the nonterminal `n`.  Of two alternatives only the last may be empty. -/
def LL1 (rules : N → Gram N T) (follow : N → T → Prop) : Gram N T → (T → Prop) → Prop
  | empty, _ => True
  | one _, _ => True
  | seq a b, F => LL1 rules follow a (Then rules b F) ∧ LL1 rules follow b F
  | alt a b, F => LL1 rules follow a F ∧ LL1 rules follow b F ∧ ¬ Null rules a ∧
      Apart (First rules a) (First rules b) ∧ (Null rules b → Apart (First rules a) F)
  | star a, F => LL1 rules follow a (fun t => First rules a t ∨ F t) ∧ ¬ Null rules a ∧ Apart (First rules a) F
  | ref n, F => ∀ t, F t → follow n t

/-- No left recursion: the nonterminals met before a token has been read have a rank below `k`. -/
def LeftBelow (rules : N → Gram N T) (rank : N → Nat) (k : Nat) : Gram N T → Prop
  | empty => True
  | one _ => True
  | seq a b => LeftBelow rules rank k a ∧ (Null rules a → LeftBelow rules rank k b)
  | alt a b => LeftBelow rules rank k a ∧ LeftBelow rules rank k b
  | star a => LeftBelow rules rank k a
  | ref n => rank n < k

end Gram

/-- A grammar for which one token of look-ahead suffices, without left recursion. -/
structure Grammar.LL1 {N T : Type} (rules : N → Gram N T) (follow : N → T → Prop) (rank : N → Nat) (R : Nat) : Prop where
  ll1 : ∀ n, (rules n).LL1 rules follow (follow n)
  left : ∀ n, (rules n).LeftBelow rules rank (rank n)
  rank : ∀ n, rank n < R

/-! ## Its parser -/

variable {N : Type}

/-- The parser for a right-hand side, each part of which is a `parser! { .. }` of its own; `call` are the parsers of the
nonterminals.  No `attempt`. -/
def Gram.parser (S : Strm) (call : N → Parser S Unit Unit) : Gram N S.Tok → Parser S Unit Unit
  | .empty => value S ()
  | .one f => ignore (satisfy S f)
  | .seq a b => parserMacroUnit («with» (a.parser S call) (b.parser S call))
  | .alt a b => parserMacroUnit (or (a.parser S call) (b.parser S call))
  | .star a => parserMacroUnit (skipMany (a.parser S call))
  | .ref n => call n

/-- The parsers of the nonterminals, whose calls nest `d` deep; the call below the last one does not come back (compare
`recur`). -/
def Grammar.parser (S : Strm) (rules : N → Gram N S.Tok) : Nat → N → Parser S Unit Unit
  | 0, _ => recur (fun q => q) () 0
  | d + 1, n => parserMacroUnit ((rules n).parser S (Grammar.parser S rules d))

/-! ## What it means for a parser to follow a grammar -/

variable {S : Strm} {σ α : Type}

/-- The next token is not one of those with which `a` begins. -/
def Strm.Unfit (S : Strm) (rules : N → Gram N S.Tok) (a : Gram N S.Tok) (i : S.Input) : Prop :=
  ∀ t j, S.uncons i = (.ok t, j) → ¬ a.First rules t

/-- On every input: what the parser accepts is derived by `a`; it accepts the empty text only where no token of FIRST comes
next; it fails softly only where neither a token of FIRST comes next nor the empty text is derived; and it fails
with commitment only after a token of FIRST, or at the end of a partial input. -/
def Predicts (rules : N → Gram N S.Tok) (a : Gram N S.Tok) (m : Sem S.Input Unit α) : Prop :=
  ∀ i, match m i with
  | .ok c _ j => ∃ w, S.Reads i w j ∧ a.Derives rules w ∧ c = !w.isEmpty ∧ (w = [] → S.Unfit rules a i)
  | .soft => S.Unfit rules a i ∧ ¬ a.Null rules
  | .hard _ => (∃ t j, S.uncons i = (.ok t, j) ∧ a.First rules t) ∨ (S.isPartial i = true ∧ S.AtEnd i)
  | .abort _ => True

/-- What `a` derives is accepted, when the end of the (complete) input or a token from `F` comes after it; unless the call
never comes back. -/
def Accepts (rules : N → Gram N S.Tok) (a : Gram N S.Tok) (F : S.Tok → Prop) (m : Sem S.Input Unit α) : Prop :=
  ∀ i w k, S.isPartial i = false → S.Reads i w k → a.Derives rules w → (∀ t l, S.uncons k = (.ok t, l) → F t) →
    (∃ c v, m i = .ok c v k) ∨ ∃ x, m i = .abort x

/-- `p` is a parser for `a` where `F` can come next. -/
structure Follows (rules : N → Gram N S.Tok) (a : Gram N S.Tok) (F : S.Tok → Prop) (p : Parser S σ α) : Prop where
  predicts : Predicts rules a p.shape
  accepts : Accepts rules a F p.shape

/-- The members of a tuple are parsers for the members of a sequence. -/
inductive SeqFollows (rules : N → Gram N S.Tok) (F : S.Tok → Prop) : {σ α : Type} → Gram N S.Tok → Seq S σ α → Prop where
  | nil : SeqFollows rules F .empty .nil
  | cons {σ τ α β : Type} {a b : Gram N S.Tok} {p : Parser S σ α} {ps : Seq S τ β} :
      Follows rules a (b.Then rules F) p → SeqFollows rules F b ps → SeqFollows rules F (a.seq b) (.cons p ps)

/-- The alternatives of a choice are parsers for the alternatives of a grammar, which can be told apart by one token. -/
inductive AltsFollow (rules : N → Gram N S.Tok) (F : S.Tok → Prop) : {σ : Type} → Gram N S.Tok → Alts S α σ → Prop where
  | last {σ : Type} {a : Gram N S.Tok} {p : Parser S σ α} : Follows rules a F p → AltsFollow rules F a (.last p)
  | cons {σ τ : Type} {a b : Gram N S.Tok} {p : Parser S σ α} {ps : Alts S α τ} : Follows rules a F p →
      AltsFollow rules F b ps → ¬ a.Null rules → Gram.Apart (a.First rules) (b.First rules) →
      (b.Null rules → Gram.Apart (a.First rules) F) → AltsFollow rules F (a.alt b) (.cons p ps)

end Verif
