import Verif.Spec.Grammar
import Verif.Spec.Places
import Verif.Spec.Behaved

/-!
# Where a text stops being the beginning of a sentence

A text is a *viable prefix* if it can be continued to a derived text.  An error ought to be reported at the first token
that makes the text read so far unviable, and to name that token.
-/

namespace Verif

namespace Gram

variable {N T : Type}

/-- `w` can be continued to a text that `a` derives. -/
def Viable (rules : N → Gram N T) (a : Gram N T) (w : List T) : Prop := ∃ v, a.Derives rules (w ++ v)

/-- Every part of a right-hand side derives something. -/
def Useful (rules : N → Gram N T) : Gram N T → Prop
  | empty => True
  | one f => ∃ t, f t = true
  | seq a b => Useful rules a ∧ Useful rules b
  | alt a b => Useful rules a ∧ Useful rules b
  | star a => Useful rules a
  | ref n => ∃ w, (rules n).Derives rules w

end Gram

/-- Laws of an error type that records a position and a list of causes, as `easy::Errors` does; `Has e x`: the error `e`
lists the cause `x`.  What is unexpected is never dropped, except with the earlier of two errors. -/
structure ErrOps.Naming {T R P : Type} (E : ErrOps T R P) (Has : E.Err → E.SErr → Prop) : Prop extends E.Placing where
  has_from : ∀ q x, Has (E.fromError q x) x
  has_add : ∀ e x, Has (E.add e x) x
  has_keep : ∀ e x y, Has e y → Has (E.add e x) y
  has_merge : ∀ a b y, E.position a = E.position b → Has a y → Has (E.merge a b) y
  has_clear : ∀ e y, (y = E.endOfInput ∨ ∃ x, y = E.unexpected x) → Has e y → Has (E.clearExpected e) y
  has_label : ∀ t x f y, (y = E.endOfInput ∨ ∃ z, y = E.unexpected z) → Has (Tracked.error (f t)) y →
    Has (E.setExpected t x f).error y

variable {S : Strm} {N σ α : Type}

/-- The only failure of the stream is its end. -/
def Strm.EndsPlainly (S : Strm) : Prop := ∀ i x j, S.uncons i = (.error x, j) → x = S.E.endOfInput

/-- The cause that an error at `l` ought to list: the token there is unexpected, or the end of the input is. -/
def Strm.culprit (S : Strm) (l : S.Input) : S.SErr :=
  match (S.uncons l).1 with
  | .ok t => S.E.unexpected (.token t)
  | .error _ => S.E.endOfInput

/-- The error is positioned at `l` and names what is there. -/
def Strm.Blamed (S : Strm) (Has : S.Err → S.SErr → Prop) (l : S.Input) (e : S.Err) : Prop :=
  S.E.position e = S.position l ∧ Has e (S.culprit l)

/-- The same for an error that nobody has seen yet: only the end of the input is named, a token will be. -/
def Strm.Near (S : Strm) (Has : S.Err → S.SErr → Prop) (l : S.Input) (e : S.Err) : Prop :=
  S.E.position e = S.position l ∧ (S.AtEnd l → Has e S.E.endOfInput)

/-- No text that `a` derives begins with `w` and the token at `l`. -/
def Strm.Beyond (S : Strm) (rules : N → Gram N S.Tok) (a : Gram N S.Tok) (w : List S.Tok) (l : S.Input) : Prop :=
  ∀ t k, S.uncons l = (.ok t, k) → ¬ a.Viable rules (w ++ [t])

/-- `l` is where the text goes wrong: what comes before it, `w`, is the beginning of a sentence, but not together with the
token there; or the text ends there, and is no sentence. -/
def Strm.Mistake (S : Strm) (rules : N → Gram N S.Tok) (a : Gram N S.Tok) (i : S.Input) (w : List S.Tok) (l : S.Input) :
    Prop :=
  S.Reads i w l ∧ a.Viable rules w ∧
    match (S.uncons l).1 with
    | .ok t => ¬ a.Viable rules (w ++ [t])
    | .error _ => ¬ a.Derives rules w

/-- `parse` is `parse_mode` from the start, and then the description of a soft failure (mod.rs:141-159); this is how all
parsers but a few wrappers implement it. -/
def Parser.Plain (p : Parser S σ α) : Prop :=
  ∀ i, p.stream i = ((Strm.describing p.addError (p.run true) i p.init).res, (Strm.describing p.addError (p.run true) i p.init).inp)

/-- A function on errors that neither moves them nor drops what is unexpected. -/
def Strm.Adds (S : Strm) (Has : S.Err → S.SErr → Prop) (f : Tracked S.Err → Tracked S.Err) : Prop :=
  ∀ t, S.E.position (f t).error = S.E.position t.error ∧
    ∀ y, (y = S.E.endOfInput ∨ ∃ x, y = S.E.unexpected x) → Has t.error y → Has (f t).error y

/-- `p` is a parser for `a` where `F` can come next (C56), and: it stops only where `a` derives nothing longer; its errors
are those of the first token that cannot continue. -/
structure Blames (Has : S.Err → S.SErr → Prop) (rules : N → Gram N S.Tok) (a : Gram N S.Tok) (F : S.Tok → Prop)
    (p : Parser S σ α) : Prop extends Follows rules a F p where
  useful : a.Useful rules
  stop : ∀ i c v j w, S.isPartial i = false → p.shape i = .ok c v j → S.Reads i w j → S.Beyond rules a w j
  soft : ∀ i e, S.isPartial i = false → (p.run true i p.init).res = .peekErr e → S.Near Has i e.error
  hard : ∀ i e, S.isPartial i = false → p.answer i = .hard e →
    ∃ w l, S.Reads i w l ∧ S.Blamed Has l e ∧ a.Viable rules w ∧ S.Beyond rules a w l
  addError : S.Adds Has p.addError
  addCommitted : S.Adds Has p.addCommitted

/-- The members of a tuple are such parsers for the members of a sequence. -/
inductive SeqBlames (Has : S.Err → S.SErr → Prop) (rules : N → Gram N S.Tok) (F : S.Tok → Prop) :
    {σ α : Type} → Gram N S.Tok → Seq S σ α → Prop where
  | nil : SeqBlames Has rules F .empty .nil
  | cons {σ τ α β : Type} {a b : Gram N S.Tok} {p : Parser S σ α} {ps : Seq S τ β} : Moves p →
      Blames Has rules a (b.Then rules F) p → SeqBlames Has rules F b ps →
      SeqBlames Has rules F (a.seq b) (.cons p ps)

/-- The alternatives of a choice are such parsers for the alternatives of a grammar, told apart by one token. -/
inductive AltsBlame (Has : S.Err → S.SErr → Prop) (rules : N → Gram N S.Tok) (F : S.Tok → Prop) :
    {σ : Type} → Gram N S.Tok → Alts S α σ → Prop where
  | last {σ : Type} {a : Gram N S.Tok} {p : Parser S σ α} : Moves p → Blames Has rules a F p →
      AltsBlame Has rules F a (.last p)
  | cons {σ τ : Type} {a b : Gram N S.Tok} {p : Parser S σ α} {ps : Alts S α τ} : Moves p → Blames Has rules a F p →
      AltsBlame Has rules F b ps → ¬ a.Null rules → Gram.Apart (a.First rules) (b.First rules) →
      (b.Null rules → Gram.Apart (a.First rules) F) → AltsBlame Has rules F (a.alt b) (.cons p ps)

end Verif
