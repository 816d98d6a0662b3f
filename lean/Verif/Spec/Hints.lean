import Verif.Spec.Blame

/-!
# What an error may list as expected

An error that lists `x` as expected promises that the text read so far, continued with `x`, is still the beginning of a
sentence.
-/

namespace Verif

/-- An error type that lists what was expected, as `easy::Errors` does.  `Lists e x`: the error `e` lists `x` as expected;
`Ext e e'`: the list of causes of `e'` extends that of `e`.  Only adding an expectation, or a label, lists more. -/
structure ErrOps.Hints {T R P : Type} (E : ErrOps T R P) where
  Lists : E.Err → Info T R → Prop
  Ext : E.Err → E.Err → Prop
  ext_refl : ∀ e, Ext e e
  ext_trans : ∀ {e₁ e₂ e₃}, Ext e₁ e₂ → Ext e₂ e₃ → Ext e₁ e₃
  ext_add : ∀ e s, Ext e (E.add e s)
  ext_label : ∀ t s f, Ext t.error (Tracked.error (f t)) → Ext t.error (E.setExpected t s f).error
  empty : ∀ q x, ¬ Lists (E.empty q) x
  fromError : ∀ q s x, (s = E.endOfInput ∨ ∃ y, s = E.unexpected y) → ¬ Lists (E.fromError q s) x
  add_expected : ∀ e y x, Lists (E.add e (E.expected y)) x → Lists e x ∨ x = y
  add_other : ∀ e s x, (s = E.endOfInput ∨ ∃ y, s = E.unexpected y ∨ s = E.message y) → Lists (E.add e s) x → Lists e x
  merge : ∀ e e' x, Lists (E.merge e e') x → Lists e x ∨ Lists e' x
  clear : ∀ e x, Lists (E.clearExpected e) x → Lists e x
  label : ∀ t y f x, Ext t.error (Tracked.error (f t)) → Lists (E.setExpected t (E.expected y) f).error x →
    Lists t.error x ∨ x = y
  label_offset : ∀ t s f, (E.setExpected t s f).offset = Tracked.offset (f t)

variable {S : Strm} {N σ α : Type}

/-- After `w`, `a` can go on with something that is called `x`; `M x t`: the description `x` fits the token `t`. -/
def Gram.Awaits {T R : Type} (rules : N → Gram N T) (M : Info T R → T → Prop) (a : Gram N T) (w : List T) (x : Info T R) :
    Prop :=
  ∃ t, M x t ∧ a.Viable rules (w ++ [t])

/-- `t'` is `t` with some more causes; what it lists as expected in addition satisfies `P`. -/
def Strm.Notes (S : Strm) (H : S.E.Hints) (P : Info S.Tok S.Rng → Prop) (t t' : Tracked S.Err) : Prop :=
  H.Ext t.error t'.error ∧ t'.offset ≤ t.offset ∧ ∀ x, H.Lists t'.error x → H.Lists t.error x ∨ P x

/-- `add_error` of `p` never lists anything but beginnings of `a`, whatever the offset of the error is: this is so for
one-token parsers, for choices, for labelled parsers, and for repetitions of such parsers, but not for tuples. -/
def Modest (H : S.E.Hints) (M : Info S.Tok S.Rng → S.Tok → Prop) (rules : N → Gram N S.Tok) (a : Gram N S.Tok)
    (p : Parser S σ α) : Prop :=
  ∀ t, S.Notes H (a.Awaits rules M []) t (p.addError t)

/-- `p` is such a parser as in C58, and: what its errors list as expected can come next. -/
structure Tells (Has : S.Err → S.SErr → Prop) (H : S.E.Hints) (M : Info S.Tok S.Rng → S.Tok → Prop)
    (rules : N → Gram N S.Tok) (a : Gram N S.Tok) (F : S.Tok → Prop) (p : Parser S σ α) : Prop
    extends Blames Has rules a F p where
  /-- errors are extended, and offsets are never increased -/
  extends_ : ∀ t, S.Notes H (fun _ => True) t (p.addError t) ∧ S.Notes H (fun _ => True) t (p.addCommitted t)
  /-- what is added to an error at the place where `p` was tried -/
  first : ∀ t, t.offset ≤ 1 → S.Notes H (a.Awaits rules M []) t (p.addError t)
  /-- a soft failure, and what is added to it and to others at the same place -/
  softly : ∀ i e, S.isPartial i = false → (p.run true i p.init).res = .peekErr e →
    (∀ x, H.Lists e.error x → a.Awaits rules M [] x) ∧
    ∀ t, t.offset ≤ max 1 e.offset →
      S.Notes H (a.Awaits rules M []) t (p.addError t) ∧ (p.addError t).offset ≤ 1
  hardly : ∀ i e, S.isPartial i = false → p.answer i = .hard e →
    ∃ w l, S.Reads i w l ∧ a.Viable rules w ∧ S.Beyond rules a w l ∧ ∀ x, H.Lists e x → a.Awaits rules M w x
  /-- what is added after a success that has read something -/
  comm : ∀ t w, a.Derives rules w → w ≠ [] → S.Notes H (a.Awaits rules M w) t (p.addCommitted t)

/-- What is required of a member of a tuple that others come after, if it can succeed without reading anything: it is modest
and counts as one parser. -/
def Leads (H : S.E.Hints) (M : Info S.Tok S.Rng → S.Tok → Prop) (rules : N → Gram N S.Tok) (a : Gram N S.Tok)
    (p : Parser S σ α) : Prop :=
  a.Null rules → p.count ≤ 1 ∧ Modest H M rules a p

/-- What is required of the last member of a tuple, if it can succeed without reading anything: it does not say what it could
go on with unless it can begin with that. -/
def Closes (H : S.E.Hints) (M : Info S.Tok S.Rng → S.Tok → Prop) (rules : N → Gram N S.Tok) (a : Gram N S.Tok)
    (p : Parser S σ α) : Prop :=
  a.Null rules → ∀ t, S.Notes H (a.Awaits rules M []) t (p.addCommitted t)

/-- The members of a tuple are such parsers for the members of a sequence. -/
inductive SeqTells (Has : S.Err → S.SErr → Prop) (H : S.E.Hints) (M : Info S.Tok S.Rng → S.Tok → Prop)
    (rules : N → Gram N S.Tok) (F : S.Tok → Prop) : {σ α : Type} → Gram N S.Tok → Seq S σ α → Prop where
  | last {σ α : Type} {a : Gram N S.Tok} {p : Parser S σ α} : Moves p → Tells Has H M rules a F p →
      Closes H M rules a p → SeqTells Has H M rules F (a.seq .empty) (.cons p .nil)
  | cons {σ τ α β : Type} {a b : Gram N S.Tok} {p : Parser S σ α} {ps : Seq S τ β} : Moves p →
      Tells Has H M rules a (b.Then rules F) p → Leads H M rules a p →
      SeqTells Has H M rules F b ps → SeqTells Has H M rules F (a.seq b) (.cons p ps)

/-- The alternatives of a choice are such parsers, told apart by one token. -/
inductive AltsTell (Has : S.Err → S.SErr → Prop) (H : S.E.Hints) (M : Info S.Tok S.Rng → S.Tok → Prop)
    (rules : N → Gram N S.Tok) (F : S.Tok → Prop) : {σ : Type} → Gram N S.Tok → Alts S α σ → Prop where
  | last {σ : Type} {a : Gram N S.Tok} {p : Parser S σ α} : Moves p → Tells Has H M rules a F p →
      AltsTell Has H M rules F a (.last p)
  | cons {σ τ : Type} {a b : Gram N S.Tok} {p : Parser S σ α} {ps : Alts S α τ} : Moves p → Tells Has H M rules a F p →
      AltsTell Has H M rules F b ps → ¬ a.Null rules → Gram.Apart (a.First rules) (b.First rules) →
      (b.Null rules → Gram.Apart (a.First rules) F) → AltsTell Has H M rules F (a.alt b) (.cons p ps)

end Verif
