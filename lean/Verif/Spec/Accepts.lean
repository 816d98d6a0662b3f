import Verif.Spec.Recover

/-!
# What was read was written

The converse of `Verif.Spec.Recover`: where a parser succeeds, what it consumed is a text for the value it returned.  What comes
after the text is part of the statement, since parsers are greedy: what `many(digit())` consumed are digits, and what comes next
is not one.
-/

namespace Verif

variable {S : Strm} {σ τ α β : Type}

/-- Which text stands for which value, when it is followed by which token (or by the end of the input). -/
abbrev Texts (T α : Type) := List T → α → Option T → Prop

namespace Texts

variable {T : Type}

/-- The values changed. -/
def map (L : Texts T α) (f : α → β) : Texts T β := fun w y o => ∃ v, L w v o ∧ f v = y

/-- A text for `v`, and then one of `M v`. -/
def bind (L : Texts T α) (M : α → Texts T β) : Texts T β := fun w y o =>
  ∃ u z v, w = u ++ z ∧ L u v (lead z o) ∧ M v z y o

/-- A text of each, one after the other. -/
def seq (L : Texts T α) (M : Texts T β) : Texts T (α × β) := fun w y o =>
  ∃ u z, w = u ++ z ∧ L u y.1 (lead z o) ∧ M z y.2 o

/-- Texts, none of them empty, one after the other. -/
inductive Many (L : Texts T α) : Texts T (List α) where
  | nil {o : Option T} : Many L [] [] o
  | cons {w u : List T} {v : α} {vs : List α} {o : Option T} : w ≠ [] → L w v (lead u o) → Many L u vs o →
      Many L (w ++ u) (v :: vs) o

end Texts

/-- Where `m` succeeds, it consumed a text for its value, and it committed exactly if that text is not empty. -/
def Takes (L : Texts S.Tok α) (m : Sem S.Input Unit α) : Prop :=
  ∀ i c v k, m i = .ok c v k → ∃ w, S.Reads i w k ∧ c = !w.isEmpty ∧ L w v (S.ahead k)

/-- Where `m` fails without commitment, one of `G` comes next. -/
def Leaves (G : Option S.Tok → Prop) (m : Sem S.Input Unit α) : Prop := ∀ i, m i = .soft → G (S.ahead i)

/-- Whatever the parser accepts is one of `L`. -/
def OnlyReads (L : Texts S.Tok α) (p : Parser S σ α) : Prop := Takes L p.shape

/-- The parser fails without commitment only where one of `G` comes next. -/
def OnlyFails (G : Option S.Tok → Prop) (p : Parser S σ α) : Prop := Leaves G p.shape

/-- The members of a tuple accept only what `L` says. -/
inductive SeqReads : {σ α : Type} → Texts S.Tok α → Seq S σ α → Prop where
  | nil : SeqReads (fun w _ _ => w = []) .nil
  | cons {σ τ α β : Type} {p : Parser S σ α} {ps : Seq S τ β} {L : Texts S.Tok α} {M : Texts S.Tok β} :
      OnlyReads L p → SeqReads M ps → SeqReads (L.seq M) (.cons p ps)

/-- The alternatives of a choice accept what `L` says: one of them, where those before it fail. -/
inductive AltsRead : {σ : Type} → Texts S.Tok α → Alts S α σ → Prop where
  | last {σ : Type} {p : Parser S σ α} {L : Texts S.Tok α} : OnlyReads L p → AltsRead L (.last p)
  | cons {σ τ : Type} {p : Parser S σ α} {ps : Alts S α τ} {L M : Texts S.Tok α} {G : Option S.Tok → Prop} :
      OnlyReads L p → OnlyFails G p → AltsRead M ps →
      AltsRead (fun w v o => L w v o ∨ G (lead w o) ∧ M w v o) (.cons p ps)

/-- On complete input the parser accepts exactly the texts `L`: it succeeds where one of them comes next, followed by a token (or
the end) that may follow it; and nowhere else. -/
def Exactly (L : Texts S.Tok α) (p : Parser S σ α) : Prop :=
  ∀ i c v k, S.isPartial i = false →
    (p.shape i = .ok c v k ↔ ∃ w, S.Reads i w k ∧ c = !w.isEmpty ∧ L w v (S.ahead k))

/-- Both directions: `L` says what the parser accepts.  (`back` on complete input: a parser may need more of a partial one;
`only` on every input.) -/
structure Describes (L : Texts S.Tok α) (p : Parser S σ α) : Prop where
  back : ∀ w v, Recovers (fun o => L w v o) p w v
  only : OnlyReads L p

/-- Both directions: the parser fails without commitment exactly where one of `G` comes next. -/
structure FailsBy (G : Option S.Tok → Prop) (p : Parser S σ α) : Prop where
  back : Declines G p
  only : OnlyFails G p

/-- The members of a tuple accept exactly what `L` says. -/
inductive SeqDescribes : {σ α : Type} → Texts S.Tok α → Seq S σ α → Prop where
  | nil : SeqDescribes (fun w _ _ => w = []) .nil
  | cons {σ τ α β : Type} {p : Parser S σ α} {ps : Seq S τ β} {L : Texts S.Tok α} {M : Texts S.Tok β} :
      Describes L p → SeqDescribes M ps → SeqDescribes (L.seq M) (.cons p ps)

/-- The alternatives of a choice accept exactly what `L` says, and fail where one of `G` comes next. -/
inductive AltsDescribe : {σ : Type} → Texts S.Tok α → (Option S.Tok → Prop) → Alts S α σ → Prop where
  | last {σ : Type} {p : Parser S σ α} {L : Texts S.Tok α} {G : Option S.Tok → Prop} : Describes L p → FailsBy G p →
      AltsDescribe L G (.last p)
  | cons {σ τ : Type} {p : Parser S σ α} {ps : Alts S α τ} {L M : Texts S.Tok α} {G H : Option S.Tok → Prop} :
      Describes L p → FailsBy G p → AltsDescribe M H ps →
      AltsDescribe (fun w v o => L w v o ∨ G (lead w o) ∧ M w v o) (fun o => G o ∧ H o) (.cons p ps)

end Verif
