import Verif.Spec.Sequence
import Verif.Model.Repeat
import Verif.Model.Token

/-!
# Reading back what was written

A text `w` written for a value `v` is read back when a parser started before `w` returns `v` and stops right after `w`.
Whether it does can depend on what comes next (`many(digit())` does not stop before a digit), so each statement says which
tokens, or the end of the input, may come next.
-/

namespace Verif

variable {S : Strm} {σ τ α β : Type}

/-- The next token, if there is one. -/
def Strm.ahead (S : Strm) (i : S.Input) : Option S.Tok :=
  match (S.uncons i).1 with
  | .ok t => some t
  | .error _ => none

/-- The token that comes first when `w` is written before something that begins with `o`. -/
def lead {T : Type} : List T → Option T → Option T
  | [], o => o
  | t :: _, _ => some t

/-- What comes next before `w`, when one of `F` comes after it. -/
def Before {T : Type} (w : List T) (F : Option T → Prop) (o : Option T) : Prop := ∃ o', F o' ∧ o = lead w o'

/-- On complete input: where `w` comes next, and after it one of `F`, the answer is the value `v`, and `w` is consumed. -/
def ReadsBack (F : Option S.Tok → Prop) (m : Sem S.Input Unit α) (w : List S.Tok) (v : α) : Prop :=
  ∀ i k, S.isPartial i = false → S.Reads i w k → F (S.ahead k) → m i = .ok (!w.isEmpty) v k

/-- On complete input: where one of `F` comes next, the answer is a failure without commitment. -/
def Refuses (F : Option S.Tok → Prop) (m : Sem S.Input Unit α) : Prop :=
  ∀ i, S.isPartial i = false → F (S.ahead i) → m i = .soft

/-- The parser returns `v` for the text `w`. -/
def Recovers (F : Option S.Tok → Prop) (p : Parser S σ α) (w : List S.Tok) (v : α) : Prop := ReadsBack F p.shape w v

/-- The parser does not take what begins with one of `F`. -/
def Declines (F : Option S.Tok → Prop) (p : Parser S σ α) : Prop := Refuses F p.shape

/-- The members of a tuple return the members of a value for the text `w`. -/
inductive SeqRecovers (F : Option S.Tok → Prop) : {σ α : Type} → Seq S σ α → List S.Tok → α → Prop where
  | nil : SeqRecovers F .nil [] ()
  | cons {σ τ α β : Type} {p : Parser S σ α} {ps : Seq S τ β} {w u : List S.Tok} {v : α} {vs : β} :
      Recovers (Before u F) p w v → SeqRecovers F ps u vs → SeqRecovers F (.cons p ps) (w ++ u) (v, vs)

/-- Of the alternatives of a choice, the first that does not decline returns `v` for `w`. -/
inductive AltsRecover (F : Option S.Tok → Prop) (w : List S.Tok) (v : α) : {σ : Type} → Alts S α σ → Prop where
  | last {σ : Type} {p : Parser S σ α} : Recovers F p w v → AltsRecover F w v (.last p)
  | here {σ τ : Type} {p : Parser S σ α} {ps : Alts S α τ} : Recovers F p w v → AltsRecover F w v (.cons p ps)
  | there {σ τ : Type} {p : Parser S σ α} {ps : Alts S α τ} : Declines (Before w F) p → AltsRecover F w v ps →
      AltsRecover F w v (.cons p ps)

/-- Every alternative of a choice declines. -/
def AltsDecline (F : Option S.Tok → Prop) {σ : Type} : Alts S α σ → Prop
  | .last p => Declines F p
  | .cons p ps => Declines F p ∧ AltsDecline F ps

/-- Texts for the values `vs`, none of them empty, written one after the other. -/
inductive Pieces (F : Option S.Tok → Prop) (m : Sem S.Input Unit α) : List S.Tok → List α → Prop where
  | nil : Pieces F m [] []
  | cons {w u : List S.Tok} {v : α} {vs : List α} : w ≠ [] → ReadsBack (Before u F) m w v → Pieces F m u vs →
      Pieces F m (w ++ u) (v :: vs)

/-- `v f₁ (x₁ f₂ (x₂ ...))`. -/
def chainRight (v : α) : List ((α → α → α) × α × Unit) → α
  | [] => v
  | (f, x, _) :: fs => f v (chainRight x fs)

end Verif
