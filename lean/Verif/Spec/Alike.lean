import Verif.Model.Choice
import Verif.Spec.Behaved
import Verif.Spec.Repeat
import Verif.Spec.Ranges
import Verif.Model.Str

/-!
# The same grammar over two streams

The tokens of the one stream are written in tokens of the other: `enc t` are the tokens that stand for `t`.  For
`enc t = [t]` both hold the same tokens; for UTF-8 the one holds characters and the other their bytes.
-/

namespace Verif

variable {S S' : Strm} {σ τ α β T U : Type}

/-- Everything that is left in `i`, as seen through `rd`. -/
def Strm.Holds (S : Strm) (rd : S.Tok → T) (i : S.Input) (ts : List T) : Prop :=
  ∃ us k, S.Reads i us k ∧ S.AtEnd k ∧ us.map rd = ts

/-- `i'` holds what `i` holds, as written by `enc`; both are partial or both are complete (`b`). -/
def Written (rd : S.Tok → T) (rd' : S'.Tok → U) (enc : T → List U) (b : Bool) (i : S.Input) (i' : S'.Input) : Prop :=
  S.isPartial i = b ∧ S'.isPartial i' = b ∧ ∃ ts, S.Holds rd i ts ∧ S'.Holds rd' i' (ts.flatMap enc)

/-- A range holds what another one holds, as written by `enc`. -/
def WrittenRange (toks : S.Rng → List S.Tok) (toks' : S'.Rng → List S'.Tok) (rd : S.Tok → T) (rd' : S'.Tok → U)
    (enc : T → List U) (r : S.Rng) (r' : S'.Rng) : Prop := (toks' r').map rd' = ((toks r).map rd).flatMap enc

/-- Equal answers, for inputs related by `R` and values related by `V`; which error a failure carries is left open. -/
def Answer.Alike {I J : Type} (R : I → J → Prop) (V : α → β → Prop) : Answer I Unit α → Answer J Unit β → Prop
  | .ok c v j, .ok c' v' j' => c = c' ∧ V v v' ∧ R j j'
  | .soft, .soft => True
  | .hard _, .hard _ => True
  | .abort a, .abort a' => a = a'
  | _, _ => False

/-- The two parsers give equal answers on related inputs. -/
def Alike (R : S.Input → S'.Input → Prop) (V : α → β → Prop) (p : Parser S σ α) (q : Parser S' τ β) : Prop :=
  ∀ i i', R i i' → (p.shape i).Alike R V (q.shape i')

/-- Lists of the same length with related elements. -/
inductive Each (V : α → β → Prop) : List α → List β → Prop where
  | nil : Each V [] []
  | cons {a b as bs} : V a b → Each V as bs → Each V (a :: as) (b :: bs)

/-- Both are there, and related, or neither is. -/
def Both (V : α → β → Prop) : Option α → Option β → Prop
  | some a, some b => V a b
  | none, none => True
  | _, _ => False

/-- What `f` makes of a token and `g` of what stands for it: a token that `f` takes is written as one token, which `g`
takes; of a token that `f` does not take, `g` does not take the beginning. -/
def Tallies (enc : T → List U) (V : α → β → Prop) (f : T → Option α) (g : U → Option β) : Prop :=
  ∀ t, ∃ u us, enc t = u :: us ∧ Both V (f t) (g u) ∧ ((f t).isSome → us = [])

/-- `g` accepts all of what stands for a token that `f` accepts, and not the beginning of any other. -/
def Covers (enc : T → List U) (f : T → Bool) (g : U → Bool) : Prop :=
  ∀ t, ∃ u us, enc t = u :: us ∧ (if f t then ∀ x ∈ u :: us, g x = true else g u = false)

/-- No encoding is the beginning of another one. -/
def PrefixFree (enc : T → List U) : Prop :=
  (∀ t, enc t ≠ []) ∧ ∀ t t' us us', enc t ++ us = enc t' ++ us' → t = t'

/-- Where there is what stands for `needle`, there is `needle`. -/
def Synchronous (enc : T → List U) (needle : List T) : Prop :=
  ∀ ts pre post, ts.flatMap enc = pre ++ (needle.flatMap enc ++ post) →
    ∃ as bs, ts = as ++ (needle ++ bs) ∧ pre = as.flatMap enc

/-- Members of tuples that give equal answers one by one; the values are related one by one. -/
inductive SeqAlike (R : S.Input → S'.Input → Prop) : {σ α σ' β : Type} → Seq S σ α → Seq S' σ' β → (α → β → Prop) → Prop where
  | nil : SeqAlike R .nil .nil fun _ _ => True
  | cons {σ σ' τ τ' α α' β β' : Type} {p : Parser S σ α} {q : Parser S' σ' α'} {ps : Seq S τ β} {qs : Seq S' τ' β'}
      {V : α → α' → Prop} {W : β → β' → Prop} : Alike R V p q → SeqAlike R ps qs W →
      SeqAlike R (.cons p ps) (.cons q qs) fun x y => V x.1 y.1 ∧ W x.2 y.2

/-- Alternatives that give equal answers one by one. -/
inductive AltsAlike (R : S.Input → S'.Input → Prop) (V : α → β → Prop) : {σ τ : Type} → Alts S α σ → Alts S' β τ → Prop where
  | last {σ τ : Type} {p : Parser S σ α} {q : Parser S' τ β} : Moves p → Moves q → Alike R V p q →
      AltsAlike R V (.last p) (.last q)
  | cons {σ τ σ' τ' : Type} {p : Parser S σ α} {q : Parser S' τ β} {ps : Alts S α σ'} {qs : Alts S' β τ'} : Moves p →
      Moves q → Alike R V p q → AltsAlike R V ps qs → AltsAlike R V (.cons p ps) (.cons q qs)

/-- Both conversions succeed with related values, or both fail. -/
def BothOk {ε δ : Type} (V : α → β → Prop) : Except ε α → Except δ β → Prop
  | .ok a, .ok b => V a b
  | .error _, .error _ => True
  | _, _ => False

end Verif
