import Verif.Model.Choice
import Verif.Model.Token

/-!
# Choices between single tokens
-/

namespace Verif

variable {S : Strm} [DecidableEq S.Tok]

mutual

/-- A parser that accepts one of the tokens listed: `token`, `one_of`, and `choice`s of such parsers. -/
inductive TokenChoice {S : Strm} [DecidableEq S.Tok] : {σ : Type} → Parser S σ S.Tok → List S.Tok → Prop where
  | token (c : S.Tok) : TokenChoice (token S c) [c]
  | oneOf (cs : List S.Tok) : TokenChoice (oneOf S cs) cs
  | choice {σ : Type} {ps : Alts S S.Tok σ} {cs : List S.Tok} : TokenAlts ps cs → TokenChoice (choice ps) cs
  | or {σ τ : Type} {p : Parser S σ S.Tok} {q : Parser S τ S.Tok} {cs ds : List S.Tok} :
      TokenChoice p cs → TokenChoice q ds → TokenChoice (or p q) (cs ++ ds)
  | slice (c : S.Tok) (cs : List S.Tok) : TokenChoice (sliceChoice ((c :: cs).map (token S)) ()) (c :: cs)

/-- The same for the alternatives of a `choice`, in order. -/
inductive TokenAlts {S : Strm} [DecidableEq S.Tok] : {σ : Type} → Alts S S.Tok σ → List S.Tok → Prop where
  | last {σ : Type} {p : Parser S σ S.Tok} {cs : List S.Tok} : TokenChoice p cs → TokenAlts (.last p) cs
  | cons {σ τ : Type} {p : Parser S σ S.Tok} {ps : Alts S S.Tok τ} {cs ds : List S.Tok} :
      TokenChoice p cs → TokenAlts ps ds → TokenAlts (.cons p ps) (cs ++ ds)

end

/-- The list without repetitions: each element where it occurs first. -/
def distinct {T : Type} [DecidableEq T] : List T → List T
  | [] => []
  | c :: cs => c :: (distinct cs).filter (· ≠ c)

end Verif
