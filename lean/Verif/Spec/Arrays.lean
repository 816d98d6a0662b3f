import Verif.Spec.Resume

/-!
# Choices over arrays, and parsers used for one input after the other
-/

namespace Verif

variable {T α : Type}

/-- The first that does not fail softly. -/
def Den.firstOf : List (Den T α) → Den T α
  | [] => Den.never
  | D :: Ds => D.or (Den.firstOf Ds)

/-- Once more is asked for after something was seen, there is no soft failure. -/
def Den.Prompt (D : Den T α) : Prop :=
  ∀ a b x, a ≠ [] → D true a = .pend → D b (a ++ x) ≠ .soft

/-- Parse the inputs one after the other with `parse_with_state`, keeping the partial state: the values, as long as
all are accepted, with what each leaves over. -/
def serve {S : Strm} {σ : Type} (p : Parser S σ α) : σ → List S.Input → Option (List (α × List S.Tok))
  | _, [] => some []
  | s, i :: is =>
    match p.parseWithState i s with
    | (.ok v, j, s') => (serve p s' is).map ((v, S.left j) :: ·)
    | (.error _, _, _) => none

end Verif
