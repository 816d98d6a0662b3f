import Verif.Model.Choice

/-!
# Histories of calls of one parser
-/

namespace Verif

variable {S : Strm} {σ τ α : Type}

/-- What the caller sees of each call of a history of calls (mode and input are the caller's choice),
when the state is kept between the calls. -/
def Parser.callsFrom (p : Parser S σ α) : σ → List (Bool × S.Input) →
    List (ParseResult α S.Err × S.Input)
  | _, [] => []
  | s, h :: hs =>
    let o := p.run h.1 h.2 s
    (o.res, o.inp) :: p.callsFrom o.st hs

/-- A history of calls that starts from the default state. -/
def Parser.calls (p : Parser S σ α) (hs : List (Bool × S.Input)) :
    List (ParseResult α S.Err × S.Input) := p.callsFrom p.init hs

/-- The results up to the first call that did not answer a committed failure: resuming ends there. -/
def untilDone {E I : Type} : List (ParseResult α E × I) → List (ParseResult α E × I)
  | [] => []
  | x :: xs =>
    match x.1 with
    | .commitErr _ => x :: untilDone xs
    | _ => [x]

/-- Forget what the errors say. -/
def eraseError {E I : Type} (x : ParseResult α E × I) : ParseResult α Unit × I :=
  (x.1.mapErr fun _ => (), x.2)

/-- The parser of arm `k` of a `dispatch!` (the last arm takes the rest). -/
def Alts.arm {τ : Type} : Alts S α τ → Nat → Σ σ : Type, Parser S σ α
  | .last p, _ => ⟨_, p⟩
  | .cons p _, 0 => ⟨_, p⟩
  | .cons _ ps, k + 1 => ps.arm k

end Verif
