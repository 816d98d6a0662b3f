import Verif.Spec.Resume
import Verif.Spec.Behaved

/-!
# Looking for an end marker

`Sight`: what can be said of a marker at the beginning of some tokens.  `seek`: the tokens before the first place
where the marker is, and those from there on.  `Hunt.seek`: the same for elements instead of tokens.
`Fed.forget`: the end of feeding, without the value.
-/

namespace Verif

/-- The marker is here; it is not; more input is needed to tell; or the parser gives up for another reason. -/
inductive Sight where
  | found
  | absent
  | unknown
  | broken

/-- The tokens before the first place where the marker is found, and the tokens from there on. -/
def seek {T : Type} (F : List T → Sight) : List T → Option (List T × List T)
  | [] =>
    match F [] with
    | .found => some ([], [])
    | _ => none
  | t :: r =>
    match F (t :: r) with
    | .found => some ([], t :: r)
    | .absent => (seek F r).map fun x => (t :: x.1, x.2)
    | _ => none

/-- The parser `e` has no state of its own, finds the marker where `F` says so, and more input changes that only
where `F` is undecided.  The first argument of `F` tells whether more input may follow. -/
structure Sees {S : Strm} {β : Type} (e : Parser S Unit β) (F : Bool → List S.Tok → Sight) : Prop where
  moves : Moves e
  mode : ∀ m i, e.run m i () = e.run true i ()
  sees : ∀ i, match F (S.isPartial i) (S.left i) with
    | .found => ∃ c v j, e.answer i = .ok c v j
    | .absent => e.answer i = .soft
    | .unknown => ∃ x, e.answer i = .hard x ∧ S.E.isEoi x = true
    | .broken => ∃ x, e.answer i = .hard x
  stable : ∀ a x live, F true a ≠ .unknown → F live (a ++ x) = F true a

/-- What a parser that can be fed sees. -/
def sightOf {T β : Type} (D : Den T β) (live : Bool) (a : List T) : Sight :=
  match D live a with
  | .ok _ _ _ => .found
  | .pend => .unknown
  | .soft => .absent
  | .hard => .broken

/-- Where a given sequence begins: it is found, or the tokens differ from it, or they end too early. -/
def sequenceSight {T τ : Type} (cmp : τ → T → Bool) (live : Bool) : List τ → List T → Sight
  | [], _ => .found
  | c :: cs, t :: a => if cmp c t then sequenceSight cmp live cs a else .absent
  | _ :: _, [] => if live then .unknown else .absent

/-- What looking for a marker between elements can give: the elements before the first marker and the tokens from there on;
nothing can be said without more input; or there is neither a marker nor an element. -/
inductive Hunt (T α : Type) where
  | found (vs : List α) (rest : List T)
  | more
  | lost

namespace Hunt

variable {T α : Type}

/-- With the elements `us` in front. -/
def pre (us : List α) : Hunt T α → Hunt T α
  | found vs r => found (us ++ vs) r
  | more => more
  | lost => lost

/-- At most `n` elements are read; `live` tells whether more input may follow. -/
def seekN (F : Bool → List T → Sight) (D : Den T α) : Nat → Bool → List T → Hunt T α
  | 0, _, _ => lost
  | n + 1, live, a =>
    match F live a with
    | .found => found [] a
    | .unknown => more
    | .broken => lost
    | .absent =>
      match D live a with
      | .ok _ v r => (seekN F D n live r).pre [v]
      | .pend => more
      | _ => lost

/-- Elements `D` up to the first marker `F`.  Where the marker is not, there has to be an element. -/
def seek (F : Bool → List T → Sight) (D : Den T α) (live : Bool) (a : List T) : Hunt T α :=
  seekN F D (a.length + 1) live a

end Hunt

/-- What came of feeding, without the value. -/
def Fed.forget {T α : Type} : Fed T α → Fed T Unit
  | .ok _ r => .ok () r
  | .more => .more
  | .failed => .failed

end Verif
