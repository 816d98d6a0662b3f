import Verif.Model.Choice
import Verif.Spec.Answer
import Verif.Spec.Laws

/-!
# What the report of a failure should say

A failing parser should report the place where it could not go on, what it found there, and what could have come there instead.
-/

namespace Verif

/-- The bare error of a failure at `k`: at the end of the input it carries the error of the stream. -/
def Strm.bare (S : Strm) (k : S.Input) : S.Err :=
  match (S.uncons k).1 with
  | .ok _ => S.E.empty (S.position k)
  | .error e => S.E.fromError (S.position k) e

/-- An error at the place `k` that says what was found there. -/
def Strm.found (S : Strm) (k : S.Input) : S.Err :=
  match (S.uncons k).1 with
  | .ok t => S.E.add (S.E.empty (S.position k)) (S.E.unexpected (.token t))
  | .error e => S.E.fromError (S.position k) e

/-- The report of a failure at `k`: what was found there, and then `xs`. -/
def Strm.told (S : Strm) (k : S.Input) (xs : List S.SErr) : S.Err := xs.foldl S.E.add (S.found k)

/-- `xs` is added to an error, and nothing else is changed. -/
def Strm.AddsAll (S : Strm) (f : Tracked S.Err → Tracked S.Err) (xs : List S.SErr) : Prop :=
  ∀ e off, f ⟨e, off⟩ = ⟨xs.foldl S.E.add e, off⟩

/-- What the error type has to provide: the end of the input can be told twice, errors are put at their own place, merging an
error with itself changes nothing, and a label replaces the expectations that were added under it. -/
structure Strm.Plain (S : Strm) : Prop where
  again : ∀ i e j, S.uncons i = (.error e, j) → ∀ q, S.E.add (S.E.fromError q e) S.E.endOfInput = S.E.fromError q e
  place : ∀ q e, S.E.setPosition (S.E.fromError q e) q = S.E.fromError q e
  twice : ∀ i, S.E.merge (S.bare i) (S.bare i) = S.bare i
  label : ∀ (t : Tracked S.Err) (x : Info S.Tok S.Rng) (ys : List (Info S.Tok S.Rng)) (f : Tracked S.Err → Tracked S.Err),
    (f t).error = (ys.map S.E.expected).foldl S.E.add t.error →
    (S.E.setExpected t (S.E.expected x) f).error = S.E.add t.error (S.E.expected x) ∧
    (S.E.setExpected t (S.E.expected x) f).offset = (f t).offset

variable {S : Strm} {σ α : Type}

/-- `p` fails at `i` without having consumed anything, with the offset `off`, and then adds `xs` to the error. -/
def Reports (p : Parser S σ α) (i : S.Input) (off : Nat) (xs : List S.SErr) : Prop :=
  (∃ j s ts, S.Reads i ts j ∧ p.run true i p.init = ⟨.peekErr ⟨S.bare i, off⟩, j, s⟩) ∧
    ∀ e, (p.addError ⟨e, off⟩).error = xs.foldl S.E.add e ∧ (p.addError ⟨e, off⟩).offset ≤ 1

/-- `parse` describes errors in the way that all parsers but `attempt` and its like do. -/
def DescribesOnce (p : Parser S σ α) : Prop :=
  ∀ i, p.stream i = ((Strm.describing p.addError (p.run true) i p.init).res, (Strm.describing p.addError (p.run true) i p.init).inp)

/-- The members of a sequence go on at `i` without consuming anything, until one of them fails there.  `xs` is what all of them
wanted to see. -/
inductive Halts (i : S.Input) : {τ β : Type} → Seq S τ β → Nat → List S.SErr → Prop where
  | fail {σ τ α β : Type} {q : Parser S σ α} {qs : Seq S τ β} {off : Nat} {xs : List S.SErr} :
      Reports q i off xs → Halts i (.cons q qs) off xs
  | peek {σ τ α β : Type} {q : Parser S σ α} {qs : Seq S τ β} {v : α} {off : Nat} {xs ys : List S.SErr} :
      q.answer i = .ok false v i → S.AddsAll q.addError xs → 1 ≤ q.count → Halts i qs off ys → Halts i (.cons q qs) off (xs ++ ys)

/-- The members of a sequence go on from `i` to `k`; after the last one that consumed something, which could have gone on with the
first ones of `xs`, the next ones fail as in `Halts`. -/
inductive Breaks (k : S.Input) : {τ β : Type} → Seq S τ β → S.Input → List S.SErr → Prop where
  | last {σ τ α β : Type} {q : Parser S σ α} {qs : Seq S τ β} {i : S.Input} {v : α} {off : Nat} {xs ys : List S.SErr} :
      q.answer i = .ok true v k → S.AddsAll q.addCommitted xs → Halts k qs off ys → Breaks k (.cons q qs) i (xs ++ ys)
  | next {σ τ α β : Type} {q : Parser S σ α} {qs : Seq S τ β} {i j : S.Input} {c : Bool} {v : α} {xs : List S.SErr} :
      q.answer i = .ok c v j → Breaks k qs j xs → Breaks k (.cons q qs) i xs

/-- All the alternatives fail at `i` at once; `xs` is what they wanted. -/
inductive AltsReport (i : S.Input) : {σ : Type} → Alts S α σ → List S.SErr → Prop where
  | last {σ : Type} {p : Parser S σ α} {xs : List S.SErr} : Reports p i 1 xs → AltsReport i (.last p) xs
  | cons {σ τ : Type} {p : Parser S σ α} {ps : Alts S α τ} {xs ys : List S.SErr} : Reports p i 1 xs → AltsReport i ps ys →
      AltsReport i (.cons p ps) (xs ++ ys)

/-- The next token, if there is one, is none of those that satisfy `P`. -/
def Strm.Lacks (S : Strm) (P : S.Tok → Prop) (i : S.Input) : Prop := ∀ t j, S.uncons i = (.ok t, j) → ¬ P t

end Verif
