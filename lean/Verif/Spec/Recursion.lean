import Verif.Spec.Answer
import Verif.Spec.Behaved
import Verif.Model.Choice
import Verif.Model.Sequence

/-!
# Recursive grammars

`fn expr() -> impl Parser { body(expr()) }`: `body` is a function from the parser called recursively to
the parser of the whole.  `recur body init n` (`Model/Combinator.lean`) unfolds it `n` times; the call
below the last one never comes back.
-/

namespace Verif

variable {S : Strm} {σ τ α β : Type}

/-- On every input with fewer than `n` tokens left (complete input for `b = false`, partial input for
`b = true`) the two give the same answer, and it is neither a panic nor an endless loop. -/
def AgreeBelow (S : Strm) (b : Bool) (n : Nat) (m m' : Sem S.Input Unit α) : Prop :=
  ∀ i, S.isPartial i = b → S.size i < n → m i = m' i ∧ ∀ a, m i ≠ .abort a

/-- `f` calls the parser it is given only after having consumed `k` tokens: what `f` answers on inputs
of fewer than `n + k` tokens is settled by what the parser answers on fewer than `n`.  `Hole` is what
is known about the parser (for instance that it consumes something when it succeeds). -/
def Guarded (b : Bool) (k : Nat) (Hole : Parser S τ α → Prop) (f : Parser S τ α → Parser S σ β) : Prop :=
  ∀ n q q', Hole q → Hole q' → AgreeBelow S b n q.shape q'.shape →
    AgreeBelow S b (n + k) (f q).shape (f q').shape

/-- For calls after `p`: `rest` further tokens before the recursive call make `k` in all. -/
def Reaches (k rest : Nat) (Hole : Parser S τ α → Prop) (f : Parser S τ α → Parser S σ β) : Prop :=
  k ≤ rest ∨ (k ≤ rest + 1 ∧ ∀ q, Hole q → Consuming (f q))

/-- The same for the members of a tuple: recursive calls in a later member come after what the members before it consume. -/
inductive GuardedSeq (b : Bool) (Hole : Parser S τ α → Prop) : {ρ β : Type} → Nat → (Parser S τ α → Seq S ρ β) → Prop where
  | nil {k : Nat} : GuardedSeq b Hole k (fun _ => .nil)
  | cons {σ ρ β γ : Type} {k r : Nat} {f : Parser S τ α → Parser S σ β} {g : Parser S τ α → Seq S ρ γ} :
      Guarded b k Hole f → (∀ q, Hole q → Moves (f q)) → Reaches k r Hole f → GuardedSeq b Hole r g →
      GuardedSeq b Hole k (fun q => .cons (f q) (g q))

/-- The same for the alternatives of a choice, which all start at the same place. -/
inductive GuardedAlts (b : Bool) (k : Nat) (Hole : Parser S τ α → Prop) : {ρ β : Type} → (Parser S τ α → Alts S β ρ) → Prop where
  | last {σ β : Type} {f : Parser S τ α → Parser S σ β} : Guarded b k Hole f → (∀ q, Hole q → Moves (f q)) →
      GuardedAlts b k Hole (fun q => .last (f q))
  | cons {σ ρ β : Type} {f : Parser S τ α → Parser S σ β} {g : Parser S τ α → Alts S β ρ} : Guarded b k Hole f →
      (∀ q, Hole q → Moves (f q)) → GuardedAlts b k Hole g → GuardedAlts b k Hole (fun q => .cons (f q) (g q))

end Verif
