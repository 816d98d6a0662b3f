import Verif.Spec.Answer

/-!
# Reference semantics of sequences
-/

namespace Verif

variable {S : Strm}

/-- The members in order, each where the previous one stopped; the values in order. -/
def Ref.seq {τ β : Type} : Seq S τ β → Sem S.Input Unit β
  | .nil => Ref.value ()
  | .cons p ps => Ref.bind p.shape fun x => Ref.map (Ref.seq ps) fun y => (x, y)

/-- A parser that neither panics nor loops, in any mode, on any input and from any state. -/
def NeverAborts {σ α : Type} (p : Parser S σ α) : Prop :=
  ∀ m i s a, (p.run m i s).res ≠ .abort a

end Verif
