import Verif.Spec.Sequence
import Verif.Spec.Behaved

/-!
# Termination

In the model every loop runs on fuel and running out of it is the answer `abort diverge`; a panic is
`abort panic`.  `NeverAborts p` (`Spec/Sequence.lean`) therefore says: whatever earlier calls left in the
state, in either mode and on any input, `p` returns, and returns without a panic.
-/

namespace Verif

variable {S : Strm} {σ α : Type}

/-- Whenever a call that starts anew succeeds, it has read at least one token, whatever earlier calls
left in the state. -/
def Progress (p : Parser S σ α) : Prop :=
  ∀ i s, (p.run true i s).res.isOk = true → ∃ t ts, S.Reads i (t :: ts) (p.run true i s).inp

/-- `NeverAborts` relative to an invariant of the state. -/
structure SafeIn (Inv : σ → Prop) (p : Parser S σ α) : Prop where
  init : Inv p.init
  run : ∀ m i s, Inv s → (∀ a, (p.run m i s).res ≠ .abort a) ∧ Inv (p.run m i s).st

end Verif
