import Verif.Spec.Sequence

/-!
# `chainr1` as it is written

The right operand of an operator is a whole chain; after it the loop goes on, and an operator that no operand follows is
dropped.
-/

namespace Verif.Ref

variable {I α : Type}

mutual
/-- The answer of `chainr1(p, op)` at a place. -/
inductive IsChainr1 (p : Sem I Unit α) (op : Sem I Unit (α → α → α)) : I → Answer I Unit α → Prop where
  | fails {i a} : p i = a → (∀ c v j, a ≠ .ok c v j) → IsChainr1 p op i a
  | operand {i c v j a} : p i = .ok c v j → IsChainr1Rest p op c v j a → IsChainr1 p op i a
/-- The answer after `l` was found; `c` tells whether anything was committed. -/
inductive IsChainr1Rest (p : Sem I Unit α) (op : Sem I Unit (α → α → α)) : Bool → α → I → Answer I Unit α → Prop where
  | done {c l i} : op i = .soft → IsChainr1Rest p op c l i (.ok c l i)
  | opHard {c l i e} : op i = .hard e → IsChainr1Rest p op c l i (.hard e)
  | opAbort {c l i e} : op i = .abort e → IsChainr1Rest p op c l i (.abort e)
  | again {c l i d f j e r k a} : op i = .ok d f j → IsChainr1 p op j (.ok e r k) →
      IsChainr1Rest p op (c || d || e) (f l r) k a → IsChainr1Rest p op c l i a
  | dropped {c l i d f j} : op i = .ok d f j → IsChainr1 p op j .soft → IsChainr1Rest p op c l i (.ok (c || d) l j)
  | hard {c l i d f j e} : op i = .ok d f j → IsChainr1 p op j (.hard e) → IsChainr1Rest p op c l i (.hard e)
  | abort {c l i d f j e} : op i = .ok d f j → IsChainr1 p op j (.abort e) → IsChainr1Rest p op c l i (.abort e)
end

end Verif.Ref
