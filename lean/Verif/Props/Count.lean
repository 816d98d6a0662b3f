import Verif.Model.Count
import Verif.Props.Sequence
import Verif.Proof.SliceLaws

/-!
# C74: sequences of any size

The program counts the parsers of a sequence in a `u8`.
-/

namespace Verif

variable {S : Strm} {σ τ α β : Type}

/-- **C74.**  In a build with overflow checks the count of a sequence is the number of its parsers, if that is at most 255, and
otherwise asking for it is a panic. -/
theorem C74_count_checked {p : Parser S σ α} {c : Option Nat} (h : CountsChecked p c) :
    c = if p.count ≤ 255 then some p.count else none := by
  refine CountsChecked.rec (motive_1 := fun p c _ => c = if p.count ≤ 255 then some p.count else none)
    (motive_2 := fun c ps d _ => ∀ n, (c = if n ≤ 255 then some n else none) →
      d = if n + ps.counts ≤ 255 then some (n + ps.counts) else none) ?_ ?_ ?_ ?_ h
  · intro _ _ p h
    rw [if_pos h]
  · intro _ _ _ _ p ps c d _ _ h3 h4
    exact h4 p.count h3
  · intro c n h
    exact h
  · intro _ _ _ _ p ps c d e _ _ h3 h4 n hn
    have h5 := h4 (n + p.count) (by
      subst hn h3
      unfold addChecked
      by_cases h5 : n ≤ 255
      · by_cases h6 : p.count ≤ 255
        · simp only [if_pos h5, if_pos h6]
        · rw [if_pos h5, if_neg h6, if_neg (by omega)]
      · rw [if_neg h5, if_neg (show ¬ n + p.count ≤ 255 by omega)])
    rw [h5, Seq.counts, Nat.add_assoc]

/-- **C74.**  In a release build it is the number of its parsers modulo 256. -/
theorem C74_count_wrapping {p : Parser S σ α} {c : Nat} (h : CountsWrapping p c) : c = p.count % 256 := by
  refine CountsWrapping.rec (motive_1 := fun p c _ => c = p.count % 256)
    (motive_2 := fun c ps d _ => ∀ n, c = n % 256 → d = (n + ps.counts) % 256) ?_ ?_ ?_ ?_ h
  · intro _ _ p h
    omega
  · intro _ _ _ _ p ps c d _ _ h3 h4
    exact h4 p.count h3
  · intro c n h
    exact h
  · intro _ _ _ _ p ps c d e _ _ h3 h4 n hn
    rw [h4 (n + p.count) (by subst hn h3; unfold addWrapping; omega), Seq.counts, Nat.add_assoc]

/-- The members of a tuple that are small. -/
def Seq.Small {τ β : Type} : Seq S τ β → Prop
  | .nil => True
  | .cons p ps => p.count ≤ 255 ∧ ps.Small

private theorem counted_small {p : Parser S σ α} (h : p.count ≤ 255) : counted p = p := by
  unfold counted
  simp only [if_pos h]
  have : (fun m i s => match (p.run m i s).res with
      | .commitOk _ => p.run m i s
      | .peekOk _ => p.run m i s
      | _ => p.run m i s) = p.run := by
    funext m i s
    cases (p.run m i s).res <;> rfl
  exact congrArg (fun r => { p with run := r }) this

private theorem counted_seq {ps : Seq S τ β} (h : ps.Small) : ps.counted = ps := by
  induction ps with
  | nil => rfl
  | cons p ps ih => rw [Seq.counted, counted_small h.1, ih h.2]

/-- **C74, partial.**  A tuple whose members count at most 255 parsers each works in a build with overflow checks exactly as
described in `C12`.  (Missing: larger ones, see `C74_checked_fails`.) -/
theorem C74_checked_partial {p : Parser S σ α} {ps : Seq S τ β} (hp : p.count ≤ 255) (h : ps.Small) :
    tupleChecked p ps = tuple p ps := by
  rw [tupleChecked, counted_small hp, counted_seq h]

/-- **C74.**  In a release build a tuple parses the same, however many parsers it has: its members in order. -/
theorem C74_release (p : Parser S σ α) (ps : Seq S τ β) (i : S.Input) : (tupleWrapping p ps).shape i = Ref.seq (.cons p ps) i := by
  have h : ∀ {τ β : Type} (ps : Seq S τ β) (i : S.Input), Ref.seq (ps.recount (· % 256)) i = Ref.seq ps i := by
    intro τ β ps
    induction ps with
    | nil => exact fun _ => rfl
    | cons p ps ih =>
      intro i
      rw [Seq.recount, Ref.seq, Ref.seq, show Ref.seq (ps.recount (· % 256)) = Ref.seq ps from funext ih]
      rfl
  rw [tupleWrapping, C12_tuple]
  rw [Ref.seq, Ref.seq, show Ref.seq (ps.recount (· % 256)) = Ref.seq ps from funext (h ps)]
  rfl

/-- **C74.**  What goes wrong: when the first member of a tuple counts more than 255 parsers, the build with overflow checks panics
on every input on which that member succeeds. -/
theorem C74_checked_panics {p : Parser S σ α} (ps : Seq S τ β) (hp : 255 < p.count) {i j : S.Input} {c : Bool} {v : α}
    (h : p.shape i = .ok c v j) : (tupleChecked p ps).shape i = .abort .panic := by
  have h1 : (counted p).shape i = .abort .panic := by
    revert h
    unfold Parser.shape Parser.answer counted
    simp only [if_neg (Nat.not_le.2 hp)]
    generalize p.run true i p.init = o
    obtain ⟨r, k, t⟩ := o
    cases r <;> intro h <;> first | rfl | cases h
  rw [tupleChecked, C12_tuple, Ref.seq, Ref.bind, h1]

/-! ## Concrete cases -/

private abbrev B := sliceS Nat 1

private abbrev x := any B

/-- Twenty tokens. -/
private def any20 := tuple x (.cons x (.cons x (.cons x (.cons x (.cons x (.cons x (.cons x (.cons x (.cons x (.cons x (.cons x (.cons x
  (.cons x (.cons x (.cons x (.cons x (.cons x (.cons x (.cons x .nil)))))))))))))))))))

/-- 260 tokens: thirteen times twenty. -/
private def any260 := tuple any20 (.cons any20 (.cons any20 (.cons any20 (.cons any20 (.cons any20 (.cons any20 (.cons any20
  (.cons any20 (.cons any20 (.cons any20 (.cons any20 (.cons any20 .nil))))))))))))

set_option maxRecDepth 20000 in
/-- **C74, violated.**  `(t, any())` where `t` is a tuple of thirteen tuples of twenty `any()`: the release build reads 261 tokens,
the build with overflow checks panics on the same input. -/
theorem C74_checked_fails :
    (∃ v, (tuple any260 (.cons x .nil)).shape (⟨0, List.replicate 261 7⟩ : B.Input) = .ok true v ⟨261, []⟩) ∧
    (tupleChecked any260 (.cons x .nil)).shape (⟨0, List.replicate 261 7⟩ : B.Input) = .abort .panic := by
  constructor
  · exact ⟨_, rfl⟩
  · exact C74_checked_panics (c := true) (j := ⟨260, [7]⟩) _ (by decide) rfl

-- the hypotheses are met: the counts of the two
example : CountsChecked any20 (some 20) :=
  .tuple (.one (by decide)) <| .cons (.one (by decide)) <| .cons (.one (by decide)) <| .cons (.one (by decide)) <|
    .cons (.one (by decide)) <| .cons (.one (by decide)) <| .cons (.one (by decide)) <| .cons (.one (by decide)) <|
    .cons (.one (by decide)) <| .cons (.one (by decide)) <| .cons (.one (by decide)) <| .cons (.one (by decide)) <|
    .cons (.one (by decide)) <| .cons (.one (by decide)) <| .cons (.one (by decide)) <| .cons (.one (by decide)) <|
    .cons (.one (by decide)) <| .cons (.one (by decide)) <| .cons (.one (by decide)) <| .cons (.one (by decide)) .nil
example : any260.count = 260 := rfl
example : tupleChecked any20 (.cons any20 .nil) = tuple any20 (.cons any20 .nil) := C74_checked_partial (by decide) ⟨by decide, trivial⟩

end Verif
