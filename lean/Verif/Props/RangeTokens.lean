import Verif.Proof.RangeLemmas
import Verif.Props.Tokens

/-!
# `range` and `take` (C40)
-/

namespace Verif

variable {S : Strm} {R : RangeOps S} {toks : S.Rng → List S.Tok} {w : S.Tok → Nat}

private theorem wrap_shape {α : Type} (i : S.Input) (e : S.SErr) :
    (Answer.of (S.wrapStreamError (α := α) i e) i).shape = if S.isPartial i then .hard () else .soft := by
  simp only [Strm.wrapStreamError]
  cases S.isPartial i <;> rfl

/-- **C40.**  `range`. -/
theorem C40_range [DecidableEq S.Rng] (hR : R.Lawful toks w) (r : S.Rng) (i : S.Input) :
    S.IsRange toks w r i ((range R r).shape i) := by
  simp only [Parser.shape, Parser.answer, Out.answer, range, Parser.ofLazy]
  cases hx : R.unconsRange (R.len r) i with
  | mk x j =>
    cases x with
    | ok other =>
      obtain ⟨h1, h2⟩ := hR.range_ok hx
      rw [hR.len, hR.len] at h2
      by_cases h : other = r
      · subst h
        exact .inl ⟨j, h1, by simp [Answer.of, Answer.shape]⟩
      · refine .inr (.inl ⟨?_, .inr ⟨_, _, h1, h2⟩, by simp [h, Answer.of, Answer.shape]⟩)
        rintro ⟨k, hk⟩
        exact h (hR.inj (reads_weight_unique hR.pos h1 hk h2).1)
    | error e =>
      obtain ⟨rfl, h2⟩ := hR.range_error hx
      rw [hR.len] at h2
      have h3 := wrap_shape (α := S.Rng) j e
      cases hp : S.isPartial j with
      | false =>
        rw [hp] at h3
        exact .inr (.inl ⟨fun ⟨k, hk⟩ => h2 _ _ hk rfl, .inl hp, h3⟩)
      | true =>
        rw [hp] at h3
        exact .inr (.inr ⟨hp, h2, h3⟩)

/-- **C40.**  `take`. -/
theorem C40_take (hR : R.Lawful toks w) (n : Nat) (i : S.Input) : S.IsTake toks w n i ((take R n).shape i) := by
  simp only [Parser.shape, Parser.answer, Out.answer, take, Parser.ofLazy, RangeOps.unconsRangeP]
  cases hx : R.unconsRange n i with
  | mk x j =>
    cases x with
    | ok r =>
      obtain ⟨h1, h2⟩ := hR.range_ok hx
      rw [hR.len] at h2
      refine .inl ⟨r, j, h1, h2, ?_⟩
      by_cases h : n = 0 <;> simp [h, Answer.of, Answer.shape]
    | error e =>
      obtain ⟨rfl, h2⟩ := hR.range_error hx
      exact .inr ⟨h2, wrap_shape _ _⟩

-- A prefix, something else of that size, and an input that is too short; a partial input asks for more.
example : (range (sliceR Nat 1) [1, 2]).answer ⟨0, [1, 2, 3]⟩ = .ok true [1, 2] ⟨2, [3]⟩ := rfl
example : (range (sliceR Nat 1) [1, 2]).shape ⟨0, [1, 3]⟩ = .soft := rfl
example : (range (sliceR Nat 1) [1, 2]).shape ⟨0, [1]⟩ = .soft := rfl
example : (range (partialR (sliceR Nat 1)) [1, 2]).shape ⟨0, [1]⟩ = .hard () := rfl
example : (range (partialR (sliceR Nat 1)) [1, 2]).shape ⟨0, [3, 4]⟩ = .soft := rfl
-- The first token decides already, but `range` waits for as many as it needs.
example : (range (partialR (sliceR Nat 1)) [1, 2]).shape ⟨0, [3]⟩ = .hard () := rfl

end Verif
