import Verif.Props.ExactRanges
import Verif.Props.LengthPrefix

/-!
# C63, C60: exactly which texts the parsers that look ahead, and those that take a given size, accept
-/

namespace Verif

variable {S : Strm} {σ τ α β : Type} {L : Texts S.Tok α}

private theorem one_cases {f : S.Tok → Option α} {i : S.Input} {a : Answer S.Input Unit α} (h : S.IsOne f i a) :
    (∃ t v j, S.ahead i = some t ∧ f t = some v ∧ a = .ok true v j) ∨
    ((∀ t, S.ahead i = some t → f t = none) ∧ (a = .soft ∨ a = .hard () ∧ S.isPartial i = true)) := by
  rcases h with ⟨t, j, h1, h2⟩ | ⟨⟨e, h1⟩, h2⟩
  · rw [ahead_some h1]
    cases hf : f t with
    | some v => rw [hf] at h2; exact .inl ⟨t, v, j, rfl, hf, h2⟩
    | none => rw [hf] at h2; exact .inr ⟨fun t' h => by cases h; exact hf, .inl h2⟩
  · have : S.ahead i = none := by rw [Strm.ahead, h1]
    refine .inr ⟨fun t h => (by rw [this] at h; cases h), ?_⟩
    cases hp : S.isPartial i with
    | true => rw [hp] at h2; exact .inr ⟨h2, rfl⟩
    | false => rw [hp] at h2; exact .inl h2

private theorem shape_lookAhead (hS : S.Lawful) {p : Parser S σ α} (hm : Moves p) (hc : Coherent p) (i : S.Input) :
    (lookAhead p).shape i = Ref.lookAhead p.shape i := by
  rw [Parser.shape, C05_lookAhead hS hm hc]
  simp only [Ref.lookAhead, Parser.shape]
  cases p.answer i <;> rfl

private theorem shape_notFollowedBy (hS : S.Lawful) {p : Parser S σ α} (hm : Moves p) (i : S.Input) :
    (notFollowedBy p).shape i = Ref.notFollowedBy p.shape i := by
  rw [Parser.shape, C05_notFollowedBy hS hm]
  simp only [Ref.notFollowedBy, Parser.shape]
  cases p.answer i <;> rfl

/-- **C63.**  `look_ahead` of a parser of one token: nothing is consumed, and such a token follows. -/
theorem C63_is_look_ahead (hS : S.Lawful) {p : Parser S σ α} (hm : Moves p) (hc : Coherent p) {f : S.Tok → Option α}
    (h : ∀ i, S.IsOne f i (p.shape i)) : Describes (fun w v o => w = [] ∧ ∃ t, o = some t ∧ f t = some v) (lookAhead p) := by
  constructor
  · rintro w v i k hi hr ⟨rfl, t, h1, h2⟩
    obtain rfl := Strm.reads_nil.1 hr
    refine (shape_lookAhead hS hm hc _).trans ?_
    rcases one_cases (h _) with ⟨t', v', j, g1, g2, g3⟩ | ⟨g1, _⟩
    · rw [h1] at g1
      cases g1
      rw [h2] at g2
      cases g2
      rw [Ref.lookAhead, g3]
      rfl
    · rw [g1 t h1] at h2; cases h2
  · intro i c v k hs
    have hs := (shape_lookAhead hS hm hc i).symm.trans hs
    rcases one_cases (h i) with ⟨t', v', j, g1, g2, g3⟩ | ⟨g1, g2 | ⟨g2, _⟩⟩
    · rw [Ref.lookAhead, g3] at hs
      cases hs
      exact ⟨[], .nil _, rfl, rfl, t', g1, g2⟩
    · rw [Ref.lookAhead, g2] at hs; cases hs
    · rw [Ref.lookAhead, g2] at hs; cases hs

/-- **C63.**  It fails where no such token follows. -/
theorem C63_is_look_ahead_fails (hS : S.Lawful) {p : Parser S σ α} (hm : Moves p) (hc : Coherent p) {f : S.Tok → Option α}
    (h : ∀ i, S.IsOne f i (p.shape i)) : FailsBy (fun o => ∀ t, o = some t → f t = none) (lookAhead p) := by
  constructor
  · intro i hi h1
    refine (shape_lookAhead hS hm hc _).trans ?_
    rcases one_cases (h i) with ⟨t', v', j, g1, g2, g3⟩ | ⟨g1, g2 | ⟨g2, g3⟩⟩
    · rw [h1 t' g1] at g2; cases g2
    · rw [Ref.lookAhead, g2]
    · rw [hi] at g3; cases g3
  · intro i hs
    have hs := (shape_lookAhead hS hm hc i).symm.trans hs
    rcases one_cases (h i) with ⟨t', v', j, g1, g2, g3⟩ | ⟨g1, _⟩
    · rw [Ref.lookAhead, g3] at hs; cases hs
    · exact g1

/-- **C63.**  `not_followed_by` of a parser of one token: nothing is consumed, and no such token follows. -/
theorem C63_is_not_followed_by (hS : S.Lawful) {p : Parser S σ α} (hm : Moves p) {f : S.Tok → Option α}
    (h : ∀ i, S.IsOne f i (p.shape i)) :
    Describes (fun w _ o => w = [] ∧ ∀ t, o = some t → f t = none) (notFollowedBy p) := by
  constructor
  · rintro w v i k hi hr ⟨rfl, h1⟩
    obtain rfl := Strm.reads_nil.1 hr
    refine (shape_notFollowedBy hS hm _).trans ?_
    rcases one_cases (h _) with ⟨t', v', j, g1, g2, g3⟩ | ⟨g1, g2 | ⟨g2, g3⟩⟩
    · rw [h1 t' g1] at g2; cases g2
    · rw [Ref.notFollowedBy, g2]; rfl
    · rw [Ref.notFollowedBy, g2]; rfl
  · intro i c v k hs
    have hs := (shape_notFollowedBy hS hm i).symm.trans hs
    rcases one_cases (h i) with ⟨t', v', j, g1, g2, g3⟩ | ⟨g1, g2 | ⟨g2, _⟩⟩
    · rw [Ref.notFollowedBy, g3] at hs; cases hs
    · rw [Ref.notFollowedBy, g2] at hs
      cases hs
      exact ⟨[], .nil _, rfl, rfl, g1⟩
    · rw [Ref.notFollowedBy, g2] at hs
      cases hs
      exact ⟨[], .nil _, rfl, rfl, g1⟩

/-- **C63.**  It fails where such a token follows. -/
theorem C63_is_not_followed_by_fails (hS : S.Lawful) {p : Parser S σ α} (hm : Moves p) {f : S.Tok → Option α}
    (h : ∀ i, S.IsOne f i (p.shape i)) : FailsBy (fun o => ∃ t v, o = some t ∧ f t = some v) (notFollowedBy p) := by
  constructor
  · rintro i hi ⟨t, v, h1, h2⟩
    refine (shape_notFollowedBy hS hm _).trans ?_
    rcases one_cases (h i) with ⟨t', v', j, g1, g2, g3⟩ | ⟨g1, _⟩
    · rw [Ref.notFollowedBy, g3]
    · rw [g1 t h1] at h2; cases h2
  · intro i hs
    have hs := (shape_notFollowedBy hS hm i).symm.trans hs
    rcases one_cases (h i) with ⟨t', v', j, g1, g2, g3⟩ | ⟨g1, g2 | ⟨g2, _⟩⟩
    · exact ⟨t', v', g1, g2⟩
    · rw [Ref.notFollowedBy, g2] at hs; cases hs
    · rw [Ref.notFollowedBy, g2] at hs; cases hs

section
variable {R : RangeOps S} {toks : S.Rng → List S.Tok} {wt : S.Tok → Nat}

private theorem weight_zero (hR : R.Lawful toks wt) (w : List S.Tok) : decide (weight wt w ≠ 0) = !w.isEmpty := by
  cases w with
  | nil => rfl
  | cons t w =>
    have := hR.pos t
    simp [weight]
    omega

/-- **C63.**  `take(n)`: whatever has that size. -/
theorem C63_is_take (hR : R.Lawful toks wt) (n : Nat) : Describes (fun w r _ => toks r = w ∧ weight wt w = n) (take R n) := by
  constructor
  · rintro w r i k hi hr ⟨rfl, rfl⟩
    exact C60_take (F := fun _ => True) hR r i k hi hr trivial
  · intro i c r k h
    rcases C40_take hR n i with ⟨r', l, h1, h2, h3⟩ | ⟨_, h3⟩
    · rw [h3] at h
      cases h
      exact ⟨toks r, h1, by rw [← h2, weight_zero hR], rfl, h2⟩
    · rw [h3] at h
      revert h
      split <;> intro h <;> cases h

/-- **C63.**  `length_prefix`: a length, and then whatever has that size. -/
theorem C63_is_length_prefix (hS : S.Lawful) (hR : R.Lawful toks wt) {len : Parser S σ α} (hm : Moves len) (hp : Describes L len)
    (toUsize : α → Except S.SErr Nat) :
    Describes (L.bind fun v w r _ => toks r = w ∧ toUsize v = .ok (weight wt w)) (lengthPrefix R len toUsize) := by
  have hc : ∀ n, Coherent (take R n) := fun n => .ofLazy hS fun i => by
    simp only [RangeOps.unconsRangeP]
    cases hx : R.unconsRange n i with
    | mk x k =>
      cases x with
      | ok r => exact ⟨_, (hR.range_ok hx).1⟩
      | error e => rw [(hR.range_error hx).1]; exact .refl i
  have h1 := C63_is_then (f := fun n => take R n) (n := ()) hS (fun _ => rfl) hc (C63_is_and_then hS hm hp toUsize)
    (C63_is_take hR)
  have h2 : ∀ i, (lengthPrefix R len toUsize).shape i = (thenP (andThen len toUsize) (fun n => take R n) ()).shape i := by
    intro i
    rw [C13_then hS (andThen len toUsize) (fun n => take R n) () (fun _ => rfl) hc i,
      ← C13_thenPartial hS (andThen len toUsize) (fun n => (take R n, n)) () (fun _ => rfl) hc i]
    simp only [lengthPrefix, parserMacroUnit, Parser.shape, Parser.answer, Parser.ofMode]
    rfl
  have h3 : Describes _ (lengthPrefix R len toUsize) :=
    ⟨fun w v i k hi hr h => (h2 i).trans (h1.back w v i k hi hr h), fun i c v k h => h1.only i c v k ((h2 i).symm.trans h)⟩
  refine C63_is_iff h3 fun w r o => ?_
  constructor
  · rintro ⟨u, z, n, rfl, ⟨v, g1, g2⟩, g3, rfl⟩
    exact ⟨u, z, v, rfl, g1, g3, g2⟩
  · rintro ⟨u, z, v, rfl, g1, g2, g3⟩
    exact ⟨u, z, _, rfl, ⟨v, g1, g3⟩, g2, rfl⟩

end

/-! ## Concrete cases -/

private abbrev B := sliceS Nat 1
private abbrev R := sliceR Nat 1

private abbrev digit (t : Nat) : Option Nat := if t < 10 then some t else none

-- the hypotheses are met: a digit that is not followed by another, and a digit that says how many tokens come next
example : ∃ K, Describes K (skip (satisfyMap B digit) (notFollowedBy (satisfyMap B digit))) ∧
    ∃ K', Describes K' (lengthPrefix R (satisfyMap B digit) .ok) ∧ ∃ K'', Describes K'' (lookAhead (satisfyMap B digit)) := by
  have hS := slice_lawful Nat 1
  have hd := C53_satisfy_map (S := B) hS digit
  have hm := moves_satisfyMap (S := B) hS digit
  exact ⟨_, C63_is_skip hS (C63_is_one hd) (C63_is_not_followed_by hS hm hd), _,
    C63_is_length_prefix hS (sliceR_lawful _ _) hm (C63_is_one hd) _, _,
    C63_is_look_ahead hS hm (Coherent.ofLazy hS hm.lazy) hd⟩

example : (lengthPrefix R (satisfyMap B digit) .ok).shape ⟨0, [2, 11, 12, 13]⟩ = .ok true [11, 12] ⟨3, [13]⟩ := rfl
example : (skip (satisfyMap B digit) (notFollowedBy (satisfyMap B digit))).shape ⟨0, [2, 11]⟩ = .ok true 2 ⟨1, [11]⟩ := rfl
example : (skip (satisfyMap B digit) (notFollowedBy (satisfyMap B digit))).shape ⟨0, [2, 3]⟩ = .hard () := rfl

end Verif
