import Verif.Proof.RangeLemmas
import Verif.Proof.Reuse
import Verif.Proof.SliceLaws
import Verif.Proof.BuiltMoves
import Verif.Model.Byte
import Verif.Spec.Ranges

/-!
# C18: `recognize`
-/

namespace Verif

set_option linter.unusedVariables false

variable {S : Strm} {R : RangeOps S} {toks : S.Rng → List S.Tok} {w : S.Tok → Nat} {σ τ α β : Type}

/-- What is consumed by a successful parser, as a range, beside its value.  Consuming nothing is
not committed. -/
def Strm.IsRecognized (S : Strm) (toks : S.Rng → List S.Tok) {E : Type} (p : Sem S.Input E α) (i : S.Input)
    (a : Answer S.Input E (S.Rng × α)) : Prop :=
  match p i with
  | .ok _ v j => ∃ r, S.Reads i (toks r) j ∧ a = .ok (!(toks r).isEmpty) (r, v) j
  | .soft => a = .soft
  | .hard e => a = .hard e
  | .abort x => a = .abort x

/-- **C18.**  `recognize_with_value(p)` succeeds exactly where `p` does, with its value and the slice of the
input it consumed. -/
theorem C18_recognize_with_value (hS : S.Lawful) (hR : R.Lawful toks w) {p : Parser S σ α} (hm : Moves p)
    (i : S.Input) : S.IsRecognized toks p.answer i ((recognizeWithValue R p).answer i) := by
  have h1 := hm.run true i p.init
  unfold Strm.IsRecognized
  have e : (recognizeWithValue R p).answer i = (match (p.run true i p.init).res with
    | .commitOk x => retake R (S.checkpoint i) (0, (p.run true i p.init).st) (p.run true i p.init).inp fun r => (r, x)
    | .peekOk x => retake R (S.checkpoint i) (0, (p.run true i p.init).st) (p.run true i p.init).inp fun r => (r, x)
    | .peekErr e => ⟨.peekErr e, (p.run true i p.init).inp, (0, (p.run true i p.init).st)⟩
    | .commitErr e =>
      S.tryReset (S.checkpoint i) (p.run true i p.init).inp
        (R.distance (p.run true i p.init).inp (S.checkpoint i), (p.run true i p.init).st)
        fun j => ⟨.commitErr e, j, (R.distance (p.run true i p.init).inp (S.checkpoint i), (p.run true i p.init).st)⟩
    | .abort a => ⟨.abort a, (p.run true i p.init).inp, (0, (p.run true i p.init).st)⟩).answer := by
      simp only [Parser.answer, recognizeWithValue, Parser.ofMode, if_true]
      cases (p.run true i p.init).res <;> rfl
  rw [e]
  simp only [Parser.answer]
  revert h1
  generalize p.run true i p.init = o
  obtain ⟨r, j, s⟩ := o
  rintro ⟨ts, h1⟩
  have key : ∀ x : α, ∃ r, S.Reads i (toks r) j ∧
      (retake R (S.checkpoint i) (0, s) j fun r => (r, x)).answer = .ok (!(toks r).isEmpty) (r, x) j := by
    intro x
    obtain ⟨r, h2, h3⟩ := retake_eq hS hR h1 (0, s) fun r => (r, x)
    subst h2
    refine ⟨r, h1, ?_⟩
    rw [h3]
    by_cases hz : toks r = [] <;> simp [hz, Out.answer, Answer.of]
  cases r with
  | commitOk x => exact key x
  | peekOk x => exact key x
  | peekErr x => rfl
  | commitErr x =>
    simp only
    rw [hS.tryReset_eq ⟨ts, h1⟩]
    rfl
  | abort x => rfl

/-- **C18.**  `range::recognize(p)` is the same without the value. -/
theorem C18_recognize_range (hS : S.Lawful) (hR : R.Lawful toks w) {p : Parser S σ α} (hm : Moves p)
    (i : S.Input) : ∃ a, S.IsRecognized toks p.answer i a ∧ (recognizeRange R p).answer i = a.map Prod.fst := by
  refine ⟨_, C18_recognize_with_value hS hR hm i, ?_⟩
  have e : (recognizeRange R p).answer i =
    ((recognizeWithValue R p).run true i (recognizeWithValue R p).init |>.mapRes (·.map fun x => x.1)).answer := rfl
  rw [e]
  simp only [Parser.answer]
  generalize (recognizeWithValue R p).run true i (recognizeWithValue R p).init = o
  obtain ⟨r, j, s⟩ := o
  cases r <;> rfl

/-- On a slice: the result followed by what remains is the input. -/
theorem C18_recognize_slice {T : Type} (sz : Nat) {p : Parser (sliceS T sz) σ α} (hm : Moves p) (i j : Slice T)
    (r : List T) (v : α) (c : Bool) (h : (recognizeWithValue (sliceR T sz) p).answer i = .ok c (r, v) j) :
    (∃ c', p.answer i = .ok c' v j) ∧ i.data = r ++ j.data := by
  have h1 := C18_recognize_with_value (slice_lawful T sz) (sliceR_lawful T sz) hm i
  unfold Strm.IsRecognized at h1
  rw [h] at h1
  cases hp : p.answer i with
  | ok c' v' j' =>
    rw [hp] at h1
    obtain ⟨r', h2, h3⟩ := h1
    cases h3
    exact ⟨⟨c', rfl⟩, (slice_reads.1 h2).1⟩
  | soft => rw [hp] at h1; cases h1
  | hard e => rw [hp] at h1; cases h1
  | abort e => rw [hp] at h1; cases h1

/-! ## `combinator::recognize`, into a collection of tokens -/

/-- **C18.**  `recognize(p)` succeeds exactly where `p` does, and gives the tokens `p` consumed. -/
theorem C18_recognize (hS : S.Lawful) (hp : S.Positioned) {p : Parser S σ α} (hm : Moves p) (i : S.Input) :
    match p.answer i with
    | .ok c v j => ∃ ts, S.Reads i ts j ∧ (recognize p).answer i = .ok c ts j
    | .soft => (recognize p).answer i = .soft
    | .hard e => (recognize p).answer i = .hard e
    | .abort x => (recognize p).answer i = .abort x := by
  have h1 := hm.run true i p.init
  have e : (recognize p).answer i = ((recognize p).run true i ([], p.init)).answer := rfl
  rw [e]
  simp only [Parser.answer, recognize, Parser.ofMode]
  revert h1
  generalize p.run true i p.init = o
  obtain ⟨r, j, s⟩ := o
  rintro ⟨ts, h1⟩
  simp only at h1
  have hl := hS.reads_size h1
  have hr := replay_eq hS hp h1 (S.size i + 1) (by omega) []
  simp only [List.nil_append] at hr
  cases r with
  | commitOk x =>
    simp only
    rw [hS.tryReset_eq ⟨ts, h1⟩, hr]
    exact ⟨ts, h1, rfl⟩
  | peekOk x =>
    simp only
    rw [hS.tryReset_eq ⟨ts, h1⟩, hr]
    exact ⟨ts, h1, rfl⟩
  | peekErr x => rfl
  | commitErr x =>
    simp only
    rw [hS.tryReset_eq ⟨ts, h1⟩, hr]
    rfl
  | abort x => rfl

/-- Slices of tokens that occupy memory tell places apart. -/
theorem slice_positioned (T : Type) (sz : Nat) (h : 0 < sz) : (sliceS T sz).Positioned := by
  intro i ts j hr hp
  obtain ⟨h1, h2⟩ := slice_reads.1 hr
  have hp' : i.ptr = j.ptr := hp
  cases ts with
  | nil => rfl
  | cons t ts =>
    have h3 : 0 < sz * (t :: ts).length := Nat.mul_pos h (by simp)
    omega

/-! ## Where the code deviates -/

private abbrev B := sliceS Nat 1

/-- **C18** is violated on streams whose positions do not tell places apart, such as an `IteratorStream`
(whose position is `()`): everything is given back and the result is empty. -/
theorem C18_no_positions :
    (recognize (token (iterS Nat) 1)).answer [1, 2] = .ok true [] [1, 2] ∧
    (token (iterS Nat) 1).answer [1, 2] = .ok true 1 [2] := ⟨rfl, rfl⟩

/-- **C18** is violated where the state is used again after an abandoned call: what that had read is prepended.
In `many((optional(attempt(recognize((1, 2)))), any))` on `1 3 1 2 4` the last element should contain `1 2`. -/
theorem C18_stale_elements :
    (many (pair (optional (attempt (recognize (pair (token B 1) (token B 2))))) (any B))).answer
      ⟨0, [1, 3, 1, 2, 4]⟩ =
      .ok true [(none, 1, ()), (none, 3, ()), (some [1, 3, 1, 2], 4, ())] ⟨5, []⟩ ∧
    (pair (optional (attempt (recognize (pair (token B 1) (token B 2))))) (any B)).answer ⟨2, [1, 2, 4]⟩ =
      .ok true (some [1, 2], 4, ()) ⟨5, []⟩ := ⟨rfl, rfl⟩

/-! ## Examples -/

private theorem el_moves : Moves (pair (token B 1) (token B 2)) :=
  Built.moves (R := sliceR Nat 1) (slice_lawful _ _) (sliceR_lawful _ _) (.pair (.token _) (.token _))

example (i : B.Input) : B.IsRecognized id (pair (token B 1) (token B 2)).answer i
    ((recognizeWithValue (sliceR Nat 1) (pair (token B 1) (token B 2))).answer i) :=
  C18_recognize_with_value (slice_lawful _ _) (sliceR_lawful _ _) el_moves i
example : (recognizeWithValue (sliceR Nat 1) (pair (token B 1) (token B 2))).answer ⟨0, [1, 2, 3]⟩ =
    .ok true ([1, 2], (1, 2, ())) ⟨2, [3]⟩ := rfl
example : (recognize (pair (token B 1) (token B 2))).answer ⟨0, [1, 2, 3]⟩ = .ok true [1, 2] ⟨2, [3]⟩ := rfl
example : B.Positioned := slice_positioned _ _ (by decide)

end Verif
