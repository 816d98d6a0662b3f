import Verif.Proof.Coherent

/-!
# C03 ordered choice, C04 attempt, C05 look_ahead and not_followed_by, C06 optional
-/

namespace Verif

set_option linter.unusedVariables false

variable {S : Strm} {σ τ α β : Type}

/-- The answers of the alternatives, in order. -/
def Alts.answers {τ : Type} : Alts S α τ → List (Sem S.Input S.Err α)
  | .last p => [p.answer]
  | .cons p ps => p.answer :: ps.answers

/-! ## C03 -/

private theorem choiceFail_soft (ts : List (Tried S)) (t : Tried S) (j : S.Input) :
    ∃ e, choiceFail (α := α) (ts ++ [t]) = .peekErr e := by
  cases ts <;> exact ⟨_, rfl⟩

private theorem doChoice_answer (hS : S.Lawful) {ps : Alts S α τ} (hm : ∀ q, ps.Mem q → Moves q.2)
    (bp : S.Pos) (tried : List (Tried S)) (i : S.Input) :
    Answer.of (ps.doChoice bp (S.checkpoint i) tried i).res (ps.doChoice bp (S.checkpoint i) tried i).inp
      = Ref.choice ps.answers i ∧
    (∀ e, (ps.doChoice bp (S.checkpoint i) tried i).res = .peekErr e →
      (ps.doChoice bp (S.checkpoint i) tried i).inp = i) := by
  induction ps generalizing tried with
  | last p =>
    have hr := (hm ⟨_, p⟩ rfl).run true i p.init
    simp only [Alts.doChoice, Alts.answers, Ref.choice, Parser.answer, Out.answer]
    cases h : (p.run true i p.init).res with
    | peekErr e =>
      simp only [hS.reset_reach hr]
      obtain ⟨e', he⟩ := choiceFail_soft (α := α) tried ⟨p.addError, e⟩ i
      simp [he, Answer.of]
    | _ => simp [Answer.of]
  | cons p ps ih =>
    have hr := (hm ⟨_, p⟩ (.inl rfl)).run true i p.init
    simp only [Alts.doChoice, Alts.answers, Ref.choice, Parser.answer, Out.answer]
    cases h : (p.run true i p.init).res with
    | peekErr e =>
      simp only [hS.reset_reach hr, Answer.of]
      exact ih (fun q hq => hm q (.inr hq)) _
    | _ => simp [Answer.of]

/-- **C03.**  A tuple choice that is started (in first mode from whatever state, or without a stored
arm) gives the answer of the first alternative, run on the original input, that does not fail softly:
its value, commitment and rest, or its committed error. If there is none it fails softly and leaves the
original input. -/
theorem C03_choice (hS : S.Lawful) {ps : Alts S α τ} (hm : ∀ q, ps.Mem q → Moves q.2)
    (m : Bool) (st : Option τ) (hst : m = true ∨ st = none) (i : S.Input) :
    ((choice ps).run m i st).answer = Ref.choice ps.answers i ∧
    (∀ e, ((choice ps).run m i st).res = .peekErr e → ((choice ps).run m i st).inp = i) := by
  have h : (if m = true then none else st) = none := by
    rcases hst with rfl | rfl <;> simp
  have := doChoice_answer hS hm (S.position i) [] i
  simpa only [choice, Parser.ofMode, choiceRun, h, Out.answer] using this

/-- **C03** for `or`. -/
theorem C03_or (hS : S.Lawful) {p : Parser S σ α} {q : Parser S τ α} (hp : Moves p) (hq : Moves q)
    (i : S.Input) :
    (or p q).answer i = match p.answer i with
      | .soft => q.answer i
      | r => r := by
  have h := (C03_choice hS (ps := .cons p (.last q)) (by
    rintro ⟨_, r⟩ (hr | hr) <;> cases hr
    · exact hp
    · exact hq) true none (.inl rfl) i).1
  refine h.trans ?_
  simp only [Alts.answers, Ref.choice]
  cases p.answer i <;> simp only
  cases q.answer i <;> rfl

private theorem sliceLoop_answer (hS : S.Lawful) {Clean : σ → Prop} {init : σ}
    {all : List (Parser S σ α)} (i : S.Input) (ps : List (Parser S σ α))
    (hm : ∀ q ∈ ps, Moves q ∧ ReusableIn Clean q)
    (k l : Nat) (prev : Option (Tracked S.Err)) (j : S.Input) (hj : S.Reach i j) (st : Nat × σ)
    (hst : Clean st.2) :
    (sliceLoop all true (S.checkpoint i) ps k l prev j st).answer =
      Ref.choice (ps.map (·.answer)) i := by
  induction ps generalizing k l prev j st with
  | nil =>
    cases prev with
    | none => rfl
    | some prev => simp only [sliceLoop, List.map_nil, Ref.choice]; split <;> rfl
  | cons p ps ih =>
    obtain ⟨hp, hc⟩ := hm p (by simp)
    have ih := ih (fun q hq => hm q (by simp [hq]))
    have hsame := hc.same _ hst i
    have hsoft := hc.soft _ hst i
    have hr := hp.run true i st.2
    revert hsame hsoft hr
    simp only [sliceLoop, hS.reset_reach hj, List.map_cons, Ref.choice]
    generalize p.run true i st.2 = o
    obtain ⟨r, k', s'⟩ := o
    intro hsame hsoft hr
    rw [← hsame]
    cases r with
    | peekErr e =>
      have hs := hsoft e rfl
      simp only [show Out.answer (⟨.peekErr e, k', s'⟩ : Out S σ α) = .soft from rfl]
      cases prev with
      | none => exact ih _ _ _ _ hr (_, _) hs
      | some prev =>
        by_cases ho : prev.offset ≠ 1
        · simp only [if_pos ho]
          exact ih _ _ _ _ hr (_, _) hs
        · simp only [if_neg ho]
          exact ih _ _ _ _ hr (_, _) hs
    | _ => rfl

/-- **C03** for slices and arrays.  The alternatives share one state, so they have to leave it usable
for each other. -/
theorem C03_slice (hS : S.Lawful) {Clean : σ → Prop} {init : σ} (all : List (Parser S σ α))
    (hm : ∀ q ∈ all, Moves q ∧ ReusableIn Clean q) (hinit : Clean init) (i : S.Input) :
    (sliceChoice all init).answer i = Ref.choice (all.map (·.answer)) i :=
  sliceLoop_answer (init := init) hS i all hm 0 0 none i (.refl i) (0, init) hinit

/-! ## C04 -/

/-- **C04.**  On complete input `attempt(p)` turns exactly the committed failures into soft ones. -/
theorem C04_attempt (hS : S.Lawful) {p : Parser S σ α} (hp : Moves p) (hc : Coherent p)
    (i : S.Input) (hi : S.isPartial i = false) : (attempt p).answer i = Ref.attempt p.answer i := by
  have h := hc.committed true i p.init
  obtain ⟨ts, hr⟩ := hp.committed true i p.init
  have hpart := hS.reads_isPartial hr
  revert h hpart
  simp only [Parser.answer, attempt, attemptRun, Ref.attempt]
  generalize p.committed true i p.init = o
  obtain ⟨r, j, s⟩ := o
  intro h hpart
  rw [← h]
  cases r with
  | commitErr e => simp [Out.answer, Answer.of, hpart, hi]
  | _ => rfl

/-- **C04** on any input: only a committed end-of-input error of a partial stream is let through. -/
theorem C04_attempt_any (hS : S.Lawful) {p : Parser S σ α} (hp : Moves p) (hc : Coherent p)
    (m : Bool) (i : S.Input) (s : σ) : ((attempt p).run m i s).answer =
      match (p.run m i s).answer with
      | .hard e => if S.isPartial i && S.E.isEoi e then .hard e else .soft
      | r => r := by
  have h := hc.committed m i s
  obtain ⟨ts, hr⟩ := hp.committed m i s
  have hpart := hS.reads_isPartial hr
  revert h hpart
  simp only [attempt, attemptRun]
  generalize p.committed m i s = o
  obtain ⟨r, j, s⟩ := o
  intro h hpart
  rw [← h]
  cases r with
  | commitErr e =>
    simp only [hpart, answer_commitErr]
    by_cases hb : (S.isPartial i && S.E.isEoi e) = true
    · simp only [if_pos hb]; rfl
    · simp only [if_neg hb]; rfl
  | _ => rfl

/-- **C04**, consequence: with `attempt(p).or(q)`, `q` runs on the original input whenever `p` fails,
however far `p` got. -/
theorem C04_or (hS : S.Lawful) {p : Parser S σ α} {q : Parser S τ α} (hp : Moves p) (hc : Coherent p)
    (hq : Moves q) (i : S.Input) (hi : S.isPartial i = false) :
    (or (attempt p) q).answer i = match p.answer i with
      | .ok c v j => .ok c v j
      | .soft => q.answer i
      | .hard _ => q.answer i
      | .abort a => .abort a := by
  rw [C03_or hS (moves_attempt hS hp) hq, C04_attempt hS hp hc i hi, Ref.attempt]
  cases p.answer i <;> rfl

/-! ## C05 -/

/-- **C05.**  `look_ahead(p)` succeeds where `p` does, with its value, and consumes nothing. -/
theorem C05_lookAhead (hS : S.Lawful) {p : Parser S σ α} (hp : Moves p) (hc : Coherent p)
    (i : S.Input) : (lookAhead p).answer i = Ref.lookAhead p.answer i := by
  have h := hc.lazy i
  have hr := hp.lazy i
  revert h hr
  simp only [Parser.answer, lookAhead, Parser.ofLazy, Ref.lookAhead]
  generalize p.lazy i = x
  obtain ⟨r, j⟩ := x
  intro h hr
  rw [← h]
  simp only [hS.reset_reach hr]
  cases r <;> rfl

/-- **C05.**  Whatever `look_ahead` answers, in whatever mode and state, the input is untouched. -/
theorem C05_lookAhead_input (hS : S.Lawful) {p : Parser S σ α} (hp : Moves p) (m : Bool)
    (i : S.Input) (s : Unit) : ((lookAhead p).run m i s).inp = i := by
  have hr := hp.lazy i
  revert hr
  simp only [lookAhead, Parser.ofLazy]
  generalize p.lazy i = x
  obtain ⟨r, j⟩ := x
  intro hr
  simp only [hS.reset_reach hr]
  cases r <;> rfl

/-- **C05.**  `not_followed_by(p)` succeeds exactly where `p` fails. -/
theorem C05_notFollowedBy (hS : S.Lawful) {p : Parser S σ α} (hp : Moves p) (i : S.Input) :
    (notFollowedBy p).answer i = Ref.notFollowedBy p.answer i := by
  have hr := hp.run true i p.init
  revert hr
  simp only [Parser.answer, notFollowedBy, Parser.ofMode, Ref.notFollowedBy]
  generalize p.run true i p.init = o
  obtain ⟨r, j, s⟩ := o
  intro hr
  simp only [hS.tryReset_eq hr]
  cases r <;> rfl

/-- **C05.**  Whatever `not_followed_by` answers, in whatever mode and state, the input is untouched. -/
theorem C05_notFollowedBy_input (hS : S.Lawful) {p : Parser S σ α} (hp : Moves p) (m : Bool)
    (i : S.Input) (s : σ) : ((notFollowedBy p).run m i s).inp = i := by
  have hr := hp.run m i s
  revert hr
  simp only [notFollowedBy, Parser.ofMode]
  generalize p.run m i s = o
  obtain ⟨r, j, s⟩ := o
  intro hr
  simp only [hS.tryReset_eq hr]
  cases r <;> rfl

/-! ## C06 -/

/-- **C06**, in any mode and state. -/
theorem C06_optional_any (hS : S.Lawful) {p : Parser S σ α} (hp : Moves p) (m : Bool) (i : S.Input)
    (s : σ) : ((optional p).run m i s).answer =
      Ref.optional (fun i => (p.run m i s).answer) i := by
  have hr := hp.run m i s
  revert hr
  simp only [optional, Parser.ofMode, Ref.optional]
  generalize p.run m i s = o
  obtain ⟨r, j, s⟩ := o
  intro hr
  cases r with
  | peekErr e => simp only [hS.tryReset_eq hr]; rfl
  | _ => rfl

/-- **C06.**  `optional(p)`. -/
theorem C06_optional (hS : S.Lawful) {p : Parser S σ α} (hp : Moves p) (i : S.Input) :
    (optional p).answer i = Ref.optional p.answer i := C06_optional_any hS hp true i p.init

/-! ## Concrete cases -/

private abbrev B := sliceS Nat 1
private abbrev ab := pair (token B 1) (token B 2)
private abbrev ac := pair (token B 1) (token B 3)

/-- `(1,2)` commits on `1 3`, so `or` fails; with `attempt` the second alternative is taken. -/
example : (∃ e, (or ab ac).answer ⟨0, [1, 3]⟩ = .hard e) ∧
    (or (attempt ab) ac).answer ⟨0, [1, 3]⟩ = .ok true (1, 3, ()) ⟨2, []⟩ :=
  ⟨⟨_, rfl⟩, rfl⟩
example : (optional ab).answer ⟨0, [4]⟩ = .ok false none ⟨0, [4]⟩ := rfl
example : (lookAhead ab).answer ⟨0, [1, 2]⟩ = .ok false (1, 2, ()) ⟨0, [1, 2]⟩ := rfl
example : (notFollowedBy ab).answer ⟨0, [1, 3]⟩ = .ok false () ⟨0, [1, 3]⟩ := rfl
example : (sliceChoice [token B 1, token B 2] ()).answer ⟨0, [2, 5]⟩ = .ok true 2 ⟨1, [5]⟩ := rfl
example : Moves ab ∧ Coherent ab :=
  ⟨Built.moves (R := sliceR Nat 1) (slice_lawful _ _) (sliceR_lawful _ _) (.pair (.token _) (.token _)),
    Built.coherent (R := sliceR Nat 1) (slice_lawful _ _) (sliceR_lawful _ _) (.pair (.token _) (.token _))⟩

end Verif
