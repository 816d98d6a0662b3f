import Verif.Proof.Coherent
import Verif.Spec.Calls

/-!
# C29 error decorators, C34 dispatch!, C37 wrappers around parsers, C41 top level parse,
C44 position and eof
-/

namespace Verif

set_option linter.unusedVariables false

variable {S : Strm} {σ τ υ α β : Type}

/-- A relation between states that is kept by every call makes all histories agree. -/
private theorem calls_eq_of_rel {q : Parser S τ α} {p : Parser S σ α} (rel : τ → σ → Prop)
    (h : ∀ s t, rel s t → ∀ m i, (q.run m i s).res = (p.run m i t).res ∧
      (q.run m i s).inp = (p.run m i t).inp ∧ rel (q.run m i s).st (p.run m i t).st)
    (hs : List (Bool × S.Input)) (s : τ) (t : σ) (hr : rel s t) :
    q.callsFrom s hs = p.callsFrom t hs := by
  induction hs generalizing s t with
  | nil => rfl
  | cons c hs ih =>
    obtain ⟨h1, h2, h3⟩ := h s t hr c.1 c.2
    simp only [Parser.callsFrom, h1, h2, ih _ _ h3]

/-! ## C29 -/

private theorem calls_erase_of_rel {q : Parser S τ α} {p : Parser S σ α} (rel : τ → σ → Prop)
    (h : ∀ s t, rel s t → ∀ m i,
      (q.run m i s).res.mapErr (fun _ => ()) = (p.run m i t).res.mapErr (fun _ => ()) ∧
      (q.run m i s).inp = (p.run m i t).inp ∧ rel (q.run m i s).st (p.run m i t).st)
    (hs : List (Bool × S.Input)) (s : τ) (t : σ) (hr : rel s t) :
    (q.callsFrom s hs).map eraseError = (p.callsFrom t hs).map eraseError := by
  induction hs generalizing s t with
  | nil => rfl
  | cons c hs ih =>
    obtain ⟨h1, h2, h3⟩ := h s t hr c.1 c.2
    simp only [Parser.callsFrom, List.map_cons, eraseError, h1, h2, ih _ _ h3]

/-- **C29.**  For every history of calls, `message` changes nothing but what the errors say. -/
theorem C29_message (p : Parser S σ α) (x : Info S.Tok S.Rng) (hs : List (Bool × S.Input)) :
    ((message p x).calls hs).map eraseError = (p.calls hs).map eraseError := by
  refine calls_erase_of_rel (fun s t => s = t) ?_ hs _ _ rfl
  rintro s _ rfl m i
  simp only [message, Parser.ofMode]
  generalize p.run m i s = o
  obtain ⟨r, j, t⟩ := o
  cases r <;> simp [ParseResult.mapErr]

/-- **C29** for `expected`: not even the errors of a call change (it acts when they are described). -/
theorem C29_expected (p : Parser S σ α) (x : Info S.Tok S.Rng) (hs : List (Bool × S.Input)) :
    (expected p x).calls hs = p.calls hs :=
  calls_eq_of_rel (fun s t => s = t) (by rintro s _ rfl m i; exact ⟨rfl, rfl, rfl⟩) hs _ _ rfl

/-- **C29** for `silent`. -/
theorem C29_silent (p : Parser S σ α) (hs : List (Bool × S.Input)) :
    ((silent p).calls hs).map eraseError = (p.calls hs).map eraseError := by
  refine calls_erase_of_rel (fun s t => s = t) ?_ hs _ _ rfl
  rintro s _ rfl m i
  simp only [silent, Parser.ofMode, Out.mapRes]
  generalize p.run m i s = o
  obtain ⟨r, j, t⟩ := o
  cases r <;> simp [ParseResult.mapErr]

/-- **C29** for the other entry points: `parse_lazy`, `parse_committed_mode` and `parse_stream` of a
decorated parser succeed alike, with the same value, commitment and rest, and fail alike. -/
theorem C29_entry (hS : S.Lawful) {p : Parser S σ α} (hp : Moves p) (x : Info S.Tok S.Rng)
    (q : Parser S σ α) (hq : q = message p x ∨ q = expected p x ∨ q = silent p) (i : S.Input) :
    (Answer.of (q.lazy i).1 (q.lazy i).2).shape = p.shape i ∧
    (Answer.of (q.stream i).1 (q.stream i).2).shape = p.shape i ∧
    (∀ m s, (q.committed m i s).answer.shape = (p.run m i s).answer.shape) := by
  have key : ∀ m i s, (q.run m i s).answer.shape = (p.run m i s).answer.shape := by
    intro m i s
    rcases hq with rfl | rfl | rfl
    · simp only [message, Parser.ofMode]
      generalize p.run m i s = o
      obtain ⟨r, j, t⟩ := o
      cases r <;> rfl
    · rfl
    · simp only [silent, Parser.ofMode, Out.mapRes]
      generalize p.run m i s = o
      obtain ⟨r, j, t⟩ := o
      cases r <;> rfl
  have hc : Coherent q := by
    rcases hq with rfl | rfl | rfl
    · exact .ofMode hS (moves_message hS hp x).run
    · exact .ofMode hS (moves_expected hS hp x).run
    · exact .ofMode hS (moves_silent hS hp).run
  have hi : q.init = p.init := by rcases hq with rfl | rfl | rfl <;> rfl
  have hk : (q.answer i).shape = p.shape i := by
    simp only [Parser.answer, Parser.shape, hi]; exact key true i p.init
  refine ⟨?_, ?_, fun m s => ?_⟩
  · rw [hc.lazy]; exact hk
  · rw [hc.stream]; exact hk
  · rw [hc.committed]; exact key m i s

/-! ## C34 -/

private theorem arm_state {arms : Alts S α τ} (k : Nat) :
    ∃ inj : (arms.arm k).1 → τ, inj (arms.arm k).2.init = arms.initArm k ∧
      ∀ s, arms.isArm k (inj s) = true ∧ ∀ m i,
        arms.resume m i (inj s) = ((arms.arm k).2.run m i s).mapSt inj := by
  induction arms generalizing k with
  | last p => exact ⟨id, rfl, fun s => ⟨rfl, fun m i => rfl⟩⟩
  | cons p ps ih =>
    cases k with
    | zero => exact ⟨Sum.inl, rfl, fun s => ⟨rfl, fun m i => rfl⟩⟩
    | succ k =>
      obtain ⟨inj, h1, h2⟩ := ih k
      refine ⟨fun s => .inr (inj s), by simp [Alts.initArm, ← h1, Alts.arm], fun s => ?_⟩
      obtain ⟨h3, h4⟩ := h2 s
      refine ⟨h3, fun m i => ?_⟩
      simp only [Alts.resume, h4]
      rfl

/-- **C34.**  For every history of calls `dispatch!` gives exactly what the parser of the selected arm
gives; it also adds the same errors. -/
theorem C34_dispatch (arms : Alts S α τ) (k : Nat) (hs : List (Bool × S.Input)) :
    (dispatch arms k).calls hs = (arms.arm k).2.calls hs ∧
    (dispatch arms k).addError = (arms.arm k).2.addError := by
  constructor
  · obtain ⟨inj, h1, h2⟩ := arm_state (arms := arms) k
    refine calls_eq_of_rel (fun s t => s = some (inj t) ∨ (s = none ∧ t = (arms.arm k).2.init)) ?_
      hs _ _ (.inr ⟨rfl, rfl⟩)
    rintro s t (rfl | ⟨rfl, rfl⟩) m i
    · obtain ⟨h3, h4⟩ := h2 t
      simp only [dispatch, Parser.ofMode, h3, if_true, h4, Out.mapSt]
      exact ⟨trivial, trivial, .inl trivial⟩
    · obtain ⟨h3, h4⟩ := h2 (arms.arm k).2.init
      simp only [dispatch, Parser.ofMode, ← h1, h4, Out.mapSt]
      exact ⟨trivial, trivial, .inl trivial⟩
  · show arms.armAddError k = _
    induction arms generalizing k with
    | last p => rfl
    | cons p ps ih =>
      cases k with
      | zero => rfl
      | succ k => exact ih k

/-- **C34.**  A state left behind by another arm (the scrutinee changed between the calls) is replaced:
the selected arm starts from its default state. -/
theorem C34_other_arm (arms : Alts S α τ) (k : Nat) (s : τ) (h : arms.isArm k s = false)
    (m : Bool) (i : S.Input) :
    ((dispatch arms k).run m i (some s)).answer =
      ((arms.arm k).2.run m i (arms.arm k).2.init).answer := by
  obtain ⟨inj, h1, h2⟩ := arm_state (arms := arms) k
  simp only [dispatch, Parser.ofMode, h, Bool.false_eq_true, if_false, ← h1, (h2 _).2, Out.mapSt,
    Out.answer]

/-! ## C37 -/

/-- **C37**: `&mut P`, `Box<P>`, `opaque!`, `lazy`, `parser!` with an explicit partial state. -/
theorem C37_forward (p : Parser S σ α) (hs : List (Bool × S.Input)) :
    (boxed p).calls hs = p.calls hs ∧ (opaqueP p).calls hs = p.calls hs ∧
    (lazyP fun _ => p).calls hs = p.calls hs ∧ (parserMacro p).calls hs = p.calls hs := by
  refine ⟨?_, ?_, ?_, ?_⟩ <;>
  exact calls_eq_of_rel (fun s t => s = t) (by rintro s _ rfl m i; exact ⟨rfl, rfl, rfl⟩) hs _ _ rfl

/-- **C37**: `left` and `right`. -/
theorem C37_either (p : Parser S σ α) (hs : List (Bool × S.Input)) :
    (eitherLeft p τ).calls hs = p.calls hs ∧ (eitherRight p τ).calls hs = p.calls hs := by
  constructor
  · refine calls_eq_of_rel (fun s t => s = some (.inl t) ∨ (s = none ∧ t = p.init)) ?_
      hs _ _ (.inr ⟨rfl, rfl⟩)
    rintro s t (rfl | ⟨rfl, rfl⟩) m i <;> exact ⟨rfl, rfl, .inl rfl⟩
  · refine calls_eq_of_rel (fun s t => s = some (.inr t) ∨ (s = none ∧ t = p.init)) ?_
      hs _ _ (.inr ⟨rfl, rfl⟩)
    rintro s t (rfl | ⟨rfl, rfl⟩) m i <;> exact ⟨rfl, rfl, .inl rfl⟩

/-- **C37**: `factory` runs the parser made for the input of the first call, also when resumed. -/
theorem C37_factory (f : S.Input → Parser S σ α) (init : σ) (m : Bool) (i : S.Input)
    (hinit : (f i).init = init) (hs : List (Bool × S.Input)) (hres : ∀ h ∈ hs, h.1 = false) :
    (factory f init).calls ((m, i) :: hs) = (f i).calls ((m, i) :: hs) := by
  have key : ∀ hs : List (Bool × S.Input), (∀ h ∈ hs, h.1 = false) → ∀ t,
      (factory f init).callsFrom (some i, t) hs = (f i).callsFrom t hs := by
    intro hs
    induction hs with
    | nil => intro _ t; rfl
    | cons h hs ih =>
      obtain ⟨b, j⟩ := h
      intro hres t
      have hb : b = false := hres (b, j) (by simp)
      subst hb
      have hi := ih (fun h hh => hres h (by simp [hh])) ((f i).run false j t).st
      exact congrArg (List.cons _) hi
  cases m <;> simp only [Parser.calls, hinit] <;> exact congrArg (List.cons _) (key hs hres _)

/-- **C37**: `any_partial_state` (and the `Send`/`Sync` variants) answers as the wrapped parser from
its start through every resumed call, up to and including the first one that does not ask to be resumed. -/
theorem C37_any (p : Parser S σ α) (hs : List (Bool × S.Input)) :
    untilDone ((anyPartialState p).calls hs) = untilDone (p.calls hs) := by
  have key : ∀ (hs : List (Bool × S.Input)) (s : Option σ) (t : σ),
      (s = some t ∨ (s = none ∧ t = p.init)) →
      untilDone ((anyPartialState p).callsFrom s hs) = untilDone (p.callsFrom t hs) := by
    intro hs
    induction hs with
    | nil => intro s t _; rfl
    | cons h hs ih =>
      rintro s t (rfl | ⟨rfl, rfl⟩)
      · have hi := ih (some (p.run h.1 h.2 t).st) _ (.inl rfl)
        simp only [Parser.callsFrom, untilDone, anyPartialState, Parser.ofMode, Out.mapSt]
        cases hr : (p.run h.1 h.2 t).res with
        | commitErr e => simp only; exact congrArg (List.cons _) hi
        | _ => rfl
      · have hi := ih (some (p.run h.1 h.2 p.init).st) _ (.inl rfl)
        simp only [Parser.callsFrom, untilDone, anyPartialState, Parser.ofMode]
        cases hr : (p.run h.1 h.2 p.init).res with
        | commitErr e =>
          simp only
          exact congrArg (List.cons _) hi
        | _ => simp only
  exact key hs none p.init (.inr ⟨rfl, rfl⟩)

/-- **C37**: when the wrapped parser's state is not needed again, nothing is stored: after a success or
soft failure of a fresh `any_partial_state` the next call starts from the default state. -/
theorem C37_any_cleared (p : Parser S σ α) (m : Bool) (i : S.Input)
    (h : ∀ e, (p.run m i p.init).res ≠ .commitErr e) :
    ((anyPartialState p).run m i none).st = none := by
  simp only [anyPartialState, Parser.ofMode]

/-- **C37**: `no_partial` answers as the wrapped parser started anew on the given input, whatever the
mode, and a committed failure on partial input gives all the input back. -/
theorem C37_noPartial (hS : S.Lawful) (run : Bool → S.Input → σ → Out S σ α) (init : σ)
    (ae ac : Tracked S.Err → Tracked S.Err) (c : Nat) (hr : ∀ m i s, S.Reach i (run m i s).inp)
    (m : Bool) (i : S.Input) (s : Unit) :
    let p := Parser.ofMode init run ae ac c
    ((noPartial p).run m i s).answer = p.answer i ∧
    (S.isPartial i = true → ∀ e, ((noPartial p).run m i s).res = .commitErr e →
      ((noPartial p).run m i s).inp = i) := by
  intro p
  refine ⟨(Coherent.ofMode (ae := ae) (ac := ac) (c := c) (init := init) hS hr).lazy i, ?_⟩
  intro hi e
  show (Strm.defaultLazy init run i).1 = _ → (Strm.defaultLazy init run i).2 = i
  unfold Strm.defaultLazy
  rw [if_pos hi]
  simp only
  have hreach := hr true i init
  revert hreach
  generalize run true i init = o
  obtain ⟨r, j, t⟩ := o
  intro hreach
  cases r with
  | commitErr e' => simp only [hS.reset_reach hreach, implies_true]
  | _ => intro h; cases h

/-! ## C41 -/

/-- **C41.**  `parse` returns `Ok((v, rest))` exactly when the parser succeeds with `v` leaving `rest`,
and fails exactly when the parser fails. -/
theorem C41_parse (p : Parser S σ α) (hc : Coherent p) (i : S.Input) :
    (∀ v rest, p.parse i = .ok v rest ↔ ∃ c, p.answer i = .ok c v rest) ∧
    ((∃ e, p.parse i = .err e) ↔ p.answer i = .soft ∨ ∃ e, p.answer i = .hard e) := by
  have h := hc.stream i
  unfold Parser.parse
  revert h
  generalize p.stream i = x
  obtain ⟨r, j⟩ := x
  intro h
  rw [← h]
  cases r <;> simp [Answer.of]

/-- **C41.**  A committed failure is reported as it is. -/
theorem C41_committed (p : Parser S σ α) (hc : Coherent p) (i : S.Input) (e : S.Err)
    (h : p.answer i = .hard e) : p.parse i = .err e := by
  have hs := hc.stream i
  unfold Parser.parse
  revert hs
  rw [h]
  generalize p.stream i = x
  obtain ⟨r, j⟩ := x
  intro hs
  cases r <;> simp_all [Answer.of]

/-- **C41.**  When a parser fails without committing, `parse` reads the first item again and reports it
(or the end of the input) as unexpected, then adds what the parser expected. -/
theorem C41_uncommitted (hS : S.Lawful) (init : σ) (run : Bool → S.Input → σ → Out S σ α)
    (ae ac : Tracked S.Err → Tracked S.Err) (c : Nat) (hr : ∀ m i s, S.Reach i (run m i s).inp)
    (i : S.Input) (e : Tracked S.Err) (h : (run true i init).res = .peekErr e) :
    (∀ t j, S.uncons i = (.ok t, j) → (Parser.ofMode init run ae ac c).parse i =
      .err (ae { e with error := S.E.add e.error (S.E.unexpected (.token t)) }).error) ∧
    (S.AtEnd i → (Parser.ofMode init run ae ac c).parse i =
      .err (ae { e with error := S.E.add e.error S.E.endOfInput }).error) := by
  have hreach := hr true i init
  unfold Parser.parse
  simp only [Parser.ofMode, Strm.describing, h, Strm.describe, hS.tryReset_eq hreach]
  constructor
  · intro t j hu
    simp only [hu]
    rw [hS.tryReset_eq ⟨[t], .cons hu (.nil _)⟩]
  · rintro ⟨x, hx⟩
    cases hu : S.uncons i with
    | mk r j =>
      rw [hu] at hx
      cases hx
      rfl

/-! ## C44 -/

/-- **C44.**  `position()` returns the current position and consumes nothing. -/
theorem C44_position (m : Bool) (i : S.Input) (s : Unit) :
    ((position S).run m i s).res = .peekOk (S.position i) ∧ ((position S).run m i s).inp = i :=
  ⟨rfl, rfl⟩

/-- **C44.**  `eof` succeeds exactly at the end of the input; it never consumes anything and never
commits. -/
theorem C44_eof (hS : S.Lawful) (hE : S.EndsOnly) (m : Bool) (i : S.Input) (s : Unit) :
    ((eof S).run m i s).inp = i ∧
    (S.AtEnd i → ((eof S).run m i s).res = .peekOk ()) ∧
    (¬ S.AtEnd i → ∃ e, ((eof S).run m i s).res = .peekErr e) := by
  simp only [eof, Parser.ofLazy, Strm.AtEnd]
  cases hu : S.uncons i with
  | mk r j =>
    cases r with
    | ok t => simp [hS.reset_reach ⟨[t], .cons hu (.nil _)⟩]
    | error e =>
      cases hS.uncons_error hu
      simp [hE _ _ _ hu]

/-- **C44.**  On a stream whose reads may fail in other ways (`read::Stream`): `eof` takes only the end of the input
for the end of the input. -/
theorem C44_eof_only (hS : S.Lawful) (m : Bool) (i : S.Input) (s : Unit) :
    ((eof S).run m i s).inp = i ∧
    ((∃ e, (S.uncons i).1 = .error e ∧ S.E.isEoiS e = true) → ((eof S).run m i s).res = .peekOk ()) ∧
    ((¬ ∃ e, (S.uncons i).1 = .error e ∧ S.E.isEoiS e = true) → ∃ e, ((eof S).run m i s).res = .peekErr e) := by
  simp only [eof, Parser.ofLazy]
  cases hu : S.uncons i with
  | mk r j =>
    cases r with
    | ok t => simp [hS.reset_reach ⟨[t], .cons hu (.nil _)⟩]
    | error e =>
      cases hS.uncons_error hu
      cases he : S.E.isEoiS e <;> simp [he, hS.reset_self]

/-- **C44.**  `spanned(p)` parses as `p`; a failure whose error has an empty span gets the span from
where `p` started to where it stopped. -/
theorem C44_spanned {Q : Type} [DecidableEq Q] (a : S.Pos → Span Q) (b : Span Q → S.Pos)
    (p : Parser S σ α) (m : Bool) (i : S.Input) (s : σ) :
    let o := p.run m i s
    let o' := (spanned a b p).run m i s
    o'.inp = o.inp ∧ o'.st = o.st ∧
    eraseError (o'.res, o'.inp) = eraseError (o.res, o.inp) ∧
    (∀ e, o.res = .commitErr e → o'.res = .commitErr
      (if (a (S.E.position e)).start = (a (S.E.position e)).stop then
        S.E.setPosition e (b ⟨(a (S.position i)).start, (a (S.position o.inp)).stop⟩) else e)) := by
  intro o o'
  have ho : o' = (spanned a b p).run m i s := rfl
  simp only [spanned, Parser.ofMode, Out.mapRes] at ho
  rw [ho]
  have hx : p.run m i s = o := rfl
  rw [hx]
  obtain ⟨r, j, t⟩ := o
  cases r <;> simp [ParseResult.mapErr, eraseError]

/-! ## Concrete cases -/

private abbrev B := sliceS Nat 1

example : ((dispatch (.cons (token B 1) (.last (token B 2))) 1).answer ⟨0, [2, 5]⟩) =
    .ok true 2 ⟨1, [5]⟩ := rfl
/-- Resuming `any_partial_state(many(1))` on a partial stream: the stored elements are kept. -/
example : let P := partialS B
    let q := anyPartialState (many (token P 1))
    (q.calls [(true, ⟨0, [1, 1]⟩), (false, ⟨0, [1, 2]⟩)]).map eraseError =
      [(.commitErr (), ⟨2, []⟩), (.commitOk [1, 1, 1], ⟨1, [2]⟩)] := rfl
example : (eof B).answer ⟨0, []⟩ = .ok false () ⟨0, []⟩ := rfl
example : (∃ e, (B.uncons ⟨0, []⟩).1 = .error e ∧ B.E.isEoiS e = true) ∧
    ¬ ∃ e, (B.uncons ⟨0, [1]⟩).1 = .error e ∧ B.E.isEoiS e = true :=
  ⟨⟨_, rfl, rfl⟩, fun ⟨_, h, _⟩ => nomatch h⟩
example : B.EndsOnly := by
  rintro ⟨_, _ | ⟨a, l⟩⟩ e j h <;> cases h
  rfl

end Verif
