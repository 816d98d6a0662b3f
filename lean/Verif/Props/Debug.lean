import Verif.Props.Repeat
import Verif.Props.Monad
import Verif.Spec.Resume

/-!
# C70: builds with debug assertions

`then`, `then_partial`, `then_ref` and `many1` contain `debug_assert!`s that the state they find, when they are to start anew, is not
what an abandoned call has left.  A parse by one of them, and a repetition of it, never trips over its assertion; inside `attempt` in
a repetition it does, and the program panics in debug builds only.
-/

namespace Verif

variable {S : Strm} {σ τ α β : Type} {p : Parser S σ α} {stale : σ → Bool}

/-- **C70.**  Where the assertion holds, and in every resumed call, the build makes no difference. -/
theorem C70_run (m : Bool) (i : S.Input) (s : σ) (h : m = true → stale s = false) :
    (checked p stale).run m i s = p.run m i s := by
  cases m with
  | false => rfl
  | true => simp only [checked, Parser.ofMode, Bool.true_and, h rfl, Bool.false_eq_true, if_false]

/-- **C70.**  Where it does not, the program panics. -/
theorem C70_panics (i : S.Input) (s : σ) (h : stale s = true) : (checked p stale).run true i s = ⟨.abort .panic, i, s⟩ := by
  simp only [checked, Parser.ofMode, h, Bool.and_self, if_true]

/-- A check that the state of a finished call passes. -/
structure Passes (stale : σ → Bool) (p : Parser S σ α) : Prop where
  init : stale p.init = false
  keep : ∀ i s, stale s = false → (p.run true i s).res.kept false = true → stale (p.run true i s).st = false

theorem Passes.answer (h : Passes stale p) : (checked p stale).answer = p.answer := by
  funext i
  exact congrArg Out.answer (C70_run true i p.init fun _ => h.init)

/-- Feeding input piece by piece only resumes. -/
theorem Passes.feed (mk : Nat → List S.Tok → Bool → S.Input) (o : Bool) (n : Nat) (s : σ) (u : List S.Tok) (cs : List (List S.Tok)) :
    feed (checked p stale) mk o n s u cs = feed p mk o n s u cs := by
  induction cs generalizing n s u with
  | nil => rfl
  | cons c cs ih =>
    have e : (checked p stale).parseWithState = p.parseWithState := rfl
    simp only [Verif.feed, e, ih]

theorem Passes.keeps {Clean : σ → Prop} (h : Passes stale p) (hp : Keeps false Clean p) :
    Keeps false (fun s => Clean s ∧ stale s = false) (checked p stale) where
  init := ⟨hp.init, h.init⟩
  same := fun s s' hs hs' i => by
    rw [C70_run true i s fun _ => hs.2, C70_run true i s' fun _ => hs'.2]
    exact hp.same s s' hs.1 hs'.1 i
  keep := fun s hs i hk => by
    rw [C70_run true i s fun _ => hs.2] at hk ⊢
    exact ⟨hp.keep s hs.1 i hk, h.keep i s hs.2 hk⟩

theorem moves_checked (hS : S.Lawful) (hp : Moves p) : Moves (checked p stale) :=
  .ofMode hS fun m i s => by
    split
    · exact .refl i
    · exact hp.run m i s

theorem passes_then (p : Parser S σ α) (f : α → Parser S τ β) (n : τ) : Passes (·.2.1.isSome) (thenP p f n) := by
  refine ⟨rfl, fun i s hs => ?_⟩
  simp only [thenP, Parser.ofMode, if_true]
  generalize p.run true i s.1 = o
  obtain ⟨r, j, t⟩ := o
  cases r with
  | commitOk v =>
    simp only
    generalize (f v).committed true j s.2.2 = o'
    obtain ⟨r', j', t'⟩ := o'
    cases r' <;> intro hk <;> first | rfl | cases hk
  | peekOk v =>
    simp only
    generalize (f v).committed true j s.2.2 = o'
    obtain ⟨r', j', t'⟩ := o'
    cases r' <;> intro hk <;> first | rfl | cases hk
  | peekErr e => intro _; exact hs
  | commitErr e => intro hk; cases hk
  | abort a => intro hk; cases hk

theorem passes_thenRef (p : Parser S σ α) (f : α → Parser S τ β) (n : τ) : Passes (·.2.1.isSome) (thenRef p f n) := by
  refine ⟨rfl, fun i s hs => ?_⟩
  simp only [thenRef, Parser.ofMode, if_true]
  generalize p.run true i s.1 = o
  obtain ⟨r, j, t⟩ := o
  cases r with
  | commitOk v =>
    simp only
    generalize (f v).committed true j s.2.2 = o'
    obtain ⟨r', j', t'⟩ := o'
    cases r' <;> intro hk <;> first | rfl | cases hk
  | peekOk v =>
    simp only
    generalize (f v).committed true j s.2.2 = o'
    obtain ⟨r', j', t'⟩ := o'
    cases r' <;> intro hk <;> first | rfl | cases hk
  | peekErr e => intro _; exact hs
  | commitErr e => intro hk; cases hk
  | abort a => intro hk; cases hk

theorem passes_thenPartial (p : Parser S σ α) (f : α → Parser S τ β × α) (n : τ) : Passes (·.2.1.isSome) (thenPartial p f n) := by
  refine ⟨rfl, fun i s hs => ?_⟩
  simp only [thenPartial, Parser.ofMode, if_true]
  generalize p.run true i s.1 = o
  obtain ⟨r, j, t⟩ := o
  cases r with
  | commitOk v =>
    simp only
    generalize (f v).1.committed true j s.2.2 = o'
    obtain ⟨r', j', t'⟩ := o'
    cases r' <;> intro hk <;> first | rfl | cases hk
  | peekOk v =>
    simp only
    generalize (f v).1.committed true j s.2.2 = o'
    obtain ⟨r', j', t'⟩ := o'
    cases r' <;> intro hk <;> first | rfl | cases hk
  | peekErr e => intro _; exact hs
  | commitErr e => intro hk; cases hk
  | abort a => intro hk; cases hk

private theorem fast_ok {E : Type} (r : ParseResult α E) (h : r.kept false = true) (hp : ∀ e, r ≠ .peekErr e) : r.isOk = true := by
  cases r with
  | peekErr e => exact (hp e rfl).elim
  | commitErr e => cases h
  | abort a => cases h
  | _ => rfl

theorem passes_many1 (p : Parser S σ α) : Passes (·.parsedOne) (many1 p) := by
  refine ⟨rfl, fun i s hs => ?_⟩
  simp only [many1, Parser.ofMode, Bool.true_or, if_true]
  generalize p.run true i s.child = o
  obtain ⟨r, j, t⟩ := o
  have rest : ∀ c els, (many1Rest p true j ⟨true, c, els, t⟩).res.kept false = true →
      (many1Rest p true j ⟨true, c, els, t⟩).st.parsedOne = false := by
    intro c els hk
    have h1 := fast_ok _ hk fun e => by
      simp only [many1Rest, IterS.intoResultFast]
      split
      · split <;> exact fun h => by cases h
      · split <;> exact fun h => by cases h
      · exact fun h => by cases h
      · exact fun h => by cases h
    exact if_pos h1
  cases r with
  | commitOk v => exact rest _ _
  | peekOk v => exact rest _ _
  | peekErr e => intro _; exact hs
  | commitErr e => intro hk; cases hk
  | abort a => intro hk; cases hk

/-- **C70.**  A parse is the same in both builds. -/
theorem C70_parse (i : S.Input) :
    (∀ (p : Parser S σ α) (f : α → Parser S τ β) (n : τ), (thenDebug p f n).parse i = (thenP p f n).parse i) ∧
    (∀ (p : Parser S σ α) (f : α → Parser S τ β × α) (n : τ), (thenPartialDebug p f n).parse i = (thenPartial p f n).parse i) ∧
    (∀ (p : Parser S σ α) (f : α → Parser S τ β) (n : τ), (thenRefDebug p f n).parse i = (thenRef p f n).parse i) ∧
    (∀ p : Parser S σ α, (many1Debug p).parse i = (many1 p).parse i) :=
  ⟨fun _ _ _ => rfl, fun _ _ _ => rfl, fun _ _ _ => rfl, fun _ => rfl⟩

/-- **C70.**  So is what they tell about themselves in the reports of others. -/
theorem C70_report :
    (∀ (p : Parser S σ α) (f : α → Parser S τ β) (n : τ), (thenDebug p f n).part = (thenP p f n).part) ∧
    (∀ (p : Parser S σ α) (f : α → Parser S τ β × α) (n : τ), (thenPartialDebug p f n).part = (thenPartial p f n).part) ∧
    (∀ (p : Parser S σ α) (f : α → Parser S τ β) (n : τ), (thenRefDebug p f n).part = (thenRef p f n).part) ∧
    (∀ p : Parser S σ α, (many1Debug p).part = (many1 p).part) :=
  ⟨fun _ _ _ => rfl, fun _ _ _ => rfl, fun _ _ _ => rfl, fun _ => rfl⟩

/-- **C70.**  So is input that comes in pieces. -/
theorem C70_feed (mk : Nat → List S.Tok → Bool → S.Input) (o : Bool) (cs : List (List S.Tok)) :
    (∀ (p : Parser S σ α) (f : α → Parser S τ β) (n : τ),
      feed (thenDebug p f n) mk o 0 (thenDebug p f n).init [] cs = feed (thenP p f n) mk o 0 (thenP p f n).init [] cs) ∧
    (∀ (p : Parser S σ α) (f : α → Parser S τ β × α) (n : τ),
      feed (thenPartialDebug p f n) mk o 0 (thenPartialDebug p f n).init [] cs =
        feed (thenPartial p f n) mk o 0 (thenPartial p f n).init [] cs) ∧
    (∀ (p : Parser S σ α) (f : α → Parser S τ β) (n : τ),
      feed (thenRefDebug p f n) mk o 0 (thenRefDebug p f n).init [] cs = feed (thenRef p f n) mk o 0 (thenRef p f n).init [] cs) ∧
    (∀ p : Parser S σ α, feed (many1Debug p) mk o 0 (many1Debug p).init [] cs = feed (many1 p) mk o 0 (many1 p).init [] cs) :=
  ⟨fun _ _ _ => Passes.feed .., fun _ _ _ => Passes.feed .., fun _ _ _ => Passes.feed .., fun _ => Passes.feed ..⟩

/-- **C70.**  A repetition is, if the parts can be used again after they succeeded or failed softly. -/
theorem C70_many (hS : S.Lawful) {Clean : σ → Prop} (hm : Moves p) (hk : Keeps false Clean p) (hc : Consuming p)
    (h : Passes stale p) (i : S.Input) : (many (checked p stale)).answer i = (many p).answer i := by
  have hc' : Consuming (checked p stale) := by
    intro i c v j
    rw [h.answer]
    exact hc i c v j
  have h1 := C07_many hS (moves_checked hS hm) (h.keeps hk).reusable hc' i
  rw [h.answer] at h1
  exact C07_unique h1 (C07_many hS hm hk.reusable hc i)

/-- **C70.**  In particular that of `then`. -/
theorem C70_many_then (hS : S.Lawful) {Clean : σ → Prop} {C : τ → Prop} {f : α → Parser S τ β} {n : τ} (hm : Moves p)
    (hf : ∀ a, Moves (f a)) (hk : Keeps false Clean p) (hn : C n) (hk' : ∀ a, Keeps false C (f a)) (hst : ∀ a, Std (f a))
    (hc : Consuming (thenP p f n)) (i : S.Input) : (many (thenDebug p f n)).answer i = (many (thenP p f n)).answer i :=
  C70_many hS (moves_thenP hS hm hf n) (keeps_thenP hS hn hk hk' hst fun a => (hf a).run) hc (passes_then p f n) i

/-- **C70.**  And that of `many1`. -/
theorem C70_many_many1 (hS : S.Lawful) {Clean : σ → Prop} (hm : Moves p) (hk : Keeps false Clean p) (hc : Consuming (many1 p))
    (i : S.Input) : (many (many1Debug p)).answer i = (many (many1 p)).answer i :=
  C70_many hS (moves_many1 hS hm) (keeps_many1 hk) hc (passes_many1 p) i

/-! ## Concrete cases -/

private abbrev B := sliceS Nat 1

private abbrev twice (n : Nat) := pair (token B n) (token B n)
private abbrev debug := thenDebug (any B) twice ⟨none, (), ((none, ()), ()), 0⟩
private abbrev release := thenP (any B) twice ⟨none, (), ((none, ()), ()), 0⟩

example : debug.answer ⟨0, [1, 1, 1, 2]⟩ = .ok true (1, 1, ()) ⟨3, [2]⟩ := rfl
example : (many debug).answer ⟨0, [1, 1, 1, 2, 2, 2]⟩ = .ok true [(1, 1, ()), (2, 2, ())] ⟨6, []⟩ := rfl

/-- **C70, violated.**  `many((optional(attempt(any().then(|n| (token(n), token(n))))), any()))` on `1 1 2 5`: the first attempt fails
after its continuation has read a token, so the continuation stays in the cache; the second round starts anew and the assertion at
sequence.rs:652 fails.  The release build succeeds. -/
theorem C70_then_fails :
    (many (pair (optional (attempt debug)) (any B))).answer ⟨0, [1, 1, 2, 5]⟩ = .abort .panic ∧
    (many (pair (optional (attempt release)) (any B))).answer ⟨0, [1, 1, 2, 5]⟩ =
      .ok true [(none, 1, ()), (none, 1, ()), (none, 2, ()), (none, 5, ())] ⟨4, []⟩ := ⟨rfl, rfl⟩

/-- **C70, violated.**  The same with `many1` (repeat.rs:476). -/
theorem C70_many1_fails :
    (many (pair (optional (attempt (many1Debug (pair (token B 1) (token B 2))))) (any B))).answer ⟨0, [1, 2, 1, 5]⟩ = .abort .panic ∧
    (many (pair (optional (attempt (many1 (pair (token B 1) (token B 2))))) (any B))).answer ⟨0, [1, 2, 1, 5]⟩ =
      .ok true [(none, 1, ()), (none, 2, ()), (none, 1, ()), (none, 5, ())] ⟨4, []⟩ := ⟨rfl, rfl⟩

end Verif
