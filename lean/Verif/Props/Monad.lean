import Verif.Proof.Coherent

/-!
# C13: map / flat_map / then laws; C32: and_then
-/

namespace Verif

set_option linter.unusedVariables false

variable {S : Strm} {σ τ υ α β γ : Type}

/-! ## C13 -/

/-- **C13.**  `map` changes the value only, in any mode and state: same commitment, same rest, same
errors, same state. -/
theorem C13_map (p : Parser S σ α) (f : α → β) (m : Bool) (i : S.Input) (s : σ) :
    ((map p f).run m i s).answer = (p.run m i s).answer.map f ∧
    ((map p f).run m i s).st = (p.run m i s).st ∧
    (∀ e, ((map p f).run m i s).res = .peekErr e ↔ (p.run m i s).res = .peekErr e) := by
  simp only [map, Parser.ofMode, Out.mapRes]
  generalize p.run m i s = o
  obtain ⟨r, j, t⟩ := o
  cases r <;> simp [ParseResult.map, Out.answer, Answer.of, Answer.map]

theorem C13_map_map (p : Parser S σ α) (f : α → β) (g : β → γ) :
    (map (map p f) g).run = (map p (g ∘ f)).run := by
  funext m i s
  simp only [map, Parser.ofMode, Out.mapRes]
  generalize p.run m i s = o
  obtain ⟨r, j, t⟩ := o
  cases r <;> rfl

/-- **C13.**  `flat_map`: the function decides; its error is committed exactly when `p` was. -/
theorem C13_flatMap (p : Parser S σ α) (f : α → Except S.Err β) (i : S.Input) :
    (flatMap p f).answer i = match p.answer i with
      | .ok c v j =>
        match f v with
        | .ok w => .ok c w j
        | .error e => if c then .hard e else .soft
      | .soft => .soft
      | .hard e => .hard e
      | .abort a => .abort a := by
  simp only [Parser.answer, flatMap, Parser.ofMode, Out.mapRes]
  generalize p.run true i p.init = o
  obtain ⟨r, j, t⟩ := o
  cases r with
  | commitOk v => simp only [answer_commitOk]; cases f v <;> rfl
  | peekOk v => simp only [answer_peekOk]; cases f v <;> rfl
  | _ => rfl

private theorem thenMerge_shape (c : Bool) (o : Out S τ β) (s : σ) :
    ((⟨thenMerge c o.res, o.inp, s⟩ : Out S σ β).answer).shape = o.answer.shape.after c := by
  obtain ⟨r, j, t⟩ := o
  cases r <;> cases c <;> rfl

/-- **C13.**  `then(f)` runs `f(v)` on the input left by `p`, and is committed if either part was. -/
theorem C13_then (hS : S.Lawful) (p : Parser S σ α) (f : α → Parser S τ β) (n : τ)
    (hn : ∀ a, (f a).init = n) (hc : ∀ a, Coherent (f a)) (i : S.Input) :
    (thenP p f n).shape i = Ref.bind p.shape (fun a => (f a).shape) i := by
  simp only [Parser.shape, Parser.answer, thenP, Parser.ofMode, Ref.bind, if_true]
  generalize p.run true i p.init = o
  obtain ⟨r, j, t⟩ := o
  cases r with
  | commitOk v =>
    simp only [answer_commitOk, shape_ok]
    rw [thenMerge_shape, (hc v).committed, hn]
  | peekOk v =>
    simp only [answer_peekOk, shape_ok]
    rw [thenMerge_shape, (hc v).committed, hn]
  | _ => rfl

/-- **C13** for `then_partial` (what the function does to the value only matters when resuming). -/
theorem C13_thenPartial (hS : S.Lawful) (p : Parser S σ α) (f : α → Parser S τ β × α) (n : τ)
    (hn : ∀ a, (f a).1.init = n) (hc : ∀ a, Coherent (f a).1) (i : S.Input) :
    (thenPartial p f n).shape i = Ref.bind p.shape (fun a => (f a).1.shape) i := by
  simp only [Parser.shape, Parser.answer, thenPartial, Parser.ofMode, Ref.bind, if_true]
  generalize p.run true i p.init = o
  obtain ⟨r, j, t⟩ := o
  cases r with
  | commitOk v =>
    simp only [answer_commitOk, shape_ok]
    rw [thenMerge_shape, (hc v).committed, hn]
  | peekOk v =>
    simp only [answer_peekOk, shape_ok]
    rw [thenMerge_shape, (hc v).committed, hn]
  | _ => rfl

/-- **C13** for `then_ref`: both values are kept. -/
theorem C13_thenRef (hS : S.Lawful) (p : Parser S σ α) (f : α → Parser S τ β) (n : τ)
    (hn : ∀ a, (f a).init = n) (hc : ∀ a, Coherent (f a)) (i : S.Input) :
    (thenRef p f n).shape i =
      Ref.bind p.shape (fun a => Ref.map (f a).shape fun b => (a, b)) i := by
  have key : ∀ (c : Bool) (v : α) (o : Out S τ β) (s : σ × Option (Bool × α) × τ),
      ((⟨(thenMerge c o.res).map fun x => (v, x), o.inp, s⟩ :
        Out S (σ × Option (Bool × α) × τ) (α × β)).answer).shape =
      (o.answer.shape.map fun x => (v, x)).after c := by
    rintro c v ⟨r, j, t⟩ s
    cases r <;> cases c <;> rfl
  simp only [Parser.shape, Parser.answer, thenRef, Parser.ofMode, Ref.bind, Ref.map, if_true]
  generalize p.run true i p.init = o
  obtain ⟨r, j, t⟩ := o
  cases r with
  | commitOk v =>
    simp only [answer_commitOk, shape_ok]
    refine (key _ _ _ _).trans ?_
    rw [(hc v).committed, hn]
  | peekOk v =>
    simp only [answer_peekOk, shape_ok]
    refine (key _ _ _ _).trans ?_
    rw [(hc v).committed, hn]
  | _ => rfl

/-- **C13.**  `value` is a left unit of `then`. -/
theorem C13_left_unit (hS : S.Lawful) (v : α) (f : α → Parser S τ β) (n : τ)
    (hn : ∀ a, (f a).init = n) (hc : ∀ a, Coherent (f a)) :
    (thenP (value S v) f n).shape = (f v).shape := by
  funext i
  rw [C13_then hS _ f n hn hc]
  simp only [Ref.bind, show (value S v).shape i = .ok false v i from rfl]
  cases (f v).shape i <;> rfl

/-- **C13.**  `value` is a right unit of `then`. -/
theorem C13_right_unit (hS : S.Lawful) (p : Parser S σ α) :
    (thenP p (value S) ()).shape = p.shape := by
  funext i
  rw [C13_then hS p (value S) () (fun _ => rfl) (fun v => .ofLazy hS fun i => .refl i)]
  simp only [Ref.bind, show ∀ v j, (value S v : Parser S Unit α).shape j = .ok false v j from
    fun _ _ => rfl]
  cases p.shape i <;> simp [Answer.after]

private theorem bind_assoc {I : Type} (m : Sem I Unit α) (f : α → Sem I Unit β)
    (g : β → Sem I Unit γ) (i : I) :
    Ref.bind (Ref.bind m f) g i = Ref.bind m (fun a => Ref.bind (f a) g) i := by
  simp only [Ref.bind]
  cases m i with
  | ok c v j =>
    simp only
    cases f v j with
    | ok d w k =>
      simp only [Answer.after]
      cases g w k <;> cases c <;> cases d <;> rfl
    | soft => cases c <;> rfl
    | _ => rfl
  | _ => rfl

/-- **C13.**  `then` is associative. -/
theorem C13_assoc (hS : S.Lawful) (p : Parser S σ α) (f : α → Parser S τ β) (g : β → Parser S υ γ)
    (n : τ) (k : υ) (hn : ∀ a, (f a).init = n) (hk : ∀ b, (g b).init = k) (hp : Moves p)
    (hf : ∀ a, Moves (f a) ∧ Coherent (f a)) (hg : ∀ b, Moves (g b) ∧ Coherent (g b)) :
    (thenP (thenP p f n) g k).shape =
      (thenP p (fun a => thenP (f a) g k) (n, none, k)).shape := by
  funext i
  rw [C13_then hS _ g k hk (fun b => (hg b).2),
    C13_then hS p (fun a => thenP (f a) g k) (n, none, k)
      (fun a => by simp [thenP, Parser.ofMode, hn])
      (fun a => .ofMode hS (moves_thenP hS (hf a).1 (fun b => (hg b).1) k).run)]
  have h1 : (thenP p f n).shape = Ref.bind p.shape (fun a => (f a).shape) :=
    funext (C13_then hS p f n hn fun a => (hf a).2)
  have h2 : (fun a => (thenP (f a) g k).shape) =
      fun a => Ref.bind (f a).shape (fun b => (g b).shape) := by
    funext a j
    exact C13_then hS (f a) g k hk (fun b => (hg b).2) j
  rw [h1, h2]
  exact bind_assoc _ _ _ i

/-! ## C32 -/

/-- **C32.**  When the conversion succeeds, `and_then` is `map`, in any mode and state. -/
theorem C32_ok (p : Parser S σ α) (f : α → Except S.SErr β) (m : Bool) (i : S.Input) (s : σ)
    (g : α → β) (hf : ∀ v, (p.run m i s).res = .commitOk v ∨ (p.run m i s).res = .peekOk v →
      f v = .ok (g v)) : (andThen p f).run m i s = (map p g).run m i s := by
  revert hf
  simp only [andThen, map, Parser.ofMode, Out.mapRes]
  generalize p.run m i s = o
  obtain ⟨r, j, t⟩ := o
  intro hf
  cases r with
  | commitOk v => simp only [hf v (.inl rfl)]; rfl
  | peekOk v => simp only [hf v (.inr rfl)]; rfl
  | _ => rfl

/-- **C32.**  When `p` committed and the conversion fails, the failure is committed and carries the
conversion's error at the position where `p` started. -/
theorem C32_committed (hS : S.Lawful) {p : Parser S σ α} (hp : Moves p) (f : α → Except S.SErr β)
    (m : Bool) (i : S.Input) (s : σ) {v : α} {err : S.SErr}
    (hv : (p.run m i s).res = .commitOk v) (hf : f v = .error err) :
    ((andThen p f).run m i s).res = .commitErr (S.E.fromError (S.position i) err) := by
  have hr := hp.run m i s
  revert hv hr
  simp only [andThen, Parser.ofMode]
  generalize p.run m i s = o
  obtain ⟨r, j, t⟩ := o
  intro hv hr
  cases hv
  simp only [hf]
  split
  · rw [hS.inputAtEof_eq j]
    generalize (S.inputAtEof j).1 = b
    cases b
    · rfl
    · simp only [hS.tryReset_eq hr]
  · rfl

/-- **C32.**  When `p` did not commit and the conversion fails on complete input, the failure is not
committed and carries the conversion's error at the position where `p` started. -/
theorem C32_peek (p : Parser S σ α) (f : α → Except S.SErr β)
    (m : Bool) (i : S.Input) (s : σ) {v : α} {err : S.SErr}
    (hv : (p.run m i s).res = .peekOk v) (hf : f v = .error err)
    (hi : S.isPartial (p.run m i s).inp = false) :
    ((andThen p f).run m i s).res =
      .peekErr (Tracked.of (S.E.fromError (S.position i) err)) := by
  revert hv hi
  simp only [andThen, Parser.ofMode]
  generalize p.run m i s = o
  obtain ⟨r, j, t⟩ := o
  intro hv hi
  cases hv
  simp [hf, hi]

/-- **C32** on partial input: if the conversion fails where the input might go on, the failure is
committed and nothing is consumed. -/
theorem C32_partial_input (hS : S.Lawful) {p : Parser S σ α} (hp : Moves p) (f : α → Except S.SErr β)
    (m : Bool) (i : S.Input) (s : σ) {v : α} {err : S.SErr}
    (hv : (p.run m i s).res = .commitOk v ∨ (p.run m i s).res = .peekOk v) (hf : f v = .error err)
    (hi : S.isPartial i = true) (he : (S.inputAtEof (p.run m i s).inp).1 = true) :
    ((andThen p f).run m i s).res = .commitErr (S.E.fromError (S.position i) err) ∧
    ((andThen p f).run m i s).inp = i := by
  have hr := hp.run m i s
  have hpart := hS.reads_isPartial hr.choose_spec
  revert hv hr hpart he
  simp only [andThen, Parser.ofMode]
  generalize p.run m i s = o
  obtain ⟨r, j, t⟩ := o
  intro hv he hr hpart
  rcases hv with hv | hv <;> cases hv <;>
  · simp only [hf, hpart, hi, if_true]
    rw [hS.inputAtEof_eq j, he]
    simp only [hS.tryReset_eq hr, and_self]

/-- **C32.**  Failures of `p` itself are passed on, in any mode and state. -/
theorem C32_fail (p : Parser S σ α) (f : α → Except S.SErr β) (m : Bool) (i : S.Input) (s : σ) :
    (∀ e, (p.run m i s).res = .commitErr e → ((andThen p f).run m i s).res = .commitErr e) ∧
    (∀ e, (p.run m i s).res = .peekErr e → ((andThen p f).run m i s).res = .peekErr e) := by
  simp only [andThen, Parser.ofMode]
  generalize p.run m i s = o
  obtain ⟨r, j, t⟩ := o
  constructor <;> intro e h <;> cases h <;> rfl

/-- **C32.**  `from_str`: what `p` returned is taken as a text and read by `FromStr`.  If it is no text, the failure says that
UTF-8 was expected; if it does not read, the failure carries the reader's message; both at the position where `p` started,
committed exactly when `p` was. -/
theorem C32_from_str (hS : S.Lawful) {p : Parser S σ α} (hp : Moves p) (utf8 : α → Option String)
    (parse : String → Except String β) (m : Bool) (i : S.Input) (s : σ) {v : α} {c : Bool}
    (hv : (p.run m i s).answer = .ok c v (p.run m i s).inp) (hi : S.isPartial (p.run m i s).inp = false) :
    (∀ text x, utf8 v = some text → parse text = .ok x →
      ((fromStr p utf8 parse).run m i s).answer = .ok c x (p.run m i s).inp) ∧
    (∀ text msg, utf8 v = some text → parse text = .error msg →
      ((fromStr p utf8 parse).run m i s).res =
        if c then .commitErr (S.E.fromError (S.position i) (S.E.message (.format msg)))
        else .peekErr (Tracked.of (S.E.fromError (S.position i) (S.E.message (.format msg))))) ∧
    (utf8 v = none →
      ((fromStr p utf8 parse).run m i s).res =
        if c then .commitErr (S.E.fromError (S.position i) (S.E.expected (.static "UTF-8")))
        else .peekErr (Tracked.of (S.E.fromError (S.position i) (S.E.expected (.static "UTF-8"))))) := by
  have hres : (p.run m i s).res = if c then .commitOk v else .peekOk v := by
    revert hv
    generalize p.run m i s = o
    obtain ⟨r, j, t⟩ := o
    cases r <;> intro hv <;> cases hv <;> rfl
  let f : α → Except S.SErr β := fun r => match utf8 r with
    | none => .error (S.E.expected (.static "UTF-8"))
    | some s => match parse s with
      | .ok v => .ok v
      | .error msg => .error (S.E.message (.format msg))
  have hrun : (fromStr p utf8 parse).run m i s = (andThen p f).run m i s := rfl
  have key : ∀ err, f v = .error err → ((fromStr p utf8 parse).run m i s).res =
      if c then .commitErr (S.E.fromError (S.position i) err) else .peekErr (Tracked.of (S.E.fromError (S.position i) err)) := by
    intro err he
    rw [hrun]
    cases c with
    | true => exact C32_committed hS hp f m i s hres he
    | false => exact C32_peek p f m i s hres he hi
  refine ⟨fun text x h1 h2 => ?_, fun text msg h1 h2 => key _ (by simp only [f, h1, h2]), fun h1 => key _ (by simp only [f, h1])⟩
  have hf : f v = .ok x := by simp only [f, h1, h2]
  rw [hrun]
  simp only [andThen, Parser.ofMode]
  revert hres
  generalize p.run m i s = o
  obtain ⟨r, j, t⟩ := o
  intro hres
  cases c <;> cases hres <;> simp only [hf] <;> rfl

/-! ## Concrete cases -/

private abbrev B := sliceS Nat 1

/-- `any.then(|n| token(n))`. -/
example : (thenP (any B) (fun n => token B n) ()).answer ⟨0, [4, 4, 5]⟩ = .ok true 4 ⟨2, [5]⟩ := rfl
example : ∃ e, (thenP (any B) (fun n => token B n) ()).answer ⟨0, [4, 5]⟩ = .hard e := ⟨_, rfl⟩
example : ∃ e, (andThen (any B) fun n => if n < 3 then .ok n else .error .unexpected).answer
    ⟨0, [4, 5]⟩ = Answer.hard (E := B.Err) e := ⟨_, rfl⟩

/-- `from_str` of one token: digits are texts and read, letters are texts and do not read, others are no texts. -/
private def readDigit : Parser B Unit Nat :=
  fromStr (any B) (fun n => if n < 10 then some "digit" else if n < 36 then some "letter" else none)
    fun s => if s = "digit" then .ok 1 else .error "invalid digit found in string"
example : readDigit.answer ⟨0, [4, 5]⟩ = .ok true 1 ⟨1, [5]⟩ := rfl
example : (readDigit.run true ⟨0, [14, 5]⟩ ()).res = .commitErr .unexpected := rfl
example : (readDigit.run true ⟨0, [44, 5]⟩ ()).res = .commitErr .unexpected := rfl
example : ((any B).run true ⟨0, [4, 5]⟩ ()).answer = .ok true 4 ((any B).run true ⟨0, [4, 5]⟩ ()).inp ∧
    B.isPartial ((any B).run true ⟨0, [4, 5]⟩ ()).inp = false := ⟨rfl, rfl⟩

end Verif
