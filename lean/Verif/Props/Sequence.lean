import Verif.Proof.Coherent
import Verif.Spec.Sequence

/-!
# C12: sequences
-/

namespace Verif

set_option linter.unusedVariables false

variable {S : Strm} {σ τ υ α β γ : Type}

/-! ## No missing value -/

/-- When the member steps finish, every member has a value: whatever the state was. -/
private theorem steps_done (ps : Seq S τ β) (m : Bool) (fe cur off : Nat) (i : S.Input) (st : τ)
    (h : (ps.steps m fe cur off i st).fin = .done) :
    (ps.take (ps.steps m fe cur off i st).st).1.isSome = true := by
  induction ps generalizing m fe cur off i with
  | nil => rfl
  | cons p ps ih =>
    obtain ⟨⟨v, s⟩, t⟩ := st
    revert h
    simp only [Seq.steps]
    split
    · generalize p.run m i s = o
      obtain ⟨r, j, u⟩ := o
      cases r with
      | commitOk x =>
        intro h
        have := ih true (cur + 1 + 1) (cur + 1) (satAdd off p.count) j t h
        simp only [Seq.take]
        revert this
        generalize ps.take _ = y
        obtain ⟨_ | y, z⟩ := y <;> simp
      | peekOk x =>
        intro h
        have := ih true fe (cur + 1) (satAdd off p.count) j t h
        simp only [Seq.take]
        revert this
        generalize ps.take _ = y
        obtain ⟨_ | y, z⟩ := y <;> simp
      | commitErr e => intro h; cases h
      | peekErr e =>
        simp only
        generalize S.reset _ _ = x
        obtain ⟨_ | e', k⟩ := x
        · intro h; cases h
        · simp only; split <;> (intro h; cases h)
      | abort a => intro h; cases h
    · rename_i hv
      intro h
      have := ih m fe cur off i t h
      simp only [Seq.take]
      revert this
      generalize ps.take _ = y
      obtain ⟨_ | y, z⟩ := y
      · simp
      · cases v <;> simp_all

private theorem steps_abort (ps : Seq S τ β) (hps : ∀ q, ps.Mem q → NeverAborts q.2.2)
    (m : Bool) (fe cur off : Nat) (i : S.Input) (st : τ) (a : Abort) :
    (ps.steps m fe cur off i st).fin ≠ .abort a := by
  induction ps generalizing m fe cur off i with
  | nil => intro h; cases h
  | cons p ps ih =>
    obtain ⟨⟨v, s⟩, t⟩ := st
    have hp : NeverAborts p := hps ⟨_, _, p⟩ (.inl rfl)
    have ih := fun m fe cur off i t => ih (fun q hq => hps q (.inr hq)) m fe cur off i t
    simp only [Seq.steps]
    split
    · have hp' := hp m i s
      revert hp'
      generalize p.run m i s = o
      obtain ⟨r, j, u⟩ := o
      cases r with
      | commitOk x => intro _ h; exact ih _ _ _ _ _ _ h
      | peekOk x => intro _ h; exact ih _ _ _ _ _ _ h
      | commitErr e => intro _ h; cases h
      | peekErr e =>
        simp only
        generalize S.reset _ _ = x
        obtain ⟨_ | e', k⟩ := x
        · intro _ h; cases h
        · intro _; simp only; split <;> (intro h; cases h)
      | abort a => intro h; exact absurd rfl (h a)
    · intro h; exact ih _ _ _ _ _ _ h

private theorem seqRest_abort (p : Parser S σ α) (ps : Seq S τ β)
    (hps : ∀ q, ps.Mem q → NeverAborts q.2.2)
    (m : Bool) (fe : Nat) (i : S.Input) (st : SeqSt σ τ α) (hv : st.value.isSome = true) (a : Abort) :
    (seqRest p ps m fe i st).res ≠ .abort a := by
  have h1 := steps_done ps m fe 0 st.offset i st.tail
  have h2 := steps_abort ps hps m fe 0 st.offset i st.tail
  unfold seqRest
  revert h1 h2
  generalize ps.steps m fe 0 st.offset i st.tail = r
  obtain ⟨f, fe', off', j, t⟩ := r
  intro h1 h2
  cases f with
  | done =>
    have h1 := h1 rfl
    simp only [seqFinish]
    revert h1
    generalize ps.take t = x
    obtain ⟨_ | y, z⟩ := x
    · simp
    · obtain ⟨w, hw⟩ := Option.isSome_iff_exists.1 hv
      simp only [hw]
      intro _
      split <;> (intro h; cases h)
  | fail e =>
    simp only [seqAddErrors]
    split
    · generalize S.uncons j = x
      obtain ⟨_ | _, _⟩ := x <;> (intro h; cases h)
    · intro h; cases h
  | commitErr e => intro h; cases h
  | peekErr e => intro h; cases h
  | abort a' => exact absurd rfl (h2 a')

/-- **C12.**  A tuple whose members never abort never aborts: on any input, in either mode and from
*any* state, hence under every history of interrupted, resumed and abandoned calls, all component values
are present when the result is assembled. -/
theorem C12_no_missing_value (p : Parser S σ α) (ps : Seq S τ β) (hp : NeverAborts p)
    (hps : ∀ q, ps.Mem q → NeverAborts q.2.2) : NeverAborts (tuple p ps) := by
  intro m i st a
  show (seqRun p ps m i st).res ≠ _
  unfold seqRun
  split
  · have hp' := hp m i st.head
    revert hp'
    generalize p.run m i st.head = o
    obtain ⟨r, j, u⟩ := o
    cases r with
    | commitOk x => intro _; exact seqRest_abort p ps hps _ _ _ _ rfl a
    | peekOk x => intro _; exact seqRest_abort p ps hps _ _ _ _ rfl a
    | commitErr e => intro _ h; cases h
    | peekErr e => intro _ h; cases h
    | abort a' => intro h; exact absurd rfl (h a')
  · rename_i hv
    refine seqRest_abort p ps hps _ _ _ _ ?_ a
    cases h : st.value <;> simp_all

/-! ## Members in order -/

/-- What the member steps amount to, as an answer. -/
private def tailAnswer (ps : Seq S τ β) (r : SeqOut S τ) : Answer S.Input Unit β :=
  match r.fin with
  | .done =>
    match (ps.take r.st).1 with
    | some v => .ok (decide (r.firstEmpty ≠ 0)) v r.inp
    | none => .abort .panic
  | .fail _ => if r.firstEmpty ≠ 0 then .hard () else .soft
  | .commitErr _ => .hard ()
  | .peekErr _ => .soft
  | .abort a => .abort a

private theorem tailAnswer_cons (p : Parser S σ α) (ps : Seq S τ β) (r : SeqOut S τ) (x : α) (s : σ) :
    tailAnswer (.cons p ps) ⟨r.fin, r.firstEmpty, r.offset, r.inp, ((some x, s), r.st)⟩ =
      (tailAnswer ps r).map fun y => (x, y) := by
  obtain ⟨f, fe, off, j, t⟩ := r
  cases f with
  | done =>
    simp only [tailAnswer, Seq.take]
    generalize ps.take t = y
    obtain ⟨_ | y, z⟩ := y <;> rfl
  | fail e => simp only [tailAnswer]; by_cases h : fe = 0 <;> simp [h, Answer.map]
  | _ => rfl

private theorem after_map {I α β : Type} (c : Bool) (a : Answer I Unit α) (f : α → β) :
    (a.map f).after c = (a.after c).map f := by
  cases a <;> cases c <;> rfl

private theorem after_after {I α : Type} (c d : Bool) (a : Answer I Unit α) :
    (a.after d).after c = a.after (c || d) := by
  cases a <;> cases c <;> cases d <;> rfl

private theorem steps_answer (ps : Seq S τ β) (fe cur off : Nat) (i : S.Input) :
    tailAnswer ps (ps.steps true fe cur off i ps.init) =
      (Ref.seq ps i).after (decide (fe ≠ 0)) := by
  induction ps generalizing fe cur off i with
  | nil => cases fe <;> rfl
  | cons p ps ih =>
    simp only [Seq.steps, Seq.init, Ref.seq, Ref.bind, Parser.shape, Parser.answer, Bool.true_or, if_true]
    generalize p.run true i p.init = o
    obtain ⟨r, j, u⟩ := o
    cases r with
    | commitOk x =>
      simp only [answer_commitOk, shape_ok]
      rw [tailAnswer_cons, ih, Ref.map]
      simp [after_after, after_map]
    | peekOk x =>
      simp only [answer_peekOk, shape_ok]
      rw [tailAnswer_cons, ih, Ref.map]
      simp [after_after, after_map]
    | commitErr e => rfl
    | abort a => rfl
    | peekErr e =>
      simp only [answer_peekErr, Answer.shape, Answer.after]
      generalize S.reset _ _ = x
      obtain ⟨_ | e', k⟩ := x
      · simp only [tailAnswer]; by_cases h : fe = 0 <;> simp [h]
      · simp only [tailAnswer]; by_cases h : fe = 0 <;> simp [h]

private theorem seqRest_answer (p : Parser S σ α) (ps : Seq S τ β) (m : Bool) (fe : Nat)
    (i : S.Input) (x : α) (s : σ) (t : τ) (off : Nat) :
    (seqRest p ps m fe i ⟨some x, s, t, off⟩).answer.shape =
      (tailAnswer ps (ps.steps m fe 0 off i t)).map fun y => (x, y) := by
  unfold seqRest
  generalize ps.steps m fe 0 off i t = r
  obtain ⟨f, fe', off', j, t'⟩ := r
  cases f with
  | done =>
    simp only [seqFinish, tailAnswer]
    generalize ps.take t' = y
    obtain ⟨_ | y, z⟩ := y
    · rfl
    · by_cases h : fe' = 0 <;> simp [h, answer_peekOk, answer_commitOk, shape_ok, Answer.map]
  | fail e =>
    simp only [seqAddErrors, tailAnswer]
    by_cases h : fe' = 0
    · simp [h, answer_peekErr, Answer.shape, Answer.map]
    · simp only [h, ne_eq, not_false_eq_true, if_true]
      generalize S.uncons j = x
      obtain ⟨_ | _, _⟩ := x <;> rfl
  | commitErr e => rfl
  | peekErr e => rfl
  | abort a => rfl

/-- **C12.**  A tuple runs its members left to right, each on what the previous one left, yields all
their values in order, and is committed if any of them was. -/
theorem C12_tuple (p : Parser S σ α) (ps : Seq S τ β) (i : S.Input) :
    (tuple p ps).shape i = Ref.seq (.cons p ps) i := by
  simp only [Parser.shape, Parser.answer, tuple, Parser.ofMode, Ref.seq, Ref.bind]
  unfold seqRun
  simp only [Bool.true_or, if_true]
  generalize p.run true i p.init = o
  obtain ⟨r, j, u⟩ := o
  cases r with
  | commitOk x =>
    simp only [answer_commitOk, shape_ok]
    rw [seqRest_answer, steps_answer, Ref.map]
    simp [after_map]
  | peekOk x =>
    simp only [answer_peekOk, shape_ok]
    rw [seqRest_answer, steps_answer, Ref.map]
    simp [after_map]
  | _ => rfl

theorem mapShape {S : Strm} {σ τ : Type} (o : Out S σ α) (f : α → β) :
    ((o.mapRes (·.map f)).answer).shape = o.answer.shape.map f := by
  obtain ⟨r, j, s⟩ := o
  cases r <;> rfl

private theorem shape_map' {I E : Type} (a : Answer I E α) (f : α → β) :
    (a.map f).shape = a.shape.map f := by cases a <;> rfl

theorem ignore_shape (p : Parser S σ α) (i : S.Input) :
    (ignore p).shape i = (p.shape i).map fun _ => () := by
  simp only [Parser.shape, Parser.answer]
  exact mapShape (τ := σ) (p.run true i p.init) _

private theorem value_seq (q : Parser S τ β) (j : S.Input) :
    Ref.seq (.cons q .nil) j = (q.shape j).map fun x => (x, ()) := by
  simp only [Ref.seq, Ref.bind]
  cases q.shape j <;> simp [Ref.map, Ref.value, Answer.map, Answer.after]

/-- **C12** for `with`: the second value. -/
theorem C12_with (p : Parser S σ α) (q : Parser S τ β) (i : S.Input) :
    («with» p q).shape i = Ref.bind p.shape (fun _ => q.shape) i := by
  have h := C12_tuple (ignore p) (.cons q .nil) i
  have e : («with» p q).shape i = ((pair (ignore p) q).shape i).map fun x => x.2.1 :=
    mapShape (τ := σ) ((pair (ignore p) q).run true i (pair (ignore p) q).init) _
  rw [e, pair, h]
  rw [Ref.seq]
  simp only [Ref.bind, ignore_shape]
  cases p.shape i with
  | ok c v j =>
    simp only [Answer.map, Ref.map, value_seq]
    cases q.shape j <;> cases c <;> rfl
  | _ => rfl

/-- **C12** for `skip`: the first value. -/
theorem C12_skip (p : Parser S σ α) (q : Parser S τ β) (i : S.Input) :
    (skip p q).shape i = Ref.bind p.shape (fun x => Ref.map q.shape fun _ => x) i := by
  have h := C12_tuple p (.cons (ignore q) .nil) i
  have e : (skip p q).shape i = ((pair p (ignore q)).shape i).map fun x => x.1 :=
    mapShape (τ := σ) ((pair p (ignore q)).run true i (pair p (ignore q)).init) _
  rw [e, pair, h]
  rw [Ref.seq]
  simp only [Ref.bind]
  cases p.shape i with
  | ok c v j =>
    simp only [Ref.map, value_seq, ignore_shape]
    cases q.shape j <;> cases c <;> rfl
  | _ => rfl

/-- **C12** for `between(open, close, p)`: the middle value. -/
theorem C12_between (o : Parser S σ α) (c : Parser S υ γ) (p : Parser S τ β) (i : S.Input) :
    (between o c p).shape i =
      Ref.bind o.shape (fun _ => Ref.bind p.shape fun x => Ref.map c.shape fun _ => x) i := by
  have h := C12_tuple o (.cons p (.cons c .nil)) i
  have e : (between o c p).shape i = ((tuple o (.cons p (.cons c .nil))).shape i).map fun x => x.2.1 :=
    mapShape (τ := σ) ((tuple o (.cons p (.cons c .nil))).run true i _) _
  rw [e, h]
  rw [Ref.seq]
  simp only [Ref.bind]
  cases o.shape i with
  | ok a v j =>
    simp only [Ref.map]
    rw [Ref.seq]
    simp only [Ref.bind]
    cases p.shape j with
    | ok b w k =>
      simp only [Ref.map, value_seq]
      cases c.shape k <;> cases a <;> cases b <;> rfl
    | _ => cases a <;> rfl
  | _ => rfl

/-! ## Concrete cases -/

private abbrev B := sliceS Nat 1

private theorem token_never (t : Nat) : NeverAborts (token B t) := by
  rintro m ⟨k, _ | ⟨x, l⟩⟩ s a
  · intro h; cases h
  · by_cases h : x = t
    · simp [token, Parser.ofLazy, satisfyImpl, Strm.unconsP, h]
    · simp [token, Parser.ofLazy, satisfyImpl, Strm.unconsP, h]

/-- The hypotheses of `C12_no_missing_value` can be met; the conclusion then holds for nested tuples. -/
example : NeverAborts (tuple (tuple (token B 1) (.cons (token B 2) .nil)) (.cons (token B 3) .nil)) :=
  C12_no_missing_value _ _
    (C12_no_missing_value _ _ (token_never 1) (by rintro q (rfl | h); exact token_never 2; exact h.elim))
    (by rintro q (rfl | h); exact token_never 3; exact h.elim)
example : (tuple (token B 1) (.cons (token B 2) (.cons (token B 3) .nil))).shape ⟨0, [1, 2, 3, 9]⟩ =
    .ok true (1, 2, 3, ()) ⟨3, [9]⟩ := rfl
example : (between (token B 1) (token B 3) (many (token B 2))).shape ⟨0, [1, 2, 2, 3]⟩ =
    .ok true [2, 2] ⟨4, []⟩ := rfl

end Verif
