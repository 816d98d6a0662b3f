import Verif.Proof.IterLemmas

/-! # Which parsers can be run again without clearing their state -/

namespace Verif

set_option linter.unusedVariables false
set_option linter.unusedSectionVars false

variable {S : Strm} {σ τ υ α β γ : Type}

variable {h : Bool} {Clean : σ → Prop}

theorem Keeps.reusableIn {p : Parser S σ α} (hp : Keeps h Clean p) : ReusableIn Clean p where
  init := hp.init
  same := fun s hs i => by
    obtain ⟨h1, h2⟩ := hp.same s p.init hs hp.init i
    simp only [Parser.answer, Out.answer, h1, h2]
  ok := fun s hs i hr => hp.keep s hs i (by
    revert hr; cases (p.run true i s).res <;> simp [ParseResult.isOk, ParseResult.kept])
  soft := fun s hs i e hr => hp.keep s hs i (by rw [hr]; rfl)

theorem Keeps.reusable {p : Parser S σ α} (hp : Keeps h Clean p) : Reusable p := ⟨_, hp.reusableIn⟩

theorem Keeps.weaken {p : Parser S σ α} (hp : Keeps true Clean p) : Keeps h Clean p where
  init := hp.init
  same := hp.same
  keep := fun s hs i hr => hp.keep s hs i (by
    revert hr; cases (p.run true i s).res <;> simp [ParseResult.kept])

/-- Parsers without state. -/
theorem keeps_unit (p : Parser S Unit α) : Keeps h (fun _ => True) p :=
  ⟨trivial, fun _ _ _ _ _ => ⟨rfl, rfl⟩, fun _ _ _ _ => trivial⟩

/-- Parsers that run another one and look at its result only. -/
theorem keeps_of_view {p : Parser S σ α} (hp : Keeps h Clean p) {h' : Bool} {q : Parser S σ β}
    (hi : q.init = p.init)
    (F : S.Input → ParseResult α S.Err → S.Input → ParseResult β S.Err × S.Input)
    (hq : ∀ i s, (q.run true i s).res = (F i (p.run true i s).res (p.run true i s).inp).1 ∧
      (q.run true i s).inp = (F i (p.run true i s).res (p.run true i s).inp).2 ∧
      (q.run true i s).st = (p.run true i s).st)
    (hF : ∀ i r j, (F i r j).1.kept h' = true → r.kept h = true) : Keeps h' Clean q where
  init := hi ▸ hp.init
  same := fun s s' hs hs' i => by
    obtain ⟨h1, h2⟩ := hp.same s s' hs hs' i
    rw [(hq i s).1, (hq i s).2.1, (hq i s').1, (hq i s').2.1, h1, h2]
    exact ⟨rfl, rfl⟩
  keep := fun s hs i hk => by
    rw [(hq i s).2.2]
    rw [(hq i s).1] at hk
    exact hp.keep s hs i (hF _ _ _ hk)

theorem keeps_map {p : Parser S σ α} (hp : Keeps h Clean p) (f : α → β) : Keeps h Clean (map p f) :=
  keeps_of_view hp rfl (fun _ r j => (r.map f, j)) (fun i s => ⟨rfl, rfl, rfl⟩)
    (fun i r j hk => by cases r <;> simp_all [ParseResult.map, ParseResult.kept])

theorem keeps_ignore {p : Parser S σ α} (hp : Keeps h Clean p) : Keeps h Clean (ignore p) :=
  keeps_of_view hp rfl (fun _ r j => (r.map fun _ => (), j)) (fun i s => ⟨rfl, rfl, rfl⟩)
    (fun i r j hk => by cases r <;> simp_all [ParseResult.map, ParseResult.kept])

theorem keeps_message {p : Parser S σ α} (hp : Keeps h Clean p) (x : Info S.Tok S.Rng) :
    Keeps h Clean (message p x) :=
  keeps_of_view hp rfl (fun _ r j => (match r with
      | .commitErr e => .commitErr (addMessage S x e)
      | r => r, j))
    (fun i s => by
      simp only [message, Parser.ofMode]
      generalize p.run true i s = o
      obtain ⟨r, j, u⟩ := o
      cases r <;> simp)
    (fun i r j hk => by cases r <;> simp_all [ParseResult.kept])

theorem keeps_expected {p : Parser S σ α} (hp : Keeps h Clean p) (x : Info S.Tok S.Rng) :
    Keeps h Clean (expected p x) := ⟨hp.init, hp.same, hp.keep⟩

theorem keeps_silent {p : Parser S σ α} (hp : Keeps h Clean p) : Keeps h Clean (silent p) :=
  keeps_of_view hp rfl (fun _ r j => (r.mapErr S.E.clearExpected, j)) (fun i s => ⟨rfl, rfl, rfl⟩)
    (fun i r j hk => by cases r <;> simp_all [ParseResult.mapErr, ParseResult.kept])

theorem keeps_spanned {Q : Type} [DecidableEq Q] (a : S.Pos → Span Q) (b : Span Q → S.Pos)
    {p : Parser S σ α} (hp : Keeps h Clean p) : Keeps h Clean (spanned a b p) :=
  keeps_of_view hp rfl (fun i r j => (r.mapErr fun err =>
        if (a (S.E.position err)).start = (a (S.E.position err)).stop then
          S.E.setPosition err (b ⟨(a (S.position i)).start, (a (S.position j)).stop⟩)
        else err, j)) (fun i s => ⟨rfl, rfl, rfl⟩)
    (fun i r j hk => by cases r <;> simp_all [ParseResult.mapErr, ParseResult.kept])

theorem keeps_flatMap {p : Parser S σ α} (hp : Keeps h Clean p) (f : α → Except S.Err β) :
    Keeps h Clean (flatMap p f) :=
  keeps_of_view hp rfl (fun i r j => (match r with
        | .peekOk x =>
          match f x with
          | .ok y => .peekOk y
          | .error e => .peekErr (Tracked.of e)
        | .commitOk x =>
          match f x with
          | .ok y => .commitOk y
          | .error e => .commitErr e
        | .commitErr e => .commitErr e
        | .peekErr e => .peekErr e
        | .abort a => .abort a, j)) (fun i s => ⟨rfl, rfl, rfl⟩)
    (fun i r j hk => by cases r <;> simp_all [ParseResult.kept])

theorem keeps_andThen (hS : S.Lawful) {p : Parser S σ α} (hm : ∀ m i s, S.Reach i (p.run m i s).inp)
    (hp : Keeps h Clean p) (f : α → Except S.SErr β) : Keeps h Clean (andThen p f) :=
  keeps_of_view hp rfl (fun i r j =>
      match r with
      | .peekOk x =>
        match f x with
        | .ok y => (.peekOk y, j)
        | .error err =>
          let e := S.E.fromError (S.position i) err
          if S.isPartial j then
            if (S.inputAtEof j).1 then (.commitErr e, i) else (.peekErr (Tracked.of e), j)
          else (.peekErr (Tracked.of e), j)
      | .commitOk x =>
        match f x with
        | .ok y => (.commitOk y, j)
        | .error err =>
          let e := S.E.fromError (S.position i) err
          if S.isPartial j then
            if (S.inputAtEof j).1 then (.commitErr e, i) else (.commitErr e, j)
          else (.commitErr e, j)
      | .commitErr e => (.commitErr e, j)
      | .peekErr e => (.peekErr e, j)
      | .abort a => (.abort a, j))
    (fun i s => by
      have hr := hm true i s
      simp only [andThen, Parser.ofMode]
      revert hr
      generalize p.run true i s = o
      obtain ⟨r, j, u⟩ := o
      intro hr
      have ht : ∀ (k : S.Input → Out S σ β), S.tryReset (S.checkpoint i) j u k = k i :=
        hS.tryReset_eq hr u
      cases r with
      | commitOk x =>
        simp only
        rw [hS.inputAtEof_eq j]
        cases f x with
        | ok y => simp
        | error e =>
          simp only
          cases S.isPartial j <;> cases (S.inputAtEof j).1 <;> simp [ht]
      | peekOk x =>
        simp only
        rw [hS.inputAtEof_eq j]
        cases f x with
        | ok y => simp
        | error e =>
          simp only
          cases S.isPartial j <;> cases (S.inputAtEof j).1 <;> simp [ht]
      | _ => simp)
    (fun i r j hk => by cases r <;> simp_all [ParseResult.kept])

theorem keeps_optional (hS : S.Lawful) {p : Parser S σ α} (hm : ∀ m i s, S.Reach i (p.run m i s).inp)
    (hp : Keeps h Clean p) : Keeps h Clean (optional p) :=
  keeps_of_view hp rfl (fun i r j => match r with
      | .peekErr _ => (.peekOk none, i)
      | r => (r.map some, j))
    (fun i s => by
      have hr := hm true i s
      simp only [optional, Parser.ofMode]
      revert hr
      generalize p.run true i s = o
      obtain ⟨r, j, u⟩ := o
      intro hr
      have ht : ∀ (k : S.Input → Out S σ (Option α)), S.tryReset (S.checkpoint i) j u k = k i :=
        hS.tryReset_eq hr u
      cases r <;> simp [ht, ParseResult.map])
    (fun i r j hk => by cases r <;> simp_all [ParseResult.kept, ParseResult.map])

theorem keeps_notFollowedBy (hS : S.Lawful) {p : Parser S σ α}
    (hm : ∀ m i s, S.Reach i (p.run m i s).inp)
    (hp : Keeps true Clean p) : Keeps true Clean (notFollowedBy p) :=
  keeps_of_view hp rfl (fun i r j => match r with
        | .commitOk _ | .peekOk _ => (.peekErr (Tracked.of (S.E.empty (S.position i))), i)
        | .commitErr _ | .peekErr _ => (.peekOk (), i)
        | .abort a => (.abort a, i))
    (fun i s => by
      have hr := hm true i s
      simp only [notFollowedBy, Parser.ofMode]
      revert hr
      generalize p.run true i s = o
      obtain ⟨r, j, u⟩ := o
      intro hr
      have ht : ∀ (k : S.Input → Out S σ Unit), S.tryReset (S.checkpoint i) j u k = k i :=
        hS.tryReset_eq hr u
      cases r <;> simp [ht])
    (fun i r j hk => by cases r <;> simp_all [ParseResult.kept])

/-- How `parse_committed_mode` is made from `parse_mode` (true of every parser of the library). -/
def Std (p : Parser S σ α) : Prop :=
  (∀ m i s, p.committed m i s = S.describing p.addError (p.run m) i s) ∨
  (∀ m i s, p.committed m i s = p.run m i s)

theorem Std.committed (hS : S.Lawful) {p : Parser S σ α} (hp : Std p)
    (hm : ∀ m i s, S.Reach i (p.run m i s).inp) (m : Bool) (i : S.Input) (s s' : σ)
    (h1 : (p.run m i s).res = (p.run m i s').res) (h2 : (p.run m i s).inp = (p.run m i s').inp) :
    (p.committed m i s).res = (p.committed m i s').res ∧
    (p.committed m i s).inp = (p.committed m i s').inp ∧
    (p.committed m i s).st = (p.run m i s).st ∧
    (∀ h, (p.committed m i s).res.kept h = (p.run m i s).res.kept h) := by
  rcases hp with hp | hp
  · simp only [hp, Strm.describing]
    have hr := hm m i s
    revert h1 h2 hr
    generalize p.run m i s = o
    generalize p.run m i s' = o'
    obtain ⟨r, j, u⟩ := o
    obtain ⟨r', j', u'⟩ := o'
    rintro rfl rfl hr
    cases r with
    | peekErr e =>
      simp only [Strm.describe, hS.tryReset_eq hr]
      cases hu : S.uncons i with
      | mk x k =>
        cases x with
        | ok t =>
          have hk : S.Reach i k := ⟨[t], .cons hu (.nil _)⟩
          simp [hS.tryReset_eq hk, ParseResult.kept]
        | error e => simp [ParseResult.kept]
    | _ => simp
  · simp only [hp]
    exact ⟨h1, h2, trivial, fun _ => trivial⟩

/-- `attempt` needs the state to be clean after committed failures too. -/
theorem keeps_attempt (hS : S.Lawful) {p : Parser S σ α} (hp : Keeps true Clean p)
    (hm : ∀ m i s, S.Reach i (p.run m i s).inp) (hc : Std p) : Keeps true Clean (attempt p) := by
  have key : ∀ i s, ((attempt p).run true i s).st = (p.run true i s).st := by
    intro i s
    have := (hc.committed hS hm true i s s rfl rfl).2.2.1
    show (attemptRun p true i s).st = _
    unfold attemptRun
    rw [← this]
    generalize p.committed true i s = o
    obtain ⟨r, j, u⟩ := o
    cases r with
    | commitErr e => simp only; split <;> rfl
    | _ => rfl
  refine ⟨hp.init, fun s s' hs hs' i => ?_, fun s hs i hk => ?_⟩
  · obtain ⟨h1, h2⟩ := hp.same s s' hs hs' i
    obtain ⟨g1, g2, -, -⟩ := hc.committed hS hm true i s s' h1 h2
    show (attemptRun p true i s).res = (attemptRun p true i s').res ∧
      (attemptRun p true i s).inp = (attemptRun p true i s').inp
    unfold attemptRun
    revert g1 g2
    generalize p.committed true i s = o
    generalize p.committed true i s' = o'
    obtain ⟨r, j, u⟩ := o
    obtain ⟨r', j', u'⟩ := o'
    rintro rfl rfl
    cases r with
    | commitErr e => simp only; split <;> exact ⟨rfl, rfl⟩
    | _ => exact ⟨rfl, rfl⟩
  · rw [key]
    refine hp.keep s hs i ?_
    rw [← (hc.committed hS hm true i s s rfl rfl).2.2.2]
    revert hk
    show (attemptRun p true i s).res.kept true = true → _
    unfold attemptRun
    generalize p.committed true i s = o
    obtain ⟨r, j, u⟩ := o
    cases r <;> simp [ParseResult.kept]

theorem keeps_boxed {p : Parser S σ α} (hp : Keeps h Clean p) : Keeps h Clean (boxed p) :=
  ⟨hp.init, hp.same, hp.keep⟩

theorem keeps_opaqueP {p : Parser S σ α} (hp : Keeps h Clean p) : Keeps h Clean (opaqueP p) :=
  ⟨hp.init, hp.same, hp.keep⟩

theorem keeps_parserMacro {p : Parser S σ α} (hp : Keeps h Clean p) : Keeps h Clean (parserMacro p) :=
  ⟨hp.init, hp.same, hp.keep⟩

theorem keeps_lazyP {f : Unit → Parser S σ α} (hp : Keeps h Clean (f ())) : Keeps h Clean (lazyP f) :=
  ⟨hp.init, hp.same, hp.keep⟩

theorem Built.std {R : RangeOps S} [DecidableEq S.Tok] [DecidableEq S.Rng] {p : Parser S σ α}
    (hb : Built R p) : Std p := by
  induction hb <;> first
    | exact .inl fun _ _ _ => rfl
    | exact .inr fun _ _ _ => rfl
    | assumption

/-! ## Choice -/

theorem choice_run_st (ps : Alts S α τ) (i : S.Input) (s s' : Option τ) :
    ((choice ps).run true i s).res = ((choice ps).run true i s').res ∧
    ((choice ps).run true i s).inp = ((choice ps).run true i s').inp := by
  simp [choice, Parser.ofMode, choiceRun]

theorem keeps_choice (ps : Alts S α τ) : Keeps h (fun _ => True) (choice ps) :=
  ⟨trivial, fun s s' _ _ i => choice_run_st ps i s s', fun _ _ _ _ => trivial⟩

theorem keeps_or (p : Parser S σ α) (q : Parser S τ α) : Keeps h (fun _ => True) (or p q) :=
  ⟨trivial, fun s s' _ _ i => choice_run_st _ i s s', fun _ _ _ _ => trivial⟩

/-! ## Sequences -/

/-- Outcomes of the member steps after which the members' states must be clean. -/
def SeqEnd.kept {E : Type} (h : Bool) : SeqEnd E → Bool
  | .done => true
  | .fail _ => true
  | .peekErr _ => true
  | .commitErr _ => h
  | .abort _ => false

/-- `Keeps` for the members after the first. -/
structure SeqKeeps (h : Bool) (D : τ → Prop) (ps : Seq S τ β) : Prop where
  init : D ps.init
  take : ∀ t, D t → D (ps.take t).2
  same : ∀ t t', D t → D t' → ∀ fe cur off i,
    (ps.steps true fe cur off i t).fin = (ps.steps true fe cur off i t').fin ∧
    (ps.steps true fe cur off i t).firstEmpty = (ps.steps true fe cur off i t').firstEmpty ∧
    (ps.steps true fe cur off i t).offset = (ps.steps true fe cur off i t').offset ∧
    (ps.steps true fe cur off i t).inp = (ps.steps true fe cur off i t').inp ∧
    ((ps.steps true fe cur off i t).fin = .done →
      (ps.take (ps.steps true fe cur off i t).st).1 = (ps.take (ps.steps true fe cur off i t').st).1)
  keep : ∀ t, D t → ∀ fe cur off i, (ps.steps true fe cur off i t).fin.kept h = true →
    D (ps.steps true fe cur off i t).st

theorem seqKeeps_nil : SeqKeeps h (fun _ => True) (Seq.nil : Seq S Unit Unit) :=
  ⟨trivial, fun _ _ => trivial,
    fun _ _ _ _ _ _ _ _ => ⟨rfl, rfl, rfl, rfl, fun _ => rfl⟩, fun _ _ _ _ _ _ _ => trivial⟩

theorem seqKeeps_cons {C : σ → Prop} {D : τ → Prop} {p : Parser S σ α} {ps : Seq S τ β}
    (hp : Keeps h C p) (hD : SeqKeeps h D ps) :
    SeqKeeps h (fun t => C t.1.2 ∧ D t.2) (.cons p ps) := by
  refine ⟨⟨hp.init, hD.init⟩, ?_, ?_, ?_⟩
  · rintro ⟨⟨v, s⟩, t⟩ ⟨h1, h2⟩
    exact ⟨h1, hD.take t h2⟩
  · rintro ⟨⟨v, s⟩, t⟩ ⟨⟨v', s'⟩, t'⟩ ⟨h1, h2⟩ ⟨h1', h2'⟩ fe cur off i
    obtain ⟨e1, e2⟩ := hp.same s s' h1 h1' i
    have e3 := hp.keep s h1 i
    have e4 := hp.keep s' h1' i
    simp only [Seq.steps, Bool.true_or, if_true]
    revert e1 e2 e3 e4
    generalize p.run true i s = o
    generalize p.run true i s' = o'
    obtain ⟨r, j, u⟩ := o
    obtain ⟨r', j', u'⟩ := o'
    rintro rfl rfl e3 e4
    cases r with
    | commitOk x =>
      obtain ⟨f1, f2, f3, f4, f5⟩ := hD.same t t' h2 h2' (cur + 1 + 1) (cur + 1) (satAdd off p.count) j
      refine ⟨f1, f2, f3, f4, fun hd => ?_⟩
      simp only [Seq.take]
      rw [f5 hd]
    | peekOk x =>
      obtain ⟨f1, f2, f3, f4, f5⟩ := hD.same t t' h2 h2' fe (cur + 1) (satAdd off p.count) j
      refine ⟨f1, f2, f3, f4, fun hd => ?_⟩
      simp only [Seq.take]
      rw [f5 hd]
    | peekErr e =>
      simp only
      generalize S.reset _ _ = x
      obtain ⟨_ | e', k⟩ := x
      · exact ⟨rfl, rfl, rfl, rfl, fun hd => by cases hd⟩
      · simp only
        split <;> exact ⟨rfl, rfl, rfl, rfl, fun hd => by cases hd⟩
    | commitErr e => exact ⟨rfl, rfl, rfl, rfl, fun hd => by cases hd⟩
    | abort a => exact ⟨rfl, rfl, rfl, rfl, fun hd => by cases hd⟩
  · rintro ⟨⟨v, s⟩, t⟩ ⟨h1, h2⟩ fe cur off i
    have e3 := hp.keep s h1 i
    simp only [Seq.steps, Bool.true_or, if_true]
    revert e3
    generalize p.run true i s = o
    obtain ⟨r, j, u⟩ := o
    intro e3
    cases r with
    | commitOk x => intro hk; exact ⟨e3 rfl, hD.keep t h2 _ _ _ _ hk⟩
    | peekOk x => intro hk; exact ⟨e3 rfl, hD.keep t h2 _ _ _ _ hk⟩
    | peekErr e =>
      simp only
      generalize S.reset _ _ = x
      obtain ⟨_ | e', k⟩ := x
      · intro hk; exact ⟨e3 rfl, h2⟩
      · simp only
        split <;> (intro hk; exact ⟨e3 rfl, h2⟩)
    | commitErr e => intro hk; exact ⟨e3 hk, h2⟩
    | abort a => intro hk; cases hk

theorem seqKeeps_exists (ps : Seq S τ β)
    (hps : ∀ q, ps.Mem q → ∃ C, Keeps h C q.2.2) : ∃ D, SeqKeeps h D ps := by
  induction ps with
  | nil => exact ⟨_, seqKeeps_nil⟩
  | cons p ps ih =>
    obtain ⟨C, hp⟩ := hps ⟨_, _, p⟩ (.inl rfl)
    obtain ⟨D, hD⟩ := ih fun q hq => hps q (.inr hq)
    exact ⟨_, seqKeeps_cons hp hD⟩

variable {D : τ → Prop}

/-- The clean states of a tuple. -/
def tupleClean (C : σ → Prop) (D : τ → Prop) (st : SeqSt σ τ α) : Prop := C st.head ∧ D st.tail

private theorem seqRest_keeps {p : Parser S σ α} {ps : Seq S τ β}
    (hps : SeqKeeps h D ps) (fe : Nat) (i : S.Input) (s s' : SeqSt σ τ α)
    (hc : tupleClean Clean D s) (hc' : tupleClean Clean D s') (hv : s.value = s'.value)
    (ho : s.offset = s'.offset) :
    (seqRest p ps true fe i s).res = (seqRest p ps true fe i s').res ∧
    (seqRest p ps true fe i s).inp = (seqRest p ps true fe i s').inp ∧
    ((seqRest p ps true fe i s).res.kept h = true → tupleClean Clean D (seqRest p ps true fe i s).st) := by
  have e1 := hps.same s.tail s'.tail hc.2 hc'.2 fe 0 s.offset i
  have e2 := hps.keep s.tail hc.2 fe 0 s.offset i
  have e3 := hps.take
  unfold seqRest
  rw [← ho]
  revert e1 e2
  generalize ps.steps true fe 0 s.offset i s.tail = r
  generalize ps.steps true fe 0 s.offset i s'.tail = r'
  obtain ⟨f, fe1, off1, j, t⟩ := r
  obtain ⟨f', fe2, off2, j', t'⟩ := r'
  rintro ⟨rfl, rfl, rfl, rfl, e1⟩ e2
  cases f with
  | done =>
    have e1 := e1 rfl
    have e2 := e2 rfl
    have e3 := e3 t e2
    simp only [seqFinish, hv]
    revert e1 e3
    simp only
    generalize ps.take t = x
    generalize ps.take t' = x'
    obtain ⟨x, z⟩ := x
    obtain ⟨x', z'⟩ := x'
    rintro rfl e3
    cases s'.value with
    | none => exact ⟨rfl, rfl, fun hk => by cases hk⟩
    | some w =>
      cases x with
      | none => exact ⟨rfl, rfl, fun hk => by cases hk⟩
      | some y => exact ⟨rfl, rfl, fun _ => ⟨hc.1, e3⟩⟩
  | fail e =>
    refine ⟨rfl, rfl, fun hk => ⟨hc.1, e2 rfl⟩⟩
  | commitErr e => exact ⟨rfl, rfl, fun hk => ⟨hc.1, e2 hk⟩⟩
  | peekErr e => exact ⟨rfl, rfl, fun hk => ⟨hc.1, e2 rfl⟩⟩
  | abort a => exact ⟨rfl, rfl, fun hk => by cases hk⟩

theorem keeps_tuple {p : Parser S σ α} {ps : Seq S τ β} (hp : Keeps h Clean p)
    (hps : SeqKeeps h D ps) : Keeps h (tupleClean Clean D) (tuple p ps) := by
  have key : ∀ s s', tupleClean Clean D s → tupleClean Clean D s' → ∀ i,
      ((tuple p ps).run true i s).res = ((tuple p ps).run true i s').res ∧
      ((tuple p ps).run true i s).inp = ((tuple p ps).run true i s').inp ∧
      (((tuple p ps).run true i s).res.kept h = true → tupleClean Clean D ((tuple p ps).run true i s).st) := by
    intro s s' hc hc' i
    obtain ⟨e1, e2⟩ := hp.same s.head s'.head hc.1 hc'.1 i
    have e3 := hp.keep s.head hc.1 i
    have e4 := hp.keep s'.head hc'.1 i
    simp only [tuple, Parser.ofMode]
    unfold seqRun
    simp only [Bool.true_or, if_true]
    revert e1 e2 e3 e4
    generalize p.run true i s.head = o
    generalize p.run true i s'.head = o'
    obtain ⟨r, j, u⟩ := o
    obtain ⟨r', j', u'⟩ := o'
    rintro rfl rfl e3 e4
    cases r with
    | commitOk x => exact seqRest_keeps hps 1 j _ _ ⟨e3 rfl, hc.2⟩ ⟨e4 rfl, hc'.2⟩ rfl rfl
    | peekOk x => exact seqRest_keeps hps 0 j _ _ ⟨e3 rfl, hc.2⟩ ⟨e4 rfl, hc'.2⟩ rfl rfl
    | peekErr e => exact ⟨rfl, rfl, fun _ => ⟨e3 rfl, hc.2⟩⟩
    | commitErr e => exact ⟨rfl, rfl, fun hk => ⟨e3 hk, hc.2⟩⟩
    | abort a => exact ⟨rfl, rfl, fun hk => by cases hk⟩
  exact ⟨⟨hp.init, hps.init⟩, fun s s' hs hs' i => ⟨(key s s' hs hs' i).1, (key s s' hs hs' i).2.1⟩,
    fun s hs i => (key s s hs hs i).2.2⟩

theorem keeps_pair {C : τ → Prop} {p : Parser S σ α} {q : Parser S τ β} (hp : Keeps h Clean p)
    (hq : Keeps h C q) : Keeps h (tupleClean Clean fun t => C t.1.2 ∧ True) (pair p q) :=
  keeps_tuple hp (seqKeeps_cons hq seqKeeps_nil)

theorem keeps_with {C : τ → Prop} {p : Parser S σ α} {q : Parser S τ β} (hp : Keeps h Clean p)
    (hq : Keeps h C q) : Keeps h (tupleClean Clean fun t => C t.1.2 ∧ True) («with» p q) :=
  keeps_of_view (keeps_pair (keeps_ignore hp) hq) rfl (fun _ r j => (r.map fun x => x.2.1, j))
    (fun i s => ⟨rfl, rfl, rfl⟩)
    (fun i r j hk => by cases r <;> simp_all [ParseResult.map, ParseResult.kept])

theorem keeps_skip {C : τ → Prop} {p : Parser S σ α} {q : Parser S τ β} (hp : Keeps h Clean p)
    (hq : Keeps h C q) : Keeps h (tupleClean Clean fun t => C t.1.2 ∧ True) (skip p q) :=
  keeps_of_view (keeps_pair hp (keeps_ignore hq)) rfl (fun _ r j => (r.map fun x => x.1, j))
    (fun i s => ⟨rfl, rfl, rfl⟩)
    (fun i r j hk => by cases r <;> simp_all [ParseResult.map, ParseResult.kept])

theorem keeps_between {C : τ → Prop} {C' : υ → Prop} {o : Parser S σ α} {c : Parser S υ γ}
    {p : Parser S τ β} (ho : Keeps h Clean o) (hc : Keeps h C' c) (hp : Keeps h C p) :
    Keeps h (tupleClean Clean fun t => C t.1.2 ∧ C' t.2.1.2 ∧ True) (between o c p) :=
  keeps_parserMacro (keeps_map (keeps_tuple ho (seqKeeps_cons hp (seqKeeps_cons hc seqKeeps_nil))) _)

private theorem thenMerge_kept (c : Bool) (r : ParseResult β S.Err)
    (hk : (thenMerge (S := S) c r).kept h = true) : r.kept h = true := by
  cases r <;> cases c <;> simp_all [thenMerge, ParseResult.kept]

theorem keeps_thenP (hS : S.Lawful) {C : τ → Prop} {p : Parser S σ α} {f : α → Parser S τ β} {n : τ}
    (hn : C n) (hp : Keeps h Clean p) (hf : ∀ a, Keeps h C (f a)) (hst : ∀ a, Std (f a))
    (hm : ∀ a m i s, S.Reach i ((f a).run m i s).inp) :
    Keeps h (fun s => Clean s.1 ∧ C s.2.2) (thenP p f n) := by
  have key : ∀ s s' : σ × Option (Bool × α) × τ, Clean s.1 ∧ C s.2.2 → Clean s'.1 ∧ C s'.2.2 → ∀ i,
      ((thenP p f n).run true i s).res = ((thenP p f n).run true i s').res ∧
      ((thenP p f n).run true i s).inp = ((thenP p f n).run true i s').inp ∧
      (((thenP p f n).run true i s).res.kept h = true →
        Clean ((thenP p f n).run true i s).st.1 ∧ C ((thenP p f n).run true i s).st.2.2) := by
    rintro ⟨s, c, t⟩ ⟨s', c', t'⟩ ⟨h1, h2⟩ ⟨h1', h2'⟩ i
    obtain ⟨e1, e2⟩ := hp.same s s' h1 h1' i
    have e3 := hp.keep s h1 i
    simp only [thenP, Parser.ofMode, if_true]
    simp only at h1 h1' h2 h2'
    revert e1 e2 e3
    generalize p.run true i s = o
    generalize p.run true i s' = o'
    obtain ⟨r, j, u⟩ := o
    obtain ⟨r', j', u'⟩ := o'
    rintro rfl rfl e3
    have go : ∀ (a : α),
        ((f a).committed true j t).res = ((f a).committed true j t').res ∧
        ((f a).committed true j t).inp = ((f a).committed true j t').inp ∧
        (((f a).committed true j t).res.kept h = true → C ((f a).committed true j t).st) := by
      intro a
      obtain ⟨d1, d2⟩ := (hf a).same t t' h2 h2' j
      obtain ⟨g1, g2, g3, g4⟩ := (hst a).committed hS (hm a) true j t t' d1 d2
      refine ⟨g1, g2, fun hk => ?_⟩
      rw [g3]
      rw [g4 h] at hk
      exact (hf a).keep t h2 j hk
    cases r with
    | commitOk a =>
      obtain ⟨g1, g2, g3⟩ := go a
      simp only
      rw [← g1, ← g2]
      exact ⟨rfl, rfl, fun hk => ⟨e3 rfl, g3 (thenMerge_kept _ _ hk)⟩⟩
    | peekOk a =>
      obtain ⟨g1, g2, g3⟩ := go a
      simp only
      rw [← g1, ← g2]
      exact ⟨rfl, rfl, fun hk => ⟨e3 rfl, g3 (thenMerge_kept _ _ hk)⟩⟩
    | peekErr e => exact ⟨rfl, rfl, fun _ => ⟨e3 rfl, h2⟩⟩
    | commitErr e => exact ⟨rfl, rfl, fun hk => ⟨e3 hk, h2⟩⟩
    | abort a => exact ⟨rfl, rfl, fun hk => by cases hk⟩
  exact ⟨⟨hp.init, hn⟩, fun s s' hs hs' i => ⟨(key s s' hs hs' i).1, (key s s' hs hs' i).2.1⟩,
    fun s hs i => (key s s hs hs i).2.2⟩

/-! ## Wrappers with their own state -/

theorem keeps_eitherLeft {p : Parser S σ α} (hp : Keeps h Clean p) :
    Keeps h (fun s => match s with | some (.inl x) => Clean x | _ => True) (eitherLeft p τ) := by
  have key : ∀ s, (match s with | some (.inl x) => Clean x | _ => True) → ∃ s', Clean s' ∧ ∀ m i,
      (eitherLeft p τ).run m i s = (p.run m i s').mapSt fun x => some (.inl x) := by
    rintro (_ | x | x) hs
    · exact ⟨p.init, hp.init, fun _ _ => rfl⟩
    · exact ⟨x, hs, fun _ _ => rfl⟩
    · exact ⟨p.init, hp.init, fun _ _ => rfl⟩
  refine ⟨trivial, fun s s' hs hs' i => ?_, fun s hs i hk => ?_⟩
  · obtain ⟨t, ht, e⟩ := key s hs
    obtain ⟨t', ht', e'⟩ := key s' hs'
    rw [e, e']
    exact hp.same t t' ht ht' i
  · obtain ⟨t, ht, e⟩ := key s hs
    rw [e] at hk ⊢
    exact hp.keep t ht i hk

theorem keeps_anyPartialState {p : Parser S σ α} (hp : Keeps h Clean p) :
    Keeps h (fun s => ∀ x, s = some x → Clean x) (anyPartialState p) := by
  have key : ∀ s, (∀ x, s = some x → Clean x) → ∃ s', Clean s' ∧ ∀ m i,
      ((anyPartialState p).run m i s).res = (p.run m i s').res ∧
      ((anyPartialState p).run m i s).inp = (p.run m i s').inp ∧
      (((anyPartialState p).run m i s).st = none ∨
        ((anyPartialState p).run m i s).st = some (p.run m i s').st) := by
    rintro (_ | x) hs
    · refine ⟨p.init, hp.init, fun m i => ?_⟩
      simp only [anyPartialState, Parser.ofMode]
      cases hr : (p.run m i p.init).res <;> simp_all
    · exact ⟨x, hs x rfl, fun _ _ => ⟨rfl, rfl, .inr rfl⟩⟩
  refine ⟨fun _ hx => (by cases hx), fun s s' hs hs' i => ?_, fun s hs i hk => ?_⟩
  · obtain ⟨t, ht, e⟩ := key s hs
    obtain ⟨t', ht', e'⟩ := key s' hs'
    rw [(e true i).1, (e true i).2.1, (e' true i).1, (e' true i).2.1]
    exact hp.same t t' ht ht' i
  · obtain ⟨t, ht, e⟩ := key s hs
    rw [(e true i).1] at hk
    rintro x hx
    rcases (e true i).2.2 with h1 | h1
    · rw [h1] at hx; cases hx
    · rw [h1] at hx; cases hx
      exact hp.keep t ht i hk

/-! ## Repetition -/

/-- States of `Iter` after which the child state must be clean. -/
def IterSt.kept {E : Type} (h : Bool) : IterSt E → Bool
  | .ok => true
  | .peekErr _ => true
  | .commitErr _ => h
  | .abort _ => false

theorem iterExtend_keeps {p : Parser S σ α} (hp : Keeps h Clean p) (f : α → Option β) (n : Nat)
    (lim : Option Nat) (els : List β) (i : S.Input) (c : Bool) (st : IterSt S.Err) (s s' : σ)
    (hs : Clean s) (hs' : Clean s') :
    (iterExtend p f n lim els ⟨i, c, st, s, true⟩).1 = (iterExtend p f n lim els ⟨i, c, st, s', true⟩).1 ∧
    (iterExtend p f n lim els ⟨i, c, st, s, true⟩).2.inp =
      (iterExtend p f n lim els ⟨i, c, st, s', true⟩).2.inp ∧
    (iterExtend p f n lim els ⟨i, c, st, s, true⟩).2.committed =
      (iterExtend p f n lim els ⟨i, c, st, s', true⟩).2.committed ∧
    (iterExtend p f n lim els ⟨i, c, st, s, true⟩).2.state =
      (iterExtend p f n lim els ⟨i, c, st, s', true⟩).2.state ∧
    ((iterExtend p f n lim els ⟨i, c, st, s, true⟩).2.state.kept h = true →
      Clean (iterExtend p f n lim els ⟨i, c, st, s, true⟩).2.st) := by
  induction n generalizing lim els i c s s' with
  | zero =>
    cases lim with
    | none => simp [iterExtend, IterSt.kept]
    | some l =>
      cases l with
      | zero => simp [iterExtend, hs]
      | succ l => simp [iterExtend, IterSt.kept]
  | succ n ih =>
    by_cases h0 : lim = some 0
    · subst h0; simp [iterExtend, hs]
    · have hx : ∀ it, iterExtend p f (n + 1) lim els it =
          match iterNext p it with
          | (none, it') => (els, it')
          | (some x, it') =>
            match f x with
            | some y => iterExtend p f n (lim.map (· - 1)) (els ++ [y]) it'
            | none => (els, it') := by
        intro it
        cases lim with
        | none => rfl
        | some l =>
          cases l with
          | zero => exact absurd rfl h0
          | succ l => rfl
      rw [hx, hx]
      obtain ⟨e1, e2⟩ := hp.same s s' hs hs' i
      have e3 := hp.keep s hs i
      have e4 := hp.keep s' hs' i
      unfold iterNext
      simp only
      revert e1 e2 e3 e4
      generalize p.run true i s = o
      generalize p.run true i s' = o'
      obtain ⟨r, j, u⟩ := o
      obtain ⟨r', j', u'⟩ := o'
      rintro rfl rfl e3 e4
      cases r with
      | commitOk x =>
        simp only
        cases f x with
        | none => exact ⟨rfl, rfl, rfl, rfl, fun _ => e3 rfl⟩
        | some y => exact ih _ _ _ _ _ _ (e3 rfl) (e4 rfl)
      | peekOk x =>
        simp only
        cases f x with
        | none => exact ⟨rfl, rfl, rfl, rfl, fun _ => e3 rfl⟩
        | some y => exact ih _ _ _ _ _ _ (e3 rfl) (e4 rfl)
      | peekErr e =>
        simp only
        generalize S.reset _ _ = x
        obtain ⟨_ | e', k⟩ := x <;> exact ⟨rfl, rfl, rfl, rfl, fun _ => e3 rfl⟩
      | commitErr e => exact ⟨rfl, rfl, rfl, rfl, fun hk => e3 hk⟩
      | abort a => exact ⟨rfl, rfl, rfl, rfl, fun hk => by cases hk⟩

private theorem intoResultFast_kept (it : IterS S σ) (v : List α)
    (hk : (it.intoResultFast v).1.kept false = true) :
    it.state.kept h = true ∧ (it.intoResultFast v).2 = [] ∧ (it.intoResultFast v).1.isOk = true := by
  obtain ⟨i, c, st, s, fi⟩ := it
  cases st <;> cases c <;> simp_all [IterS.intoResultFast, ParseResult.kept, IterSt.kept, ParseResult.isOk]

theorem keeps_many {p : Parser S σ α} (hp : Keeps h Clean p) :
    Keeps false (fun s => s.1 = [] ∧ Clean s.2) (many p) := by
  have key : ∀ s s' : List α × σ, s.1 = [] ∧ Clean s.2 → s'.1 = [] ∧ Clean s'.2 → ∀ i,
      ((many p).run true i s).res = ((many p).run true i s').res ∧
      ((many p).run true i s).inp = ((many p).run true i s').inp ∧
      (((many p).run true i s).res.kept false = true →
        ((many p).run true i s).st.1 = [] ∧ Clean ((many p).run true i s).st.2) := by
    rintro ⟨els, s⟩ ⟨els', s'⟩ ⟨h1, h2⟩ ⟨h1', h2'⟩ i
    simp only at h1 h2 h1' h2'
    subst h1 h1'
    obtain ⟨e1, e2, e3, e4, e5⟩ := iterExtend_keeps hp some (S.size i + 2) none [] i false .ok s s' h2 h2'
    simp only [many, Parser.ofMode, IterS.new]
    refine ⟨?_, e2, fun hk => ?_⟩
    · simp only [IterS.intoResultFast, e1, e3, e4]
    · obtain ⟨k1, k2, -⟩ := intoResultFast_kept (h := h) _ _ hk
      exact ⟨k2, e5 k1⟩
  exact ⟨⟨rfl, hp.init⟩, fun s s' hs hs' i => ⟨(key s s' hs hs' i).1, (key s s' hs hs' i).2.1⟩,
    fun s hs i => (key s s hs hs i).2.2⟩

theorem keeps_many1 {p : Parser S σ α} (hp : Keeps h Clean p) :
    Keeps false (fun s => s.elements = [] ∧ Clean s.child) (many1 p) := by
  have rest : ∀ i po c po' c' els s s', Clean s → Clean s' → c = c' →
      (many1Rest p true i ⟨po, c, els, s⟩).res = (many1Rest p true i ⟨po', c', els, s'⟩).res ∧
      (many1Rest p true i ⟨po, c, els, s⟩).inp = (many1Rest p true i ⟨po', c', els, s'⟩).inp ∧
      ((many1Rest p true i ⟨po, c, els, s⟩).res.kept false = true →
        (many1Rest p true i ⟨po, c, els, s⟩).st.elements = [] ∧
        Clean (many1Rest p true i ⟨po, c, els, s⟩).st.child) := by
    rintro i po c po' c' els s s' h2 h2' rfl
    obtain ⟨e1, e2, e3, e4, e5⟩ := iterExtend_keeps hp some (S.size i + 2) none els i c .ok s s' h2 h2'
    simp only [many1Rest]
    refine ⟨?_, e2, fun hk => ?_⟩
    · simp only [IterS.intoResultFast, e1, e3, e4]
    · obtain ⟨k1, k2, -⟩ := intoResultFast_kept (h := h) _ _ hk
      exact ⟨k2, e5 k1⟩
  have key : ∀ s s' : Many1St σ α, s.elements = [] ∧ Clean s.child → s'.elements = [] ∧ Clean s'.child →
      ∀ i, ((many1 p).run true i s).res = ((many1 p).run true i s').res ∧
      ((many1 p).run true i s).inp = ((many1 p).run true i s').inp ∧
      (((many1 p).run true i s).res.kept false = true →
        ((many1 p).run true i s).st.elements = [] ∧ Clean ((many1 p).run true i s).st.child) := by
    rintro ⟨po, c, els, s⟩ ⟨po', c', els', s'⟩ ⟨h1, h2⟩ ⟨h1', h2'⟩ i
    simp only at h1 h2 h1' h2'
    subst h1 h1'
    obtain ⟨e1, e2⟩ := hp.same s s' h2 h2' i
    have e3 := hp.keep s h2 i
    have e4 := hp.keep s' h2' i
    simp only [many1, Parser.ofMode, Bool.true_or, if_true]
    revert e1 e2 e3 e4
    generalize p.run true i s = o
    generalize p.run true i s' = o'
    obtain ⟨r, j, u⟩ := o
    obtain ⟨r', j', u'⟩ := o'
    rintro rfl rfl e3 e4
    cases r with
    | commitOk x => exact rest _ _ _ _ _ _ _ _ (e3 rfl) (e4 rfl) rfl
    | peekOk x => exact rest _ _ _ _ _ _ _ _ (e3 rfl) (e4 rfl) rfl
    | peekErr e => exact ⟨rfl, rfl, fun _ => ⟨rfl, e3 rfl⟩⟩
    | commitErr e => exact ⟨rfl, rfl, fun hk => by cases hk⟩
    | abort a => exact ⟨rfl, rfl, fun hk => by cases hk⟩
  exact ⟨⟨rfl, hp.init⟩, fun s s' hs hs' i => ⟨(key s s' hs hs' i).1, (key s s' hs hs' i).2.1⟩,
    fun s hs i => (key s s hs hs i).2.2⟩

theorem keeps_skipMany {p : Parser S σ α} (hp : Keeps h Clean p) :
    Keeps false (fun s => s.1 = [] ∧ Clean s.2) (skipMany p) :=
  keeps_parserMacro (keeps_ignore (keeps_many (keeps_ignore hp)))

theorem keeps_skipMany1 {p : Parser S σ α} (hp : Keeps h Clean p) :
    Keeps false (fun s => s.elements = [] ∧ Clean s.child) (skipMany1 p) :=
  keeps_parserMacro (keeps_ignore (keeps_many1 (keeps_ignore hp)))

private theorem combineCommit_kept (c : Commit Unit) (r : ParseResult α S.Err)
    (hk : (ParseResult.combineCommit c fun _ => r).kept false = true) (hs : ∀ e, r ≠ .peekErr e) :
    r.kept false = true ∧ r.isOk = true := by
  cases c <;> cases r <;> simp_all [ParseResult.combineCommit, ParseResult.kept, ParseResult.isOk]

private theorem sepDone (h : Bool) (w w' : List α × IterS S σ) (c : Commit Unit) (f1 : w.1 = w'.1)
    (f2 : w.2.inp = w'.2.inp) (f3 : w.2.committed = w'.2.committed) (f4 : w.2.state = w'.2.state) :
    (ParseResult.combineCommit c fun _ => (w.2.intoResultFast w.1).1) =
      (ParseResult.combineCommit c fun _ => (w'.2.intoResultFast w'.1).1) ∧
    ((ParseResult.combineCommit c fun _ => (w.2.intoResultFast w.1).1).kept false = true →
      w.2.state.kept h = true ∧ (w.2.intoResultFast w.1).2 = [] ∧
      (w.2.intoResultFast w.1).1.isOk = true) := by
  obtain ⟨es, ii, cc, ss, xx, ff⟩ := w
  obtain ⟨es', ii', cc', ss', xx', ff'⟩ := w'
  simp only at f1 f2 f3 f4
  subst f1 f2 f3 f4
  refine ⟨by cases ss <;> rfl, fun hk => ?_⟩
  cases ss <;> cases cc <;> cases c <;>
    simp_all [IterS.intoResultFast, ParseResult.kept, IterSt.kept, ParseResult.isOk, ParseResult.combineCommit]

theorem keeps_sepBy1 {C : τ → Prop} {p : Parser S σ α} {q : Parser S τ β} (hp : Keeps h Clean p)
    (hq : Keeps h C q) :
    Keeps false (fun s => s.1 = none ∧ s.2.1 = [] ∧
      tupleClean C (fun t => Clean t.1.2 ∧ True) s.2.2) (sepBy1 p q) := by
  have hrest := keeps_with (keeps_boxed hq) (keeps_boxed hp)
  have key : ∀ s s' : Option (Commit Unit) × List α × SepSt σ τ α,
      (s.1 = none ∧ s.2.1 = [] ∧ tupleClean C (fun t => Clean t.1.2 ∧ True) s.2.2) →
      (s'.1 = none ∧ s'.2.1 = [] ∧ tupleClean C (fun t => Clean t.1.2 ∧ True) s'.2.2) → ∀ i,
      ((sepBy1 p q).run true i s).res = ((sepBy1 p q).run true i s').res ∧
      ((sepBy1 p q).run true i s).inp = ((sepBy1 p q).run true i s').inp ∧
      (((sepBy1 p q).run true i s).res.kept false = true →
        ((sepBy1 p q).run true i s).st.1 = none ∧ ((sepBy1 p q).run true i s).st.2.1 = [] ∧
        tupleClean C (fun t => Clean t.1.2 ∧ True) ((sepBy1 p q).run true i s).st.2.2) := by
    rintro ⟨o, els, s⟩ ⟨o', els', s'⟩ ⟨h1, h2, h3, h4, -⟩ ⟨h1', h2', h3', h4', -⟩ i
    simp only at h1 h2 h3 h4 h1' h2' h3' h4'
    subst h1 h1' h2 h2'
    obtain ⟨e1, e2⟩ := hp.same _ _ h4 h4' i
    have e3 := hp.keep _ h4 i
    have e4 := hp.keep _ h4' i
    simp only [sepBy1, Parser.ofMode]
    revert e1 e2 e3 e4
    generalize p.run true i s.tail.1.2 = o
    generalize p.run true i s'.tail.1.2 = o'
    obtain ⟨r, j, u⟩ := o
    obtain ⟨r', j', u'⟩ := o'
    rintro rfl rfl e3 e4
    have go : ∀ (c : Commit Unit) (els : List α) (hu : Clean u) (hu' : Clean u'),
        let r := iterExtend («with» (boxed q) (boxed p)) some (S.size j + 2) none els
          (IterS.new true j (SepSt.setB s u))
        let r' := iterExtend («with» (boxed q) (boxed p)) some (S.size j + 2) none els
          (IterS.new true j (SepSt.setB s' u'))
        let x := r.2.intoResultFast r.1
        let x' := r'.2.intoResultFast r'.1
        (ParseResult.combineCommit c fun _ => x.1) = (ParseResult.combineCommit c fun _ => x'.1) ∧
        r.2.inp = r'.2.inp ∧
        ((ParseResult.combineCommit c fun _ => x.1).kept false = true →
          (if x.1.isOk then none else none : Option (Commit Unit)) = none ∧ x.2 = [] ∧
          tupleClean C (fun t => Clean t.1.2 ∧ True) r.2.st) := by
      intro c els hu hu'
      obtain ⟨f1, f2, f3, f4, f5⟩ := iterExtend_keeps hrest some (S.size j + 2) none els j false .ok
        (SepSt.setB s u) (SepSt.setB s' u') ⟨h3, hu, trivial⟩ ⟨h3', hu', trivial⟩
      obtain ⟨k1, k2⟩ := sepDone h _ _ c f1 f2 f3 f4
      refine ⟨k1, f2, fun hk => ?_⟩
      obtain ⟨k1, k2, k3⟩ := k2 hk
      exact ⟨by simp, k2, f5 k1⟩
    cases r with
    | commitOk x => exact go (.commit ()) [x] (e3 rfl) (e4 rfl)
    | peekOk x => exact go (.peek ()) [x] (e3 rfl) (e4 rfl)
    | peekErr e => exact ⟨rfl, rfl, fun _ => ⟨rfl, rfl, h3, e3 rfl, trivial⟩⟩
    | commitErr e => exact ⟨rfl, rfl, fun hk => by cases hk⟩
    | abort a => exact ⟨rfl, rfl, fun hk => by cases hk⟩
  exact ⟨⟨rfl, rfl, hq.init, hp.init, trivial⟩,
    fun s s' hs hs' i => ⟨(key s s' hs hs' i).1, (key s s' hs hs' i).2.1⟩,
    fun s hs i => (key s s hs hs i).2.2⟩

theorem keeps_sepEndBy1 (hS : S.Lawful) {C : τ → Prop} {p : Parser S σ α} {q : Parser S τ β}
    (hm : ∀ m i s, S.Reach i (p.run m i s).inp) (hp : Keeps h Clean p) (hq : Keeps h C q) :
    Keeps false (fun s => s.1 = none ∧ s.2.1 = [] ∧
      tupleClean C (fun t => Clean t.1.2 ∧ True) s.2.2) (sepEndBy1 p q) := by
  have hrest := keeps_with (keeps_boxed hq) (keeps_optional hS (p := boxed p) hm (keeps_boxed hp))
  have key : ∀ s s' : Option (Commit Unit) × List α × SepSt σ τ (Option α),
      (s.1 = none ∧ s.2.1 = [] ∧ tupleClean C (fun t => Clean t.1.2 ∧ True) s.2.2) →
      (s'.1 = none ∧ s'.2.1 = [] ∧ tupleClean C (fun t => Clean t.1.2 ∧ True) s'.2.2) → ∀ i,
      ((sepEndBy1 p q).run true i s).res = ((sepEndBy1 p q).run true i s').res ∧
      ((sepEndBy1 p q).run true i s).inp = ((sepEndBy1 p q).run true i s').inp ∧
      (((sepEndBy1 p q).run true i s).res.kept false = true →
        ((sepEndBy1 p q).run true i s).st.1 = none ∧ ((sepEndBy1 p q).run true i s).st.2.1 = [] ∧
        tupleClean C (fun t => Clean t.1.2 ∧ True) ((sepEndBy1 p q).run true i s).st.2.2) := by
    rintro ⟨o, els, s⟩ ⟨o', els', s'⟩ ⟨h1, h2, h3, h4, -⟩ ⟨h1', h2', h3', h4', -⟩ i
    simp only at h1 h2 h3 h4 h1' h2' h3' h4'
    subst h1 h1' h2 h2'
    obtain ⟨e1, e2⟩ := hp.same _ _ h4 h4' i
    have e3 := hp.keep _ h4 i
    have e4 := hp.keep _ h4' i
    simp only [sepEndBy1, Parser.ofMode]
    revert e1 e2 e3 e4
    generalize p.run true i s.tail.1.2 = o
    generalize p.run true i s'.tail.1.2 = o'
    obtain ⟨r, j, u⟩ := o
    obtain ⟨r', j', u'⟩ := o'
    rintro rfl rfl e3 e4
    have go : ∀ (c : Commit Unit) (els : List α) (hu : Clean u) (hu' : Clean u'),
        let r := iterExtend («with» (boxed q) (optional (boxed p))) id (S.size j + 2) none els
          (IterS.new true j (SepSt.setB s u))
        let r' := iterExtend («with» (boxed q) (optional (boxed p))) id (S.size j + 2) none els
          (IterS.new true j (SepSt.setB s' u'))
        let x := r.2.intoResultFast r.1
        let x' := r'.2.intoResultFast r'.1
        (ParseResult.combineCommit c fun _ => x.1) = (ParseResult.combineCommit c fun _ => x'.1) ∧
        r.2.inp = r'.2.inp ∧
        ((ParseResult.combineCommit c fun _ => x.1).kept false = true →
          (if x.1.isOk then none else (if r.2.committed then some (.commit ()) else some c) :
            Option (Commit Unit)) = none ∧ x.2 = [] ∧
          tupleClean C (fun t => Clean t.1.2 ∧ True) r.2.st) := by
      intro c els hu hu'
      obtain ⟨f1, f2, f3, f4, f5⟩ := iterExtend_keeps hrest id (S.size j + 2) none els j false .ok
        (SepSt.setB s u) (SepSt.setB s' u') ⟨h3, hu, trivial⟩ ⟨h3', hu', trivial⟩
      obtain ⟨k1, k2⟩ := sepDone h _ _ c f1 f2 f3 f4
      refine ⟨k1, f2, fun hk => ?_⟩
      obtain ⟨k1, k2, k3⟩ := k2 hk
      exact ⟨if_pos k3, k2, f5 k1⟩
    cases r with
    | commitOk x => exact go (.commit ()) [x] (e3 rfl) (e4 rfl)
    | peekOk x => exact go (.peek ()) [x] (e3 rfl) (e4 rfl)
    | peekErr e => exact ⟨rfl, rfl, fun _ => ⟨rfl, rfl, h3, e3 rfl, trivial⟩⟩
    | commitErr e => exact ⟨rfl, rfl, fun hk => by cases hk⟩
    | abort a => exact ⟨rfl, rfl, fun hk => by cases hk⟩
  exact ⟨⟨rfl, rfl, hq.init, hp.init, trivial⟩,
    fun s s' hs hs' i => ⟨(key s s' hs hs' i).1, (key s s' hs hs' i).2.1⟩,
    fun s hs i => (key s s hs hs i).2.2⟩

theorem keeps_sepBy (p : Parser S σ α) (q : Parser S τ β) : Keeps h (fun _ => True) (sepBy p q) :=
  ⟨trivial, fun s s' _ _ i => choice_run_st _ i s s', fun _ _ _ _ => trivial⟩

theorem keeps_sepEndBy (p : Parser S σ α) (q : Parser S τ β) : Keeps h (fun _ => True) (sepEndBy p q) :=
  ⟨trivial, fun s s' _ _ i => choice_run_st _ i s s', fun _ _ _ _ => trivial⟩

/-! ## Ranges -/

private theorem tryReset_st {σ' : Type} (b : S.Ckpt) (j : S.Input) (s : σ) (s' : σ')
    (k : S.Input → Out S σ α) (k' : S.Input → Out S σ' α)
    (hk : ∀ i, (k i).res = (k' i).res ∧ (k i).inp = (k' i).inp) :
    (S.tryReset b j s k).res = (S.tryReset b j s' k').res ∧
    (S.tryReset b j s k).inp = (S.tryReset b j s' k').inp := by
  unfold Strm.tryReset
  generalize S.reset b j = x
  obtain ⟨_ | e, l⟩ := x
  · exact hk l
  · exact ⟨rfl, rfl⟩

private theorem partialRange_same (R : RangeOps S) (a b : S.Input → ParseResult S.Rng S.Err × S.Input)
    (i : S.Input) (d d' : Nat) :
    (partialRange R a b true i d).res = (partialRange R a b true i d').res ∧
    (partialRange R a b true i d).inp = (partialRange R a b true i d').inp := by
  unfold partialRange
  simp only [Bool.true_or, if_true]
  split
  · exact ⟨rfl, rfl⟩
  · generalize a i = r
    obtain ⟨r, j⟩ := r
    cases r with
    | commitErr e => exact tryReset_st _ _ _ _ _ _ fun _ => ⟨rfl, rfl⟩
    | _ => exact ⟨rfl, rfl⟩

theorem keeps_takeWhile (R : RangeOps S) (f : S.Tok → Bool) : Keeps h (fun _ => True) (takeWhile R f) :=
  ⟨trivial, fun s s' _ _ i => partialRange_same R _ _ i s s', fun _ _ _ _ => trivial⟩

theorem keeps_takeWhile1 (R : RangeOps S) (f : S.Tok → Bool) : Keeps h (fun _ => True) (takeWhile1 R f) :=
  ⟨trivial, fun s s' _ _ i => partialRange_same R _ _ i s s', fun _ _ _ _ => trivial⟩

theorem keeps_takeFn (R : RangeOps S) (f : S.Rng → TakeRange) : Keeps h (fun _ => True) (takeFn R f) :=
  ⟨trivial, fun s s' _ _ i => by
    simp only [takeFn, Parser.ofMode, if_true]
    exact ⟨trivial, trivial⟩, fun _ _ _ _ => trivial⟩

private theorem retake_st (R : RangeOps S) (b : S.Ckpt) (d : Nat) (s : σ) (i : S.Input) (f : S.Rng → α) :
    (retake R b (d, s) i f).st.2 = s := by
  simp only [retake, Strm.tryReset]
  generalize S.reset b i = x
  obtain ⟨_ | e, l⟩ := x <;> rfl

theorem keeps_recognizeWithValue (R : RangeOps S) {p : Parser S σ α} (hp : Keeps h Clean p) :
    Keeps h (fun s => Clean s.2) (recognizeWithValue R p) := by
  have key : ∀ s s' : Nat × σ, Clean s.2 → Clean s'.2 → ∀ i,
      ((recognizeWithValue R p).run true i s).res = ((recognizeWithValue R p).run true i s').res ∧
      ((recognizeWithValue R p).run true i s).inp = ((recognizeWithValue R p).run true i s').inp ∧
      (((recognizeWithValue R p).run true i s).res.kept h = true →
        Clean ((recognizeWithValue R p).run true i s).st.2) := by
    rintro ⟨d, s⟩ ⟨d', s'⟩ h1 h1' i
    obtain ⟨e1, e2⟩ := hp.same _ _ h1 h1' i
    have e3 := hp.keep _ h1 i
    simp only [recognizeWithValue, Parser.ofMode, if_true]
    revert e1 e2 e3
    simp only
    generalize p.run true i s = o
    generalize p.run true i s' = o'
    obtain ⟨r, j, u⟩ := o
    obtain ⟨r', j', u'⟩ := o'
    rintro rfl rfl e3
    have go : ∀ x : α, (retake R (S.checkpoint i) (d, u) j fun r : S.Rng => (r, x)).res =
        (retake R (S.checkpoint i) (d', u') j fun r : S.Rng => (r, x)).res ∧
        (retake R (S.checkpoint i) (d, u) j fun r : S.Rng => (r, x)).inp =
        (retake R (S.checkpoint i) (d', u') j fun r : S.Rng => (r, x)).inp := fun x =>
      tryReset_st _ _ _ _ _ _ fun _ => ⟨rfl, rfl⟩
    cases r with
    | commitOk x =>
      refine ⟨(go x).1, (go x).2, fun _ => ?_⟩
      simp only [retake_st]
      exact e3 rfl
    | peekOk x =>
      refine ⟨(go x).1, (go x).2, fun _ => ?_⟩
      simp only [retake_st]
      exact e3 rfl
    | peekErr e => exact ⟨rfl, rfl, fun _ => e3 rfl⟩
    | commitErr e =>
      simp only [Strm.tryReset]
      generalize S.reset (S.checkpoint i) j = x
      obtain ⟨_ | e, l⟩ := x <;> exact ⟨rfl, rfl, fun hk => e3 hk⟩
    | abort a => exact ⟨rfl, rfl, fun hk => by cases hk⟩
  exact ⟨hp.init, fun s s' hs hs' i => ⟨(key s s' hs hs' i).1, (key s s' hs hs' i).2.1⟩,
    fun s hs i => (key s s hs hs i).2.2⟩

theorem keeps_recognizeRange (R : RangeOps S) {p : Parser S σ α} (hp : Keeps h Clean p) :
    Keeps h (fun s => Clean s.2) (recognizeRange R p) :=
  keeps_parserMacro (keeps_map (keeps_recognizeWithValue R hp) _)

end Verif
