import Verif.Spec.Lockstep
import Verif.Model.Byte
import Verif.Model.Classes

/-!
# Parsers over streams that do the same
-/

namespace Verif.Lockstep

variable {T Rg P : Type} [DecidableEq P] {E : ErrOps T Rg P} {X Y : Impl E} {M : Lockstep X Y} {σ τ υ α β γ : Type}
  {L : List (X.Ckpt × Y.Ckpt)} {i : X.Input} {j : Y.Input}

theorem Out.cases {x : Verif.Out X.strm σ α} {y : Verif.Out Y.strm σ α} (h : M.Out L x y) :
    (∃ r i s, x = ⟨r, i, s⟩ ∧ r.Fails ∧ M.Lost L i) ∨ ∃ r i j s, x = ⟨r, i, s⟩ ∧ y = ⟨r, j, s⟩ ∧ M.R L i j := by
  obtain ⟨r, i, s⟩ := x
  obtain ⟨r', j, s'⟩ := y
  rcases h with ⟨h1, h2⟩ | ⟨h1, h2, h3⟩
  · exact .inl ⟨r, i, s, rfl, h1, h2⟩
  cases h1
  cases h3
  exact .inr ⟨r, i, j, s, rfl, rfl, h2⟩

omit [DecidableEq P] in
theorem Res.cases {x : α × X.Input} {y : α × Y.Input} (h : M.Res L x y) : ∃ r i j, x = (r, i) ∧ y = (r, j) ∧ M.R L i j := by
  obtain ⟨r, i⟩ := x
  obtain ⟨r', j⟩ := y
  obtain ⟨h1, h2⟩ := h
  cases h1
  exact ⟨r, i, j, rfl, rfl, h2⟩

omit [DecidableEq P] in
theorem Ans.cases {x : ParseResult α E.Err × X.Input} {y : ParseResult α E.Err × Y.Input} (h : M.Ans L x y) :
    (∃ r i, x = (r, i) ∧ r.Fails ∧ M.Lost L i) ∨ ∃ r i j, x = (r, i) ∧ y = (r, j) ∧ M.R L i j := by
  obtain ⟨r, i⟩ := x
  obtain ⟨r', j⟩ := y
  rcases h with ⟨h1, h2⟩ | ⟨h1, h2⟩
  · exact .inl ⟨r, i, rfl, h1, h2⟩
  cases h1
  exact .inr ⟨r, i, j, rfl, rfl, h2⟩

theorem Out.mk' {r : ParseResult α E.Err} {s : σ} (h : M.R L i j) : M.Out L (⟨r, i, s⟩ : Verif.Out X.strm σ α) ⟨r, j, s⟩ :=
  .inr ⟨rfl, h, rfl⟩

omit [DecidableEq P] in
theorem Ans.mk' {r : ParseResult α E.Err} (h : M.R L i j) : M.Ans L (r, i) (r, j) := .inr ⟨rfl, h⟩

theorem Out.forget {c : X.Ckpt × Y.Ckpt} {x : Verif.Out X.strm σ α} {y : Verif.Out Y.strm σ α} (h : M.Out (c :: L) x y) : M.Out L x y :=
  h.elim (fun h => .inl ⟨h.1, M.lostForget h.2⟩) fun h => .inr ⟨h.1, M.forget h.2.1, h.2.2⟩

omit [DecidableEq P] in
theorem Ans.forget {c : X.Ckpt × Y.Ckpt} {x : ParseResult α E.Err × X.Input} {y : ParseResult α E.Err × Y.Input}
    (h : M.Ans (c :: L) x y) : M.Ans L x y :=
  h.elim (fun h => .inl ⟨h.1, M.lostForget h.2⟩) fun h => .inr ⟨h.1, M.forget h.2⟩

/-! ## Operations -/

omit [DecidableEq P] in
theorem uncons' (h : M.R L i j) : ∃ r i' j', X.uncons i = (r, i') ∧ Y.uncons j = (r, j') ∧ M.R L i' j' :=
  Res.cases (M := M) (L := L) (x := X.uncons i) (y := Y.uncons j) (M.uncons h)

omit [DecidableEq P] in
theorem reset' {c : X.Ckpt × Y.Ckpt} (h : M.R (c :: L) i j) :
    (∃ e i', X.reset c.1 i = (some e, i') ∧ M.Lost (c :: L) i') ∨
    ∃ r i' j', X.reset c.1 i = (r, i') ∧ Y.reset c.2 j = (r, j') ∧ M.R (c :: L) i' j' := by
  rcases M.reset h with ⟨h1, h2⟩ | h
  · obtain ⟨e, h1⟩ := Option.isSome_iff_exists.1 h1
    exact .inl ⟨e, _, Prod.ext h1 rfl, h2⟩
  · exact .inr (Res.cases (M := M) (L := c :: L) (x := X.reset c.1 i) (y := Y.reset c.2 j) h)

omit [DecidableEq P] in
theorem lostReset' {c : X.Ckpt × Y.Ckpt} (h : M.Lost (c :: L) i) : ∃ e i', X.reset c.1 i = (some e, i') ∧ M.Lost (c :: L) i' := by
  obtain ⟨h1, h2⟩ := M.lostReset h
  obtain ⟨e, h1⟩ := Option.isSome_iff_exists.1 h1
  exact ⟨e, _, Prod.ext h1 rfl, h2⟩

theorem lostTry {c : X.Ckpt} {d : Y.Ckpt} (h : M.Lost ((c, d) :: L) i) {s : σ} {k : X.Input → Verif.Out X.strm σ α} {y : Verif.Out Y.strm σ α} :
    M.Out L (Strm.tryReset (S := X.strm) c i s k) y := by
  obtain ⟨e, i', h1, h2⟩ := lostReset' h
  simp only [Strm.tryReset, h1]
  exact .inl ⟨trivial, M.lostForget h2⟩

/-- End a proof where the first parser is lost. -/
local macro "lost" : tactic => set_option hygiene false in `(tactic| (
  simp only [h1]
  cases r <;> first
    | exact hF.elim
    | exact .inl ⟨trivial, hl⟩
    | exact .inl ⟨trivial, M.lostForget hl⟩
    | exact lostTry hl
    | (obtain ⟨e, k, hx, hy⟩ := lostReset' hl; simp only [hx]; exact .inl ⟨trivial, M.lostForget hy⟩)))

theorem wrapStreamError (h : M.R L i j) (e : E.SErr) :
    (X.strm.wrapStreamError i e : ParseResult α E.Err) = Y.strm.wrapStreamError j e := by
  simp only [Strm.wrapStreamError, M.isPartial h, M.position h]

theorem unconsP (h : M.R L i j) : M.Res L (X.strm.unconsP i) (Y.strm.unconsP j) := by
  obtain ⟨r, i', j', h1, h2, h3⟩ := uncons' h
  simp only [Strm.unconsP, h1, h2]
  cases r with
  | ok t => exact ⟨rfl, h3⟩
  | error e => exact ⟨wrapStreamError h3 e, h3⟩

theorem inputAtEof (h : M.R L i j) :
    (∃ b i', X.strm.inputAtEof i = (b, i') ∧ M.Lost L i') ∨
    ∃ b i' j', X.strm.inputAtEof i = (b, i') ∧ Y.strm.inputAtEof j = (b, j') ∧ M.R L i' j' := by
  obtain ⟨r, i', j', h1, h2, h3⟩ := uncons' (M.save h)
  rcases reset' h3 with ⟨e, i'', h4, h5⟩ | ⟨e, i'', j'', h4, h5, h6⟩
  · simp only [Strm.inputAtEof, h1]
    cases r <;> simp only [h4] <;> exact .inl ⟨_, _, rfl, M.lostForget h5⟩
  simp only [Strm.inputAtEof, h1, h2]
  cases r with
  | ok t =>
    simp only [h4, h5]
    exact .inr ⟨_, _, _, rfl, rfl, M.forget h6⟩
  | error x =>
    simp only [h4, h5]
    cases e <;> exact .inr ⟨_, _, _, rfl, rfl, M.forget h6⟩

theorem tryReset {c : X.Ckpt} {d : Y.Ckpt} (h : M.R ((c, d) :: L) i j) (s : σ) {k : X.Input → Verif.Out X.strm σ α}
    {k' : Y.Input → Verif.Out Y.strm σ α} (hk : ∀ i j, M.R ((c, d) :: L) i j → M.Out ((c, d) :: L) (k i) (k' j)) :
    M.Out ((c, d) :: L) (Strm.tryReset (S := X.strm) c i s k) (Strm.tryReset (S := Y.strm) d j s k') := by
  rcases reset' h with ⟨e, i', h4, h5⟩ | ⟨e, i', j', h4, h5, h6⟩
  · simp only [Strm.tryReset, h4]
    exact .inl ⟨trivial, h5⟩
  simp only [Strm.tryReset, h4, h5]
  cases e with
  | none => exact hk _ _ h6
  | some e => exact Out.mk' h6

theorem describe {c : X.Ckpt} {d : Y.Ckpt} (h : M.R ((c, d) :: L) i j) (s : σ) (add : Tracked E.Err → Tracked E.Err)
    (e : Tracked E.Err) :
    M.Out ((c, d) :: L) (Strm.describe (S := X.strm) (α := α) c add e i s) (Strm.describe (S := Y.strm) d add e j s) := by
  refine tryReset h s fun i j h => ?_
  obtain ⟨r, i', j', h1, h2, h3⟩ := uncons' h
  simp only [h1, h2]
  cases r with
  | ok t => exact tryReset h3 s fun i j h => Out.mk' h
  | error x => exact Out.mk' h3

theorem describing {run : X.Input → σ → Verif.Out X.strm σ α} {run' : Y.Input → σ → Verif.Out Y.strm σ α}
    (hr : ∀ {L i j}, M.R L i j → ∀ s, M.Out L (run i s) (run' j s)) (add : Tracked E.Err → Tracked E.Err) (h : M.R L i j) (s : σ) :
    M.Out L (Strm.describing (S := X.strm) add run i s) (Strm.describing (S := Y.strm) add run' j s) := by
  unfold Strm.describing
  rcases (hr (M.save h) s).cases with ⟨r, i', s', h1, hF, hl⟩ | ⟨r, i', j', s', h1, h2, h3⟩
  · lost
  simp only [h1, h2]
  cases r with
  | peekErr e => exact (describe h3 s' add e).forget
  | commitOk v => exact Out.mk' (M.forget h3)
  | peekOk v => exact Out.mk' (M.forget h3)
  | commitErr v => exact Out.mk' (M.forget h3)
  | abort v => exact Out.mk' (M.forget h3)

theorem defaultLazy {run : Bool → X.Input → σ → Verif.Out X.strm σ α} {run' : Bool → Y.Input → σ → Verif.Out Y.strm σ α}
    (hr : ∀ {L i j}, M.R L i j → ∀ m s, M.Out L (run m i s) (run' m j s)) (s : σ) (h : M.R L i j) :
    M.Ans L (Strm.defaultLazy (S := X.strm) s run i) (Strm.defaultLazy (S := Y.strm) s run' j) := by
  simp only [Strm.defaultLazy, M.isPartial h]
  split
  · rcases (hr (M.save h) true s).cases with ⟨r, i', s', h1, hF, hl⟩ | ⟨r, i', j', s', h1, h2, h3⟩
    · lost
    simp only [h1, h2]
    cases r with
    | commitErr e =>
      rcases reset' h3 with ⟨e, i'', h4, h5⟩ | ⟨r, i'', j'', h4, h5, h6⟩
      · simp only [h4]
        exact .inl ⟨trivial, M.lostForget h5⟩
      simp only [h4, h5]
      cases r <;> exact Ans.mk' (M.forget h6)
    | commitOk v => exact Ans.mk' (M.forget h3)
    | peekOk v => exact Ans.mk' (M.forget h3)
    | peekErr v => exact Ans.mk' (M.forget h3)
    | abort v => exact Ans.mk' (M.forget h3)
  · rcases (hr h true s).cases with ⟨r, i', s', h1, hF, hl⟩ | ⟨r, i', j', s', h1, h2, h3⟩
    · lost
    simp only [h1, h2]
    exact Ans.mk' h3

theorem Out.ans {x : Verif.Out X.strm σ α} {y : Verif.Out Y.strm σ α} (h : M.Out L x y) : M.Ans L (x.res, x.inp) (y.res, y.inp) :=
  h.elim .inl fun h => .inr ⟨h.1, h.2.1⟩

theorem Ans.out {x : ParseResult α E.Err × X.Input} {y : ParseResult α E.Err × Y.Input} (h : M.Ans L x y) (s : σ) :
    M.Out L (⟨x.1, x.2, s⟩ : Verif.Out X.strm σ α) ⟨y.1, y.2, s⟩ :=
  h.elim .inl fun h => .inr ⟨h.1, h.2, rfl⟩

theorem same_mode {s : σ} {run : Bool → X.Input → σ → Verif.Out X.strm σ α} {run' : Bool → Y.Input → σ → Verif.Out Y.strm σ α}
    {a a' c c' : Tracked E.Err → Tracked E.Err} {n n' : Nat}
    (hr : ∀ {L i j}, M.R L i j → ∀ m s, M.Out L (run m i s) (run' m j s)) (ha : a = a') (hc : c = c') (hn : n = n') :
    M.Same (.ofMode (S := X.strm) s run a c n) (.ofMode (S := Y.strm) s run' a' c' n') := by
  subst ha hc hn
  exact
  { init := rfl
    run := hr
    lazy := defaultLazy hr s
    committed := fun h m t => describing (fun h => hr h m) a h t
    stream := fun h => (describing (fun h => hr h true) a h s).ans
    addError := rfl
    addCommitted := rfl
    count := rfl }

theorem same_lazy {s : σ} {run : X.Input → ParseResult α E.Err × X.Input} {run' : Y.Input → ParseResult α E.Err × Y.Input}
    {a a' c c' : Tracked E.Err → Tracked E.Err} {n n' : Nat}
    (hr : ∀ {L i j}, M.R L i j → M.Ans L (run i) (run' j)) (ha : a = a') (hc : c = c') (hn : n = n') :
    M.Same (.ofLazy (S := X.strm) s run a c n) (.ofLazy (S := Y.strm) s run' a' c' n') := by
  subst ha hc hn
  have hr' : ∀ {L i j}, M.R L i j → ∀ s : σ, M.Out L (⟨(run i).1, (run i).2, s⟩ : Verif.Out X.strm σ α) ⟨(run' j).1, (run' j).2, s⟩ :=
    fun h s => (hr h).out s
  exact
  { init := rfl
    run := fun h _ => hr' h
    lazy := hr
    committed := fun h _ t => describing hr' a h t
    stream := fun h => (describing hr' a h s).ans
    addError := rfl
    addCommitted := rfl
    count := rfl }

/-! ## Tokens -/

theorem satisfyImpl (f : T → Option α) (h : M.R L i j) : M.Res L (Verif.satisfyImpl X.strm f i) (Verif.satisfyImpl Y.strm f j) := by
  obtain ⟨r, i', j', h1, h2, h3⟩ := (unconsP h).cases
  simp only [Verif.satisfyImpl, h1, h2, M.position h]
  cases r <;> dsimp only <;> first | exact ⟨rfl, h3⟩ | (rename_i c; cases f c <;> exact ⟨rfl, h3⟩)

theorem any : M.Same (Verif.any X.strm) (Verif.any Y.strm) := same_lazy (fun h => .inr (unconsP h)) rfl rfl rfl

theorem satisfy (f : T → Bool) : M.Same (Verif.satisfy X.strm f) (Verif.satisfy Y.strm f) :=
  same_lazy (fun h => .inr (satisfyImpl _ h)) rfl rfl rfl

theorem satisfyMap (f : T → Option α) : M.Same (Verif.satisfyMap X.strm f) (Verif.satisfyMap Y.strm f) :=
  same_lazy (fun h => .inr (satisfyImpl _ h)) rfl rfl rfl

theorem token [DecidableEq T] (c : T) : M.Same (Verif.token X.strm c) (Verif.token Y.strm c) :=
  same_lazy (fun h => .inr (satisfyImpl _ h)) rfl rfl rfl

theorem oneOf [DecidableEq T] (c : List T) : M.Same (Verif.oneOf X.strm c) (Verif.oneOf Y.strm c) :=
  same_lazy (fun h => .inr (satisfyImpl _ h)) rfl rfl rfl

theorem noneOf [DecidableEq T] (c : List T) : M.Same (Verif.noneOf X.strm c) (Verif.noneOf Y.strm c) :=
  same_lazy (fun h => .inr (satisfyImpl _ h)) rfl rfl rfl

theorem tokensLoop (cmp : τ → T → Bool) (start : P) (bad : T → E.Err) (ts : List τ) (b : Bool) (h : M.R L i j) :
    M.Res L (Verif.tokensLoop X.strm cmp start bad ts b i) (Verif.tokensLoop Y.strm cmp start bad ts b j) := by
  induction ts generalizing b i j with
  | nil => exact ⟨rfl, h⟩
  | cons t ts ih =>
    obtain ⟨r, i', j', h1, h2, h3⟩ := (unconsP h).cases
    simp only [Verif.tokensLoop, h1, h2]
    cases r <;> dsimp only <;> first | exact ⟨rfl, h3⟩ | (split <;> first | exact ih _ h3 | exact ⟨rfl, h3⟩)

theorem tokens (cmp : τ → T → Bool) (x : Info T Rg) (ts : List τ) :
    M.Same (Verif.tokens X.strm cmp x ts) (Verif.tokens Y.strm cmp x ts) := by
  refine same_lazy (fun {L i j} h => ?_) rfl rfl rfl
  obtain ⟨r, i', j', h1, h2, h3⟩ := (tokensLoop cmp (Y.position j)
    (fun other => E.add (E.fromError (Y.position j) (E.unexpected (.token other))) (E.expected x)) ts false h).cases
  simp only [M.position h, h1, h2]
  exact Ans.mk' h3

theorem tokensCmp (ts : List τ) (cmp : τ → T → Bool) : M.Same (Verif.tokensCmp X.strm ts cmp) (Verif.tokensCmp Y.strm ts cmp) := by
  refine same_lazy (fun {L i j} h => ?_) rfl rfl rfl
  obtain ⟨r, i', j', h1, h2, h3⟩ := (tokensLoop cmp (Y.position j)
    (fun other => E.fromError (Y.position j) (E.unexpected (.token other))) ts false h).cases
  simp only [M.position h, h1, h2]
  exact Ans.mk' h3

theorem position_ : M.Same (Verif.position X.strm) (Verif.position Y.strm) :=
  same_lazy (fun h => .inr ⟨congrArg _ (M.position h), h⟩) rfl rfl rfl

theorem value (v : α) : M.Same (Verif.value X.strm v) (Verif.value Y.strm v) := same_lazy (fun h => Ans.mk' h) rfl rfl rfl

theorem produce (f : Unit → α) : M.Same (Verif.produce X.strm f) (Verif.produce Y.strm f) := same_lazy (fun h => Ans.mk' h) rfl rfl rfl

theorem eof : M.Same (Verif.eof X.strm) (Verif.eof Y.strm) := by
  refine same_lazy (fun {L i j} h => ?_) rfl rfl rfl
  obtain ⟨r, i', j', h1, h2, h3⟩ := uncons' (M.save h)
  rcases reset' h3 with ⟨e, i'', h4, h5⟩ | ⟨e, i'', j'', h4, h5, h6⟩
  · simp only [h1, h2]
    cases r with
    | ok t =>
      simp only [h4]
      exact .inl ⟨trivial, M.lostForget h5⟩
    | error x =>
      dsimp only
      split
      · exact Ans.mk' (M.forget h3)
      · simp only [h4]
        exact .inl ⟨trivial, M.lostForget h5⟩
  simp only [h1, h2]
  cases r with
  | ok t =>
    simp only [h4, h5]
    cases e
    · exact .inr ⟨by simp only [M.position h6], M.forget h6⟩
    · exact Ans.mk' (M.forget h6)
  | error x =>
    dsimp only
    split
    · exact Ans.mk' (M.forget h3)
    · simp only [h4, h5]
      cases e
      · exact .inr ⟨by simp only [M.position h6], M.forget h6⟩
      · exact Ans.mk' (M.forget h6)

/-! ## Combinators -/

theorem notFollowedBy {p : Parser X.strm σ α} {q : Parser Y.strm σ α} (h : M.Same p q) :
    M.Same (Verif.notFollowedBy p) (Verif.notFollowedBy q) := by
  unfold Verif.notFollowedBy
  rw [h.init]
  refine same_mode (fun {L i j} hr m s => ?_) rfl rfl h.count
  rcases (h.run (M.save hr) m s).cases with ⟨r, i', s', h1, hF, hl⟩ | ⟨r, i', j', s', h1, h2, h3⟩
  · lost
  simp only [h1, h2]
  refine (tryReset h3 s' fun i j h4 => ?_).forget
  cases r <;> dsimp only <;> first | exact Out.mk' h4 | (rw [M.position h4]; exact Out.mk' h4)

theorem attemptRun {p : Parser X.strm σ α} {q : Parser Y.strm σ α} (h : M.Same p q) (hr : M.R L i j) (m : Bool) (s : σ) :
    M.Out L (Verif.attemptRun p m i s) (Verif.attemptRun q m j s) := by
  rcases (h.committed hr m s).cases with ⟨r, i', s', h1, hF, hl⟩ | ⟨r, i', j', s', h1, h2, h3⟩
  · simp only [Verif.attemptRun, h1]
    cases r with
    | commitErr e => dsimp only; split <;> exact .inl ⟨trivial, hl⟩
    | peekErr e => exact .inl ⟨trivial, hl⟩
    | _ => exact hF.elim
  simp only [Verif.attemptRun, h1, h2, M.isPartial h3]
  cases r <;> dsimp only <;> first | exact Out.mk' h3 | (split <;> exact Out.mk' h3)

theorem attempt {p : Parser X.strm σ α} {q : Parser Y.strm σ α} (h : M.Same p q) : M.Same (Verif.attempt p) (Verif.attempt q) where
  init := h.init
  run := fun hr m s => attemptRun h hr m s
  lazy := fun hr => by
    simp only [Verif.attempt, h.init]
    exact defaultLazy (fun hr m s => attemptRun h hr m s) q.init hr
  committed := fun hr m s => attemptRun h hr m s
  stream := fun hr => by
    simp only [Verif.attempt, h.init]
    exact defaultLazy (fun hr m s => attemptRun h hr m s) q.init hr
  addError := h.addError
  addCommitted := h.addCommitted
  count := h.count

theorem lookAhead {p : Parser X.strm σ α} {q : Parser Y.strm σ α} (h : M.Same p q) : M.Same (Verif.lookAhead p) (Verif.lookAhead q) := by
  refine same_lazy (fun {L i j} hr => ?_) h.addError h.addCommitted h.count
  rcases (h.lazy (M.save hr)).cases with ⟨r, i', h1, hF, hl⟩ | ⟨r, i', j', h1, h2, h3⟩
  · lost
  rcases reset' h3 with ⟨e, i'', h4, h5⟩ | ⟨e, i'', j'', h4, h5, h6⟩
  · simp only [h1, h4]
    exact .inl ⟨trivial, M.lostForget h5⟩
  simp only [h1, h2, h4, h5]
  cases e <;> dsimp only
  · cases r <;> exact Ans.mk' (M.forget h6)
  · exact Ans.mk' (M.forget h6)

theorem map {p : Parser X.strm σ α} {q : Parser Y.strm σ α} (h : M.Same p q) (f : α → β) : M.Same (Verif.map p f) (Verif.map q f) := by
  unfold Verif.map
  rw [h.init]
  refine same_mode (fun {L i j} hr m s => ?_) h.addError h.addCommitted h.count
  rcases (h.run hr m s).cases with ⟨r, i', s', h1, hF, hl⟩ | ⟨r, i', j', s', h1, h2, h3⟩
  · lost
  simp only [h1, h2]
  exact Out.mk' h3

theorem mapInput {p : Parser X.strm σ α} {q : Parser Y.strm σ α} (h : M.Same p q) {f : α → X.Input → β × X.Input}
    {g : α → Y.Input → β × Y.Input} (hf : ∀ {L i j} a, M.R L i j → M.Res L (f a i) (g a j)) :
    M.Same (Verif.mapInput p f) (Verif.mapInput q g) := by
  unfold Verif.mapInput
  rw [h.init]
  refine same_mode (fun {L i j} hr m s => ?_) h.addError h.addCommitted h.count
  rcases (h.run hr m s).cases with ⟨r, i', s', h1, hF, hl⟩ | ⟨r, i', j', s', h1, h2, h3⟩
  · lost
  simp only [h1, h2]
  cases r <;> dsimp only
  · rename_i a
    obtain ⟨b, i'', j'', h4, h5, h6⟩ := (hf a h3).cases
    simp only [h4, h5]
    exact Out.mk' h6
  · rename_i a
    obtain ⟨b, i'', j'', h4, h5, h6⟩ := (hf a h3).cases
    simp only [h4, h5]
    exact Out.mk' h6
  all_goals exact Out.mk' h3

theorem flatMap {p : Parser X.strm σ α} {q : Parser Y.strm σ α} (h : M.Same p q) (f : α → Except E.Err β) :
    M.Same (Verif.flatMap p f) (Verif.flatMap q f) := by
  unfold Verif.flatMap
  rw [h.init]
  refine same_mode (fun {L i j} hr m s => ?_) h.addError h.addCommitted h.count
  rcases (h.run hr m s).cases with ⟨r, i', s', h1, hF, hl⟩ | ⟨r, i', j', s', h1, h2, h3⟩
  · lost
  simp only [h1, h2, Out.mapRes]
  cases r with
  | commitOk a => cases hf : f a <;> simp only [hf] <;> exact Out.mk' h3
  | peekOk a => cases hf : f a <;> simp only [hf] <;> exact Out.mk' h3
  | _ => exact Out.mk' h3

theorem andThen {p : Parser X.strm σ α} {q : Parser Y.strm σ α} (h : M.Same p q) (f : α → Except E.SErr β) :
    M.Same (Verif.andThen p f) (Verif.andThen q f) := by
  unfold Verif.andThen
  rw [h.init]
  refine same_mode (fun {L i j} hr m s => ?_) h.addError h.addCommitted h.count
  rcases (h.run (M.save hr) m s).cases with ⟨r, i', s', h1, hF, hl⟩ | ⟨r, i', j', s', h1, h2, h3⟩
  · lost
  simp only [h1, h2, M.position hr, M.isPartial h3]
  cases r <;> dsimp only <;> try exact Out.mk' (M.forget h3)
  all_goals
    rename_i a
    cases f a with
    | ok b => exact Out.mk' (M.forget h3)
    | error x =>
      dsimp only
      split
      · rcases inputAtEof h3 with ⟨e, i'', h4, h5⟩ | ⟨e, i'', j'', h4, h5, h6⟩
        · simp only [h4]
          cases e
          · exact .inl ⟨trivial, M.lostForget h5⟩
          · exact lostTry h5
        simp only [h4, h5]
        cases e
        · exact Out.mk' (M.forget h6)
        · exact (tryReset h6 s' fun i j h => Out.mk' h).forget
      · exact Out.mk' (M.forget h3)

theorem replay (last : P) (n : Nat) (els : List T) (h : M.R L i j) :
    ∃ (e : Option (Option E.Err)) (i' : X.Input) (j' : Y.Input) (l : List T), M.R L i' j' ∧
      Verif.replay X.strm last n i els = ((match e with | none => .done | some none => .diverged | some (some e) => .failed e), i', l) ∧
      Verif.replay Y.strm last n j els = ((match e with | none => .done | some none => .diverged | some (some e) => .failed e), j', l) := by
  induction n generalizing i j els with
  | zero => exact ⟨some none, i, j, els, h, rfl, rfl⟩
  | succ n ih =>
    simp only [Verif.replay, M.position h]
    split
    · exact ⟨none, i, j, els, h, rfl, rfl⟩
    · obtain ⟨r, i', j', h1, h2, h3⟩ := uncons' h
      simp only [h1, h2]
      cases r with
      | ok t => exact ih _ h3
      | error e => exact ⟨some (some (E.fromError (Y.position j') e)), i', j', els, h3, by simp only [M.position h3], rfl⟩

theorem recognize {p : Parser X.strm σ α} {q : Parser Y.strm σ α} (h : M.Same p q) : M.Same (Verif.recognize p) (Verif.recognize q) := by
  unfold Verif.recognize
  rw [h.init]
  refine same_mode (fun {L i j} hr m s => ?_) h.addError rfl rfl
  rcases (h.run (M.save hr) m s.2).cases with ⟨r, i', s', h1, hF, hl⟩ | ⟨r, i', j', s', h1, h2, h3⟩
  · lost
  simp only [h1, h2, M.position h3]
  cases r <;> dsimp only <;> try exact Out.mk' (M.forget h3)
  all_goals
    refine (tryReset h3 _ fun i j h4 => ?_).forget
    simp only [M.size h4]
    obtain ⟨e, a, b, l, h5, h6, h7⟩ := replay (Y.position j') (Y.size j + 1) s.1 h4
    simp only [h6, h7]
    match e with
    | none => exact Out.mk' h5
    | some none => exact Out.mk' h5
    | some (some e) => exact Out.mk' h5

theorem eitherLeft {p : Parser X.strm σ α} {q : Parser Y.strm σ α} (h : M.Same p q) (τ : Type) :
    M.Same (Verif.eitherLeft p τ) (Verif.eitherLeft q τ) := by
  have h1 : M.Same (.ofMode (S := X.strm) none (fun m i (s : Option (σ ⊕ τ)) =>
      (p.run m i (match s with | some (.inl x) => x | _ => p.init)).mapSt (fun x => some (.inl x))) p.addError)
      (.ofMode (S := Y.strm) none (fun m i (s : Option (σ ⊕ τ)) =>
      (q.run m i (match s with | some (.inl x) => x | _ => q.init)).mapSt (fun x => some (.inl x))) q.addError) := by
    rw [h.init]
    refine same_mode (fun {L i j} hr m s => ?_) h.addError rfl rfl
    rcases (h.run hr m (match s with | some (.inl x) => x | _ => q.init)).cases with ⟨r, i', s', h1, hF, hl⟩ | ⟨r, i', j', s', h1, h2, h3⟩
    · lost
    simp only [h1, h2, Out.mapSt]
    exact Out.mk' h3
  exact { h1 with lazy := h.lazy }

theorem eitherRight {p : Parser X.strm σ α} {q : Parser Y.strm σ α} (h : M.Same p q) (τ : Type) :
    M.Same (Verif.eitherRight p τ) (Verif.eitherRight q τ) := by
  have h1 : M.Same (.ofMode (S := X.strm) none (fun m i (s : Option (τ ⊕ σ)) =>
      (p.run m i (match s with | some (.inr x) => x | _ => p.init)).mapSt (fun x => some (.inr x))) p.addError)
      (.ofMode (S := Y.strm) none (fun m i (s : Option (τ ⊕ σ)) =>
      (q.run m i (match s with | some (.inr x) => x | _ => q.init)).mapSt (fun x => some (.inr x))) q.addError) := by
    rw [h.init]
    refine same_mode (fun {L i j} hr m s => ?_) h.addError rfl rfl
    rcases (h.run hr m (match s with | some (.inr x) => x | _ => q.init)).cases with ⟨r, i', s', h1, hF, hl⟩ | ⟨r, i', j', s', h1, h2, h3⟩
    · lost
    simp only [h1, h2, Out.mapSt]
    exact Out.mk' h3
  exact { h1 with lazy := h.lazy }

theorem noPartial {p : Parser X.strm σ α} {q : Parser Y.strm σ α} (h : M.Same p q) : M.Same (Verif.noPartial p) (Verif.noPartial q) :=
  same_lazy h.lazy h.addError h.addCommitted h.count

theorem ignore {p : Parser X.strm σ α} {q : Parser Y.strm σ α} (h : M.Same p q) : M.Same (Verif.ignore p) (Verif.ignore q) := by
  have h1 := map h (fun _ => ())
  exact { h1 with
    lazy := fun hr => by
      unfold Verif.ignore
      rcases (h.lazy hr).cases with ⟨r, i', h1, hF, hl⟩ | ⟨r, i', j', h1, h2, h3⟩
      · lost
      simp only [h1, h2]
      exact Ans.mk' h3 }

theorem anyPartialState {p : Parser X.strm σ α} {q : Parser Y.strm σ α} (h : M.Same p q) :
    M.Same (Verif.anyPartialState p) (Verif.anyPartialState q) := by
  have h1 : M.Same { Verif.anyPartialState p with lazy := Strm.defaultLazy (S := X.strm) none (Verif.anyPartialState p).run }
      { Verif.anyPartialState q with lazy := Strm.defaultLazy (S := Y.strm) none (Verif.anyPartialState q).run } := by
    refine same_mode (fun {L i j} hr m s => ?_) h.addError h.addCommitted h.count
    simp only [Verif.anyPartialState, Parser.ofMode]
    cases s with
    | some c =>
      rcases (h.run hr m c).cases with ⟨r, i', s', h1, hF, hl⟩ | ⟨r, i', j', s', h1, h2, h3⟩
      · lost
      simp only [h1, h2, Out.mapSt]
      exact Out.mk' h3
    | none =>
      rw [h.init]
      rcases (h.run hr m q.init).cases with ⟨r, i', s', h1, hF, hl⟩ | ⟨r, i', j', s', h1, h2, h3⟩
      · lost
      simp only [h1, h2]
      cases r <;> exact Out.mk' h3
  exact { h1 with lazy := h.lazy }

theorem lazyP {f : Unit → Parser X.strm σ α} {g : Unit → Parser Y.strm σ α} (h : M.Same (f ()) (g ())) :
    M.Same (Verif.lazyP f) (Verif.lazyP g) where
  init := h.init
  run := h.run
  lazy := h.lazy
  committed := h.run
  stream := h.stream
  addError := h.addError
  addCommitted := h.addCommitted
  count := rfl

theorem opaqueP {p : Parser X.strm σ α} {q : Parser Y.strm σ α} (h : M.Same p q) : M.Same (Verif.opaqueP p) (Verif.opaqueP q) where
  init := h.init
  run := h.run
  lazy := h.lazy
  committed := fun hr m s => by
    simp only [Verif.opaqueP, h.addError]
    exact describing (fun hr => h.run hr m) q.addError hr s
  stream := h.stream
  addError := h.addError
  addCommitted := h.addCommitted
  count := rfl

theorem boxed {p : Parser X.strm σ α} {q : Parser Y.strm σ α} (h : M.Same p q) : M.Same (Verif.boxed p) (Verif.boxed q) := by
  unfold Verif.boxed
  rw [h.init]
  exact same_mode h.run h.addError h.addCommitted h.count

theorem parserMacro {p : Parser X.strm σ α} {q : Parser Y.strm σ α} (h : M.Same p q) : M.Same (Verif.parserMacro p) (Verif.parserMacro q) := by
  unfold Verif.parserMacro
  rw [h.init]
  exact same_mode h.run h.addError h.addCommitted rfl

theorem parserMacroUnit {p : Parser X.strm σ α} {q : Parser Y.strm σ α} (h : M.Same p q) :
    M.Same (Verif.parserMacroUnit p) (Verif.parserMacroUnit q) := by
  unfold Verif.parserMacroUnit
  rw [h.init]
  refine same_mode (fun {L i j} hr m s => ?_) h.addError h.addCommitted rfl
  rcases (h.run hr m q.init).cases with ⟨r, i', s', h1, hF, hl⟩ | ⟨r, i', j', s', h1, h2, h3⟩
  · lost
  simp only [h1, h2, Out.mapSt]
  exact Out.mk' h3

theorem fromStr {p : Parser X.strm σ α} {q : Parser Y.strm σ α} (h : M.Same p q) (u : α → Option String) (f : String → Except String β) :
    M.Same (Verif.fromStr p u f) (Verif.fromStr q u f) := parserMacro (andThen h _)

theorem fnParser {f : X.Input → StdResult α E.Err × X.Input} {g : Y.Input → StdResult α E.Err × Y.Input}
    (hf : ∀ {L i j}, M.R L i j → M.Ans L (ParseResult.ofStd (f i).1, (f i).2) (ParseResult.ofStd (g j).1, (g j).2)) :
    M.Same (Verif.fnParser X.strm f) (Verif.fnParser Y.strm g) := same_lazy (fun hr => hf hr) rfl rfl rfl

theorem recur {F : Parser X.strm σ α → Parser X.strm σ α} {G : Parser Y.strm σ α → Parser Y.strm σ α}
    (hF : ∀ p q, M.Same p q → M.Same (F p) (G q)) (s : σ) (n : Nat) : M.Same (Verif.recur F s n) (Verif.recur G s n) := by
  induction n with
  | zero => exact same_mode (fun hr m s => Out.mk' hr) rfl rfl rfl
  | succ n ih => exact hF _ _ ih

/-! ## Errors -/

theorem unexpected (α : Type) (x : Info T Rg) : M.Same (Verif.unexpected X.strm α x) (Verif.unexpected Y.strm α x) :=
  same_lazy (fun h => .inr ⟨by simp only [M.position h], h⟩) rfl rfl rfl

theorem message {p : Parser X.strm σ α} {q : Parser Y.strm σ α} (h : M.Same p q) (x : Info T Rg) :
    M.Same (Verif.message p x) (Verif.message q x) := by
  unfold Verif.message
  rw [h.init]
  refine same_mode (fun {L i j} hr m s => ?_) (by rw [h.addError]; rfl) h.addCommitted h.count
  rcases (h.run hr m s).cases with ⟨r, i', s', h1, hF, hl⟩ | ⟨r, i', j', s', h1, h2, h3⟩
  · lost
  simp only [h1, h2]
  cases r <;> exact Out.mk' h3

theorem expected {p : Parser X.strm σ α} {q : Parser Y.strm σ α} (h : M.Same p q) (x : Info T Rg) :
    M.Same (Verif.expected p x) (Verif.expected q x) := by
  unfold Verif.expected
  rw [h.init]
  exact same_mode h.run (by rw [h.addError]) h.addCommitted h.count

theorem silent {p : Parser X.strm σ α} {q : Parser Y.strm σ α} (h : M.Same p q) : M.Same (Verif.silent p) (Verif.silent q) := by
  unfold Verif.silent
  rw [h.init]
  refine same_mode (fun {L i j} hr m s => ?_) rfl rfl h.count
  rcases (h.run hr m s).cases with ⟨r, i', s', h1, hF, hl⟩ | ⟨r, i', j', s', h1, h2, h3⟩
  · lost
  simp only [h1, h2, Out.mapRes]
  exact Out.mk' h3

theorem spanned {Q : Type} [DecidableEq Q] (f : P → Span Q) (g : Span Q → P) {p : Parser X.strm σ α} {q : Parser Y.strm σ α}
    (h : M.Same p q) : M.Same (Verif.spanned f g p) (Verif.spanned f g q) := by
  unfold Verif.spanned
  rw [h.init]
  refine same_mode (fun {L i j} hr m s => ?_) h.addError h.addCommitted rfl
  rcases (h.run hr m s).cases with ⟨r, i', s', h1, hF, hl⟩ | ⟨r, i', j', s', h1, h2, h3⟩
  · lost
  simp only [h1, h2, Out.mapRes, M.position hr, M.position h3]
  exact Out.mk' h3

/-! ## Sequences -/

/-- The error methods of a member of a tuple, over the other stream. -/
def conv (p : ErrPart X.strm) : ErrPart Y.strm := ⟨p.addError, p.addCommitted, p.count⟩

theorem part {p : Parser X.strm σ α} {q : Parser Y.strm σ α} (h : M.Same p q) : conv (Y := Y) p.part = q.part := by
  simp only [conv, Parser.part, h.addError, h.addCommitted, h.count]

theorem parts {ps : Seq X.strm τ β} {qs : Seq Y.strm τ β} (h : M.SameSeq ps qs) : ps.parts.map conv = qs.parts := by
  induction h with
  | nil => rfl
  | cons h _ ih => simp only [Seq.parts, List.map_cons, part h, ih]

theorem seqInit {ps : Seq X.strm τ β} {qs : Seq Y.strm τ β} (h : M.SameSeq ps qs) : ps.init = qs.init := by
  induction h with
  | nil => rfl
  | cons h _ ih => simp only [Seq.init, h.init, ih]

theorem addSequenceErrors (fe o n : Nat) (e : Tracked E.Err) (ps : List (ErrPart X.strm)) :
    Verif.addSequenceErrors fe o n e ps = Verif.addSequenceErrors fe o n e (ps.map (conv (Y := Y))) := by
  induction ps generalizing n e with
  | nil => rfl
  | cons p ps ih =>
    simp only [List.map_cons, Verif.addSequenceErrors, ih]
    rfl

theorem seqAddErrors (ps : List (ErrPart X.strm)) (e : Tracked E.Err) (fe o : Nat) (h : M.R L i j) :
    M.Res L (Verif.seqAddErrors (α := α) ps e fe o i) (Verif.seqAddErrors (α := α) (ps.map (conv (Y := Y))) e fe o j) := by
  obtain ⟨r, i', j', h1, h2, h3⟩ := uncons' h
  simp only [Verif.seqAddErrors, h1, h2]
  split
  · cases r
    · dsimp only
      rw [addSequenceErrors (Y := Y)]
      exact ⟨rfl, h3⟩
    · dsimp only
      rw [addSequenceErrors (Y := Y)]
      exact ⟨rfl, h3⟩
  · exact ⟨rfl, h⟩

/-- The steps of a sequence ended with an error. -/
def EndFails {ε : Type} : SeqEnd ε → Prop
  | .commitErr _ | .peekErr _ => True
  | _ => False

theorem steps {ps : Seq X.strm τ β} {qs : Seq Y.strm τ β} (h : M.SameSeq ps qs) :
    ∀ {L i j} (m : Bool) (fe cur off : Nat) (s : τ), M.R L i j →
      (∃ f a b i' s', ps.steps m fe cur off i s = ⟨f, a, b, i', s'⟩ ∧ EndFails f ∧ M.Lost L i') ∨
      ∃ f a b i' j' s', M.R L i' j' ∧
      ps.steps m fe cur off i s = ⟨f, a, b, i', s'⟩ ∧ qs.steps m fe cur off j s = ⟨f, a, b, j', s'⟩ := by
  induction h with
  | nil => exact fun m fe cur off s hr => .inr ⟨_, _, _, _, _, _, hr, rfl, rfl⟩
  | @cons σ τ α β p q ps qs hp _ ih =>
    intro L i j m fe cur off st hr
    obtain ⟨⟨v, s⟩, t⟩ := st
    simp only [Seq.steps]
    split
    · rcases (hp.run (M.save hr) m s).cases with ⟨r, i', s', h1, hF, hl⟩ | ⟨r, i', j', s', h1, h2, h3⟩
      · simp only [h1]
        cases r with
        | commitErr e => exact .inl ⟨_, _, _, _, _, rfl, trivial, M.lostForget hl⟩
        | peekErr e =>
          obtain ⟨e', k, hx, hy⟩ := lostReset' hl
          simp only [hx]
          split <;> exact .inl ⟨_, _, _, _, _, rfl, trivial, M.lostForget hy⟩
        | _ => exact hF.elim
      simp only [h1, h2, hp.count]
      cases r with
      | commitOk x =>
        rcases ih true (cur + 1 + 1) (cur + 1) (satAdd off q.count) t (M.forget h3) with
          ⟨f, a, b, i2, s2, h5, h6, h4⟩ | ⟨f, a, b, i2, j2, s2, h4, h5, h6⟩
        · simp only [h5]
          exact .inl ⟨_, _, _, _, _, rfl, h6, h4⟩
        simp only [h5, h6]
        exact .inr ⟨_, _, _, _, _, _, h4, rfl, rfl⟩
      | peekOk x =>
        rcases ih true fe (cur + 1) (satAdd off q.count) t (M.forget h3) with
          ⟨f, a, b, i2, s2, h5, h6, h4⟩ | ⟨f, a, b, i2, j2, s2, h4, h5, h6⟩
        · simp only [h5]
          exact .inl ⟨_, _, _, _, _, rfl, h6, h4⟩
        simp only [h5, h6]
        exact .inr ⟨_, _, _, _, _, _, h4, rfl, rfl⟩
      | peekErr e =>
        rcases reset' h3 with ⟨e', k, hx, hy⟩ | ⟨e', i2, j2, h4, h5, h6⟩
        · simp only [hx]
          split <;> exact .inl ⟨_, _, _, _, _, rfl, trivial, M.lostForget hy⟩
        simp only [h4, h5]
        cases e' with
        | none => exact .inr ⟨_, _, _, _, _, _, M.forget h6, rfl, rfl⟩
        | some e' => dsimp only; split <;> exact .inr ⟨_, _, _, _, _, _, M.forget h6, rfl, rfl⟩
      | commitErr e => exact .inr ⟨_, _, _, _, _, _, M.forget h3, rfl, rfl⟩
      | abort a => exact .inr ⟨_, _, _, _, _, _, M.forget h3, rfl, rfl⟩
    · rcases ih m fe cur off t hr with ⟨f, a, b, i2, s2, h5, h6, h4⟩ | ⟨f, a, b, i2, j2, s2, h4, h5, h6⟩
      · simp only [h5]
        exact .inl ⟨_, _, _, _, _, rfl, h6, h4⟩
      simp only [h5, h6]
      exact .inr ⟨_, _, _, _, _, _, h4, rfl, rfl⟩

theorem take {ps : Seq X.strm τ β} {qs : Seq Y.strm τ β} (h : M.SameSeq ps qs) (s : τ) : ps.take s = qs.take s := by
  induction h with
  | nil => rfl
  | cons h _ ih => simp only [Seq.take, ih]

theorem seqAddError {ps : Seq X.strm τ β} {qs : Seq Y.strm τ β} (h : M.SameSeq ps qs) (e : Tracked E.Err) :
    ps.addErrors e = qs.addErrors e := by
  induction h generalizing e with
  | nil => rfl
  | @cons σ τ α β p q ps qs h hs ih =>
    cases hs with
    | nil => simp only [Seq.addErrors, h.addError]
    | cons h' hs => simp only [Seq.addErrors, h.addError, h.count] at ih ⊢; simp only [ih]

theorem lastCommitted {ps : Seq X.strm τ β} {qs : Seq Y.strm τ β} (h : M.SameSeq ps qs) (f : Tracked E.Err → Tracked E.Err) :
    ps.lastCommitted f = qs.lastCommitted f := by
  induction h generalizing f with
  | nil => rfl
  | cons h _ ih => simp only [Seq.lastCommitted, h.addCommitted]; exact ih _

theorem counts {ps : Seq X.strm τ β} {qs : Seq Y.strm τ β} (h : M.SameSeq ps qs) : ps.counts = qs.counts := by
  induction h with
  | nil => rfl
  | cons h _ ih => simp only [Seq.counts, h.count, ih]

theorem seqRest {p : Parser X.strm σ α} {q : Parser Y.strm σ α} {ps : Seq X.strm τ β} {qs : Seq Y.strm τ β}
    (h : M.Same p q) (hs : M.SameSeq ps qs) (m : Bool) (fe : Nat) (st : SeqSt σ τ α) (hr : M.R L i j) :
    M.Out L (Verif.seqRest p ps m fe i st) (Verif.seqRest q qs m fe j st) := by
  rcases steps hs m fe 0 st.offset st.tail hr with ⟨f, a, b, i', s', h1, hF, hl⟩ | ⟨f, a, b, i', j', s', h1, h2, h3⟩
  · simp only [Verif.seqRest, h1]
    cases f <;> first | exact hF.elim | exact .inl ⟨trivial, hl⟩
  simp only [Verif.seqRest, h2, h3]
  cases f with
  | done =>
    simp only [seqFinish, take hs]
    split <;> exact Out.mk' h1
  | fail e =>
    obtain ⟨r, i2, j2, h4, h5, h6⟩ := (seqAddErrors (α := α × β) (p.part :: ps.parts) e a b h1).cases
    rw [List.map_cons, part h, parts hs] at h5
    simp only [h4, h5]
    exact Out.mk' h6
  | commitErr e => exact Out.mk' h1
  | peekErr e => exact Out.mk' h1
  | abort a => exact Out.mk' h1

theorem tuple {p : Parser X.strm σ α} {q : Parser Y.strm σ α} {ps : Seq X.strm τ β} {qs : Seq Y.strm τ β}
    (h : M.Same p q) (hs : M.SameSeq ps qs) : M.Same (Verif.tuple p ps) (Verif.tuple q qs) := by
  unfold Verif.tuple
  rw [h.init, seqInit hs, lastCommitted hs, counts hs, h.count, h.addCommitted]
  refine same_mode (fun {L i j} hr m s => ?_) ?_ rfl rfl
  · simp only [seqRun]
    split
    · rcases (h.run hr m s.head).cases with ⟨r, i', s', h1, hF, hl⟩ | ⟨r, i', j', s', h1, h2, h3⟩
      · lost
      simp only [h1, h2, h.count]
      cases r with
      | commitOk x => exact seqRest h hs true 1 _ h3
      | peekOk x => exact seqRest h hs true 0 _ h3
      | _ => exact Out.mk' h3
    · exact seqRest h hs m 0 s hr
  · funext e
    simp only [h.addError, seqAddError hs]

theorem pair {p : Parser X.strm σ α} {q : Parser Y.strm σ α} {p' : Parser X.strm τ β} {q' : Parser Y.strm τ β}
    (h : M.Same p q) (h' : M.Same p' q') : M.Same (Verif.pair p p') (Verif.pair q q') := tuple h (.cons h' .nil)

theorem «with» {p : Parser X.strm σ α} {q : Parser Y.strm σ α} {p' : Parser X.strm τ β} {q' : Parser Y.strm τ β}
    (h : M.Same p q) (h' : M.Same p' q') : M.Same (Verif.with p p') (Verif.with q q') := by
  have ht := pair (ignore h) h'
  have h1 := map ht (fun x => x.2.1)
  exact { h1 with
    lazy := fun hr => by
      simp only [Verif.with]
      rcases (ht.lazy hr).cases with ⟨r, i', h1, hF, hl⟩ | ⟨r, i', j', h1, h2, h3⟩
      · lost
      simp only [h1, h2]
      exact Ans.mk' h3 }

theorem skip {p : Parser X.strm σ α} {q : Parser Y.strm σ α} {p' : Parser X.strm τ β} {q' : Parser Y.strm τ β}
    (h : M.Same p q) (h' : M.Same p' q') : M.Same (Verif.skip p p') (Verif.skip q q') := map (pair h (ignore h')) (fun x => x.1)

theorem between {o : Parser X.strm σ α} {o' : Parser Y.strm σ α} {c : Parser X.strm υ γ} {c' : Parser Y.strm υ γ}
    {p : Parser X.strm τ β} {p' : Parser Y.strm τ β} (ho : M.Same o o') (hc : M.Same c c') (hp : M.Same p p') :
    M.Same (Verif.between o c p) (Verif.between o' c' p') := parserMacro (map (tuple ho (.cons hp (.cons hc .nil))) fun x => x.2.1)

omit [DecidableEq P] in
theorem fails_map {r : ParseResult α E.Err} (h : r.Fails) (f : α → β) : (r.map f).Fails := by
  cases r <;> first | exact h.elim | exact trivial

theorem fails_merge {r : ParseResult α E.Err} (h : r.Fails) (b : Bool) : (thenMerge (S := X.strm) b r).Fails := by
  cases r <;> cases b <;> first | exact h.elim | exact trivial

theorem thenP {p : Parser X.strm σ α} {q : Parser Y.strm σ α} {f : α → Parser X.strm τ β} {g : α → Parser Y.strm τ β} (n : τ)
    (h : M.Same p q) (hf : ∀ a, M.Same (f a) (g a)) : M.Same (Verif.thenP p f n) (Verif.thenP q g n) := by
  unfold Verif.thenP
  rw [h.init]
  refine same_mode (fun {L i j} hr m s => ?_) h.addError rfl rfl
  split
  · rename_i c _
    rcases ((hf c.2).committed hr m s.2.2).cases with ⟨r, i', s', h1, hF, hl⟩ | ⟨r, i', j', s', h1, h2, h3⟩
    · simp only [h1]; exact .inl ⟨fails_merge (X := X) hF _, hl⟩
    simp only [h1, h2]
    cases r <;> exact Out.mk' h3
  · rcases (h.run hr m s.1).cases with ⟨r, i', s', h1, hF, hl⟩ | ⟨r, i', j', s', h1, h2, h3⟩
    · lost
    simp only [h1, h2]
    cases r with
    | peekOk v =>
      rcases ((hf v).committed h3 true s.2.2).cases with ⟨r, i', s', h1, hF, hl⟩ | ⟨r, i2, j2, s2, h4, h5, h6⟩
      · simp only [h1]; exact .inl ⟨fails_merge (X := X) hF _, hl⟩
      simp only [h4, h5]
      cases r <;> exact Out.mk' h6
    | commitOk v =>
      rcases ((hf v).committed h3 true s.2.2).cases with ⟨r, i', s', h1, hF, hl⟩ | ⟨r, i2, j2, s2, h4, h5, h6⟩
      · simp only [h1]; exact .inl ⟨fails_merge (X := X) hF _, hl⟩
      simp only [h4, h5]
      cases r <;> exact Out.mk' h6
    | _ => exact Out.mk' h3

theorem thenRef {p : Parser X.strm σ α} {q : Parser Y.strm σ α} {f : α → Parser X.strm τ β} {g : α → Parser Y.strm τ β} (n : τ)
    (h : M.Same p q) (hf : ∀ a, M.Same (f a) (g a)) : M.Same (Verif.thenRef p f n) (Verif.thenRef q g n) := by
  unfold Verif.thenRef
  rw [h.init]
  refine same_mode (fun {L i j} hr m s => ?_) h.addError rfl rfl
  split
  · rename_i c _
    rcases ((hf c.2).committed hr m s.2.2).cases with ⟨r, i', s', h1, hF, hl⟩ | ⟨r, i', j', s', h1, h2, h3⟩
    · simp only [h1]; exact .inl ⟨fails_map (fails_merge (X := X) hF _) _, hl⟩
    simp only [h1, h2]
    cases r <;> exact Out.mk' h3
  · rcases (h.run hr m s.1).cases with ⟨r, i', s', h1, hF, hl⟩ | ⟨r, i', j', s', h1, h2, h3⟩
    · lost
    simp only [h1, h2]
    cases r with
    | peekOk v =>
      rcases ((hf v).committed h3 true s.2.2).cases with ⟨r, i', s', h1, hF, hl⟩ | ⟨r, i2, j2, s2, h4, h5, h6⟩
      · simp only [h1]; exact .inl ⟨fails_map (fails_merge (X := X) hF _) _, hl⟩
      simp only [h4, h5]
      cases r <;> exact Out.mk' h6
    | commitOk v =>
      rcases ((hf v).committed h3 true s.2.2).cases with ⟨r, i', s', h1, hF, hl⟩ | ⟨r, i2, j2, s2, h4, h5, h6⟩
      · simp only [h1]; exact .inl ⟨fails_map (fails_merge (X := X) hF _) _, hl⟩
      simp only [h4, h5]
      cases r <;> exact Out.mk' h6
    | _ => exact Out.mk' h3

theorem thenPartial {p : Parser X.strm σ α} {q : Parser Y.strm σ α} {f : α → Parser X.strm τ β × α} {g : α → Parser Y.strm τ β × α}
    (n : τ) (h : M.Same p q) (hf : ∀ a, M.Same (f a).1 (g a).1) (ha : ∀ a, (f a).2 = (g a).2) :
    M.Same (Verif.thenPartial p f n) (Verif.thenPartial q g n) := by
  unfold Verif.thenPartial
  rw [h.init]
  refine same_mode (fun {L i j} hr m s => ?_) h.addError rfl rfl
  split
  · rename_i c _
    rcases ((hf c.2).committed hr m s.2.2).cases with ⟨r, i', s', h1, hF, hl⟩ | ⟨r, i', j', s', h1, h2, h3⟩
    · simp only [h1]; exact .inl ⟨fails_merge (X := X) hF _, hl⟩
    simp only [h1, h2, ha]
    cases r <;> exact Out.mk' h3
  · rcases (h.run hr m s.1).cases with ⟨r, i', s', h1, hF, hl⟩ | ⟨r, i', j', s', h1, h2, h3⟩
    · lost
    simp only [h1, h2]
    cases r with
    | peekOk v =>
      rcases ((hf v).committed h3 true s.2.2).cases with ⟨r, i', s', h1, hF, hl⟩ | ⟨r, i2, j2, s2, h4, h5, h6⟩
      · simp only [h1]; exact .inl ⟨fails_merge (X := X) hF _, hl⟩
      simp only [h4, h5, ha]
      cases r <;> exact Out.mk' h6
    | commitOk v =>
      rcases ((hf v).committed h3 true s.2.2).cases with ⟨r, i', s', h1, hF, hl⟩ | ⟨r, i2, j2, s2, h4, h5, h6⟩
      · simp only [h1]; exact .inl ⟨fails_merge (X := X) hF _, hl⟩
      simp only [h4, h5, ha]
      cases r <;> exact Out.mk' h6
    | _ => exact Out.mk' h3

/-! ## Choices -/

/-- A failed alternative, over the other stream. -/
def convT (t : Tried X.strm) : Tried Y.strm := ⟨t.addError, t.err⟩

theorem mergeAll (t : Tried X.strm) (ts : List (Tried X.strm)) :
    Verif.mergeAll t ts = Verif.mergeAll (convT (Y := Y) t) (ts.map convT) := by
  induction ts generalizing t with
  | nil => rfl
  | cons u us ih => simp only [Verif.mergeAll, List.map_cons, ih]; rfl

theorem addTried (e : Tracked E.Err) (ts : List (Tried X.strm)) :
    Verif.addTried e ts = Verif.addTried e (ts.map (convT (Y := Y))) := by
  unfold Verif.addTried
  rw [List.foldl_map]
  rfl

theorem choiceFail (ts : List (Tried X.strm)) :
    (Verif.choiceFail ts : ParseResult α E.Err) = Verif.choiceFail (ts.map (convT (Y := Y))) := by
  cases ts with
  | nil => rfl
  | cons t ts =>
    simp only [Verif.choiceFail, List.map_cons]
    rw [addTried (Y := Y), mergeAll (Y := Y)]
    rfl

theorem doChoice {ps : Alts X.strm α σ} {qs : Alts Y.strm α σ} (h : M.SameAlts ps qs) :
    ∀ {L i j} (bp : P) (c : X.Ckpt × Y.Ckpt) (ts : List (Tried X.strm)), M.R (c :: L) i j →
      (∃ r i' s, ps.doChoice bp c.1 ts i = ⟨r, i', s⟩ ∧ r.Fails ∧ M.Lost L i') ∨
      ∃ r i' j' s, M.R L i' j' ∧ ps.doChoice bp c.1 ts i = ⟨r, i', s⟩ ∧ qs.doChoice bp c.2 (ts.map convT) j = ⟨r, j', s⟩ := by
  induction h with
  | @last σ p q h =>
    intro L i j bp c ts hr
    simp only [Alts.doChoice, h.init]
    rcases (h.run hr true q.init).cases with ⟨r, i', s', h1, hF, hl⟩ | ⟨r, i', j', s', h1, h2, h3⟩
    · simp only [h1]
      cases r with
      | commitErr e => exact .inl ⟨_, _, _, rfl, trivial, M.lostForget hl⟩
      | peekErr e =>
        obtain ⟨e', k, hx, hy⟩ := lostReset' hl
        simp only [hx]
        exact .inl ⟨_, _, _, rfl, trivial, M.lostForget hy⟩
      | _ => exact hF.elim
    simp only [h1, h2, M.position h3]
    cases r with
    | peekErr e =>
      rcases reset' h3 with ⟨e', k, hx, hy⟩ | ⟨e', i2, j2, h4, h5, h6⟩
      · simp only [hx]
        exact .inl ⟨_, _, _, rfl, trivial, M.lostForget hy⟩
      simp only [h4, h5]
      cases e' with
      | some e' => exact .inr ⟨_, _, _, _, M.forget h6, rfl, rfl⟩
      | none =>
        refine .inr ⟨_, _, _, _, M.forget h6, rfl, ?_⟩
        rw [choiceFail (X := X) (Y := Y) (ts ++ _), List.map_append, List.map_cons, List.map_nil, convT, h.addError]
    | _ => exact .inr ⟨_, _, _, _, M.forget h3, rfl, rfl⟩
  | @cons σ τ p q ps qs h _ ih =>
    intro L i j bp c ts hr
    simp only [Alts.doChoice, h.init]
    rcases (h.run hr true q.init).cases with ⟨r, i', s', h1, hF, hl⟩ | ⟨r, i', j', s', h1, h2, h3⟩
    · simp only [h1]
      cases r with
      | commitErr e => exact .inl ⟨_, _, _, rfl, trivial, M.lostForget hl⟩
      | peekErr e =>
        obtain ⟨e', k, hx, hy⟩ := lostReset' hl
        simp only [hx]
        exact .inl ⟨_, _, _, rfl, trivial, M.lostForget hy⟩
      | _ => exact hF.elim
    simp only [h1, h2, M.position h3]
    cases r with
    | peekErr e =>
      rcases reset' h3 with ⟨e', k, hx, hy⟩ | ⟨e', i2, j2, h4, h5, h6⟩
      · simp only [hx]
        exact .inl ⟨_, _, _, rfl, trivial, M.lostForget hy⟩
      simp only [h4, h5]
      cases e' with
      | some e' => exact .inr ⟨_, _, _, _, M.forget h6, rfl, rfl⟩
      | none =>
        rcases ih bp c (ts ++ [⟨p.addError, e⟩]) h6 with ⟨r, i3, s, h8, hF, hl⟩ | ⟨r, i3, j3, s, h7, h8, h9⟩
        · simp only [h8]
          exact .inl ⟨_, _, _, rfl, hF, hl⟩
        rw [List.map_append, List.map_cons, List.map_nil] at h9
        simp only [convT, h.addError] at h8 h9
        simp only [h.addError, h8]
        refine .inr ⟨_, _, _, _, h7, rfl, ?_⟩
        simp only [h9]
    | _ => exact .inr ⟨_, _, _, _, M.forget h3, rfl, rfl⟩

theorem altsResume {ps : Alts X.strm α σ} {qs : Alts Y.strm α σ} (h : M.SameAlts ps qs) :
    ∀ {L i j} (m : Bool) (s : σ), M.R L i j → M.Out L (ps.resume m i s) (qs.resume m j s) := by
  induction h with
  | last h => exact fun m s hr => h.run hr m s
  | cons h _ ih =>
    intro L i j m s hr
    cases s with
    | inl s =>
      simp only [Alts.resume]
      rcases (h.run hr m s).cases with ⟨r, i', s', h1, hF, hl⟩ | ⟨r, i', j', s', h1, h2, h3⟩
      · lost
      simp only [h1, h2, Out.mapSt]
      exact Out.mk' h3
    | inr s =>
      simp only [Alts.resume]
      rcases (ih m s hr).cases with ⟨r, i', s', h1, hF, hl⟩ | ⟨r, i', j', s', h1, h2, h3⟩
      · lost
      simp only [h1, h2, Out.mapSt]
      exact Out.mk' h3

theorem altsAddErrors {ps : Alts X.strm α σ} {qs : Alts Y.strm α σ} (h : M.SameAlts ps qs) (e : Tracked E.Err) :
    ps.addErrors e = qs.addErrors e := by
  induction h generalizing e with
  | last h => simp only [Alts.addErrors, h.addError]
  | cons h _ ih => simp only [Alts.addErrors, h.addError, ih]

theorem choiceRun {ps : Alts X.strm α σ} {qs : Alts Y.strm α σ} (h : M.SameAlts ps qs) (hr : M.R L i j) (m : Bool) (st : Option σ) :
    M.Out L (Verif.choiceRun ps m i st) (Verif.choiceRun qs m j st) := by
  unfold Verif.choiceRun
  split
  · rename_i s _
    rcases (altsResume h m s hr).cases with ⟨r, i', s', h1, hF, hl⟩ | ⟨r, i', j', s', h1, h2, h3⟩
    · lost
    simp only [h1, h2]
    exact Out.mk' h3
  · rcases doChoice h (Y.position j) (X.checkpoint i, Y.checkpoint j) [] (M.save hr) with
      ⟨r, i', s, h1, hF, hl⟩ | ⟨r, i', j', s, h1, h2, h3⟩
    · simp only [M.position hr, h1]
      exact .inl ⟨hF, hl⟩
    simp only [List.map_nil] at h3
    simp only [M.position hr, h2, h3]
    exact Out.mk' h1

theorem choice {ps : Alts X.strm α σ} {qs : Alts Y.strm α σ} (h : M.SameAlts ps qs) : M.Same (Verif.choice ps) (Verif.choice qs) := by
  refine same_mode (fun hr m s => choiceRun h hr m s) ?_ rfl rfl
  funext e
  simp only [choiceAddError, altsAddErrors h]

theorem or {p : Parser X.strm σ α} {q : Parser Y.strm σ α} {p' : Parser X.strm τ α} {q' : Parser Y.strm τ α}
    (h : M.Same p q) (h' : M.Same p' q') : M.Same (Verif.or p p') (Verif.or q q') := by
  refine same_mode (fun hr m s => choiceRun (.cons h (.last h')) hr m s) ?_ rfl rfl
  funext e
  rw [(choice (.cons h (.last h'))).addError]

theorem optional {p : Parser X.strm σ α} {q : Parser Y.strm σ α} (h : M.Same p q) : M.Same (Verif.optional p) (Verif.optional q) := by
  unfold Verif.optional
  rw [h.init]
  refine same_mode (fun {L i j} hr m s => ?_) h.addError rfl h.count
  rcases (h.run (M.save hr) m s).cases with ⟨r, i', s', h1, hF, hl⟩ | ⟨r, i', j', s', h1, h2, h3⟩
  · lost
  simp only [h1, h2]
  cases r with
  | peekErr e => exact (tryReset h3 s' fun i j h => Out.mk' h).forget
  | _ => exact Out.mk' (M.forget h3)

theorem initArm {ps : Alts X.strm α σ} {qs : Alts Y.strm α σ} (h : M.SameAlts ps qs) (k : Nat) : ps.initArm k = qs.initArm k := by
  induction h generalizing k with
  | last h => exact h.init
  | cons h _ ih => cases k <;> simp only [Alts.initArm, h.init, ih]

theorem isArm {ps : Alts X.strm α σ} {qs : Alts Y.strm α σ} (h : M.SameAlts ps qs) (k : Nat) (s : σ) : ps.isArm k s = qs.isArm k s := by
  induction h generalizing k with
  | last h => rfl
  | cons h _ ih =>
    cases k with
    | zero => rfl
    | succ k => cases s <;> simp only [Alts.isArm, ih]

theorem armAddError {ps : Alts X.strm α σ} {qs : Alts Y.strm α σ} (h : M.SameAlts ps qs) (k : Nat) : ps.armAddError k = qs.armAddError k := by
  induction h generalizing k with
  | last h => exact h.addError
  | cons h _ ih =>
    cases k with
    | zero => exact h.addError
    | succ k => exact ih k

theorem dispatch {ps : Alts X.strm α σ} {qs : Alts Y.strm α σ} (h : M.SameAlts ps qs) (k : Nat) :
    M.Same (Verif.dispatch ps k) (Verif.dispatch qs k) := by
  refine same_mode (fun {L i j} hr m st => ?_) (armAddError h k) rfl rfl
  have key : ∀ s, M.Out L ((ps.resume m i s).mapSt some) ((qs.resume m j s).mapSt some) := fun s => by
    rcases (altsResume h m s hr).cases with ⟨r, i', s', h1, hF, hl⟩ | ⟨r, i', j', s', h1, h2, h3⟩
    · lost
    simp only [h1, h2, Out.mapSt]
    exact Out.mk' h3
  simp only [isArm h, initArm h]
  exact key _

/-- Parsers over both streams, one by one. -/
inductive SameList (M : Lockstep X Y) : List (Parser X.strm σ α) → List (Parser Y.strm σ α) → Prop where
  | nil : SameList M [] []
  | cons {p : Parser X.strm σ α} {q : Parser Y.strm σ α} {ps : List (Parser X.strm σ α)} {qs : List (Parser Y.strm σ α)} :
      M.Same p q → SameList M ps qs → SameList M (p :: ps) (q :: qs)

theorem SameList.length {ps : List (Parser X.strm σ α)} {qs : List (Parser Y.strm σ α)} (h : SameList M ps qs) : ps.length = qs.length := by
  induction h with
  | nil => rfl
  | cons _ _ ih => simp only [List.length_cons, ih]

theorem SameList.drop {ps : List (Parser X.strm σ α)} {qs : List (Parser Y.strm σ α)} (h : SameList M ps qs) (n : Nat) :
    SameList M (ps.drop n) (qs.drop n) := by
  induction h generalizing n with
  | nil => simp only [List.drop_nil]; exact .nil
  | cons h hs ih =>
    cases n with
    | zero => exact .cons h hs
    | succ n => exact ih n

theorem SameList.take {ps : List (Parser X.strm σ α)} {qs : List (Parser Y.strm σ α)} (h : SameList M ps qs) (n : Nat) :
    SameList M (ps.take n) (qs.take n) := by
  induction h generalizing n with
  | nil => simp only [List.take_nil]; exact .nil
  | cons h hs ih =>
    cases n with
    | zero => exact .nil
    | succ n => exact .cons h (ih n)

theorem SameList.addOnes {ps : List (Parser X.strm σ α)} {qs : List (Parser Y.strm σ α)} (h : SameList M ps qs) (e : Tracked E.Err) :
    Verif.addOnes ps e = Verif.addOnes qs e := by
  induction h generalizing e with
  | nil => rfl
  | cons h _ ih =>
    simp only [Verif.addOnes, List.foldl_cons, h.addError] at ih ⊢
    exact ih _

theorem SameList.get {ps : List (Parser X.strm σ α)} {qs : List (Parser Y.strm σ α)} (h : SameList M ps qs) (k : Nat) :
    (ps[k]? = none ∧ qs[k]? = none) ∨ ∃ p q, ps[k]? = some p ∧ qs[k]? = some q ∧ M.Same p q := by
  induction h generalizing k with
  | nil => exact .inl ⟨rfl, rfl⟩
  | @cons p q ps qs h _ ih =>
    cases k with
    | zero => exact .inr ⟨p, q, rfl, rfl, h⟩
    | succ k => simpa only [List.getElem?_cons_succ] using ih k

theorem SameList.addErrorAt {ps : List (Parser X.strm σ α)} {qs : List (Parser Y.strm σ α)} (h : SameList M ps qs) (k : Nat)
    (e : Tracked E.Err) : Verif.addErrorAt ps k e = Verif.addErrorAt qs k e := by
  unfold Verif.addErrorAt
  rcases h.get k with ⟨h1, h2⟩ | ⟨p, q, h1, h2, h3⟩
  · simp only [h1, h2]
  · simp only [h1, h2, h3.addError]

theorem sliceLoop {all : List (Parser X.strm σ α)} {all' : List (Parser Y.strm σ α)} (ha : SameList M all all') (m : Bool)
    (c : X.Ckpt × Y.Ckpt) {ps : List (Parser X.strm σ α)} {qs : List (Parser Y.strm σ α)} (h : SameList M ps qs) :
    ∀ {L i j} (k n : Nat) (prev : Option (Tracked E.Err)) (st : Nat × σ), M.R (c :: L) i j →
      M.Out L (Verif.sliceLoop all m c.1 ps k n prev i st) (Verif.sliceLoop all' m c.2 qs k n prev j st) := by
  have lostLoop : ∀ {ps : List (Parser X.strm σ α)} {L i} (k n : Nat) (prev : Tracked E.Err) (st : Nat × σ)
      (y : Verif.Out Y.strm (Nat × σ) α), M.Lost (c :: L) i →
      M.Out L (Verif.sliceLoop all m c.1 ps k n (some prev) i st) y := by
    intro ps L i k n prev st y hl
    cases ps with
    | nil => simp only [Verif.sliceLoop]; split <;> exact .inl ⟨trivial, M.lostForget hl⟩
    | cons p ps =>
      obtain ⟨e', k, hx, hy⟩ := lostReset' hl
      simp only [Verif.sliceLoop, hx]
      exact .inl ⟨trivial, M.lostForget hy⟩
  induction h with
  | nil =>
    intro L i j k n prev st hr
    simp only [Verif.sliceLoop]
    cases prev with
    | none => simp only [M.position hr]; exact Out.mk' (M.forget hr)
    | some prev =>
      dsimp only
      split
      · simp only [ha.length, (((ha.drop n).take _).addOnes), ha.addErrorAt]
        exact Out.mk' (M.forget hr)
      · exact Out.mk' (M.forget hr)
  | @cons p q ps qs h _ ih =>
    intro L i j k n prev st hr
    simp only [Verif.sliceLoop]
    rcases reset' hr with ⟨e', k, hx, hy⟩ | ⟨e', i2, j2, h4, h5, h6⟩
    · simp only [hx]
      exact .inl ⟨trivial, M.lostForget hy⟩
    simp only [h4, h5]
    cases e' with
    | some e' => exact Out.mk' (M.forget h6)
    | none =>
      rcases (h.run h6 m st.2).cases with ⟨r, i', s', h1, hF, hl⟩ | ⟨r, i', j', s', h1, h2, h3⟩
      · simp only [h1]
        cases r with
        | commitErr e => exact .inl ⟨trivial, M.lostForget hl⟩
        | peekErr e =>
          cases prev with
          | none => exact lostLoop _ _ _ _ _ hl
          | some prev => dsimp only; split <;> exact lostLoop _ _ _ _ _ hl
        | _ => exact hF.elim
      simp only [h1, h2]
      cases r with
      | peekErr e =>
        cases prev with
        | none => exact ih _ _ _ _ h3
        | some prev =>
          dsimp only
          split
          · simp only [(((ha.drop n).take _).addOnes), ha.addErrorAt]
            exact ih _ _ _ _ h3
          · exact ih _ _ _ _ h3
      | _ => exact Out.mk' (M.forget h3)

theorem sliceChoice {all : List (Parser X.strm σ α)} {all' : List (Parser Y.strm σ α)} (ha : SameList M all all') (s : σ) :
    M.Same (Verif.sliceChoice all s) (Verif.sliceChoice all' s) := by
  refine same_mode (fun {L i j} hr m st => ?_) ?_ rfl rfl
  · unfold Verif.sliceRun
    split
    · rcases ha.get (st.1 - 1) with ⟨h1, h2⟩ | ⟨p, q, h1, h2, h3⟩
      · simp only [h1, h2]; exact Out.mk' hr
      · simp only [h1, h2]
        rcases (h3.run hr false st.2).cases with ⟨r, i', s', h1, hF, hl⟩ | ⟨r, i', j', s', h1, h2, h3⟩
        · lost
        simp only [h1, h2]
        exact Out.mk' h3
    · exact sliceLoop ha m (X.checkpoint i, Y.checkpoint j) ha 0 0 none st (M.save hr)
  · funext e
    simp only [choiceAddError, ha.addOnes]

/-! ## Repetition -/

/-- Iterators over both streams in the same state. -/
structure SameIter (M : Lockstep X Y) (L : List (X.Ckpt × Y.Ckpt)) (a : IterS X.strm σ) (b : IterS Y.strm σ) : Prop where
  inp : M.R L a.inp b.inp
  committed : a.committed = b.committed
  state : a.state = b.state
  st : a.st = b.st
  first : a.first = b.first

theorem SameIter.cases {a : IterS X.strm σ} {b : IterS Y.strm σ} (h : SameIter M L a b) :
    ∃ i j c s t f, a = ⟨i, c, s, t, f⟩ ∧ b = ⟨j, c, s, t, f⟩ ∧ M.R L i j := by
  obtain ⟨i, c, s, t, f⟩ := a
  obtain ⟨j, c', s', t', f'⟩ := b
  obtain ⟨h1, h2, h3, h4, h5⟩ := h
  cases h2; cases h3; cases h4; cases h5
  exact ⟨i, j, c, s, t, f, rfl, rfl, h1⟩

/-- An iterator over the first stream that stopped because its input is lost. -/
def LostIter (M : Lockstep X Y) (L : List (X.Ckpt × Y.Ckpt)) (a : IterS X.strm σ) : Prop :=
  (∃ e, a.state = .commitErr e) ∧ M.Lost L a.inp

theorem LostIter.fast {a : IterS X.strm σ} (h : LostIter M L a) (v : List α) : (a.intoResultFast v).1.Fails := by
  obtain ⟨⟨e, h⟩, _⟩ := h
  simp only [IterS.intoResultFast, h]
  trivial

theorem LostIter.fail {a : IterS X.strm σ} (h : LostIter M L a) (e : E.SErr) : (a.fail e : ParseResult α E.Err).Fails := by
  obtain ⟨⟨e, h⟩, _⟩ := h
  simp only [IterS.fail, h]
  trivial

theorem iterNext {p : Parser X.strm σ α} {q : Parser Y.strm σ α} (h : M.Same p q) {a : IterS X.strm σ} {b : IterS Y.strm σ}
    (hi : SameIter M L a b) : ((Verif.iterNext p a).1 = none ∧ LostIter M L (Verif.iterNext p a).2) ∨
    ((Verif.iterNext p a).1 = (Verif.iterNext q b).1 ∧ SameIter M L (Verif.iterNext p a).2 (Verif.iterNext q b).2) := by
  obtain ⟨i, j, c, s, t, f, rfl, rfl, hr⟩ := hi.cases
  simp only [Verif.iterNext]
  rcases (h.run (M.save hr) f t).cases with ⟨r, i', s', h1, hF, hl⟩ | ⟨r, i', j', s', h1, h2, h3⟩
  · simp only [h1]
    cases r with
    | commitErr e => exact .inl ⟨rfl, ⟨_, rfl⟩, M.lostForget hl⟩
    | peekErr e =>
      obtain ⟨e', k, hx, hy⟩ := lostReset' hl
      simp only [hx]
      exact .inl ⟨trivial, ⟨_, rfl⟩, M.lostForget hy⟩
    | _ => exact hF.elim
  simp only [h1, h2]
  cases r with
  | peekErr e =>
    rcases reset' h3 with ⟨e, i', hx, hl⟩ | ⟨e', i2, j2, h4, h5, h6⟩
    · simp only [hx]; exact .inl ⟨trivial, ⟨_, rfl⟩, M.lostForget hl⟩
    simp only [h4, h5]
    cases e' <;> exact .inr ⟨rfl, ⟨M.forget h6, rfl, rfl, rfl, rfl⟩⟩
  | _ => exact .inr ⟨rfl, ⟨M.forget h3, rfl, rfl, rfl, rfl⟩⟩

theorem iterExtend {p : Parser X.strm σ α} {q : Parser Y.strm σ α} (h : M.Same p q) (f : α → Option β) (n : Nat) :
    ∀ {L} (lim : Option Nat) (els : List β) {a : IterS X.strm σ} {b : IterS Y.strm σ}, SameIter M L a b →
      LostIter M L (Verif.iterExtend p f n lim els a).2 ∨
      ((Verif.iterExtend p f n lim els a).1 = (Verif.iterExtend q f n lim els b).1 ∧
      SameIter M L (Verif.iterExtend p f n lim els a).2 (Verif.iterExtend q f n lim els b).2) := by
  induction n with
  | zero =>
    intro L lim els a b hi
    rcases lim with _ | _ | lim
    · exact .inr ⟨rfl, ⟨hi.inp, hi.committed, rfl, hi.st, hi.first⟩⟩
    · exact .inr ⟨rfl, hi⟩
    · exact .inr ⟨rfl, ⟨hi.inp, hi.committed, rfl, hi.st, hi.first⟩⟩
  | succ n ih =>
    intro L lim els a b hi
    have key : lim ≠ some 0 → LostIter M L (Verif.iterExtend p f (n + 1) lim els a).2 ∨
        ((Verif.iterExtend p f (n + 1) lim els a).1 = (Verif.iterExtend q f (n + 1) lim els b).1 ∧
        SameIter M L (Verif.iterExtend p f (n + 1) lim els a).2 (Verif.iterExtend q f (n + 1) lim els b).2) := by
      intro hl
      rw [Verif.iterExtend, Verif.iterExtend]
      · rcases iterNext h hi with ⟨h1, h2⟩ | ⟨h1, h2⟩
        · rcases hx : Verif.iterNext p a with ⟨x, a'⟩
          rw [hx] at h1 h2
          cases h1
          exact .inl h2
        rcases hx : Verif.iterNext p a with ⟨x, a'⟩
        rcases hy : Verif.iterNext q b with ⟨y, b'⟩
        rw [hx, hy] at h1 h2
        cases h1
        cases x with
        | none => exact .inr ⟨rfl, h2⟩
        | some x =>
          dsimp only
          cases f x with
          | none => exact .inr ⟨rfl, h2⟩
          | some y => exact ih _ _ h2
      · exact hl
      · exact hl
    rcases lim with _ | _ | lim
    · exact key (by simp)
    · rw [Verif.iterExtend, Verif.iterExtend]
      exact .inr ⟨rfl, hi⟩
    · exact key (by simp)

theorem intoResultFast {a : IterS X.strm σ} {b : IterS Y.strm σ} (hi : SameIter M L a b) (v : List α) :
    a.intoResultFast v = b.intoResultFast v := by
  obtain ⟨i, j, c, s, t, f, rfl, rfl, hr⟩ := hi.cases
  cases s <;> rfl

theorem iterFail {a : IterS X.strm σ} {b : IterS Y.strm σ} (hi : SameIter M L a b) (e : E.SErr) :
    (a.fail e : ParseResult α E.Err) = b.fail e := by
  obtain ⟨i, j, c, s, t, f, rfl, rfl, hr⟩ := hi.cases
  cases s <;> simp only [IterS.fail, M.position hr]

theorem SameIter.new (hr : M.R L i j) (m : Bool) (s : σ) : SameIter M L (IterS.new (S := X.strm) m i s) (IterS.new (S := Y.strm) m j s) :=
  ⟨hr, rfl, rfl, rfl, rfl⟩

theorem many {p : Parser X.strm σ α} {q : Parser Y.strm σ α} (h : M.Same p q) : M.Same (Verif.many p) (Verif.many q) := by
  unfold Verif.many
  rw [h.init]
  refine same_mode (fun {L i j} hr m s => ?_) h.addError h.addError h.count
  simp only [M.size hr]
  rcases iterExtend h some (Y.size j + 2) none s.1 (SameIter.new hr m s.2) with hl | ⟨h1, h2⟩
  · exact .inl ⟨hl.fast _, hl.2⟩
  simp only [h1, intoResultFast h2, h2.st]
  exact Out.mk' h2.inp

theorem many1Rest {p : Parser X.strm σ α} {q : Parser Y.strm σ α} (h : M.Same p q) (hr : M.R L i j) (m : Bool) (s : Many1St σ α) :
    M.Out L (Verif.many1Rest p m i s) (Verif.many1Rest q m j s) := by
  simp only [Verif.many1Rest, M.size hr]
  rcases iterExtend h some (Y.size j + 2) none s.elements
    (a := ⟨i, s.committed, .ok, s.child, m⟩) (b := ⟨j, s.committed, .ok, s.child, m⟩) ⟨hr, rfl, rfl, rfl, rfl⟩ with hl | ⟨h1, h2⟩
  · exact .inl ⟨hl.fast _, hl.2⟩
  simp only [h1, intoResultFast h2, h2.st]
  exact Out.mk' h2.inp

theorem many1 {p : Parser X.strm σ α} {q : Parser Y.strm σ α} (h : M.Same p q) : M.Same (Verif.many1 p) (Verif.many1 q) := by
  unfold Verif.many1
  rw [h.init]
  refine same_mode (fun {L i j} hr m s => ?_) h.addError h.addError h.count
  split
  · rcases (h.run hr m s.child).cases with ⟨r, i', s', h1, hF, hl⟩ | ⟨r, i', j', s', h1, h2, h3⟩
    · lost
    simp only [h1, h2]
    cases r with
    | commitOk v => exact many1Rest h h3 _ _
    | peekOk v => exact many1Rest h h3 _ _
    | _ => exact Out.mk' h3
  · exact many1Rest h hr _ _

theorem countMinMax (lo hi : Nat) {p : Parser X.strm σ α} {q : Parser Y.strm σ α} (h : M.Same p q) :
    M.Same (Verif.countMinMax lo hi p) (Verif.countMinMax lo hi q) := by
  unfold Verif.countMinMax
  rw [h.init]
  refine same_mode (fun {L i j} hr m s => ?_) h.addError rfl rfl
  split
  · exact Out.mk' hr
  · rcases iterExtend h some (hi - s.count + 1) (some (hi - s.count)) s.elements (SameIter.new hr m s.child) with hl | ⟨h1, h2⟩
    · dsimp only
      split
      · exact .inl ⟨hl.fail _, hl.2⟩
      · exact .inl ⟨hl.fast _, hl.2⟩
    simp only [h1, intoResultFast h2, h2.st, iterFail h2]
    split
    · exact Out.mk' h2.inp
    · exact Out.mk' h2.inp

theorem count (n : Nat) {p : Parser X.strm σ α} {q : Parser Y.strm σ α} (h : M.Same p q) : M.Same (Verif.count n p) (Verif.count n q) :=
  parserMacroUnit (countMinMax 0 n h)

theorem skipCount (n : Nat) {p : Parser X.strm σ α} {q : Parser Y.strm σ α} (h : M.Same p q) :
    M.Same (Verif.skipCount n p) (Verif.skipCount n q) := parserMacro («with» (count n (map h _)) (value ()))

theorem skipCountMinMax (lo hi : Nat) {p : Parser X.strm σ α} {q : Parser Y.strm σ α} (h : M.Same p q) :
    M.Same (Verif.skipCountMinMax lo hi p) (Verif.skipCountMinMax lo hi q) :=
  parserMacro («with» (countMinMax lo hi (map h _)) (value ()))

theorem skipMany {p : Parser X.strm σ α} {q : Parser Y.strm σ α} (h : M.Same p q) : M.Same (Verif.skipMany p) (Verif.skipMany q) :=
  parserMacro (ignore (many (ignore h)))

theorem skipMany1 {p : Parser X.strm σ α} {q : Parser Y.strm σ α} (h : M.Same p q) : M.Same (Verif.skipMany1 p) (Verif.skipMany1 q) :=
  parserMacro (ignore (many1 (ignore h)))

omit [DecidableEq P] in
theorem fails_combine {r : ParseResult α E.Err} (c : Commit Unit) (h : r.Fails) : (ParseResult.combineCommit c fun _ => r).Fails := by
  cases c <;> cases r <;> first | exact h.elim | exact trivial

theorem sepBy1 {p : Parser X.strm σ α} {q : Parser Y.strm σ α} {s : Parser X.strm τ β} {t : Parser Y.strm τ β}
    (h : M.Same p q) (hs : M.Same s t) : M.Same (Verif.sepBy1 p s) (Verif.sepBy1 q t) := by
  have hw := «with» (boxed hs) (boxed h)
  unfold Verif.sepBy1
  dsimp only
  rw [hw.init]
  refine same_mode (fun {L i j} hr m st => ?_) h.addError hs.addError h.count
  rcases st with ⟨_ | c, els, child⟩
  · rcases (h.run hr m child.tail.1.2).cases with ⟨r, i', s', h1, hF, hl⟩ | ⟨r, i', j', s', h1, h2, h3⟩
    · lost
    simp only [h1, h2]
    cases r with
    | commitOk v =>
      simp only [M.size h3]
      rcases iterExtend hw some (Y.size j' + 2) none (els ++ [v]) (SameIter.new h3 m (SepSt.setB child s')) with hl | ⟨h4, h5⟩
      · refine .inl ⟨?_, hl.2⟩; exact fails_combine (.commit ()) (hl.fast _)
      simp only [h4, intoResultFast h5, h5.st]
      exact Out.mk' h5.inp
    | peekOk v =>
      simp only [M.size h3]
      rcases iterExtend hw some (Y.size j' + 2) none (els ++ [v]) (SameIter.new h3 m (SepSt.setB child s')) with hl | ⟨h4, h5⟩
      · refine .inl ⟨?_, hl.2⟩; exact fails_combine (.peek ()) (hl.fast _)
      simp only [h4, intoResultFast h5, h5.st]
      exact Out.mk' h5.inp
    | _ => exact Out.mk' h3
  · simp only [M.size hr]
    rcases iterExtend hw some (Y.size j + 2) none els (SameIter.new hr m child) with hl | ⟨h4, h5⟩
    · exact .inl ⟨fails_combine _ (hl.fast _), hl.2⟩
    simp only [h4, intoResultFast h5, h5.st]
    exact Out.mk' h5.inp

theorem emptyList (α : Type) : M.Same (Verif.emptyList X.strm α) (Verif.emptyList Y.strm α) := fnParser fun h => Ans.mk' h

theorem sepBy {p : Parser X.strm σ α} {q : Parser Y.strm σ α} {s : Parser X.strm τ β} {t : Parser Y.strm τ β}
    (h : M.Same p q) (hs : M.Same s t) : M.Same (Verif.sepBy p s) (Verif.sepBy q t) :=
  same_mode (or (sepBy1 (boxed h) (boxed hs)) (emptyList α)).run h.addError hs.addError h.count

theorem sepEndBy1 {p : Parser X.strm σ α} {q : Parser Y.strm σ α} {s : Parser X.strm τ β} {t : Parser Y.strm τ β}
    (h : M.Same p q) (hs : M.Same s t) : M.Same (Verif.sepEndBy1 p s) (Verif.sepEndBy1 q t) := by
  have hw := «with» (boxed hs) (optional (boxed h))
  unfold Verif.sepEndBy1
  dsimp only
  rw [hw.init]
  refine same_mode (fun {L i j} hr m st => ?_) h.addError rfl rfl
  rcases st with ⟨_ | c, els, child⟩
  · rcases (h.run hr m child.tail.1.2).cases with ⟨r, i', s', h1, hF, hl⟩ | ⟨r, i', j', s', h1, h2, h3⟩
    · lost
    simp only [h1, h2]
    cases r with
    | commitOk v =>
      simp only [M.size h3]
      rcases iterExtend hw id (Y.size j' + 2) none (els ++ [v]) (SameIter.new h3 m (SepSt.setB child s')) with hl | ⟨h4, h5⟩
      · refine .inl ⟨?_, hl.2⟩; exact fails_combine (.commit ()) (hl.fast _)
      simp only [h4, intoResultFast h5, h5.st, h5.committed]
      exact Out.mk' h5.inp
    | peekOk v =>
      simp only [M.size h3]
      rcases iterExtend hw id (Y.size j' + 2) none (els ++ [v]) (SameIter.new h3 m (SepSt.setB child s')) with hl | ⟨h4, h5⟩
      · refine .inl ⟨?_, hl.2⟩; exact fails_combine (.peek ()) (hl.fast _)
      simp only [h4, intoResultFast h5, h5.st, h5.committed]
      exact Out.mk' h5.inp
    | _ => exact Out.mk' h3
  · simp only [M.size hr]
    rcases iterExtend hw id (Y.size j + 2) none els (SameIter.new hr m child) with hl | ⟨h4, h5⟩
    · exact .inl ⟨fails_combine _ (hl.fast _), hl.2⟩
    simp only [h4, intoResultFast h5, h5.st, h5.committed]
    exact Out.mk' h5.inp

theorem sepEndBy {p : Parser X.strm σ α} {q : Parser Y.strm σ α} {s : Parser X.strm τ β} {t : Parser Y.strm τ β}
    (h : M.Same p q) (hs : M.Same s t) : M.Same (Verif.sepEndBy p s) (Verif.sepEndBy q t) :=
  same_mode (or (sepEndBy1 (boxed h) (boxed hs)) (emptyList α)).run h.addError rfl rfl

theorem chainl1Loop {t : Parser X.strm τ ((α → α → α) × α × Unit)} {u : Parser Y.strm τ ((α → α → α) × α × Unit)} (h : M.Same t u)
    (n : Nat) : ∀ {L i j} (m : Bool) (l : α) (c : Commit Unit) (s : τ), M.R L i j →
      M.Out L (Verif.chainl1Loop t n m l c i s) (Verif.chainl1Loop u n m l c j s) := by
  induction n with
  | zero => exact fun m l c s hr => Out.mk' hr
  | succ n ih =>
    intro L i j m l c s hr
    simp only [Verif.chainl1Loop]
    rcases (h.run (M.save hr) m s).cases with ⟨r, i', s', h1, hF, hl⟩ | ⟨r, i', j', s', h1, h2, h3⟩
    · lost
    simp only [h1, h2]
    cases r with
    | commitOk v => exact (ih _ _ _ _ h3).forget
    | peekOk v => exact (ih _ _ _ _ h3).forget
    | peekErr e => exact (tryReset h3 _ fun i j h => Out.mk' h).forget
    | commitErr e => exact Out.mk' (M.forget h3)
    | abort a => exact Out.mk' (M.forget h3)

theorem chainl1 {p : Parser X.strm σ α} {q : Parser Y.strm σ α} {o : Parser X.strm τ (α → α → α)} {o' : Parser Y.strm τ (α → α → α)}
    (h : M.Same p q) (ho : M.Same o o') : M.Same (Verif.chainl1 p o) (Verif.chainl1 q o') := by
  have ht := pair (boxed ho) (boxed h)
  unfold Verif.chainl1
  dsimp only
  rw [ht.init]
  refine same_mode (fun {L i j} hr m st => ?_) h.addError rfl rfl
  rcases st with ⟨_ | ⟨l, c⟩, s⟩
  · rcases (h.run hr false s.tail.1.2).cases with ⟨r, i', s', h1, hF, hl⟩ | ⟨r, i', j', s', h1, h2, h3⟩
    · lost
    simp only [h1, h2]
    cases r with
    | commitOk v => simp only [M.size h3]; exact chainl1Loop ht _ _ _ _ _ h3
    | peekOk v => simp only [M.size h3]; exact chainl1Loop ht _ _ _ _ _ h3
    | _ => exact Out.mk' h3
  · simp only [M.size hr]
    exact chainl1Loop ht _ _ _ _ _ hr

theorem chainr1Both {p : Parser X.strm σ α} {q : Parser Y.strm σ α} {o : Parser X.strm τ (α → α → α)} {o' : Parser Y.strm τ (α → α → α)}
    (h : M.Same p q) (ho : M.Same o o') (n : Nat) :
    (∀ {L i j}, M.R L i j → M.Ans L (chainr1Lazy p o n i) (chainr1Lazy q o' n j)) ∧
    (∀ {L i j} (l : α) (c : Commit Unit), M.R L i j → M.Ans L (chainr1Loop p o n l c i) (chainr1Loop q o' n l c j)) := by
  induction n with
  | zero => exact ⟨fun hr => by simp only [chainr1Lazy]; exact Ans.mk' hr, fun l c hr => by simp only [chainr1Loop]; exact Ans.mk' hr⟩
  | succ n ih =>
    obtain ⟨ih1, ih2⟩ := ih
    constructor
    · intro L i j hr
      simp only [chainr1Lazy]
      rcases (h.lazy hr).cases with ⟨r, i', h1, hF, hl⟩ | ⟨r, i', j', h1, h2, h3⟩
      · lost
      simp only [h1, h2]
      cases r with
      | commitOk v => exact ih2 _ _ h3
      | peekOk v => exact ih2 _ _ h3
      | _ => exact Ans.mk' h3
    · intro L i j l c hr
      simp only [chainr1Loop]
      rcases (ho.lazy (M.save hr)).cases with ⟨r, i', h1, hF, hl⟩ | ⟨r, i', j', h1, h2, h3⟩
      · lost
      simp only [h1, h2]
      cases r with
      | commitOk f =>
        simp only [ParseResult.toStd]
        rcases (ih1 (M.save (M.forget h3))).cases with ⟨r, i', h1, hF, hl⟩ | ⟨r, i2, j2, h4, h5, h6⟩
        · lost
        simp only [h4, h5]
        cases r with
        | commitOk v => exact ih2 _ _ (M.forget h6)
        | peekOk v => exact ih2 _ _ (M.forget h6)
        | peekErr e =>
          rcases reset' h6 with ⟨e, i', hx, hl⟩ | ⟨e', i3, j3, h7, h8, h9⟩
          · simp only [hx]; exact .inl ⟨trivial, M.lostForget hl⟩
          simp only [h7, h8]
          cases e' <;> exact Ans.mk' (M.forget h9)
        | commitErr e => exact Ans.mk' (M.forget h6)
        | abort a => exact Ans.mk' (M.forget h6)
      | peekOk f =>
        simp only [ParseResult.toStd]
        rcases (ih1 (M.save (M.forget h3))).cases with ⟨r, i', h1, hF, hl⟩ | ⟨r, i2, j2, h4, h5, h6⟩
        · lost
        simp only [h4, h5]
        cases r with
        | commitOk v => exact ih2 _ _ (M.forget h6)
        | peekOk v => exact ih2 _ _ (M.forget h6)
        | peekErr e =>
          rcases reset' h6 with ⟨e, i', hx, hl⟩ | ⟨e', i3, j3, h7, h8, h9⟩
          · simp only [hx]; exact .inl ⟨trivial, M.lostForget hl⟩
          simp only [h7, h8]
          cases e' <;> exact Ans.mk' (M.forget h9)
        | commitErr e => exact Ans.mk' (M.forget h6)
        | abort a => exact Ans.mk' (M.forget h6)
      | peekErr e =>
        simp only [ParseResult.toStd]
        rcases reset' h3 with ⟨e, i', hx, hl⟩ | ⟨e', i3, j3, h7, h8, h9⟩
        · simp only [hx]; exact .inl ⟨trivial, M.lostForget hl⟩
        simp only [h7, h8]
        cases e' <;> exact Ans.mk' (M.forget h9)
      | commitErr e => exact Ans.mk' (M.forget h3)
      | abort a => exact Ans.mk' (M.forget h3)

theorem chainr1 {p : Parser X.strm σ α} {q : Parser Y.strm σ α} {o : Parser X.strm τ (α → α → α)} {o' : Parser Y.strm τ (α → α → α)}
    (h : M.Same p q) (ho : M.Same o o') : M.Same (Verif.chainr1 p o) (Verif.chainr1 q o') :=
  same_lazy (fun hr => by simp only [M.size hr]; exact (chainr1Both h ho _).1 hr) h.addError rfl rfl

theorem takeUntilLoop {p : Parser X.strm σ α} {q : Parser Y.strm σ α} (h : M.Same p q) (m : Bool) (n : Nat) :
    ∀ {L i j} (c : Commit Unit) (els : List T) (s : σ), M.R L i j →
      M.Out L (Verif.takeUntilLoop p m n c i els s) (Verif.takeUntilLoop q m n c j els s) := by
  induction n with
  | zero => exact fun c els s hr => Out.mk' hr
  | succ n ih =>
    intro L i j c els s hr
    simp only [Verif.takeUntilLoop]
    rcases (h.run (M.save hr) m s).cases with ⟨r, i', s', h1, hF, hl⟩ | ⟨r, i', j', s', h1, h2, h3⟩
    · lost
    simp only [h1, h2]
    cases r with
    | commitOk v =>
      refine (tryReset h3 _ fun i j h => ?_).forget
      cases c <;> exact Out.mk' h
    | peekOk v =>
      refine (tryReset h3 _ fun i j h => ?_).forget
      cases c <;> exact Out.mk' h
    | peekErr e =>
      refine (tryReset h3 _ fun i j h => ?_).forget
      obtain ⟨r, i2, j2, h4, h5, h6⟩ := (unconsP h).cases
      simp only [h4, h5]
      cases r with
      | commitOk t => exact ih _ _ _ h6
      | peekOk t => exact ih _ _ _ h6
      | _ => exact Out.mk' h6
    | commitErr e => exact (tryReset h3 _ fun i j h => Out.mk' h).forget
    | abort a => exact Out.mk' (M.forget h3)

theorem takeUntil {p : Parser X.strm σ α} {q : Parser Y.strm σ α} (h : M.Same p q) : M.Same (Verif.takeUntil p) (Verif.takeUntil q) := by
  unfold Verif.takeUntil
  rw [h.init]
  exact same_mode (fun hr m s => by simp only [M.size hr]; exact takeUntilLoop h m _ _ _ _ hr) rfl rfl rfl

theorem skipUntil {p : Parser X.strm σ α} {q : Parser Y.strm σ α} (h : M.Same p q) : M.Same (Verif.skipUntil p) (Verif.skipUntil q) :=
  parserMacro («with» (takeUntil h) (value ()))

theorem repeatUntilLoop {p : Parser X.strm σ α} {q : Parser Y.strm σ α} {e : Parser X.strm τ β} {e' : Parser Y.strm τ β}
    (h : M.Same p q) (he : M.Same e e') (n : Nat) : ∀ {L i j} (m : Bool) (c : Commit Unit) (s : RepeatSt σ τ α), M.R L i j →
      M.Out L (Verif.repeatUntilLoop p e n m c i s) (Verif.repeatUntilLoop q e' n m c j s) := by
  induction n with
  | zero => exact fun m c s hr => Out.mk' hr
  | succ n ih =>
    intro L i j m c s hr
    simp only [Verif.repeatUntilLoop]
    split
    · rcases (h.run hr m s.parseSt).cases with ⟨r, i', s', h1, hF, hl⟩ | ⟨r, i', j', s', h1, h2, h3⟩
      · lost
      simp only [h1, h2]
      cases r with
      | commitOk v => exact ih _ _ _ h3
      | peekOk v => exact ih _ _ _ h3
      | _ => exact Out.mk' h3
    · rcases (he.run (M.save hr) m s.endSt).cases with ⟨r, i', s', h1, hF, hl⟩ | ⟨r, i', j', s', h1, h2, h3⟩
      · lost
      simp only [h1, h2]
      cases r with
      | commitOk v =>
        refine (tryReset h3 _ fun i j h => ?_).forget
        cases c <;> exact Out.mk' h
      | peekOk v =>
        refine (tryReset h3 _ fun i j h => ?_).forget
        cases c <;> exact Out.mk' h
      | peekErr e => exact (tryReset h3 _ fun i j h => ih _ _ _ h).forget
      | commitErr e => exact (tryReset h3 _ fun i j h => Out.mk' h).forget
      | abort a => exact Out.mk' (M.forget h3)

theorem repeatUntil {p : Parser X.strm σ α} {q : Parser Y.strm σ α} {e : Parser X.strm τ β} {e' : Parser Y.strm τ β}
    (h : M.Same p q) (he : M.Same e e') : M.Same (Verif.repeatUntil p e) (Verif.repeatUntil q e') := by
  unfold Verif.repeatUntil
  rw [h.init, he.init]
  exact same_mode (fun hr m s => by simp only [M.size hr]; exact repeatUntilLoop h he _ _ _ _ hr) rfl rfl rfl

theorem repeatSkipUntil {p : Parser X.strm σ α} {q : Parser Y.strm σ α} {e : Parser X.strm τ β} {e' : Parser Y.strm τ β}
    (h : M.Same p q) (he : M.Same e e') : M.Same (Verif.repeatSkipUntil p e) (Verif.repeatSkipUntil q e') :=
  parserMacro («with» (repeatUntil h he) (value ()))

theorem escapedLoop (hx : ∀ L i, ¬ M.Lost L i) [DecidableEq T] {p : Parser X.strm σ α} {q : Parser Y.strm σ α} {e : Parser X.strm τ β} {e' : Parser Y.strm τ β}
    (h : M.Same p q) (he : M.Same e e') (t : T) (n : Nat) : ∀ {L i j} (c : Commit Unit), M.R L i j →
      M.Ans L (Verif.escapedLoop (S := X.strm) p t e n c i) (Verif.escapedLoop (S := Y.strm) q t e' n c j) := by
  induction n with
  | zero => exact fun c hr => Ans.mk' hr
  | succ n ih =>
    intro L i j c hr
    rcases (h.lazy hr).cases with ⟨r, i', h1, hF, hl⟩ | ⟨r, i', j', h1, h2, h3⟩
    · exact (hx _ _ hl).elim
    simp only [Verif.escapedLoop, h1, h2]
    cases r with
    | commitOk v => exact ih _ h3
    | peekOk v => exact ih _ h3
    | commitErr e => exact Ans.mk' h3
    | abort a => exact Ans.mk' h3
    | peekErr x =>
      obtain ⟨r, i2, j2, h4, h5, h6⟩ := (unconsP (M.save h3)).cases
      rcases reset' h6 with ⟨e, i', hy, hl⟩ | ⟨e2, i3, j3, h7, h8, h9⟩
      · exact (hx _ _ hl).elim
      simp only [h4, h5]
      cases r with
      | abort a => exact Ans.mk' (M.forget h6)
      | commitErr e => exact Ans.mk' (M.forget h6)
      | peekErr e => simp only [h7, h8]; cases e2 <;> exact Ans.mk' (M.forget h9)
      | _ =>
        dsimp only
        split
        · rw [he.init]
          rcases (he.committed (M.forget h6) true e'.init).cases with ⟨r, i', s', h1, hF, hl⟩ | ⟨r, i4, j4, s', h10, h11, h12⟩
          · exact (hx _ _ hl).elim
          simp only [h10, h11]
          cases r with
          | commitOk v => exact ih _ h12
          | peekOk v => exact ih _ h12
          | _ => exact Ans.mk' h12
        · simp only [h7, h8]; cases e2 <;> exact Ans.mk' (M.forget h9)

theorem escaped (hx : ∀ L i, ¬ M.Lost L i) [DecidableEq T] {p : Parser X.strm σ α} {q : Parser Y.strm σ α} {e : Parser X.strm τ β} {e' : Parser Y.strm τ β}
    (h : M.Same p q) (he : M.Same e e') (t : T) :
    M.Same (Verif.escaped (S := X.strm) p t e) (Verif.escaped (S := Y.strm) q t e') :=
  same_lazy (fun hr => by simp only [M.size hr]; exact escapedLoop hx h he t _ _ hr) (by rw [h.addError]; rfl) rfl rfl

theorem iterateLoop {J : Type} {f : J → X.Input → Parser X.strm σ α} {g : J → Y.Input → Parser Y.strm σ α}
    (hf : ∀ {L i j} x, M.R L i j → M.Same (f x i) (g x j)) (xs : List J) :
    ∀ {L i j} (m c : Bool) (buf : List α) (s : σ), M.R L i j →
      M.Out L (Verif.iterateLoop (S := X.strm) f xs m c buf i s) (Verif.iterateLoop (S := Y.strm) g xs m c buf j s) := by
  induction xs with
  | nil => exact fun m c buf s hr => Out.mk' hr
  | cons x xs ih =>
    intro L i j m c buf s hr
    simp only [Verif.iterateLoop]
    rcases ((hf x hr).run (M.save hr) m s).cases with ⟨r, i', s', h1, hF, hl⟩ | ⟨r, i', j', s', h1, h2, h3⟩
    · lost
    simp only [h1, h2]
    cases r with
    | commitOk v => exact ih _ _ _ _ (M.forget h3)
    | peekOk v => exact ih _ _ _ _ (M.forget h3)
    | peekErr e =>
      rcases reset' h3 with ⟨e, i', hx, hl⟩ | ⟨e', i2, j2, h4, h5, h6⟩
      · simp only [hx]; exact .inl ⟨trivial, M.lostForget hl⟩
      simp only [h4, h5]
      cases e' <;> exact Out.mk' (M.forget h6)
    | _ => exact Out.mk' (M.forget h3)

theorem iterate {J : Type} (items : List J) {f : J → X.Input → Parser X.strm σ α} {g : J → Y.Input → Parser Y.strm σ α}
    (hf : ∀ {L i j} x, M.R L i j → M.Same (f x i) (g x j)) (s : σ) :
    M.Same (Verif.iterate (S := X.strm) items f s) (Verif.iterate (S := Y.strm) items g s) := by
  refine same_mode (fun {L i j} hr m st => ?_) rfl rfl rfl
  split
  · exact iterateLoop hf _ _ _ _ _ hr
  · exact iterateLoop hf _ _ _ _ _ hr
  · exact iterateLoop hf _ _ _ _ _ hr

/-! ## Bytes and characters -/

theorem satisfyNamed (f : T → Bool) (name : String) : M.Same (Verif.satisfyNamed X.strm f name) (Verif.satisfyNamed Y.strm f name) :=
  expected (M := M) (satisfy (M := M) f) _

theorem spaces (f : T → Bool) (name : String) : M.Same (Verif.spaces X.strm f name) (Verif.spaces Y.strm f name) :=
  expected (M := M) (skipMany (M := M) (satisfyNamed (M := M) f name)) _

theorem newline [DecidableEq T] (lf : T) : M.Same (Verif.newline X.strm lf) (Verif.newline Y.strm lf) := satisfyNamed (M := M) _ _

theorem crlf [DecidableEq T] (cr lf : T) : M.Same (Verif.crlf X.strm cr lf) (Verif.crlf Y.strm cr lf) :=
  expected (M := M) (noPartial (M := M) («with» (M := M) (satisfy (M := M) _) (newline (M := M) lf))) _

theorem stringCmp (ts : List τ) (cmp : τ → T → Bool) (x : Info T Rg) (a : α) :
    M.Same (Verif.stringCmp X.strm ts cmp x a) (Verif.stringCmp Y.strm ts cmp x a) := expected (M := M) (map (M := M) (tokensCmp (M := M) ts cmp) _) _

theorem readN (n : Nat) (buf : List T) : ∀ {L i j}, M.R L i j → M.Res L (Verif.readN X.strm n buf i) (Verif.readN Y.strm n buf j) := by
  induction n generalizing buf with
  | zero => exact fun hr => ⟨rfl, hr⟩
  | succ n ih =>
    intro L i j hr
    obtain ⟨r, i', j', h1, h2, h3⟩ := (unconsP hr).cases
    simp only [Verif.readN, h1, h2]
    cases r with
    | commitOk t => exact ih _ h3
    | peekOk t => exact ih _ h3
    | _ => exact ⟨rfl, h3⟩

theorem intParser (n : Nat) (f : List T → α) : M.Same (Verif.intParser X.strm n f) (Verif.intParser Y.strm n f) := by
  refine fnParser fun {L i j} hr => ?_
  obtain ⟨r, i', j', h1, h2, h3⟩ := (readN n [] (M.save hr)).cases
  simp only [h1, h2]
  cases r with
  | commitErr e =>
    rcases reset' h3 with ⟨e, i', hx, hl⟩ | ⟨e', i2, j2, h4, h5, h6⟩
    · simp only [hx]; exact .inl ⟨trivial, M.lostForget hl⟩
    simp only [h4, h5]; cases e' <;> exact Ans.mk' (M.forget h6)
  | peekErr e =>
    rcases reset' h3 with ⟨e, i', hx, hl⟩ | ⟨e', i2, j2, h4, h5, h6⟩
    · simp only [hx]; exact .inl ⟨trivial, M.lostForget hl⟩
    simp only [h4, h5]; cases e' <;> exact Ans.mk' (M.forget h6)
  | _ => exact Ans.mk' (M.forget h3)

theorem leUint (byte : T → UInt8) (n : Nat) : M.Same (Verif.leUint X.strm byte n) (Verif.leUint Y.strm byte n) := intParser (M := M) _ _
theorem beUint (byte : T → UInt8) (n : Nat) : M.Same (Verif.beUint X.strm byte n) (Verif.beUint Y.strm byte n) := intParser (M := M) _ _
theorem leInt (byte : T → UInt8) (n : Nat) : M.Same (Verif.leInt X.strm byte n) (Verif.leInt Y.strm byte n) := intParser (M := M) _ _
theorem beInt (byte : T → UInt8) (n : Nat) : M.Same (Verif.beInt X.strm byte n) (Verif.beInt Y.strm byte n) := intParser (M := M) _ _

theorem byteClass (byte : T → UInt8) (k : TokenClass) : M.Same (Verif.byteClass X.strm byte k) (Verif.byteClass Y.strm byte k) :=
  satisfyNamed (M := M) _ _

theorem charClass (U : Unicode) (chr : T → Char) (k : TokenClass) : M.Same (Verif.charClass X.strm U chr k) (Verif.charClass Y.strm U chr k) :=
  satisfyNamed (M := M) _ _

/-! ## Parsing -/

/-- Both streams end a parse the same way, or the first one is lost and fails. -/
theorem parse {p : Parser X.strm σ α} {q : Parser Y.strm σ α} (h : M.Same p q) (hr : M.R L i j) :
    (∃ e i', p.parse i = .err e ∧ M.Lost L i') ∨
    (∃ v i' j', p.parse i = .ok v i' ∧ q.parse j = .ok v j' ∧ M.R L i' j') ∨
    (∃ e, p.parse i = .err e ∧ q.parse j = .err e) ∨ (∃ a, p.parse i = .abort a ∧ q.parse j = .abort a) := by
  rcases (h.stream hr).cases with ⟨r, i', h1, hF, hl⟩ | ⟨r, i', j', h1, h2, h3⟩
  · simp only [Parser.parse, h1]
    cases r <;> first | exact hF.elim | exact .inl ⟨_, i', rfl, hl⟩
  simp only [Parser.parse, h1, h2]
  cases r with
  | commitOk v => exact .inr (.inl ⟨_, _, _, rfl, rfl, h3⟩)
  | peekOk v => exact .inr (.inl ⟨_, _, _, rfl, rfl, h3⟩)
  | commitErr e => exact .inr (.inr (.inl ⟨_, rfl, rfl⟩))
  | peekErr e => exact .inr (.inr (.inl ⟨_, rfl, rfl⟩))
  | abort a => exact .inr (.inr (.inr ⟨_, rfl, rfl⟩))

end Verif.Lockstep
