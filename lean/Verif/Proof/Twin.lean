import Verif.Spec.Twin

/-!
# Running the same program with two error types
-/

namespace Verif

variable {S : Strm} {E : ErrOps S.Tok S.Rng S.Pos} {convS : S.SErr → E.SErr} {conv : S.Err → E.Err}
variable {σ τ υ α β γ : Type}

/-- Equal outcomes of a call, except for the errors. -/
def OutTwin (o : Out S σ α) (o' : Out (S.withErrors E convS conv) σ α) : Prop :=
  o.res.Twin o'.res ∧ o.inp = o'.inp ∧ o.st = o'.st

/-- The same of a call without state. -/
def LazyTwin (r : ParseResult α S.Err × S.Input) (r' : ParseResult α E.Err × S.Input) : Prop :=
  r.1.Twin r'.1 ∧ r.2 = r'.2

/-- Parsers that do the same except for the errors. -/
structure TwinP (p : Parser S σ α) (q : Parser (S.withErrors E convS conv) σ α) : Prop where
  init : p.init = q.init
  count : p.count = q.count
  run : ∀ m i s, OutTwin (p.run m i s) (q.run m i s)
  lazy : ∀ i, LazyTwin (S := S) (E := E) (p.lazy i) (q.lazy i)
  committed : ∀ m i s, OutTwin (p.committed m i s) (q.committed m i s)
  stream : ∀ i, LazyTwin (S := S) (E := E) (p.stream i) (q.stream i)

/-- Compare two calls: equal outcomes, one case per kind of result. -/
macro "twin " h:term " : " a:term ", " b:term : tactic =>
  `(tactic| (have hx := $h; generalize $a = o at hx ⊢; generalize $b = o' at hx ⊢; obtain ⟨r, j, t⟩ := o
             obtain ⟨r', j', t'⟩ := o'; obtain ⟨hx, h1, h2⟩ := hx
             dsimp only at hx h1 h2; subst h1; subst h2; cases hx <;> dsimp only))

/-- The same of calls without state. -/
macro "twinl " h:term " : " a:term ", " b:term : tactic =>
  `(tactic| (have hx := $h; generalize $a = o at hx ⊢; generalize $b = o' at hx ⊢; obtain ⟨r, j⟩ := o
             obtain ⟨r', j'⟩ := o'; obtain ⟨hx, h1⟩ := hx; dsimp only at hx h1; subst h1; cases hx <;> dsimp only))

theorem twin_reset {b : S.Ckpt} {i : S.Input} {s : σ} {k : S.Input → Out S σ α}
    {k' : S.Input → Out (S.withErrors E convS conv) σ α} (h : ∀ j, OutTwin (k j) (k' j)) :
    OutTwin (S.tryReset b i s k) (Strm.tryReset (S := S.withErrors E convS conv) b i s k') := by
  unfold Strm.tryReset
  dsimp only
  generalize S.reset b i = x
  obtain ⟨_ | e, j⟩ := x
  · exact h j
  · exact ⟨.commitErr _ _, rfl, rfl⟩

theorem twin_describing {a a'} {r : S.Input → σ → Out S σ α} {r' : S.Input → σ → Out (S.withErrors E convS conv) σ α}
    (h : ∀ i s, OutTwin (r i s) (r' i s)) (i : S.Input) (s : σ) :
    OutTwin (Strm.describing a r i s) (Strm.describing (S := S.withErrors E convS conv) a' r' i s) := by
  unfold Strm.describing
  dsimp only
  twin h i s : r i s, r' i s
  case peekErr =>
    unfold Strm.describe
    refine twin_reset fun k => ?_
    dsimp only
    generalize S.uncons k = x
    obtain ⟨_ | t, l⟩ := x
    · exact ⟨.peekErr _ _, rfl, rfl⟩
    · exact twin_reset fun _ => ⟨.peekErr _ _, rfl, rfl⟩
  all_goals exact ⟨by constructor, rfl, rfl⟩

theorem twin_defaultLazy {s : σ} {r : Bool → S.Input → σ → Out S σ α}
    {r' : Bool → S.Input → σ → Out (S.withErrors E convS conv) σ α} (h : ∀ m i s, OutTwin (r m i s) (r' m i s)) (i : S.Input) :
    LazyTwin (S := S) (E := E) (Strm.defaultLazy s r i) (Strm.defaultLazy (S := S.withErrors E convS conv) s r' i) := by
  unfold Strm.defaultLazy
  dsimp only
  twin h true i s : r true i s, r' true i s
  case commitErr =>
    generalize S.reset (S.checkpoint i) _ = x
    obtain ⟨_ | e, k⟩ := x <;> split <;> exact ⟨.commitErr _ _, rfl⟩
  all_goals (split <;> exact ⟨by constructor, rfl⟩)

theorem TwinP.ofMode {s s' : σ} {r : Bool → S.Input → σ → Out S σ α}
    {r' : Bool → S.Input → σ → Out (S.withErrors E convS conv) σ α} {a a' c c' n n'} (hs : s = s') (hn : n = n')
    (h : ∀ m i s, OutTwin (r m i s) (r' m i s)) :
    TwinP (convS := convS) (conv := conv) (.ofMode s r a c n) (.ofMode s' r' a' c' n') where
  init := hs
  count := hn
  run := h
  lazy i := by subst hs; exact twin_defaultLazy h i
  committed m i s := twin_describing (h m) i s
  stream i := by
    subst hs
    have := twin_describing (a := a) (a' := a') (h true) i s
    exact ⟨this.1, this.2.1⟩

theorem TwinP.ofLazy {s s' : σ} {r : S.Input → ParseResult α S.Err × S.Input} {r' : S.Input → ParseResult α E.Err × S.Input}
    {a a' c c' n n'} (hs : s = s') (hn : n = n') (h : ∀ i, LazyTwin (S := S) (E := E) (r i) (r' i)) :
    TwinP (convS := convS) (conv := conv) (.ofLazy s r a c n) (.ofLazy (S := S.withErrors E convS conv) s' r' a' c' n') := by
  subst hs
  have h' : ∀ i (s : σ), OutTwin (convS := convS) (conv := conv) (S := S) (E := E) ⟨(r i).1, (r i).2, s⟩ ⟨(r' i).1, (r' i).2, s⟩ :=
    fun i s => ⟨(h i).1, (h i).2, rfl⟩
  exact
    { init := rfl
      count := hn
      run := fun _ i s => h' i s
      lazy := h
      committed := fun _ i s => twin_describing h' i s
      stream := fun i => by
        have := twin_describing (a := a) (a' := a') h' i s
        exact ⟨this.1, this.2.1⟩ }

/-! ## One token -/

theorem twin_wrap (i : S.Input) (e : S.SErr) (e' : E.SErr) :
    (S.wrapStreamError (α := α) i e).Twin ((S.withErrors E convS conv).wrapStreamError (α := α) i e') := by
  unfold Strm.wrapStreamError
  dsimp only
  split <;> constructor

theorem twin_uncons (i : S.Input) : LazyTwin (S := S) (E := E) (S.unconsP i) ((S.withErrors E convS conv).unconsP i) := by
  unfold Strm.unconsP
  dsimp only
  generalize S.uncons i = x
  obtain ⟨e | t, j⟩ := x
  · exact ⟨twin_wrap j e _, rfl⟩
  · exact ⟨.commitOk _, rfl⟩

theorem twin_satisfyImpl (f : S.Tok → Option α) (i : S.Input) :
    LazyTwin (S := S) (E := E) (satisfyImpl S f i) (satisfyImpl (S.withErrors E convS conv) f i) := by
  unfold satisfyImpl
  dsimp only
  twinl (twin_uncons (E := E) (convS := convS) (conv := conv) i) : S.unconsP i, (S.withErrors E convS conv).unconsP i
  case commitOk => split <;> exact ⟨by constructor, rfl⟩
  case peekOk => split <;> exact ⟨by constructor, rfl⟩
  all_goals exact ⟨by constructor, rfl⟩

theorem twin_tokensLoop {κ : Type} (cmp : κ → S.Tok → Bool) {start start' : S.Pos} {bad bad'} : ∀ (ts : List κ) (c : Bool) (i : S.Input),
    LazyTwin (S := S) (E := E) (tokensLoop S cmp start bad ts c i)
      (tokensLoop (S.withErrors E convS conv) cmp start' bad' ts c i)
  | [], c, i => by
    unfold tokensLoop
    cases c <;> exact ⟨by constructor, rfl⟩
  | t :: ts, c, i => by
    unfold tokensLoop
    dsimp only
    twinl (twin_uncons (E := E) (convS := convS) (conv := conv) i) : S.unconsP i, (S.withErrors E convS conv).unconsP i
    case commitOk =>
      split
      · exact twin_tokensLoop cmp ts true _
      · cases c <;> exact ⟨by constructor, rfl⟩
    case peekOk =>
      split
      · exact twin_tokensLoop cmp ts true _
      · cases c <;> exact ⟨by constructor, rfl⟩
    case peekErr => cases c <;> exact ⟨by constructor, rfl⟩
    all_goals exact ⟨by constructor, rfl⟩

theorem Twin.map {F G : Type} {r : ParseResult α F} {r' : ParseResult α G} (f : α → β) (h : r.Twin r') : (r.map f).Twin (r'.map f) := by
  cases h <;> constructor

theorem Twin.isOk {F G : Type} {r : ParseResult α F} {r' : ParseResult α G} (h : r.Twin r') : r.isOk = r'.isOk := by
  cases h <;> rfl

theorem OutTwin.map {o : Out S σ α} {o' : Out (S.withErrors E convS conv) σ α} (f : α → β) (h : OutTwin o o') :
    OutTwin (o.mapRes (·.map f)) (o'.mapRes (·.map f)) := ⟨Twin.map f h.1, h.2⟩

theorem OutTwin.mapSt {o : Out S σ α} {o' : Out (S.withErrors E convS conv) σ α} (f : σ → τ) (h : OutTwin o o') :
    OutTwin (o.mapSt f) (o'.mapSt f) := ⟨h.1, h.2.1, congrArg f h.2.2⟩

theorem twin_eof (hc : ∀ e, E.isEoiS (convS e) = S.E.isEoiS e) :
    TwinP (E := E) (convS := convS) (conv := conv) (eof S) (eof _) := by
  refine .ofLazy rfl rfl fun i => ?_
  dsimp only
  generalize S.uncons i = x
  obtain ⟨e | t, j⟩ := x
  · dsimp only [mapExceptErr]
    rw [hc]
    generalize S.reset (S.checkpoint i) j = y
    obtain ⟨_ | e, k⟩ := y <;> split <;> exact ⟨by constructor, rfl⟩
  · dsimp only [mapExceptErr]
    generalize S.reset (S.checkpoint i) j = y
    obtain ⟨_ | e, k⟩ := y <;> exact ⟨by constructor, rfl⟩

end Verif
