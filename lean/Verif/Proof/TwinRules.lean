import Verif.Proof.Twin

/-!
# Combinators of parsers that do the same except for the errors
-/

namespace Verif

variable {S : Strm} {E : ErrOps S.Tok S.Rng S.Pos} {convS : S.SErr → E.SErr} {conv : S.Err → E.Err}
variable {σ τ υ α β γ : Type} {p : Parser S σ α} {q : Parser (S.withErrors E convS conv) σ α}
variable {p' : Parser S τ β} {q' : Parser (S.withErrors E convS conv) τ β}

/-- Close a goal that compares two results of the same kind. -/
macro "twins" : tactic => `(tactic| exact ⟨by constructor, rfl, rfl⟩)

/-- The same without state. -/
macro "twinsl" : tactic => `(tactic| exact ⟨by constructor, rfl⟩)

namespace TwinP

theorem map (f : α → β) (h : TwinP p q) : TwinP (map p f) (map q f) :=
  .ofMode h.init h.count fun m i s => (h.run m i s).map f

theorem mapInput (f : α → S.Input → β × S.Input) (h : TwinP p q) : TwinP (mapInput p f) (mapInput q f) :=
  .ofMode h.init h.count fun m i s => by
    dsimp only
    twin h.run m i s : p.run m i s, q.run m i s
    all_goals twins

theorem flatMap {f : α → Except S.Err β} {g : α → Except E.Err β} (hf : ∀ a, ExceptTwin (f a) (g a)) (h : TwinP p q) :
    TwinP (flatMap p f) (flatMap q g) :=
  .ofMode h.init h.count fun m i s => by
    dsimp only [Out.mapRes]
    twin h.run m i s : p.run m i s, q.run m i s
    case commitOk a =>
      have := hf a
      generalize f a = x at this ⊢; generalize g a = y at this ⊢
      cases this <;> twins
    case peekOk a =>
      have := hf a
      generalize f a = x at this ⊢; generalize g a = y at this ⊢
      cases this <;> twins
    all_goals twins

theorem andThen (hw : ∀ i, S.isPartial i = false) {f : α → Except S.SErr β} {g : α → Except E.SErr β}
    (hf : ∀ a, ExceptTwin (f a) (g a)) (h : TwinP p q) : TwinP (andThen p f) (andThen q g) :=
  .ofMode h.init h.count fun m i s => by
    dsimp only
    twin h.run m i s : p.run m i s, q.run m i s
    case commitOk a =>
      have := hf a
      generalize f a = x at this ⊢; generalize g a = y at this ⊢
      simp only [hw]
      cases this <;> twins
    case peekOk a =>
      have := hf a
      generalize f a = x at this ⊢; generalize g a = y at this ⊢
      simp only [hw]
      cases this <;> twins
    all_goals twins

theorem ignore (h : TwinP p q) : TwinP (ignore p) (ignore q) :=
  have hm := h.map fun _ => ()
  { init := hm.init, count := hm.count, run := hm.run, lazy := fun i => ⟨Twin.map _ (h.lazy i).1, (h.lazy i).2⟩
    committed := hm.committed, stream := hm.stream }

theorem message (x y : Info S.Tok S.Rng) (h : TwinP p q) : TwinP (message p x) (message q y) :=
  .ofMode h.init h.count fun m i s => by
    dsimp only
    twin h.run m i s : p.run m i s, q.run m i s
    all_goals twins

theorem expected (x y : Info S.Tok S.Rng) (h : TwinP p q) : TwinP (expected p x) (expected q y) :=
  .ofMode h.init h.count h.run

theorem silent (h : TwinP p q) : TwinP (silent p) (silent q) :=
  .ofMode h.init h.count fun m i s => by
    dsimp only [Out.mapRes, ParseResult.mapErr]
    twin h.run m i s : p.run m i s, q.run m i s
    all_goals twins

theorem attempt (hw : ∀ i, S.isPartial i = false) (h : TwinP p q) : TwinP (attempt p) (attempt q) := by
  have hr : ∀ m i s, OutTwin (attemptRun p m i s) (attemptRun q m i s) := fun m i s => by
    unfold attemptRun
    dsimp only
    twin h.committed m i s : p.committed m i s, q.committed m i s
    case commitErr => simp only [hw]; twins
    all_goals twins
  have hl := fun i => twin_defaultLazy (s := p.init) hr i
  exact { init := h.init, count := h.count, run := hr, committed := hr
          lazy := fun i => by have := hl i; unfold Verif.attempt; dsimp only; rw [← h.init]; exact this
          stream := fun i => by have := hl i; unfold Verif.attempt; dsimp only; rw [← h.init]; exact this }

theorem lookAhead (h : TwinP p q) : TwinP (lookAhead p) (lookAhead q) :=
  .ofLazy rfl h.count fun i => by
    dsimp only
    twinl h.lazy i : p.lazy i, q.lazy i
    all_goals
      generalize S.reset (S.checkpoint i) _ = x
      obtain ⟨_ | e, k⟩ := x <;> twinsl

theorem notFollowedBy (h : TwinP p q) : TwinP (notFollowedBy p) (notFollowedBy q) :=
  .ofMode h.init h.count fun m i s => by
    dsimp only
    twin h.run m i s : p.run m i s, q.run m i s
    all_goals exact twin_reset fun _ => by twins

theorem eitherLeft (τ : Type) (h : TwinP p q) : TwinP (eitherLeft p τ) (eitherLeft q τ) := by
  have hr : ∀ (m : Bool) (i : S.Input) (s : Option (σ ⊕ τ)), OutTwin (convS := convS) (conv := conv) (S := S) (E := E)
      ((p.run m i (match s with | some (.inl x) => x | _ => p.init)).mapSt fun x => some (Sum.inl (β := τ) x))
      ((q.run m i (match s with | some (.inl x) => x | _ => q.init)).mapSt fun x => some (Sum.inl (β := τ) x)) := fun m i s => by
    rw [h.init]; exact (h.run m i _).mapSt _
  have := TwinP.ofMode (a := p.addError) (a' := q.addError) (c := id) (c' := id) (n := 1) (n' := 1) (s := none) (s' := none) rfl rfl hr
  exact { init := rfl, count := rfl, run := hr, lazy := h.lazy, committed := this.committed, stream := this.stream }

theorem eitherRight (τ : Type) (h : TwinP p q) : TwinP (eitherRight p τ) (eitherRight q τ) := by
  have hr : ∀ (m : Bool) (i : S.Input) (s : Option (τ ⊕ σ)), OutTwin (convS := convS) (conv := conv) (S := S) (E := E)
      ((p.run m i (match s with | some (.inr x) => x | _ => p.init)).mapSt fun x => some (Sum.inr (α := τ) x))
      ((q.run m i (match s with | some (.inr x) => x | _ => q.init)).mapSt fun x => some (Sum.inr (α := τ) x)) := fun m i s => by
    rw [h.init]; exact (h.run m i _).mapSt _
  have := TwinP.ofMode (a := p.addError) (a' := q.addError) (c := id) (c' := id) (n := 1) (n' := 1) (s := none) (s' := none) rfl rfl hr
  exact { init := rfl, count := rfl, run := hr, lazy := h.lazy, committed := this.committed, stream := this.stream }

theorem noPartial (h : TwinP p q) : TwinP (noPartial p) (noPartial q) := .ofLazy rfl h.count h.lazy

theorem boxed (h : TwinP p q) : TwinP (boxed p) (boxed q) := .ofMode h.init h.count h.run

theorem parserMacro (h : TwinP p q) : TwinP (parserMacro p) (parserMacro q) := .ofMode h.init rfl h.run

theorem parserMacroUnit (h : TwinP p q) : TwinP (parserMacroUnit p) (parserMacroUnit q) :=
  .ofMode rfl rfl fun m i _ => by rw [h.init]; exact (h.run m i _).mapSt _

theorem opaqueP (h : TwinP p q) : TwinP (opaqueP p) (opaqueP q) where
  init := h.init
  count := rfl
  run := h.run
  lazy := h.lazy
  committed m i s := twin_describing (h.run m) i s
  stream := h.stream

theorem lazyP {f : Unit → Parser S σ α} {g : Unit → Parser (S.withErrors E convS conv) σ α} (h : ∀ u, TwinP (f u) (g u)) :
    TwinP (lazyP f) (lazyP g) where
  init := (h ()).init
  count := rfl
  run := (h ()).run
  lazy := (h ()).lazy
  committed := (h ()).run
  stream := (h ()).stream

theorem factory {f : S.Input → Parser S σ α} {g : S.Input → Parser (S.withErrors E convS conv) σ α} (s : σ)
    (h : ∀ i, TwinP (f i) (g i)) : TwinP (factory f s) (factory g s) :=
  .ofMode rfl rfl fun m i s => by
    obtain ⟨_ | c, t⟩ := s <;> cases m <;> exact ((h _).run _ i t).mapSt _

theorem anyPartialState (h : TwinP p q) : TwinP (anyPartialState p) (anyPartialState q) := by
  have hr : ∀ (m : Bool) (i : S.Input) (s : Option σ), OutTwin ((Verif.anyPartialState p).run m i s) ((Verif.anyPartialState q).run m i s) := fun m i s => by
    cases s with
    | some c => exact (h.run m i c).mapSt some
    | none =>
      unfold Verif.anyPartialState
      dsimp only [Parser.ofMode]
      rw [← h.init]
      twin h.run m i p.init : p.run m i p.init, q.run m i p.init
      all_goals twins
  have := TwinP.ofMode (a := p.addError) (a' := q.addError) (c := p.addCommitted) (c' := q.addCommitted) (n := p.count) (n' := q.count)
    (s := none) (s' := none) rfl h.count hr
  exact { init := rfl, count := h.count, run := hr, lazy := h.lazy, committed := this.committed, stream := this.stream }

theorem bottom (F : Parser S σ α → Parser S σ α) (G) (s : σ) :
    TwinP (E := E) (convS := convS) (conv := conv) (recur F s 0) (recur G s 0) :=
  .ofMode rfl rfl fun _ _ _ => by twins

theorem optional (h : TwinP p q) : TwinP (optional p) (optional q) :=
  .ofMode h.init h.count fun m i s => by
    dsimp only
    twin h.run m i s : p.run m i s, q.run m i s
    case peekErr => exact twin_reset fun _ => by twins
    all_goals twins

theorem fnParser {f : S.Input → StdResult α S.Err × S.Input} {g : S.Input → StdResult α E.Err × S.Input}
    (h : ∀ i, StdTwin (f i).1 (g i).1 ∧ (f i).2 = (g i).2) :
    TwinP (convS := convS) (conv := conv) (fnParser S f) (fnParser (S.withErrors E convS conv) g) :=
  .ofLazy rfl rfl fun i => by
    refine ⟨?_, (h i).2⟩
    have := (h i).1
    dsimp only
    generalize (f i).1 = x at this ⊢
    generalize (g i).1 = y at this ⊢
    cases this with
    | ok b c => cases c <;> constructor
    | _ => constructor

/-! ## `recognize` -/

theorem replay (last : S.Pos) : ∀ (n : Nat) (i : S.Input) (els : List S.Tok),
    (Verif.replay S last n i els).2 = (Verif.replay (S.withErrors E convS conv) last n i els).2 ∧
    (match (Verif.replay S last n i els).1, (Verif.replay (S.withErrors E convS conv) last n i els).1 with
      | .done, .done => True | .failed _, .failed _ => True | .diverged, .diverged => True | _, _ => False)
  | 0, _, _ => ⟨rfl, trivial⟩
  | n + 1, i, els => by
    unfold Verif.replay
    dsimp only [id]
    by_cases hq : S.position i = last
    · rw [if_pos hq, if_pos hq]; exact ⟨rfl, trivial⟩
    · rw [if_neg hq, if_neg hq]
      generalize S.uncons i = x
      obtain ⟨e | t, j⟩ := x
      · exact ⟨rfl, trivial⟩
      · exact replay last n j _

theorem recognize (h : TwinP p q) : TwinP (recognize p) (recognize q) :=
  .ofMode (by rw [h.init]) rfl fun m i s => by
    dsimp only
    twin h.run m i s.2 : p.run m i s.2, q.run m i s.2
    case peekErr => twins
    case abort => twins
    all_goals
      refine twin_reset fun k => ?_
      dsimp only [id]
      generalize S.position _ = last
      have hr := replay (E := E) (convS := convS) (conv := conv) last (S.size k + 1) k s.1
      generalize Verif.replay S last (S.size k + 1) k s.1 = x at hr ⊢
      generalize Verif.replay (S.withErrors E convS conv) _ (S.size k + 1) k s.1 = y at hr ⊢
      obtain ⟨r, l, els⟩ := x
      obtain ⟨r', l', els'⟩ := y
      obtain ⟨h1, h2⟩ := hr
      cases h1
      cases r <;> cases r' <;> first | exact h2.elim | twins

end TwinP

end Verif
