import Verif.Proof.Lockstep
import Verif.Spec.Recording
import Verif.Model.Wrap

/-!
# C28: a whole parse through a wrapper

`CompleteStream`, `MaybePartialStream` and `state::Stream` make no difference to a whole parse of any program: same value, same error,
same panic, and the same rest of the input with the wrapper around it as it was.
-/

namespace Verif

variable {S : Strm} {σ α : Type}

/-- The end of a parse with the wrapper around the rest taken off. -/
def unwrapped {T Rg P α : Type} [DecidableEq P] {E : ErrOps T Rg P} {X Y : Impl E} (f : X.Input → Y.Input) : Parser.Parsed X.strm α → Parser.Parsed Y.strm α
  | .ok v j => .ok v (f j)
  | .err e => .err e
  | .abort a => .abort a

/-- Streams of which one shows all that the other does after taking off a wrapper. -/
private def byMap {T Rg P : Type} {E : ErrOps T Rg P} {X Y : Impl E} (I : X.Input → Prop) (f : X.Input → Y.Input) (g : X.Ckpt → Y.Ckpt)
    (uncons : ∀ i, I i → (X.uncons i).1 = (Y.uncons (f i)).1 ∧ I (X.uncons i).2 ∧ f (X.uncons i).2 = (Y.uncons (f i)).2)
    (isPartial : ∀ i, I i → X.isPartial i = Y.isPartial (f i)) (position : ∀ i, X.position i = Y.position (f i))
    (size : ∀ i, X.size i = Y.size (f i)) (save : ∀ i, g (X.checkpoint i) = Y.checkpoint (f i))
    (reset : ∀ c i, I i → (X.reset c i).1 = (Y.reset (g c) (f i)).1 ∧ I (X.reset c i).2 ∧ f (X.reset c i).2 = (Y.reset (g c) (f i)).2) :
    Lockstep X Y where
  R L i j := I i ∧ f i = j ∧ ∀ c ∈ L, g c.1 = c.2
  Lost _ _ := False
  uncons := fun {L i j} ⟨h1, h2, h3⟩ => by
    obtain ⟨h4, h5, h6⟩ := uncons i h1
    subst h2
    exact ⟨h4, h5, h6, h3⟩
  isPartial := fun {L i j} ⟨h1, h2, _⟩ => h2 ▸ isPartial i h1
  position := fun {L i j} ⟨_, h2, _⟩ => h2 ▸ position i
  size := fun {L i j} ⟨_, h2, _⟩ => h2 ▸ size i
  save := fun {L i j} ⟨h1, h2, h3⟩ => ⟨h1, h2, fun c hc => by
    rcases List.mem_cons.1 hc with rfl | hc
    · exact h2 ▸ save i
    · exact h3 c hc⟩
  forget := fun {L c i j} ⟨h1, h2, h3⟩ => ⟨h1, h2, fun d hd => h3 d (List.mem_cons_of_mem _ hd)⟩
  reset := fun {L i j c} ⟨h1, h2, h3⟩ => by
    obtain ⟨h4, h5, h6⟩ := reset c.1 i h1
    have hc := h3 c (.head _)
    subst h2
    rw [hc] at h4 h6
    exact .inr ⟨h4, h5, h6, h3⟩
  lostForget := False.elim
  lostReset := False.elim

private theorem parse_byMap {T Rg P : Type} [DecidableEq P] {E : ErrOps T Rg P} {X Y : Impl E} {I : X.Input → Prop} {f : X.Input → Y.Input}
    (M : Lockstep X Y) (hM : ∀ i, I i → M.R [] i (f i)) (hR : ∀ i j, M.R [] i j → I i ∧ f i = j)
    (hl : ∀ L i, ¬ M.Lost L i) {p : Parser X.strm σ α} {q : Parser Y.strm σ α} (h : M.Same p q) (i : X.Input) (hi : I i) :
    unwrapped (Y := Y) f (p.parse i) = q.parse (f i) ∧ ∀ v j, p.parse i = .ok v j → I j := by
  rcases Lockstep.parse h (hM i hi) with ⟨_, _, _, h⟩ | ⟨v, i', j', h1, h2, h3⟩ | ⟨e, h1, h2⟩ | ⟨a, h1, h2⟩
  · exact (hl _ _ h).elim
  · rw [h1, h2]
    obtain ⟨h4, h5⟩ := hR _ _ h3
    refine ⟨congrArg (Parser.Parsed.ok v) h5, fun w k hk => ?_⟩
    cases hk
    exact h4
  · rw [h1, h2]; exact ⟨rfl, fun w k hk => nomatch hk⟩
  · rw [h1, h2]; exact ⟨rfl, fun w k hk => nomatch hk⟩

private def completeLock (hC : ∀ i, S.isPartial i = false) : Lockstep (completeS S).impl S.impl :=
  byMap (fun _ => True) id id (fun _ _ => ⟨rfl, trivial, rfl⟩) (fun i _ => (hC i).symm) (fun _ => rfl) (fun _ => rfl) (fun _ => rfl)
    fun _ _ _ => ⟨rfl, trivial, rfl⟩

private def partialLock (hC : ∀ i, S.isPartial i = true) : Lockstep (partialS S).impl S.impl :=
  byMap (fun _ => True) id id (fun _ _ => ⟨rfl, trivial, rfl⟩) (fun i _ => (hC i).symm) (fun _ => rfl) (fun _ => rfl) (fun _ => rfl)
    fun _ _ _ => ⟨rfl, trivial, rfl⟩

private def maybeLock : Lockstep (maybeS S).impl (partialS S).impl :=
  byMap (fun i => i.2 = true) Prod.fst id (fun _ h => ⟨rfl, h, rfl⟩) (fun _ h => h) (fun _ => rfl) (fun _ => rfl) (fun _ => rfl)
    fun _ _ h => ⟨rfl, h, rfl⟩

private def maybeNotLock : Lockstep (maybeS S).impl (completeS S).impl :=
  byMap (fun i => i.2 = false) Prod.fst id (fun _ h => ⟨rfl, h, rfl⟩) (fun _ h => h) (fun _ => rfl) (fun _ => rfl) (fun _ => rfl)
    fun _ _ h => ⟨rfl, h, rfl⟩

private def stateLock (U : Type) (u : U) : Lockstep (stateS S U).impl S.impl :=
  byMap (fun i => i.2 = u) Prod.fst id (fun _ h => ⟨rfl, h, rfl⟩) (fun _ _ => rfl) (fun _ => rfl) (fun _ => rfl) (fun _ => rfl)
    fun _ _ h => ⟨rfl, h, rfl⟩

/-- **C28.**  A `CompleteStream` around a stream that is complete changes nothing, a `PartialStream` around one that is partial changes
nothing either. -/
theorem C28_parse_complete {p : (X : Impl S.E) → Parser X.strm σ α} (hp : Program p) (i : S.Input) :
    ((∀ i, S.isPartial i = false) → unwrapped (X := (completeS S).impl) (Y := S.impl) id ((p (completeS S).impl).parse i) = (p S.impl).parse i) ∧
    ((∀ i, S.isPartial i = true) → unwrapped (X := (partialS S).impl) (Y := S.impl) id ((p (partialS S).impl).parse i) = (p S.impl).parse i) :=
  ⟨fun hC => (parse_byMap (X := (completeS S).impl) (Y := S.impl) (completeLock hC) (I := fun _ => True) (f := id) (fun _ _ => ⟨trivial, rfl, fun _ h => nomatch h⟩)
      (fun _ _ h => ⟨trivial, h.2.1⟩) (fun _ _ h => h) (hp _) i trivial).1,
    fun hC => (parse_byMap (X := (partialS S).impl) (Y := S.impl) (partialLock hC) (I := fun _ => True) (f := id) (fun _ _ => ⟨trivial, rfl, fun _ h => nomatch h⟩)
      (fun _ _ h => ⟨trivial, h.2.1⟩) (fun _ _ h => h) (hp _) i trivial).1⟩

/-- **C28.**  A `MaybePartialStream` is a `PartialStream` or a `CompleteStream`, according to its flag, which stays as it is. -/
theorem C28_parse_maybe {p : (X : Impl S.E) → Parser X.strm σ α} (hp : Program p) (i : S.Input) :
    unwrapped (X := (maybeS S).impl) (Y := (partialS S).impl) Prod.fst ((p (maybeS S).impl).parse (i, true)) = (p (partialS S).impl).parse i ∧
    unwrapped (X := (maybeS S).impl) (Y := (completeS S).impl) Prod.fst ((p (maybeS S).impl).parse (i, false)) = (p (completeS S).impl).parse i ∧
    (∀ b v j, (p (maybeS S).impl).parse (i, b) = .ok v j → j.2 = b) := by
  have h1 := parse_byMap (X := (maybeS S).impl) (Y := (partialS S).impl) (maybeLock (S := S)) (I := fun i => i.2 = true) (f := Prod.fst)
    (fun _ h => ⟨h, rfl, fun _ h => nomatch h⟩) (fun _ _ h => ⟨h.1, h.2.1⟩) (fun _ _ h => h) (hp _) (i, true) rfl
  have h2 := parse_byMap (X := (maybeS S).impl) (Y := (completeS S).impl) (maybeNotLock (S := S)) (I := fun i => i.2 = false) (f := Prod.fst)
    (fun _ h => ⟨h, rfl, fun _ h => nomatch h⟩) (fun _ _ h => ⟨h.1, h.2.1⟩) (fun _ _ h => h) (hp _) (i, false) rfl
  refine ⟨h1.1, h2.1, fun b => ?_⟩
  cases b
  · exact h2.2
  · exact h1.2

/-- **C28.**  A program that does not ask for the user state neither depends on it nor changes it. -/
theorem C28_parse_state {p : (X : Impl S.E) → Parser X.strm σ α} (hp : Program p) (U : Type) (u : U) (i : S.Input) :
    unwrapped (X := (stateS S U).impl) (Y := S.impl) Prod.fst ((p (stateS S U).impl).parse (i, u)) = (p S.impl).parse i ∧
    (∀ v j, (p (stateS S U).impl).parse (i, u) = .ok v j → j.2 = u) :=
  parse_byMap (X := (stateS S U).impl) (Y := S.impl) (stateLock (S := S) U u) (I := fun i => i.2 = u) (f := Prod.fst)
    (fun _ h => ⟨h, rfl, fun _ h => nomatch h⟩) (fun _ _ h => ⟨h.1, h.2.1⟩) (fun _ _ h => h) (hp _) (i, u) rfl

/-! ## An example -/

/-- Some `1`s and then a `2`. -/
def onesProgram {P Rg : Type} [DecidableEq P] (E : ErrOps Nat Rg P) (X : Impl E) : Parser X.strm Unit (List Nat) :=
  parserMacroUnit (skip (many (token X.strm 1)) (token X.strm 2))

theorem ones_program {P Rg : Type} [DecidableEq P] (E : ErrOps Nat Rg P) : Program (onesProgram E) := by
  intro X Y M
  exact Lockstep.parserMacroUnit (M := M) (Lockstep.skip (M := M) (Lockstep.many (M := M) (Lockstep.token (M := M) 1))
    (Lockstep.token (M := M) 2))

example : (onesProgram (sliceS Nat 1).E (stateS (sliceS Nat 1) String).impl).parse (⟨0, [1, 1, 2, 5]⟩, "state") =
    .ok [1, 1] (⟨3, [5]⟩, "state") := rfl

/-- The wrappers do differ where input is missing: more may come after the end of a partial stream. -/
example : (∃ e, (onesProgram (sliceS Nat 1).E (partialS (sliceS Nat 1)).impl).lazy ⟨0, []⟩ = (.commitErr e, ⟨0, []⟩)) ∧
    (∃ e, (onesProgram (sliceS Nat 1).E (completeS (sliceS Nat 1)).impl).lazy ⟨0, []⟩ = (.peekErr e, ⟨0, []⟩)) := ⟨⟨_, rfl⟩, ⟨_, rfl⟩⟩

end Verif
