import Verif.Spec.Answer
import Verif.Proof.BuiltMoves

/-!
# The entry points of a parser agree
-/

namespace Verif

set_option linter.unusedSectionVars false
set_option linter.unusedVariables false

variable {S : Strm} {σ τ υ α β γ : Type}

section
variable (hS : S.Lawful)
include hS

theorem describe_eq {i j : S.Input} (h : S.Reach i j) (ae : Tracked S.Err → Tracked S.Err)
    (e : Tracked S.Err) (s : σ) :
    ∃ e', Strm.describe (α := α) (S.checkpoint i) ae e j s = ⟨.peekErr e', i, s⟩ := by
  unfold Strm.describe
  rw [hS.tryReset_eq h]
  cases hu : S.uncons i with
  | mk r k =>
    cases r with
    | ok t =>
      simp only
      rw [hS.tryReset_eq ⟨[t], .cons hu (.nil _)⟩]
      exact ⟨_, rfl⟩
    | error e => cases hS.uncons_error hu; exact ⟨_, rfl⟩

theorem describing_answer (ae : Tracked S.Err → Tracked S.Err) {run : S.Input → σ → Out S σ α}
    {i : S.Input} {s : σ} (h : S.Reach i (run i s).inp) :
    (Strm.describing ae run i s).answer = (run i s).answer ∧
    (Strm.describing ae run i s).st = (run i s).st := by
  unfold Strm.describing
  simp only
  cases hr : (run i s).res with
  | peekErr e =>
    obtain ⟨e', he⟩ := describe_eq (α := α) hS h ae e (run i s).st
    simp only [he, Out.answer, hr, Answer.of, and_self]
  | _ => simp

theorem defaultLazy_answer {init : σ} {run : Bool → S.Input → σ → Out S σ α}
    (h : ∀ m i s, S.Reach i (run m i s).inp) (i : S.Input) :
    Answer.of (Strm.defaultLazy init run i).1 (Strm.defaultLazy init run i).2 =
      (run true i init).answer := by
  unfold Strm.defaultLazy
  split
  · simp only [Out.answer]
    cases hr : (run true i init).res with
    | commitErr e => simp only [hS.reset_reach (h _ _ _)]; rfl
    | _ => simp only
  · rfl

theorem Coherent.ofMode {init : σ} {run : Bool → S.Input → σ → Out S σ α}
    {ae ac : Tracked S.Err → Tracked S.Err} {c : Nat} (h : ∀ m i s, S.Reach i (run m i s).inp) :
    Coherent (Parser.ofMode init run ae ac c) where
  lazy := defaultLazy_answer hS h
  stream := fun _ => (describing_answer hS _ (h _ _ _)).1
  committed := fun _ _ _ => (describing_answer hS _ (h _ _ _)).1
  committed_st := fun _ _ _ => (describing_answer hS _ (h _ _ _)).2

theorem Coherent.ofLazy {init : σ} {lazy : S.Input → ParseResult α S.Err × S.Input}
    {ae ac : Tracked S.Err → Tracked S.Err} {c : Nat} (h : ∀ i, S.Reach i (lazy i).2) :
    Coherent (Parser.ofLazy init lazy ae ac c) where
  lazy := fun _ => rfl
  stream := fun i => (describing_answer (σ := σ) hS _ (h i)).1
  committed := fun _ i _ => (describing_answer hS _ (h i)).1
  committed_st := fun _ i _ => (describing_answer hS _ (h i)).2

theorem coherent_attempt {p : Parser S σ α} (hp : Moves p) : Coherent (attempt p) where
  lazy := defaultLazy_answer hS (moves_attempt hS hp).run
  stream := defaultLazy_answer hS (moves_attempt hS hp).run
  committed := fun _ _ _ => rfl
  committed_st := fun _ _ _ => rfl

theorem coherent_eitherLeft {p : Parser S σ α} (hp : Moves p) (hc : Coherent p) (τ : Type) :
    Coherent (eitherLeft p τ) where
  lazy := hc.lazy
  stream := fun _ => (describing_answer hS _ ((moves_eitherLeft hS hp τ).run _ _ _)).1
  committed := fun _ _ _ => (describing_answer hS _ ((moves_eitherLeft hS hp τ).run _ _ _)).1
  committed_st := fun _ _ _ => (describing_answer hS _ ((moves_eitherLeft hS hp τ).run _ _ _)).2

theorem coherent_eitherRight {p : Parser S τ α} (hp : Moves p) (hc : Coherent p) (σ : Type) :
    Coherent (eitherRight p σ) where
  lazy := hc.lazy
  stream := fun _ => (describing_answer hS _ ((moves_eitherRight hS hp σ).run _ _ _)).1
  committed := fun _ _ _ => (describing_answer hS _ ((moves_eitherRight hS hp σ).run _ _ _)).1
  committed_st := fun _ _ _ => (describing_answer hS _ ((moves_eitherRight hS hp σ).run _ _ _)).2

theorem Answer.of_map {I E : Type} (r : ParseResult α E) (f : α → β) (j : I) :
    Answer.of (r.map f) j = (Answer.of r j).map f := by cases r <;> rfl

theorem coherent_ignore {p : Parser S σ α} (hp : Moves p) (hc : Coherent p) :
    Coherent (ignore p) where
  lazy := fun i => by
    show Answer.of ((p.lazy i).1.map _) (p.lazy i).2 = _
    rw [Answer.of_map hS, hc.lazy]
    exact (Answer.of_map hS _ _ _).symm
  stream := fun _ => (describing_answer hS _ ((moves_ignore hS hp).run _ _ _)).1
  committed := fun _ _ _ => (describing_answer hS _ ((moves_ignore hS hp).run _ _ _)).1
  committed_st := fun _ _ _ => (describing_answer hS _ ((moves_ignore hS hp).run _ _ _)).2

theorem coherent_with {p : Parser S σ α} {q : Parser S τ β} (hp : Moves p) (hq : Moves q) :
    Coherent («with» p q) where
  lazy := fun i => by
    have h := (Coherent.ofMode hS (moves_pair hS (moves_ignore hS hp) hq).run
      (ae := (pair (ignore p) q).addError)
      (ac := (pair (ignore p) q).addCommitted) (c := (pair (ignore p) q).count)
      (init := (pair (ignore p) q).init)).lazy i
    show Answer.of (((pair (ignore p) q).lazy i).1.map _) ((pair (ignore p) q).lazy i).2 = _
    rw [Answer.of_map hS]
    refine (congrArg _ h).trans ?_
    exact (Answer.of_map hS _ _ _).symm
  stream := fun _ => (describing_answer hS _ ((moves_with hS hp hq).run _ _ _)).1
  committed := fun _ _ _ => (describing_answer hS _ ((moves_with hS hp hq).run _ _ _)).1
  committed_st := fun _ _ _ => (describing_answer hS _ ((moves_with hS hp hq).run _ _ _)).2

theorem coherent_anyPartialState {p : Parser S σ α} (hp : Moves p) (hc : Coherent p) :
    Coherent (anyPartialState p) where
  lazy := fun i => by
    show Answer.of (p.lazy i).1 (p.lazy i).2 = _
    rw [hc.lazy]
    unfold Parser.answer anyPartialState
    simp only [Parser.ofMode, Out.answer]
    split <;> simp_all
  stream := fun _ => (describing_answer hS _ ((moves_anyPartialState hS hp).run _ _ _)).1
  committed := fun _ _ _ => (describing_answer hS _ ((moves_anyPartialState hS hp).run _ _ _)).1
  committed_st := fun _ _ _ => (describing_answer hS _ ((moves_anyPartialState hS hp).run _ _ _)).2

theorem coherent_lazyP {f : Unit → Parser S σ α} (hc : Coherent (f ())) : Coherent (lazyP f) where
  lazy := hc.lazy
  stream := hc.stream
  committed := fun _ _ _ => rfl
  committed_st := fun _ _ _ => rfl

theorem coherent_opaqueP {p : Parser S σ α} (hp : Moves p) (hc : Coherent p) :
    Coherent (opaqueP p) where
  lazy := hc.lazy
  stream := hc.stream
  committed := fun _ _ _ => (describing_answer hS _ (hp.run _ _ _)).1
  committed_st := fun _ _ _ => (describing_answer hS _ (hp.run _ _ _)).2

end

variable {R : RangeOps S} [DecidableEq S.Tok] [DecidableEq S.Rng]

theorem Built.coherent {toks : S.Rng → List S.Tok} {w : S.Tok → Nat} (hS : S.Lawful)
    (hR : R.Lawful toks w) {σ α : Type} {p : Parser S σ α} (h : Built R p) : Coherent p := by
  induction h with
  | attempt h _ => exact coherent_attempt hS (h.moves hS hR)
  | eitherLeft τ h ih => exact coherent_eitherLeft hS (h.moves hS hR) ih τ
  | eitherRight σ h ih => exact coherent_eitherRight hS (h.moves hS hR) ih σ
  | ignore h ih => exact coherent_ignore hS (h.moves hS hR) ih
  | «with» h h' _ _ => exact coherent_with hS (h.moves hS hR) (h'.moves hS hR)
  | anyPartialState h ih => exact coherent_anyPartialState hS (h.moves hS hR) ih
  | lazyP _ ih => exact coherent_lazyP hS ih
  | opaqueP h ih => exact coherent_opaqueP hS (h.moves hS hR) ih
  | any => exact .ofLazy hS (Built.any.moves (R := R) hS hR).lazy
  | satisfy f => exact .ofLazy hS ((Built.satisfy f).moves (R := R) hS hR).lazy
  | satisfyMap f => exact .ofLazy hS ((Built.satisfyMap f).moves (R := R) hS hR).lazy
  | token c => exact .ofLazy hS ((Built.token c).moves (R := R) hS hR).lazy
  | tokens cmp x ts => exact .ofLazy hS ((Built.tokens cmp x ts).moves (R := R) hS hR).lazy
  | tokensCmp ts cmp => exact .ofLazy hS ((Built.tokensCmp ts cmp).moves (R := R) hS hR).lazy
  | position => exact .ofLazy hS (Built.position.moves (R := R) hS hR).lazy
  | oneOf ts => exact .ofLazy hS ((Built.oneOf ts).moves (R := R) hS hR).lazy
  | noneOf ts => exact .ofLazy hS ((Built.noneOf ts).moves (R := R) hS hR).lazy
  | value v => exact .ofLazy hS ((Built.value v).moves (R := R) hS hR).lazy
  | produce f => exact .ofLazy hS ((Built.produce f).moves (R := R) hS hR).lazy
  | eof => exact .ofLazy hS (Built.eof.moves (R := R) hS hR).lazy
  | notFollowedBy h _ => exact .ofMode hS ((Built.notFollowedBy h).moves hS hR).run
  | lookAhead h _ => exact .ofLazy hS ((Built.lookAhead h).moves hS hR).lazy
  | map f h _ => exact .ofMode hS ((Built.map f h).moves hS hR).run
  | mapInput f hf h _ => exact .ofMode hS ((Built.mapInput f hf h).moves hS hR).run
  | flatMap f h _ => exact .ofMode hS ((Built.flatMap f h).moves hS hR).run
  | andThen f h _ => exact .ofMode hS ((Built.andThen f h).moves hS hR).run
  | recognize h _ => exact .ofMode hS ((Built.recognize h).moves hS hR).run
  | noPartial h _ => exact .ofLazy hS ((Built.noPartial h).moves hS hR).lazy
  | factory init h _ => exact .ofMode hS ((Built.factory init h).moves hS hR).run
  | fromStr u f h _ => exact .ofMode hS ((Built.fromStr u f h).moves hS hR).run
  | boxed h _ => exact .ofMode hS ((Built.boxed h).moves hS hR).run
  | parserMacro h _ => exact .ofMode hS ((Built.parserMacro h).moves hS hR).run
  | parserMacroUnit h _ => exact .ofMode hS ((Built.parserMacroUnit h).moves hS hR).run
  | fnParser f hf => exact .ofLazy hS ((Built.fnParser f hf).moves (R := R) hS hR).lazy
  | inputConverter p c b e hb =>
    exact .ofMode hS ((Built.inputConverter p c b e hb).moves (R := R) hS hR).run
  | bottom F init => exact .ofMode hS fun _ i _ => .refl i
  | unexpected α x => exact .ofLazy hS ((Built.unexpected α x).moves (R := R) hS hR).lazy
  | message x h _ => exact .ofMode hS ((Built.message x h).moves hS hR).run
  | expected x h _ => exact .ofMode hS ((Built.expected x h).moves hS hR).run
  | silent h _ => exact .ofMode hS ((Built.silent h).moves hS hR).run
  | spanned a b h _ => exact .ofMode hS ((Built.spanned a b h).moves hS hR).run
  | tuple ps h h' _ _ => exact .ofMode hS ((Built.tuple ps h h').moves hS hR).run
  | pair h h' _ _ => exact .ofMode hS ((Built.pair h h').moves hS hR).run
  | skip h h' _ _ => exact .ofMode hS ((Built.skip h h').moves hS hR).run
  | between h h' h'' _ _ _ => exact .ofMode hS ((Built.between h h' h'').moves hS hR).run
  | thenP n h h' _ _ => exact .ofMode hS ((Built.thenP n h h').moves hS hR).run
  | thenPartial n h h' _ _ => exact .ofMode hS ((Built.thenPartial n h h').moves hS hR).run
  | thenRef n h h' _ _ => exact .ofMode hS ((Built.thenRef n h h').moves hS hR).run
  | choice h _ => exact .ofMode hS ((Built.choice h).moves hS hR).run
  | or h h' _ _ => exact .ofMode hS ((Built.or h h').moves hS hR).run
  | sliceChoice all init h _ => exact .ofMode hS ((Built.sliceChoice all init h).moves hS hR).run
  | optional h _ => exact .ofMode hS ((Built.optional h).moves hS hR).run
  | dispatch k h _ => exact .ofMode hS ((Built.dispatch k h).moves hS hR).run
  | many h _ => exact .ofMode hS ((Built.many h).moves hS hR).run
  | many1 h _ => exact .ofMode hS ((Built.many1 h).moves hS hR).run
  | countMinMax lo hi h _ => exact .ofMode hS ((Built.countMinMax lo hi h).moves hS hR).run
  | count n h _ => exact .ofMode hS ((Built.count n h).moves hS hR).run
  | skipCount n h _ => exact .ofMode hS ((Built.skipCount n h).moves hS hR).run
  | skipCountMinMax lo hi h _ => exact .ofMode hS ((Built.skipCountMinMax lo hi h).moves hS hR).run
  | skipMany h _ => exact .ofMode hS ((Built.skipMany h).moves hS hR).run
  | skipMany1 h _ => exact .ofMode hS ((Built.skipMany1 h).moves hS hR).run
  | sepBy h h' _ _ => exact .ofMode hS ((Built.sepBy h h').moves hS hR).run
  | sepBy1 h h' _ _ => exact .ofMode hS ((Built.sepBy1 h h').moves hS hR).run
  | sepEndBy h h' _ _ => exact .ofMode hS ((Built.sepEndBy h h').moves hS hR).run
  | sepEndBy1 h h' _ _ => exact .ofMode hS ((Built.sepEndBy1 h h').moves hS hR).run
  | chainl1 h h' _ _ => exact .ofMode hS ((Built.chainl1 h h').moves hS hR).run
  | chainr1 h h' _ _ => exact .ofLazy hS ((Built.chainr1 h h').moves hS hR).lazy
  | takeUntil h _ => exact .ofMode hS ((Built.takeUntil h).moves hS hR).run
  | skipUntil h _ => exact .ofMode hS ((Built.skipUntil h).moves hS hR).run
  | repeatUntil h h' _ _ => exact .ofMode hS ((Built.repeatUntil h h').moves hS hR).run
  | repeatSkipUntil h h' _ _ => exact .ofMode hS ((Built.repeatSkipUntil h h').moves hS hR).run
  | escaped e h h' _ _ => exact .ofLazy hS ((Built.escaped e h h').moves hS hR).lazy
  | iterate items init h _ => exact .ofMode hS ((Built.iterate items init h).moves hS hR).run
  | range r => exact .ofLazy hS ((Built.range r).moves (R := R) hS hR).lazy
  | take n => exact .ofLazy hS ((Built.take n).moves (R := R) hS hR).lazy
  | takeWhile f => exact .ofMode hS ((Built.takeWhile f).moves (R := R) hS hR).run
  | takeWhile1 f => exact .ofMode hS ((Built.takeWhile1 f).moves (R := R) hS hR).run
  | recognizeWithValue h _ => exact .ofMode hS ((Built.recognizeWithValue h).moves hS hR).run
  | recognizeRange h _ => exact .ofMode hS ((Built.recognizeRange h).moves hS hR).run
  | takeUntilRange r => exact .ofMode hS ((Built.takeUntilRange r).moves (R := R) hS hR).run
  | takeFn f => exact .ofMode hS ((Built.takeFn f).moves (R := R) hS hR).run
  | lengthPrefix f h _ => exact .ofMode hS ((Built.lengthPrefix f h).moves hS hR).run
  | satisfyNamed f n => exact .ofMode hS ((Built.satisfyNamed f n).moves (R := R) hS hR).run
  | spaces f n => exact .ofMode hS ((Built.spaces f n).moves (R := R) hS hR).run
  | newline lf => exact .ofMode hS ((Built.newline lf).moves (R := R) hS hR).run
  | crlf cr lf => exact .ofMode hS ((Built.crlf cr lf).moves (R := R) hS hR).run
  | stringCmp ts cmp x v => exact .ofMode hS ((Built.stringCmp ts cmp x v).moves (R := R) hS hR).run
  | takeUntilByte b f => exact .ofMode hS ((Built.takeUntilByte b f).moves (R := R) hS hR).run
  | takeUntilBytes b n => exact .ofMode hS ((Built.takeUntilBytes b n).moves (R := R) hS hR).run
  | intParser n conv => exact .ofLazy hS ((Built.intParser n conv).moves (R := R) hS hR).lazy
  | regexMatch re => exact .ofLazy hS ((Built.regexMatch re).moves (R := R) hS hR).lazy
  | regexFind re => exact .ofLazy hS ((Built.regexFind re).moves (R := R) hS hR).lazy
  | regexFindMany re => exact .ofLazy hS ((Built.regexFindMany re).moves (R := R) hS hR).lazy
  | regexCaptures re => exact .ofLazy hS ((Built.regexCaptures re).moves (R := R) hS hR).lazy
  | regexCapturesMany re => exact .ofLazy hS ((Built.regexCapturesMany re).moves (R := R) hS hR).lazy

end Verif
