import Verif.Proof.TwinRange

/-!
# The same program with other errors does the same
-/

namespace Verif

variable {S : Strm} {E : ErrOps S.Tok S.Rng S.Pos} {convS : S.SErr → E.SErr} {conv : S.Err → E.Err}

mutual

theorem twin_of (hw : ∀ i, S.isPartial i = false) (hc : ∀ e, E.isEoiS (convS e) = S.E.isEoiS e) : {σ α : Type} → {p : Parser S σ α} →
    {q : Parser (S.withErrors E convS conv) σ α} → Twins S E convS conv p q → TwinP p q := fun h => match h with
  | .any => .ofLazy rfl rfl fun i => twin_uncons i
  | .satisfy f => .ofLazy rfl rfl fun i => twin_satisfyImpl _ i
  | .satisfyMap f => .ofLazy rfl rfl fun i => twin_satisfyImpl _ i
  | @Twins.token _ _ _ _ _ c => .ofLazy rfl rfl fun i => twin_satisfyImpl _ i
  | @Twins.oneOf _ _ _ _ _ ts => .ofLazy rfl rfl fun i => twin_satisfyImpl _ i
  | @Twins.noneOf _ _ _ _ _ ts => .ofLazy rfl rfl fun i => twin_satisfyImpl _ i
  | .tokens cmp x y ts => .ofLazy rfl rfl fun i => have h := twin_tokensLoop (E := E) (convS := convS) (conv := conv) cmp ts false i; ⟨Twin.map _ h.1, h.2⟩
  | .tokensCmp ts cmp => .ofLazy rfl rfl fun i => have h := twin_tokensLoop (E := E) (convS := convS) (conv := conv) cmp ts false i; ⟨Twin.map _ h.1, h.2⟩
  | .position => .ofLazy rfl rfl fun _ => ⟨.peekOk _, rfl⟩
  | .eof => twin_eof hc
  | .value v => .value v
  | .produce f => .ofLazy rfl rfl fun _ => ⟨.peekOk _, rfl⟩
  | .unexpected α x y => .ofLazy rfl rfl fun _ => ⟨.peekErr _ _, rfl⟩
  | .fnParser h => .fnParser h
  | .map f h => .map f (twin_of hw hc h)
  | .mapInput f h => .mapInput f (twin_of hw hc h)
  | .flatMap hf h => .flatMap hf (twin_of hw hc h)
  | .andThen hf h => .andThen hw hf (twin_of hw hc h)
  | .ignore h => .ignore (twin_of hw hc h)
  | .message x y h => .message x y (twin_of hw hc h)
  | .expected x y h => .expected x y (twin_of hw hc h)
  | .silent h => .silent (twin_of hw hc h)
  | .attempt h => .attempt hw (twin_of hw hc h)
  | .lookAhead h => .lookAhead (twin_of hw hc h)
  | .notFollowedBy h => .notFollowedBy (twin_of hw hc h)
  | .recognize h => .recognize (twin_of hw hc h)
  | .eitherLeft τ h => .eitherLeft τ (twin_of hw hc h)
  | .eitherRight τ h => .eitherRight τ (twin_of hw hc h)
  | .noPartial h => .noPartial (twin_of hw hc h)
  | .boxed h => .boxed (twin_of hw hc h)
  | .opaqueP h => .opaqueP (twin_of hw hc h)
  | .lazyP h => .lazyP fun u => (twin_of hw hc (h u))
  | .factory s h => .factory s fun i => (twin_of hw hc (h i))
  | .anyPartialState h => .anyPartialState (twin_of hw hc h)
  | .parserMacro h => .parserMacro (twin_of hw hc h)
  | .parserMacroUnit h => .parserMacroUnit (twin_of hw hc h)
  | .bottom F G s => .bottom F G s
  | .tuple h hs => .tuple (twin_of hw hc h) (twin_of_seq hw hc hs)
  | .«with» h h' => .«with» (twin_of hw hc h) (twin_of hw hc h')
  | .skip h h' => .skip (twin_of hw hc h) (twin_of hw hc h')
  | .between h h' h'' => .between (twin_of hw hc h) (twin_of hw hc h') (twin_of hw hc h'')
  | .thenP n h hf => .thenP n (twin_of hw hc h) fun a => (twin_of hw hc (hf a))
  | .thenPartial n h hf h2 => .thenPartial n (twin_of hw hc h) (fun a => (twin_of hw hc (hf a))) h2
  | .thenRef n h hf => .thenRef n (twin_of hw hc h) fun a => (twin_of hw hc (hf a))
  | .choice h => .choice (twin_of_alts hw hc h)
  | .dispatch k h => .dispatch k (twin_of_alts hw hc h)
  | .sliceChoice s h => .sliceChoice s (twin_of_list hw hc h)
  | .or h h' => .or (twin_of hw hc h) (twin_of hw hc h')
  | .optional h => .optional (twin_of hw hc h)
  | .many h => .many (twin_of hw hc h)
  | .many1 h => .many1 (twin_of hw hc h)
  | .skipMany h => .skipMany (twin_of hw hc h)
  | .skipMany1 h => .skipMany1 (twin_of hw hc h)
  | .countMinMax lo hi h => .countMinMax lo hi (twin_of hw hc h)
  | .count n h => .counted n (twin_of hw hc h)
  | .skipCount n h => .skipCount n (twin_of hw hc h)
  | .skipCountMinMax lo hi h => .skipCountMinMax lo hi (twin_of hw hc h)
  | .sepBy h h' => .sepBy (twin_of hw hc h) (twin_of hw hc h')
  | .sepBy1 h h' => .sepBy1 (twin_of hw hc h) (twin_of hw hc h')
  | .sepEndBy h h' => .sepEndBy (twin_of hw hc h) (twin_of hw hc h')
  | .sepEndBy1 h h' => .sepEndBy1 (twin_of hw hc h) (twin_of hw hc h')
  | .chainl1 h h' => .chainl1 (twin_of hw hc h) (twin_of hw hc h')
  | .chainr1 h h' => .chainr1 (twin_of hw hc h) (twin_of hw hc h')
  | .takeUntil h => .takeUntil (twin_of hw hc h)
  | .skipUntil h => .skipUntil (twin_of hw hc h)
  | .repeatUntil h h' => .repeatUntil (twin_of hw hc h) (twin_of hw hc h')
  | .repeatSkipUntil h h' => .repeatSkipUntil (twin_of hw hc h) (twin_of hw hc h')
  | @Twins.escaped _ _ _ _ _ _ _ _ _ _ _ c _ _ h h' => .escaped c (twin_of hw hc h) (twin_of hw hc h')
  | .iterate js s h => .iterate js s fun x i => (twin_of hw hc (h x i))
  | @Twins.range _ _ _ _ _ R r => .range R r
  | .take R n => .take R n
  | .takeWhile R f => .takeWhile hw R f
  | .takeWhile1 R f => .takeWhile1 hw R f
  | @Twins.takeUntilRange _ _ _ _ _ R r => .takeUntilRange R r
  | .takeFn R f => .takeFn R f
  | .recognizeWithValue R h => .recognizeWithValue R (twin_of hw hc h)
  | .recognizeRange R h => .recognizeRange R (twin_of hw hc h)
  | .lengthPrefix R hf h => .lengthPrefix hw R hf (twin_of hw hc h)

theorem twin_of_seq (hw : ∀ i, S.isPartial i = false) (hc : ∀ e, E.isEoiS (convS e) = S.E.isEoiS e) : {τ β : Type} → {ps : Seq S τ β} →
    {qs : Seq (S.withErrors E convS conv) τ β} → TwinsSeq S E convS conv ps qs → SeqTwin ps qs := fun h => match h with
  | .nil => .nil
  | .cons h hs => .cons (twin_of hw hc h) (twin_of_seq hw hc hs)

theorem twin_of_alts (hw : ∀ i, S.isPartial i = false) (hc : ∀ e, E.isEoiS (convS e) = S.E.isEoiS e) : {α σ : Type} → {ps : Alts S α σ} →
    {qs : Alts (S.withErrors E convS conv) α σ} → TwinsAlts S E convS conv ps qs → AltsTwin ps qs := fun h => match h with
  | .last h => .last (twin_of hw hc h)
  | .cons h hs => .cons (twin_of hw hc h) (twin_of_alts hw hc hs)

theorem twin_of_list (hw : ∀ i, S.isPartial i = false) (hc : ∀ e, E.isEoiS (convS e) = S.E.isEoiS e) : {σ α : Type} →
    {ps : List (Parser S σ α)} → {qs : List (Parser (S.withErrors E convS conv) σ α)} → TwinsList S E convS conv ps qs → TwinP.Elems ps qs :=
  fun h => match h with
  | .nil => .nil
  | .cons h hs => .cons (twin_of hw hc h) (twin_of_list hw hc hs)

end

end Verif
