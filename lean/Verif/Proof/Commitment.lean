import Verif.Proof.HonestRange

/-! # The commit status tells the truth: the induction over compositions -/

namespace Verif

set_option linter.unusedSectionVars false

variable {S : Strm} {R : RangeOps S} [DecidableEq S.Tok] [DecidableEq S.Rng] {toks : S.Rng → List S.Tok}
  {w : S.Tok → Nat}

/-- `PlainSeq`, semantically. -/
structure GoodSeq {τ β : Type} (R : RangeOps S) (h : Bool) (D : τ → Prop) (ps : Seq S τ β) : Prop where
  built : ∀ q, ps.Mem q → Built R q.2.2
  honest : HonestSeq h D ps

structure GoodAlts {τ α : Type} (R : RangeOps S) (h : Bool) (D : τ → Prop) (ps : Alts S α τ) : Prop where
  built : ∀ q, ps.Mem q → Built R q.2
  honest : HonestAlts h D ps

theorem built_emptyList {α : Type} : Built R (emptyList S α) := .fnParser _ fun i => ⟨[], .nil i⟩

mutual
theorem plain_good (hS : S.Lawful) (hR : R.Lawful toks w) : ∀ {h : Bool} {σ α : Type} {Q : σ → Prop}
    {p : Parser S σ α}, Plain R toks h Q p → Built R p ∧ HonestIn h Q p
  | _, _, _, _, _, .weaken h1 =>
    let g := plain_good hS hR h1; ⟨g.1, g.2.weaken⟩
  | _, _, _, _, _, .any =>
    ⟨.any, honest_any⟩
  | _, _, _, _, _, .position =>
    ⟨.position, honest_position⟩
  | _, _, _, _, _, .eof =>
    ⟨.eof, honest_eof hS⟩
  | _, _, _, _, _, .satisfy f =>
    ⟨.satisfy f, honest_satisfy f⟩
  | _, _, _, _, _, .satisfyMap f =>
    ⟨.satisfyMap f, honest_satisfyMap f⟩
  | _, _, _, _, _, .token f =>
    ⟨.token f, honest_token f⟩
  | _, _, _, _, _, .oneOf f =>
    ⟨.oneOf f, honest_oneOf f⟩
  | _, _, _, _, _, .noneOf f =>
    ⟨.noneOf f, honest_noneOf f⟩
  | _, _, _, _, _, .value f =>
    ⟨.value f, honest_value f⟩
  | _, _, _, _, _, .produce f =>
    ⟨.produce f, honest_produce f⟩
  | _, _, _, _, _, .newline f =>
    ⟨.newline f, honest_newline f⟩
  | _, _, _, _, _, .tokens a b c =>
    ⟨.tokens a b c, honest_tokens a b c⟩
  | _, _, _, _, _, .tokensCmp a b =>
    ⟨.tokensCmp a b, honest_tokensCmp a b⟩
  | _, _, _, _, _, .notFollowedBy b =>
    ⟨.notFollowedBy b, honest_notFollowedBy hS (b.moves hS hR)⟩
  | _, _, _, _, _, .lookAhead b =>
    ⟨.lookAhead b, honest_lookAhead hS (b.moves hS hR)⟩
  | _, _, _, _, _, .attempt h1 =>
    let g := plain_good hS hR h1; ⟨.attempt g.1, honest_attempt g.2⟩
  | _, _, _, _, _, .map f h1 =>
    let g := plain_good hS hR h1; ⟨.map f g.1, honest_map g.2 f⟩
  | _, _, _, _, _, .flatMap f h1 =>
    let g := plain_good hS hR h1; ⟨.flatMap f g.1, honest_flatMap g.2 f⟩
  | _, _, _, _, _, .mapInput f hf h1 =>
    let g := plain_good hS hR h1; ⟨.mapInput f (fun a i => ⟨[], by rw [hf]; exact .nil i⟩) g.1, honest_mapInput g.2 f hf⟩
  | _, _, _, _, _, .andThen f h1 =>
    let g := plain_good hS hR h1; ⟨.andThen f g.1, honest_andThen hS (g.1.moves hS hR) g.2 f⟩
  | _, _, _, _, _, .recognize hp h1 =>
    let g := plain_good hS hR h1; ⟨.recognize g.1, honest_recognize hS hp (g.1.moves hS hR) g.2⟩
  | _, _, _, _, _, .eitherLeft t h1 =>
    let g := plain_good hS hR h1; ⟨.eitherLeft t g.1, honest_eitherLeft g.2 t⟩
  | _, _, _, _, _, .eitherRight t h1 =>
    let g := plain_good hS hR h1; ⟨.eitherRight t g.1, honest_eitherRight g.2 t⟩
  | _, _, _, _, _, .noPartial h1 =>
    let g := fresh_good hS hR h1; ⟨.noPartial g.1, honest_noPartial g.2⟩
  | _, _, _, _, _, .parserMacroUnit h1 =>
    let g := fresh_good hS hR h1; ⟨.parserMacroUnit g.1, honest_parserMacroUnit g.2⟩
  | _, _, _, _, _, .ignore h1 =>
    let g := plain_good hS hR h1; ⟨.ignore g.1, honest_ignore g.2⟩
  | _, _, _, _, _, .anyPartialState h1 =>
    let g := plain_good hS hR h1; ⟨.anyPartialState g.1, honest_anyPartialState g.2⟩
  | _, _, _, _, _, .lazyP h1 =>
    let g := plain_good hS hR h1; ⟨.lazyP g.1, honest_lazyP g.2⟩
  | _, _, _, _, _, .opaqueP h1 =>
    let g := plain_good hS hR h1; ⟨.opaqueP g.1, honest_opaqueP g.2⟩
  | _, _, _, _, _, .boxed h1 =>
    let g := plain_good hS hR h1; ⟨.boxed g.1, honest_boxed g.2⟩
  | _, _, _, _, _, .parserMacro h1 =>
    let g := plain_good hS hR h1; ⟨.parserMacro g.1, honest_parserMacro g.2⟩
  | _, _, _, _, _, .silent h1 =>
    let g := plain_good hS hR h1; ⟨.silent g.1, honest_silent g.2⟩
  | _, _, _, _, _, .factory i hi h1 =>
    ⟨.factory i fun x => (plain_good hS hR (h1 x)).1, honest_factory hi fun x => (plain_good hS hR (h1 x)).2⟩
  | _, _, _, _, _, .fromStr u f h1 =>
    let g := plain_good hS hR h1; ⟨.fromStr u f g.1, honest_parserMacro (honest_andThen hS (g.1.moves hS hR) g.2 _)⟩
  | _, _, _, _, _, .fnParser f h1 h2 =>
    ⟨.fnParser f h1, honest_fnParser f h2⟩
  | _, _, _, _, _, .inputConverter a b c d h1 h2 =>
    ⟨.inputConverter a b c d h1, honest_inputConverter a b c d h2⟩
  | _, _, _, _, _, .bottom F i =>
    ⟨.bottom F i, honest_bottom F i⟩
  | _, _, _, _, _, .unexpected a x =>
    ⟨.unexpected a x, honest_unexpected x⟩
  | _, _, _, _, _, .message x h1 =>
    let g := plain_good hS hR h1; ⟨.message x g.1, honest_message g.2 x⟩
  | _, _, _, _, _, .expected x h1 =>
    let g := plain_good hS hR h1; ⟨.expected x g.1, honest_expected g.2 x⟩
  | _, _, _, _, _, @Plain.spanned _ _ _ _ _ _ _ _ _ _ a b _ _ h1 =>
    let g := plain_good hS hR h1; ⟨.spanned a b g.1, honest_spanned a b g.2⟩
  | _, _, _, _, _, .tuple h1 h2 =>
    let g := plain_good hS hR h1; let k := plainSeq_good hS hR h2; ⟨.tuple _ g.1 k.built, honest_tuple g.2 k.honest⟩
  | _, _, _, _, _, .with h1 h2 =>
    let g := plain_good hS hR h1; let k := plain_good hS hR h2;
    ⟨.with g.1 k.1, honest_with g.2 k.2⟩
  | _, _, _, _, _, .skip h1 h2 =>
    let g := plain_good hS hR h1; let k := plain_good hS hR h2;
    ⟨.skip g.1 k.1, honest_skip g.2 k.2⟩
  | _, _, _, _, _, .between h1 h2 h3 =>
    let g := plain_good hS hR h1; let k := plain_good hS hR h2; let l := plain_good hS hR h3;
    ⟨.between g.1 k.1 l.1, honest_between g.2 k.2 l.2⟩
  | _, _, _, _, _, .thenP n hn h1 h2 =>
    let g := plain_good hS hR h1; let k := fun a => plain_good hS hR (h2 a);
    ⟨.thenP n g.1 fun a => (k a).1, honest_thenP n hn g.2 fun a => (k a).2⟩
  | _, _, _, _, _, .thenPartial n hn h1 h2 =>
    let g := plain_good hS hR h1; let k := fun a => plain_good hS hR (h2 a);
    ⟨.thenPartial n g.1 fun a => (k a).1, honest_thenPartial n hn g.2 fun a => (k a).2⟩
  | _, _, _, _, _, .thenRef n hn h1 h2 =>
    let g := plain_good hS hR h1; let k := fun a => plain_good hS hR (h2 a);
    ⟨.thenRef n g.1 fun a => (k a).1, honest_thenRef n hn g.2 fun a => (k a).2⟩
  | _, _, _, _, _, .choice h1 =>
    let g := freshAlts_good hS hR h1; ⟨.choice g.1, honest_choice hS g.2⟩
  | _, _, _, _, _, .or h1 h2 =>
    let g := fresh_good hS hR h1; let k := fresh_good hS hR h2;
    ⟨.or g.1 k.1, honest_or hS (g.1.moves hS hR) g.2 (k.1.moves hS hR) k.2⟩
  | _, _, _, _, _, .sliceChoice all i hi h1 =>
    let g := fun q hq => plain_good hS hR (h1 q hq);
    ⟨.sliceChoice all i fun q hq => (g q hq).1,
      honest_sliceChoice hS all i hi fun q hq => ⟨(g q hq).1.moves hS hR, (g q hq).2⟩⟩
  | _, _, _, _, _, .optional h1 =>
    let g := plain_good hS hR h1; ⟨.optional g.1, honest_optional hS (g.1.moves hS hR) g.2⟩
  | _, _, _, _, _, .dispatch k h1 =>
    let g := plainAlts_good hS hR h1; ⟨.dispatch k g.built, honest_dispatch k g.honest⟩
  | _, _, _, _, _, .many h1 =>
    let g := plain_good hS hR h1; ⟨.many g.1, honest_many hS (g.1.moves hS hR) g.2⟩
  | _, _, _, _, _, .many1 h1 =>
    let g := plain_good hS hR h1; ⟨.many1 g.1, honest_many1 hS (g.1.moves hS hR) g.2⟩
  | _, _, _, _, _, .countMinMax a b h1 =>
    let g := plain_good hS hR h1; ⟨.countMinMax a b g.1, honest_countMinMax hS a b (g.1.moves hS hR) g.2⟩
  | _, _, _, _, _, .count n h1 =>
    let g := plain_good hS hR h1; ⟨.count n g.1, honest_count hS n (g.1.moves hS hR) g.2⟩
  | _, _, _, _, _, .skipCount n h1 =>
    let g := plain_good hS hR h1; ⟨.skipCount n g.1, honest_skipCount hS n (g.1.moves hS hR) g.2 ((Built.map _ g.1).moves hS hR)⟩
  | _, _, _, _, _, .skipCountMinMax a b h1 =>
    let g := plain_good hS hR h1; ⟨.skipCountMinMax a b g.1, honest_skipCountMinMax hS a b ((Built.map _ g.1).moves hS hR) g.2⟩
  | _, _, _, _, _, .skipMany h1 =>
    let g := plain_good hS hR h1; ⟨.skipMany g.1, honest_skipMany hS ((Built.ignore g.1).moves hS hR) g.2⟩
  | _, _, _, _, _, .skipMany1 h1 =>
    let g := plain_good hS hR h1; ⟨.skipMany1 g.1, honest_skipMany1 hS ((Built.ignore g.1).moves hS hR) g.2⟩
  | _, _, _, _, _, .sepBy h1 h2 =>
    let g := plain_good hS hR h1; let k := plain_good hS hR h2;
    ⟨.sepBy g.1 k.1, honest_sepBy hS ((Built.with k.1.boxed.boxed g.1.boxed.boxed).moves hS hR)
      ((Built.sepBy1 g.1.boxed k.1.boxed).moves hS hR) (built_emptyList.moves hS hR) g.2 k.2⟩
  | _, _, _, _, _, .sepBy1 h1 h2 =>
    let g := plain_good hS hR h1; let k := plain_good hS hR h2;
    ⟨.sepBy1 g.1 k.1, honest_sepBy1 hS ((Built.with k.1.boxed g.1.boxed).moves hS hR) g.2 k.2⟩
  | _, _, _, _, _, .sepEndBy h1 h2 =>
    let g := plain_good hS hR h1; let k := plain_good hS hR h2;
    ⟨.sepEndBy g.1 k.1, honest_sepEndBy hS (g.1.boxed.boxed.moves hS hR)
      ((Built.with k.1.boxed.boxed g.1.boxed.boxed.optional).moves hS hR)
      ((Built.sepEndBy1 g.1.boxed k.1.boxed).moves hS hR) (built_emptyList.moves hS hR) g.2 k.2⟩
  | _, _, _, _, _, .sepEndBy1 h1 h2 =>
    let g := plain_good hS hR h1; let k := plain_good hS hR h2;
    ⟨.sepEndBy1 g.1 k.1, honest_sepEndBy1 hS (g.1.boxed.moves hS hR)
      ((Built.with k.1.boxed g.1.boxed.optional).moves hS hR) g.2 k.2⟩
  | _, _, _, _, _, .chainl1 hb h1 h2 =>
    let g := plain_good hS hR h1; let k := plain_good hS hR h2;
    ⟨.chainl1 g.1 k.1, honest_chainl1 hS hb ((Built.pair k.1.boxed g.1.boxed).moves hS hR) g.2 k.2⟩
  | _, _, _, _, _, .chainr1 h1 h2 =>
    let g := fresh_good hS hR h1; let k := fresh_good hS hR h2;
    ⟨.chainr1 g.1 k.1, honest_chainr1 hS (g.1.moves hS hR) (k.1.moves hS hR) g.2 k.2
      fun n => (chainr1_reach hS (g.1.moves hS hR) (k.1.moves hS hR) n).1⟩
  | _, _, _, _, _, .takeUntil b q =>
    ⟨.takeUntil b, honest_takeUntil hS (b.moves hS hR) q⟩
  | _, _, _, _, _, .skipUntil b q =>
    ⟨.skipUntil b, honest_skipUntil hS (b.moves hS hR) q⟩
  | _, _, _, _, _, .repeatUntil h1 b q =>
    let g := plain_good hS hR h1; ⟨.repeatUntil g.1 b, honest_repeatUntil hS g.2 (b.moves hS hR) q⟩
  | _, _, _, _, _, .repeatSkipUntil h1 b q =>
    let g := plain_good hS hR h1; ⟨.repeatSkipUntil g.1 b, honest_repeatSkipUntil hS g.2 (b.moves hS hR) q⟩
  | _, _, _, _, _, .escaped e h1 hs h2 hc =>
    let g := fresh_good hS hR h1; let k := fresh_good hS hR h2;
    ⟨.escaped e g.1 k.1, honest_escaped hS e g.2 hs k.2 hc (k.1.coherent hS hR)⟩
  | _, _, _, _, _, .iterate xs i hi h1 =>
    let g := fun x j => plain_good hS hR (h1 x j);
    ⟨.iterate xs i fun x j => (g x j).1, honest_iterate xs i hi fun x j => (g x j).2⟩
  | _, _, _, _, _, .range r hr =>
    ⟨.range r, honest_range hR r hr⟩
  | _, _, _, _, _, .take n =>
    ⟨.take n, honest_take hR n⟩
  | _, _, _, _, _, .takeWhile f =>
    ⟨.takeWhile f, honest_takeWhile hS hR f⟩
  | _, _, _, _, _, .takeWhile1 f =>
    ⟨.takeWhile1 f, honest_takeWhile1 hS hR f⟩
  | _, _, _, _, _, .takeUntilRange f =>
    ⟨.takeUntilRange f, honest_takeUntilRange hS hR f⟩
  | _, _, _, _, _, .takeFn f =>
    ⟨.takeFn f, honest_takeFn hS hR f⟩
  | _, _, _, _, _, .recognizeWithValue b =>
    ⟨.recognizeWithValue b, honest_recognizeWithValue hS hR (b.moves hS hR)⟩
  | _, _, _, _, _, .recognizeRange b =>
    ⟨.recognizeRange b, honest_recognizeRange hS hR (b.moves hS hR)⟩
  | _, _, _, _, _, .lengthPrefix f h1 =>
    let g := fresh_good hS hR h1; ⟨.lengthPrefix f g.1, honest_lengthPrefix hS hR (g.1.moves hS hR) g.2 f⟩
  | _, _, _, _, _, .satisfyNamed f n =>
    ⟨.satisfyNamed f n, honest_satisfyNamed f n⟩
  | _, _, _, _, _, .spaces f n =>
    ⟨.spaces f n, honest_spaces hS f n ((Built.ignore (.satisfyNamed f n)).moves hS hR)⟩
  | _, _, _, _, _, .crlf a b =>
    ⟨.crlf a b, honest_crlf a b⟩
  | _, _, _, _, _, .stringCmp a b c d =>
    ⟨.stringCmp a b c d, honest_stringCmp a b c d⟩
  | _, _, _, _, _, .takeUntilByte a b =>
    ⟨.takeUntilByte a b, honest_takeUntilByte hS hR a b⟩
  | _, _, _, _, _, .takeUntilBytes a b =>
    ⟨.takeUntilBytes a b, honest_takeUntilBytes hS hR a b⟩
  | _, _, _, _, _, .intParser n f hn =>
    ⟨.intParser n f, honest_intParser n f hn⟩
  | _, _, _, _, _, .regexMatch r =>
    ⟨.regexMatch r, honest_regexMatch r⟩
  | _, _, _, _, _, .regexFind r =>
    ⟨.regexFind r, honest_regexFind hR r⟩
  | _, _, _, _, _, .regexFindMany r =>
    ⟨.regexFindMany r, honest_regexFindMany hR r⟩
  | _, _, _, _, _, .regexCaptures r =>
    ⟨.regexCaptures r, honest_regexCaptures hR r⟩
  | _, _, _, _, _, .regexCapturesMany r =>
    ⟨.regexCapturesMany r, honest_regexCapturesMany hR r⟩
theorem plainSeq_good (hS : S.Lawful) (hR : R.Lawful toks w) : ∀ {h : Bool} {τ β : Type} {D : τ → Prop}
    {ps : Seq S τ β}, PlainSeq R toks h D ps → GoodSeq R h D ps
  | _, _, _, _, _, .nil => ⟨fun _ h => h.elim, honestSeq_nil⟩
  | _, _, _, _, _, .cons h1 h2 =>
    ⟨fun q hq => hq.elim (fun e => e ▸ (plain_good hS hR h1).1) ((plainSeq_good hS hR h2).built q),
      honestSeq_cons (plain_good hS hR h1).2 (plainSeq_good hS hR h2).honest⟩
theorem plainAlts_good (hS : S.Lawful) (hR : R.Lawful toks w) : ∀ {h : Bool} {τ α : Type} {D : τ → Prop}
    {ps : Alts S α τ}, PlainAlts R toks h D ps → GoodAlts R h D ps
  | _, _, _, _, _, .last h1 =>
    ⟨fun q (hq : q = _) => hq ▸ (plain_good hS hR h1).1, honestAlts_last (plain_good hS hR h1).2⟩
  | _, _, _, _, _, .cons h1 h2 =>
    ⟨fun q hq => hq.elim (fun e => e ▸ (plain_good hS hR h1).1) ((plainAlts_good hS hR h2).built q),
      honestAlts_cons (plain_good hS hR h1).2 (plainAlts_good hS hR h2).honest⟩
theorem fresh_good (hS : S.Lawful) (hR : R.Lawful toks w) : ∀ {σ α : Type}
    {p : Parser S σ α}, Fresh R toks p → Built R p ∧ HonestFresh p
  | _, _, _, .plain h1 => let g := plain_good hS hR h1; ⟨g.1, g.2.fresh⟩
  | _, _, _, .attempt h1 => let g := fresh_good hS hR h1; ⟨.attempt g.1, fresh_attempt g.2⟩
  | _, _, _, .optional h1 =>
    let g := fresh_good hS hR h1; ⟨.optional g.1, fresh_optional hS (g.1.moves hS hR) g.2⟩
  | _, _, _, .map f h1 => let g := fresh_good hS hR h1; ⟨.map f g.1, fresh_map g.2 f⟩
  | _, _, _, .expected x h1 => let g := fresh_good hS hR h1; ⟨.expected x g.1, fresh_expected g.2 x⟩
  | _, _, _, .message x h1 => let g := fresh_good hS hR h1; ⟨.message x g.1, fresh_message g.2 x⟩
  | _, _, _, .boxed h1 => let g := fresh_good hS hR h1; ⟨.boxed g.1, fresh_boxed g.2⟩
  | _, _, _, .parserMacro h1 => let g := fresh_good hS hR h1; ⟨.parserMacro g.1, fresh_parserMacro g.2⟩
  | _, _, _, .tuple h1 h2 =>
    let g := fresh_good hS hR h1; let k := freshSeq_good hS hR h2; ⟨.tuple _ g.1 k.1, fresh_tuple g.2 k.2⟩
  | _, _, _, .chainl1 hb h1 h2 =>
    let g := plain_good hS hR h1; let k := plain_good hS hR h2;
    ⟨.chainl1 g.1 k.1, fresh_chainl1 hS hb ((Built.pair k.1.boxed g.1.boxed).moves hS hR) g.2 k.2⟩
theorem freshSeq_good (hS : S.Lawful) (hR : R.Lawful toks w) : ∀ {τ β : Type} {ps : Seq S τ β},
    FreshSeq R toks ps → (∀ q, ps.Mem q → Built R q.2.2) ∧ ps.Tell ps.init
  | _, _, _, .nil => ⟨fun _ h => h.elim, trivial⟩
  | _, _, _, .cons h1 h2 =>
    ⟨fun q hq => hq.elim (fun e => e ▸ (fresh_good hS hR h1).1) ((freshSeq_good hS hR h2).1 q),
      (fresh_good hS hR h1).2.run, (freshSeq_good hS hR h2).2⟩
theorem freshAlts_good (hS : S.Lawful) (hR : R.Lawful toks w) : ∀ {τ α : Type} {ps : Alts S α τ},
    FreshAlts R toks ps → (∀ q, ps.Mem q → Built R q.2) ∧ ps.Fresh
  | _, _, _, .last h1 => let g := fresh_good hS hR h1; ⟨fun q (hq : q = _) => hq ▸ g.1, g.1.moves hS hR, g.2⟩
  | _, _, _, .cons h1 h2 =>
    let g := fresh_good hS hR h1
    ⟨fun q hq => hq.elim (fun e => e ▸ g.1) ((freshAlts_good hS hR h2).1 q), g.1.moves hS hR, g.2,
      (freshAlts_good hS hR h2).2⟩
end

end Verif
