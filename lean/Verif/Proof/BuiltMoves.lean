import Verif.Spec.Built
import Verif.Proof.Moves
import Verif.Proof.WrapLaws

namespace Verif

variable {S : Strm} {R : RangeOps S}

theorem moves_inputConverter {T : Strm} {σ α : Type} (hS : S.Lawful) (p : Parser T σ α)
    (convert : S.Input → Except S.Err T.Input) (back : S.Input → T.Input → S.Input)
    (convertError : S.Input → T.Err → S.Err)
    (h : ∀ m i j s, convert i = .ok j → ∃ ts, S.Reads i ts (back i (p.run m j s).inp)) :
    Moves (inputConverter p convert back convertError) := by
  refine .ofMode hS fun m i s => ?_
  cases hc : convert i with
  | error e => exact .refl i
  | ok j => exact h m i j s hc

variable [DecidableEq S.Tok] [DecidableEq S.Rng]

theorem Built.moves {toks : S.Rng → List S.Tok} {w : S.Tok → Nat} (hS : S.Lawful)
    (hR : R.Lawful toks w) {σ α : Type} {p : Parser S σ α} (h : Built R p) : Moves p := by
  induction h with
  | any => exact moves_any hS
  | satisfy f => exact moves_satisfy hS f
  | satisfyMap f => exact moves_satisfyMap hS f
  | token c => exact moves_token hS c
  | tokens cmp x ts => exact moves_tokens hS cmp x ts
  | tokensCmp ts cmp => exact moves_tokensCmp hS ts cmp
  | position => exact moves_position hS
  | oneOf ts => exact moves_oneOf hS ts
  | noneOf ts => exact moves_noneOf hS ts
  | value v => exact moves_value hS v
  | produce f => exact moves_produce hS f
  | eof => exact moves_eof hS
  | notFollowedBy _ ih => exact moves_notFollowedBy hS ih
  | attempt _ ih => exact moves_attempt hS ih
  | lookAhead _ ih => exact moves_lookAhead hS ih
  | map f _ ih => exact moves_map hS ih f
  | mapInput f hf _ ih => exact moves_mapInput hS ih f hf
  | flatMap f _ ih => exact moves_flatMap hS ih f
  | andThen f _ ih => exact moves_andThen hS ih f
  | recognize _ ih => exact moves_recognize hS ih
  | eitherLeft τ _ ih => exact moves_eitherLeft hS ih τ
  | eitherRight σ _ ih => exact moves_eitherRight hS ih σ
  | noPartial _ ih => exact moves_noPartial hS ih
  | ignore _ ih => exact moves_ignore hS ih
  | anyPartialState _ ih => exact moves_anyPartialState hS ih
  | lazyP _ ih => exact moves_lazyP hS ih
  | factory init _ ih => exact moves_factory hS ih init
  | fromStr u f _ ih => exact moves_fromStr hS ih u f
  | opaqueP _ ih => exact moves_opaqueP hS ih
  | boxed _ ih => exact moves_boxed hS ih
  | parserMacro _ ih => exact moves_parserMacro hS ih
  | parserMacroUnit _ ih => exact moves_parserMacroUnit hS ih
  | fnParser f hf => exact moves_fnParser hS f hf
  | inputConverter p c b e hb => exact moves_inputConverter hS p c b e hb
  | bottom F init => exact .ofMode hS fun _ i _ => .refl i
  | unexpected α x => exact moves_unexpected hS x
  | message x _ ih => exact moves_message hS ih x
  | expected x _ ih => exact moves_expected hS ih x
  | silent _ ih => exact moves_silent hS ih
  | spanned a b _ ih => exact moves_spanned hS a b ih
  | tuple ps _ _ ih ih' => exact moves_tuple hS ih ps ih'
  | pair _ _ ih ih' => exact moves_pair hS ih ih'
  | «with» _ _ ih ih' => exact moves_with hS ih ih'
  | skip _ _ ih ih' => exact moves_skip hS ih ih'
  | between _ _ _ ih ih' ih'' => exact moves_between hS ih ih' ih''
  | thenP n _ _ ih ih' => exact moves_thenP hS ih ih' n
  | thenPartial n _ _ ih ih' => exact moves_thenPartial hS ih ih' n
  | thenRef n _ _ ih ih' => exact moves_thenRef hS ih ih' n
  | choice _ ih => exact moves_choice hS ih
  | or _ _ ih ih' => exact moves_or hS ih ih'
  | sliceChoice all init _ ih => exact moves_sliceChoice hS all ih init
  | optional _ ih => exact moves_optional hS ih
  | dispatch k _ ih => exact moves_dispatch hS ih k
  | many _ ih => exact moves_many hS ih
  | many1 _ ih => exact moves_many1 hS ih
  | countMinMax lo hi _ ih => exact moves_countMinMax hS lo hi ih
  | count n _ ih => exact moves_count hS n ih
  | skipCount n _ ih => exact moves_skipCount hS n ih
  | skipCountMinMax lo hi _ ih => exact moves_skipCountMinMax hS lo hi ih
  | skipMany _ ih => exact moves_skipMany hS ih
  | skipMany1 _ ih => exact moves_skipMany1 hS ih
  | sepBy _ _ ih ih' => exact moves_sepBy hS ih ih'
  | sepBy1 _ _ ih ih' => exact moves_sepBy1 hS ih ih'
  | sepEndBy _ _ ih ih' => exact moves_sepEndBy hS ih ih'
  | sepEndBy1 _ _ ih ih' => exact moves_sepEndBy1 hS ih ih'
  | chainl1 _ _ ih ih' => exact moves_chainl1 hS ih ih'
  | chainr1 _ _ ih ih' => exact moves_chainr1 hS ih ih'
  | takeUntil _ ih => exact moves_takeUntil hS ih
  | skipUntil _ ih => exact moves_skipUntil hS ih
  | repeatUntil _ _ ih ih' => exact moves_repeatUntil hS ih ih'
  | repeatSkipUntil _ _ ih ih' => exact moves_repeatSkipUntil hS ih ih'
  | escaped esc _ _ ih ih' => exact moves_escaped hS ih ih' esc
  | iterate items init _ ih => exact moves_iterate hS items ih init
  | range r => exact moves_range hS hR r
  | take n => exact moves_take hS hR n
  | takeWhile f => exact moves_takeWhile hS hR f
  | takeWhile1 f => exact moves_takeWhile1 hS hR f
  | recognizeWithValue _ ih => exact moves_recognizeWithValue hS hR ih
  | recognizeRange _ ih => exact moves_recognizeRange hS hR ih
  | takeUntilRange r => exact moves_takeUntilRange hS hR r
  | takeFn f => exact moves_takeFn hS hR f
  | lengthPrefix f _ ih => exact moves_lengthPrefix hS hR ih f
  | satisfyNamed f n => exact moves_satisfyNamed hS f n
  | spaces f n => exact moves_spaces hS f n
  | newline lf => exact moves_newline hS lf
  | crlf cr lf => exact moves_crlf hS cr lf
  | stringCmp ts cmp x v => exact moves_stringCmp hS ts cmp x v
  | takeUntilByte b f => exact moves_takeUntilByte hS hR b f
  | takeUntilBytes b n => exact moves_takeUntilBytes hS hR b n
  | intParser n conv => exact moves_intParser hS n conv
  | regexMatch re => exact moves_regexMatch hS hR re
  | regexFind re => exact moves_regexFind hS hR re
  | regexFindMany re => exact moves_regexFindMany hS hR re
  | regexCaptures re => exact moves_regexCaptures hS hR re
  | regexCapturesMany re => exact moves_regexCapturesMany hS hR re

end Verif
