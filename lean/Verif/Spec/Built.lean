import Verif.Spec.Laws
import Verif.Model.Byte

/-!
# Parsers composed from the library's combinators

`Built R p`: the parser `p` over a stream with range operations `R` is composed from the modelled
parsers and combinators.  User supplied functions that are handed the stream itself (`parser(fn)`,
`map_input`, `input_converter`) must themselves only read from it.
-/

namespace Verif

/-- Composed from the library's parsers and combinators. -/
inductive Built {S : Strm} (R : RangeOps S) [DecidableEq S.Tok] [DecidableEq S.Rng] :
    {σ α : Type} → Parser S σ α → Prop where
  -- token.rs
  | any : Built R (any S)
  | satisfy (f) : Built R (satisfy S f)
  | satisfyMap {α : Type} (f : S.Tok → Option α) : Built R (satisfyMap S f)
  | token (c) : Built R (token S c)
  | tokens {τ : Type} (cmp : τ → S.Tok → Bool) (x) (ts) : Built R (tokens S cmp x ts)
  | tokensCmp {τ : Type} (ts : List τ) (cmp : τ → S.Tok → Bool) : Built R (tokensCmp S ts cmp)
  | position : Built R (position S)
  | oneOf (ts) : Built R (oneOf S ts)
  | noneOf (ts) : Built R (noneOf S ts)
  | value {α : Type} (v : α) : Built R (value S v)
  | produce {α : Type} (f : Unit → α) : Built R (produce S f)
  | eof : Built R (eof S)
  -- combinator.rs
  | notFollowedBy {σ α : Type} {p : Parser S σ α} : Built R p → Built R (notFollowedBy p)
  | attempt {σ α : Type} {p : Parser S σ α} : Built R p → Built R (attempt p)
  | lookAhead {σ α : Type} {p : Parser S σ α} : Built R p → Built R (lookAhead p)
  | map {σ α β : Type} {p : Parser S σ α} (f : α → β) : Built R p → Built R (map p f)
  | mapInput {σ α β : Type} {p : Parser S σ α} (f : α → S.Input → β × S.Input) :
      (∀ a i, ∃ ts, S.Reads i ts (f a i).2) → Built R p → Built R (mapInput p f)
  | flatMap {σ α β : Type} {p : Parser S σ α} (f : α → Except S.Err β) :
      Built R p → Built R (flatMap p f)
  | andThen {σ α β : Type} {p : Parser S σ α} (f : α → Except S.SErr β) :
      Built R p → Built R (andThen p f)
  | recognize {σ α : Type} {p : Parser S σ α} : Built R p → Built R (recognize p)
  | eitherLeft {σ α : Type} {p : Parser S σ α} (τ : Type) : Built R p → Built R (eitherLeft p τ)
  | eitherRight {τ α : Type} {p : Parser S τ α} (σ : Type) : Built R p → Built R (eitherRight p σ)
  | noPartial {σ α : Type} {p : Parser S σ α} : Built R p → Built R (noPartial p)
  | ignore {σ α : Type} {p : Parser S σ α} : Built R p → Built R (ignore p)
  | anyPartialState {σ α : Type} {p : Parser S σ α} : Built R p → Built R (anyPartialState p)
  | lazyP {σ α : Type} {f : Unit → Parser S σ α} : Built R (f ()) → Built R (lazyP f)
  | factory {σ α : Type} {f : S.Input → Parser S σ α} (init : σ) :
      (∀ i, Built R (f i)) → Built R (factory f init)
  | fromStr {σ α β : Type} {p : Parser S σ α} (u : α → Option String)
      (f : String → Except String β) : Built R p → Built R (fromStr p u f)
  | opaqueP {σ α : Type} {p : Parser S σ α} : Built R p → Built R (opaqueP p)
  | boxed {σ α : Type} {p : Parser S σ α} : Built R p → Built R (boxed p)
  | parserMacro {σ α : Type} {p : Parser S σ α} : Built R p → Built R (parserMacro p)
  | parserMacroUnit {σ α : Type} {p : Parser S σ α} : Built R p → Built R (parserMacroUnit p)
  | fnParser {α : Type} (f : S.Input → StdResult α S.Err × S.Input) :
      (∀ i, ∃ ts, S.Reads i ts (f i).2) → Built R (fnParser S f)
  | inputConverter {T : Strm} {σ α : Type} (p : Parser T σ α)
      (convert : S.Input → Except S.Err T.Input) (back : S.Input → T.Input → S.Input)
      (convertError : S.Input → T.Err → S.Err) :
      (∀ m i j s, convert i = .ok j → ∃ ts, S.Reads i ts (back i (p.run m j s).inp)) →
      Built R (inputConverter p convert back convertError)
  /-- the innermost call of a recursive grammar (`recur _ _ 0`) -/
  | bottom {σ α : Type} (F : Parser S σ α → Parser S σ α) (init : σ) : Built R (recur F init 0)
  -- error.rs
  | unexpected (α : Type) (x) : Built R (unexpected S α x)
  | message {σ α : Type} {p : Parser S σ α} (x) : Built R p → Built R (message p x)
  | expected {σ α : Type} {p : Parser S σ α} (x) : Built R p → Built R (expected p x)
  | silent {σ α : Type} {p : Parser S σ α} : Built R p → Built R (silent p)
  | spanned {Q σ α : Type} [DecidableEq Q] (a : S.Pos → Span Q) (b : Span Q → S.Pos)
      {p : Parser S σ α} : Built R p → Built R (spanned a b p)
  -- sequence.rs
  | tuple {σ τ α β : Type} {p : Parser S σ α} (ps : Seq S τ β) :
      Built R p → (∀ q, ps.Mem q → Built R q.2.2) → Built R (tuple p ps)
  | pair {σ τ α β : Type} {p : Parser S σ α} {q : Parser S τ β} :
      Built R p → Built R q → Built R (pair p q)
  | «with» {σ τ α β : Type} {p : Parser S σ α} {q : Parser S τ β} :
      Built R p → Built R q → Built R («with» p q)
  | skip {σ τ α β : Type} {p : Parser S σ α} {q : Parser S τ β} :
      Built R p → Built R q → Built R (skip p q)
  | between {σ τ υ α β γ : Type} {o : Parser S σ α} {c : Parser S υ γ} {p : Parser S τ β} :
      Built R o → Built R c → Built R p → Built R (between o c p)
  | thenP {σ τ α β : Type} {p : Parser S σ α} {f : α → Parser S τ β} (n : τ) :
      Built R p → (∀ a, Built R (f a)) → Built R (thenP p f n)
  | thenPartial {σ τ α β : Type} {p : Parser S σ α} {f : α → Parser S τ β × α} (n : τ) :
      Built R p → (∀ a, Built R (f a).1) → Built R (thenPartial p f n)
  | thenRef {σ τ α β : Type} {p : Parser S σ α} {f : α → Parser S τ β} (n : τ) :
      Built R p → (∀ a, Built R (f a)) → Built R (thenRef p f n)
  -- choice.rs
  | choice {σ α : Type} {ps : Alts S α σ} :
      (∀ q, ps.Mem q → Built R q.2) → Built R (choice ps)
  | or {σ τ α : Type} {p : Parser S σ α} {q : Parser S τ α} :
      Built R p → Built R q → Built R (or p q)
  | sliceChoice {σ α : Type} (all : List (Parser S σ α)) (init : σ) :
      (∀ q ∈ all, Built R q) → Built R (sliceChoice all init)
  | optional {σ α : Type} {p : Parser S σ α} : Built R p → Built R (optional p)
  | dispatch {σ α : Type} {ps : Alts S α σ} (k : Nat) :
      (∀ q, ps.Mem q → Built R q.2) → Built R (dispatch ps k)
  -- repeat.rs
  | many {σ α : Type} {p : Parser S σ α} : Built R p → Built R (many p)
  | many1 {σ α : Type} {p : Parser S σ α} : Built R p → Built R (many1 p)
  | countMinMax {σ α : Type} {p : Parser S σ α} (lo hi) : Built R p → Built R (countMinMax lo hi p)
  | count {σ α : Type} {p : Parser S σ α} (n) : Built R p → Built R (count n p)
  | skipCount {σ α : Type} {p : Parser S σ α} (n) : Built R p → Built R (skipCount n p)
  | skipCountMinMax {σ α : Type} {p : Parser S σ α} (lo hi) :
      Built R p → Built R (skipCountMinMax lo hi p)
  | skipMany {σ α : Type} {p : Parser S σ α} : Built R p → Built R (skipMany p)
  | skipMany1 {σ α : Type} {p : Parser S σ α} : Built R p → Built R (skipMany1 p)
  | sepBy {σ τ α β : Type} {p : Parser S σ α} {q : Parser S τ β} :
      Built R p → Built R q → Built R (sepBy p q)
  | sepBy1 {σ τ α β : Type} {p : Parser S σ α} {q : Parser S τ β} :
      Built R p → Built R q → Built R (sepBy1 p q)
  | sepEndBy {σ τ α β : Type} {p : Parser S σ α} {q : Parser S τ β} :
      Built R p → Built R q → Built R (sepEndBy p q)
  | sepEndBy1 {σ τ α β : Type} {p : Parser S σ α} {q : Parser S τ β} :
      Built R p → Built R q → Built R (sepEndBy1 p q)
  | chainl1 {σ τ α : Type} {p : Parser S σ α} {op : Parser S τ (α → α → α)} :
      Built R p → Built R op → Built R (chainl1 p op)
  | chainr1 {σ τ α : Type} {p : Parser S σ α} {op : Parser S τ (α → α → α)} :
      Built R p → Built R op → Built R (chainr1 p op)
  | takeUntil {σ α : Type} {e : Parser S σ α} : Built R e → Built R (takeUntil e)
  | skipUntil {σ α : Type} {e : Parser S σ α} : Built R e → Built R (skipUntil e)
  | repeatUntil {σ τ α β : Type} {p : Parser S σ α} {e : Parser S τ β} :
      Built R p → Built R e → Built R (repeatUntil p e)
  | repeatSkipUntil {σ τ α β : Type} {p : Parser S σ α} {e : Parser S τ β} :
      Built R p → Built R e → Built R (repeatSkipUntil p e)
  | escaped {σ τ α β : Type} {p : Parser S σ α} {e : Parser S τ β} (esc) :
      Built R p → Built R e → Built R (escaped p esc e)
  | iterate {J σ α : Type} (items : List J) {f : J → S.Input → Parser S σ α} (init : σ) :
      (∀ x i, Built R (f x i)) → Built R (iterate items f init)
  -- range.rs
  | range (r) : Built R (range R r)
  | take (n) : Built R (take R n)
  | takeWhile (f) : Built R (takeWhile R f)
  | takeWhile1 (f) : Built R (takeWhile1 R f)
  | recognizeWithValue {σ α : Type} {p : Parser S σ α} :
      Built R p → Built R (recognizeWithValue R p)
  | recognizeRange {σ α : Type} {p : Parser S σ α} : Built R p → Built R (recognizeRange R p)
  | takeUntilRange (r) : Built R (takeUntilRange R r)
  | takeFn (f) : Built R (takeFn R f)
  | lengthPrefix {σ α : Type} {p : Parser S σ α} (f : α → Except S.SErr Nat) :
      Built R p → Built R (lengthPrefix R p f)
  -- byte.rs, char.rs, regex.rs
  | satisfyNamed (f) (n) : Built R (satisfyNamed S f n)
  | spaces (f) (n) : Built R (spaces S f n)
  | newline (lf) : Built R (newline S lf)
  | crlf (cr lf) : Built R (crlf S cr lf)
  | stringCmp {τ α : Type} (ts : List τ) (cmp : τ → S.Tok → Bool) (x) (v : α) :
      Built R (stringCmp S ts cmp x v)
  | takeUntilByte (b f) : Built R (takeUntilByte R b f)
  | takeUntilBytes (b n) : Built R (takeUntilBytes R b n)
  | intParser {α : Type} (n) (conv : List S.Tok → α) : Built R (intParser S n conv)
  | regexMatch (re) : Built R (regexMatch R re)
  | regexFind (re) : Built R (regexFind R re)
  | regexFindMany (re) : Built R (regexFindMany R re)
  | regexCaptures (re) : Built R (regexCaptures R re)
  | regexCapturesMany (re) : Built R (regexCapturesMany R re)

end Verif
