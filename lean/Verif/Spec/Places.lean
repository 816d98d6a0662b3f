import Verif.Spec.Built
import Verif.Model.Errors

/-!
# Where errors are positioned

`S.Spot Own i q`: `q` is the position of some place of the input at or after `i`, or one of the positions `Own` that
the user's own functions put into the errors they return (`flat_map`, `parser(fn)`, …).

`Placed R Own p`: `p` is composed from the modelled parsers and combinators, as in `Built`.
-/

namespace Verif

/-- Laws of an error type that records positions, as `easy::Errors` does. -/
structure ErrOps.Placing {T R P : Type} (E : ErrOps T R P) : Prop where
  empty : ∀ q, E.position (E.empty q) = q
  fromError : ∀ q x, E.position (E.fromError q x) = q
  setPosition : ∀ e q, E.position (E.setPosition e q) = q
  add : ∀ e x, E.position (E.add e x) = E.position e
  merge : ∀ a b, E.position (E.merge a b) = E.position a ∨ E.position (E.merge a b) = E.position b
  clearExpected : ∀ e, E.position (E.clearExpected e) = E.position e
  setExpected : ∀ t x (f : Tracked E.Err → Tracked E.Err),
    (∀ t, E.position (f t).error = E.position t.error) → E.position (E.setExpected t x f).error = E.position t.error

/-- The position of a place at or after `i`, or one of the user's. -/
def Strm.Spot (S : Strm) (Own : S.Pos → Prop) (i : S.Input) (q : S.Pos) : Prop :=
  Own q ∨ ∃ ts k, S.Reads i ts k ∧ S.position k = q

/-- If the result is a failure, its error is positioned at a spot. -/
def Strm.Located (S : Strm) {α : Type} (Own : S.Pos → Prop) (i : S.Input) (r : ParseResult α S.Err) : Prop :=
  match r with
  | .commitErr e => S.Spot Own i (S.E.position e)
  | .peekErr e => S.Spot Own i (S.E.position e.error)
  | _ => True

/-- If the result is a failure, its error is positioned at `q`. -/
def Strm.ErrorAt (S : Strm) {α : Type} (q : S.Pos) (r : ParseResult α S.Err) : Prop :=
  match r with
  | .commitErr e => S.E.position e = q
  | .peekErr e => S.E.position e.error = q
  | _ => True

/-- Composed from the library's parsers and combinators; `Own` says which positions the errors made by the user's
own functions may have. -/
inductive Placed {S : Strm} (R : RangeOps S) (Own : S.Pos → Prop) [DecidableEq S.Tok] [DecidableEq S.Rng] :
    {σ α : Type} → Parser S σ α → Prop where
  -- token.rs
  | any : Placed R Own (any S)
  | satisfy (f) : Placed R Own (satisfy S f)
  | satisfyMap {α : Type} (f : S.Tok → Option α) : Placed R Own (satisfyMap S f)
  | token (c) : Placed R Own (token S c)
  | tokens {τ : Type} (cmp : τ → S.Tok → Bool) (x) (ts) : Placed R Own (tokens S cmp x ts)
  | tokensCmp {τ : Type} (ts : List τ) (cmp : τ → S.Tok → Bool) : Placed R Own (tokensCmp S ts cmp)
  | position : Placed R Own (position S)
  | oneOf (ts) : Placed R Own (oneOf S ts)
  | noneOf (ts) : Placed R Own (noneOf S ts)
  | value {α : Type} (v : α) : Placed R Own (value S v)
  | produce {α : Type} (f : Unit → α) : Placed R Own (produce S f)
  | eof : Placed R Own (eof S)
  -- combinator.rs
  | notFollowedBy {σ α : Type} {p : Parser S σ α} : Placed R Own p → Placed R Own (notFollowedBy p)
  | attempt {σ α : Type} {p : Parser S σ α} : Placed R Own p → Placed R Own (attempt p)
  | lookAhead {σ α : Type} {p : Parser S σ α} : Placed R Own p → Placed R Own (lookAhead p)
  | map {σ α β : Type} {p : Parser S σ α} (f : α → β) : Placed R Own p → Placed R Own (map p f)
  | mapInput {σ α β : Type} {p : Parser S σ α} (f : α → S.Input → β × S.Input) :
      (∀ a i, ∃ ts, S.Reads i ts (f a i).2) → Placed R Own p → Placed R Own (mapInput p f)
  | flatMap {σ α β : Type} {p : Parser S σ α} (f : α → Except S.Err β) :
      (∀ a e, f a = .error e → Own (S.E.position e)) → Placed R Own p → Placed R Own (flatMap p f)
  | andThen {σ α β : Type} {p : Parser S σ α} (f : α → Except S.SErr β) :
      Placed R Own p → Placed R Own (andThen p f)
  | recognize {σ α : Type} {p : Parser S σ α} : Placed R Own p → Placed R Own (recognize p)
  | eitherLeft {σ α : Type} {p : Parser S σ α} (τ : Type) : Placed R Own p → Placed R Own (eitherLeft p τ)
  | eitherRight {τ α : Type} {p : Parser S τ α} (σ : Type) : Placed R Own p → Placed R Own (eitherRight p σ)
  | noPartial {σ α : Type} {p : Parser S σ α} : Placed R Own p → Placed R Own (noPartial p)
  | ignore {σ α : Type} {p : Parser S σ α} : Placed R Own p → Placed R Own (ignore p)
  | anyPartialState {σ α : Type} {p : Parser S σ α} : Placed R Own p → Placed R Own (anyPartialState p)
  | lazyP {σ α : Type} {f : Unit → Parser S σ α} : Placed R Own (f ()) → Placed R Own (lazyP f)
  | factory {σ α : Type} {f : S.Input → Parser S σ α} (init : σ) :
      (∀ i, Placed R Own (f i)) → Placed R Own (factory f init)
  | fromStr {σ α β : Type} {p : Parser S σ α} (u : α → Option String)
      (f : String → Except String β) : Placed R Own p → Placed R Own (fromStr p u f)
  | opaqueP {σ α : Type} {p : Parser S σ α} : Placed R Own p → Placed R Own (opaqueP p)
  | boxed {σ α : Type} {p : Parser S σ α} : Placed R Own p → Placed R Own (boxed p)
  | parserMacro {σ α : Type} {p : Parser S σ α} : Placed R Own p → Placed R Own (parserMacro p)
  | parserMacroUnit {σ α : Type} {p : Parser S σ α} : Placed R Own p → Placed R Own (parserMacroUnit p)
  | fnParser {α : Type} (f : S.Input → StdResult α S.Err × S.Input) :
      (∀ i, ∃ ts, S.Reads i ts (f i).2) → (∀ i, S.Located Own i (ParseResult.ofStd (f i).1)) →
      Placed R Own (fnParser S f)
  | inputConverter {T : Strm} {σ α : Type} (p : Parser T σ α)
      (convert : S.Input → Except S.Err T.Input) (back : S.Input → T.Input → S.Input)
      (convertError : S.Input → T.Err → S.Err) :
      (∀ m i j s, convert i = .ok j → ∃ ts, S.Reads i ts (back i (p.run m j s).inp)) →
      (∀ i e, convert i = .error e → Own (S.E.position e)) →
      (∀ i e, Own (S.E.position (convertError i e))) →
      Placed R Own (inputConverter p convert back convertError)
  /-- the innermost call of a recursive grammar (`recur _ _ 0`) -/
  | bottom {σ α : Type} (F : Parser S σ α → Parser S σ α) (init : σ) : Placed R Own (recur F init 0)
  -- error.rs
  | unexpected (α : Type) (x) : Placed R Own (unexpected S α x)
  | message {σ α : Type} {p : Parser S σ α} (x) : Placed R Own p → Placed R Own (message p x)
  | expected {σ α : Type} {p : Parser S σ α} (x) : Placed R Own p → Placed R Own (expected p x)
  | silent {σ α : Type} {p : Parser S σ α} : Placed R Own p → Placed R Own (silent p)
  | spanned {Q σ α : Type} [DecidableEq Q] (a : S.Pos → Span Q) (b : Span Q → S.Pos)
      {p : Parser S σ α} : (∀ x, Own (b x)) → Placed R Own p → Placed R Own (spanned a b p)
  -- sequence.rs
  | tuple {σ τ α β : Type} {p : Parser S σ α} (ps : Seq S τ β) :
      Placed R Own p → (∀ q, ps.Mem q → Placed R Own q.2.2) → Placed R Own (tuple p ps)
  | pair {σ τ α β : Type} {p : Parser S σ α} {q : Parser S τ β} :
      Placed R Own p → Placed R Own q → Placed R Own (pair p q)
  | «with» {σ τ α β : Type} {p : Parser S σ α} {q : Parser S τ β} :
      Placed R Own p → Placed R Own q → Placed R Own («with» p q)
  | skip {σ τ α β : Type} {p : Parser S σ α} {q : Parser S τ β} :
      Placed R Own p → Placed R Own q → Placed R Own (skip p q)
  | between {σ τ υ α β γ : Type} {o : Parser S σ α} {c : Parser S υ γ} {p : Parser S τ β} :
      Placed R Own o → Placed R Own c → Placed R Own p → Placed R Own (between o c p)
  | thenP {σ τ α β : Type} {p : Parser S σ α} {f : α → Parser S τ β} (n : τ) :
      Placed R Own p → (∀ a, Placed R Own (f a)) → Placed R Own (thenP p f n)
  | thenPartial {σ τ α β : Type} {p : Parser S σ α} {f : α → Parser S τ β × α} (n : τ) :
      Placed R Own p → (∀ a, Placed R Own (f a).1) → Placed R Own (thenPartial p f n)
  | thenRef {σ τ α β : Type} {p : Parser S σ α} {f : α → Parser S τ β} (n : τ) :
      Placed R Own p → (∀ a, Placed R Own (f a)) → Placed R Own (thenRef p f n)
  -- choice.rs
  | choice {σ α : Type} {ps : Alts S α σ} :
      (∀ q, ps.Mem q → Placed R Own q.2) → Placed R Own (choice ps)
  | or {σ τ α : Type} {p : Parser S σ α} {q : Parser S τ α} :
      Placed R Own p → Placed R Own q → Placed R Own (or p q)
  | sliceChoice {σ α : Type} (all : List (Parser S σ α)) (init : σ) :
      (∀ q ∈ all, Placed R Own q) → Placed R Own (sliceChoice all init)
  | optional {σ α : Type} {p : Parser S σ α} : Placed R Own p → Placed R Own (optional p)
  | dispatch {σ α : Type} {ps : Alts S α σ} (k : Nat) :
      (∀ q, ps.Mem q → Placed R Own q.2) → Placed R Own (dispatch ps k)
  -- repeat.rs
  | many {σ α : Type} {p : Parser S σ α} : Placed R Own p → Placed R Own (many p)
  | many1 {σ α : Type} {p : Parser S σ α} : Placed R Own p → Placed R Own (many1 p)
  | countMinMax {σ α : Type} {p : Parser S σ α} (lo hi) : Placed R Own p → Placed R Own (countMinMax lo hi p)
  | count {σ α : Type} {p : Parser S σ α} (n) : Placed R Own p → Placed R Own (count n p)
  | skipCount {σ α : Type} {p : Parser S σ α} (n) : Placed R Own p → Placed R Own (skipCount n p)
  | skipCountMinMax {σ α : Type} {p : Parser S σ α} (lo hi) :
      Placed R Own p → Placed R Own (skipCountMinMax lo hi p)
  | skipMany {σ α : Type} {p : Parser S σ α} : Placed R Own p → Placed R Own (skipMany p)
  | skipMany1 {σ α : Type} {p : Parser S σ α} : Placed R Own p → Placed R Own (skipMany1 p)
  | sepBy {σ τ α β : Type} {p : Parser S σ α} {q : Parser S τ β} :
      Placed R Own p → Placed R Own q → Placed R Own (sepBy p q)
  | sepBy1 {σ τ α β : Type} {p : Parser S σ α} {q : Parser S τ β} :
      Placed R Own p → Placed R Own q → Placed R Own (sepBy1 p q)
  | sepEndBy {σ τ α β : Type} {p : Parser S σ α} {q : Parser S τ β} :
      Placed R Own p → Placed R Own q → Placed R Own (sepEndBy p q)
  | sepEndBy1 {σ τ α β : Type} {p : Parser S σ α} {q : Parser S τ β} :
      Placed R Own p → Placed R Own q → Placed R Own (sepEndBy1 p q)
  | chainl1 {σ τ α : Type} {p : Parser S σ α} {op : Parser S τ (α → α → α)} :
      Placed R Own p → Placed R Own op → Placed R Own (chainl1 p op)
  | chainr1 {σ τ α : Type} {p : Parser S σ α} {op : Parser S τ (α → α → α)} :
      Placed R Own p → Placed R Own op → Placed R Own (chainr1 p op)
  | takeUntil {σ α : Type} {e : Parser S σ α} : Placed R Own e → Placed R Own (takeUntil e)
  | skipUntil {σ α : Type} {e : Parser S σ α} : Placed R Own e → Placed R Own (skipUntil e)
  | repeatUntil {σ τ α β : Type} {p : Parser S σ α} {e : Parser S τ β} :
      Placed R Own p → Placed R Own e → Placed R Own (repeatUntil p e)
  | repeatSkipUntil {σ τ α β : Type} {p : Parser S σ α} {e : Parser S τ β} :
      Placed R Own p → Placed R Own e → Placed R Own (repeatSkipUntil p e)
  | escaped {σ τ α β : Type} {p : Parser S σ α} {e : Parser S τ β} (esc) :
      Placed R Own p → Placed R Own e → Placed R Own (escaped p esc e)
  | iterate {J σ α : Type} (items : List J) {f : J → S.Input → Parser S σ α} (init : σ) :
      (∀ x i, Placed R Own (f x i)) → Placed R Own (iterate items f init)
  -- range.rs
  | range (r) : Placed R Own (range R r)
  | take (n) : Placed R Own (take R n)
  | takeWhile (f) : Placed R Own (takeWhile R f)
  | takeWhile1 (f) : Placed R Own (takeWhile1 R f)
  | recognizeWithValue {σ α : Type} {p : Parser S σ α} :
      Placed R Own p → Placed R Own (recognizeWithValue R p)
  | recognizeRange {σ α : Type} {p : Parser S σ α} : Placed R Own p → Placed R Own (recognizeRange R p)
  | takeUntilRange (r) : Placed R Own (takeUntilRange R r)
  | takeFn (f) : Placed R Own (takeFn R f)
  | lengthPrefix {σ α : Type} {p : Parser S σ α} (f : α → Except S.SErr Nat) :
      Placed R Own p → Placed R Own (lengthPrefix R p f)
  -- byte.rs, char.rs, regex.rs
  | satisfyNamed (f) (n) : Placed R Own (satisfyNamed S f n)
  | spaces (f) (n) : Placed R Own (spaces S f n)
  | newline (lf) : Placed R Own (newline S lf)
  | crlf (cr lf) : Placed R Own (crlf S cr lf)
  | stringCmp {τ α : Type} (ts : List τ) (cmp : τ → S.Tok → Bool) (x) (v : α) :
      Placed R Own (stringCmp S ts cmp x v)
  | takeUntilByte (b f) : Placed R Own (takeUntilByte R b f)
  | takeUntilBytes (b n) : Placed R Own (takeUntilBytes R b n)
  | intParser {α : Type} (n) (conv : List S.Tok → α) : Placed R Own (intParser S n conv)
  | regexMatch (re) : Placed R Own (regexMatch R re)
  | regexFind (re) : Placed R Own (regexFind R re)
  | regexFindMany (re) : Placed R Own (regexFindMany R re)
  | regexCaptures (re) : Placed R Own (regexCaptures R re)
  | regexCapturesMany (re) : Placed R Own (regexCapturesMany R re)

end Verif
