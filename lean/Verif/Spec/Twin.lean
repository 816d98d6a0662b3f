import Verif.Model.Range
import Verif.Model.Wrap

/-!
# The same program with another error type

`easy_parse` parses `easy::Stream(input)` instead of `input`: the same tokens, positions and checkpoints, but errors of
another type.  `Twins p q` says that `q` is the program `p` written for that stream; what may differ are the things that
mention errors (labels, messages, the errors that closures return).
-/

namespace Verif

variable {S : Strm} {E : ErrOps S.Tok S.Rng S.Pos} {convS : S.SErr → E.SErr} {conv : S.Err → E.Err}

/-- The stream `S` with the errors `E`: `convS`, `conv` convert the errors of `S` itself. -/
abbrev Strm.withErrors (S : Strm) (E : ErrOps S.Tok S.Rng S.Pos) (convS : S.SErr → E.SErr) (conv : S.Err → E.Err) : Strm :=
  convertS S S.decPos id E convS conv

/-- Its range operations. -/
abbrev RangeOps.withErrors (R : RangeOps S) (E : ErrOps S.Tok S.Rng S.Pos) (convS : S.SErr → E.SErr) (conv : S.Err → E.Err) :
    RangeOps (S.withErrors E convS conv) := convertR S.decPos id E convS conv R

/-- The same result except for the error it carries. -/
inductive ParseResult.Twin {α F G : Type} : ParseResult α F → ParseResult α G → Prop where
  | commitOk (a : α) : Twin (.commitOk a) (.commitOk a)
  | peekOk (a : α) : Twin (.peekOk a) (.peekOk a)
  | commitErr (e : F) (e' : G) : Twin (.commitErr e) (.commitErr e')
  | peekErr (e : Tracked F) (e' : Tracked G) : Twin (.peekErr e) (.peekErr e')
  | abort (a : Abort) : Twin (.abort a) (.abort a)

/-- Closures that accept the same values, with the same results. -/
inductive ExceptTwin {β F G : Type} : Except F β → Except G β → Prop where
  | ok (b : β) : ExceptTwin (.ok b) (.ok b)
  | error (e : F) (e' : G) : ExceptTwin (.error e) (.error e')

/-- The same of a function parser's result. -/
inductive StdTwin {β F G : Type} : StdResult β F → StdResult β G → Prop where
  | ok (b : β) (c : Commit Unit) : StdTwin (.ok b c) (.ok b c)
  | commit (e : Tracked F) (e' : Tracked G) : StdTwin (.err (.commit e)) (.err (.commit e'))
  | peek (e : Tracked F) (e' : Tracked G) : StdTwin (.err (.peek e)) (.err (.peek e'))
  | abort (a : Abort) : StdTwin (.abort a) (.abort a)

mutual

/-- `Twins p q`: the same program, for `S` and for the stream with the other errors. -/
inductive Twins (S : Strm) (E : ErrOps S.Tok S.Rng S.Pos) (convS : S.SErr → E.SErr) (conv : S.Err → E.Err) :
    {σ α : Type} → Parser S σ α → Parser (S.withErrors E convS conv) σ α → Prop where
  | any : Twins S E convS conv (any S) (any _)
  | satisfy (f : S.Tok → Bool) : Twins S E convS conv (satisfy S f) (satisfy _ f)
  | satisfyMap {α : Type} (f : S.Tok → Option α) : Twins S E convS conv (satisfyMap S f) (satisfyMap _ f)
  | token [DecidableEq S.Tok] (c : S.Tok) : Twins S E convS conv (token S c) (token _ c)
  | oneOf [DecidableEq S.Tok] (ts : List S.Tok) : Twins S E convS conv (oneOf S ts) (oneOf _ ts)
  | noneOf [DecidableEq S.Tok] (ts : List S.Tok) : Twins S E convS conv (noneOf S ts) (noneOf _ ts)
  | tokens {κ : Type} (cmp : κ → S.Tok → Bool) (x y : Info S.Tok S.Rng) (ts : List κ) :
      Twins S E convS conv (tokens S cmp x ts) (tokens _ cmp y ts)
  | tokensCmp {κ : Type} (ts : List κ) (cmp : κ → S.Tok → Bool) : Twins S E convS conv (tokensCmp S ts cmp) (tokensCmp _ ts cmp)
  | position : Twins S E convS conv (position S) (position _)
  | eof : Twins S E convS conv (eof S) (eof _)
  | value {α : Type} (v : α) : Twins S E convS conv (value S v) (value _ v)
  | produce {α : Type} (f : Unit → α) : Twins S E convS conv (produce S f) (produce _ f)
  | unexpected (α : Type) (x y : Info S.Tok S.Rng) : Twins S E convS conv (unexpected S α x) (unexpected _ α y)
  | fnParser {α : Type} {f : S.Input → StdResult α S.Err × S.Input} {g : S.Input → StdResult α E.Err × S.Input} :
      (∀ i, StdTwin (f i).1 (g i).1 ∧ (f i).2 = (g i).2) → Twins S E convS conv (fnParser S f) (fnParser _ g)
  | map {σ α β : Type} {p : Parser S σ α} {q} (f : α → β) : Twins S E convS conv p q → Twins S E convS conv (map p f) (map q f)
  | mapInput {σ α β : Type} {p : Parser S σ α} {q} (f : α → S.Input → β × S.Input) :
      Twins S E convS conv p q → Twins S E convS conv (mapInput p f) (mapInput q f)
  | flatMap {σ α β : Type} {p : Parser S σ α} {q} {f : α → Except S.Err β} {g : α → Except E.Err β} :
      (∀ a, ExceptTwin (f a) (g a)) → Twins S E convS conv p q → Twins S E convS conv (flatMap p f) (flatMap q g)
  | andThen {σ α β : Type} {p : Parser S σ α} {q} {f : α → Except S.SErr β} {g : α → Except E.SErr β} :
      (∀ a, ExceptTwin (f a) (g a)) → Twins S E convS conv p q → Twins S E convS conv (andThen p f) (andThen q g)
  | ignore {σ α : Type} {p : Parser S σ α} {q} : Twins S E convS conv p q → Twins S E convS conv (ignore p) (ignore q)
  | message {σ α : Type} {p : Parser S σ α} {q} (x y : Info S.Tok S.Rng) :
      Twins S E convS conv p q → Twins S E convS conv (message p x) (message q y)
  | expected {σ α : Type} {p : Parser S σ α} {q} (x y : Info S.Tok S.Rng) :
      Twins S E convS conv p q → Twins S E convS conv (expected p x) (expected q y)
  | silent {σ α : Type} {p : Parser S σ α} {q} : Twins S E convS conv p q → Twins S E convS conv (silent p) (silent q)
  | attempt {σ α : Type} {p : Parser S σ α} {q} : Twins S E convS conv p q → Twins S E convS conv (attempt p) (attempt q)
  | lookAhead {σ α : Type} {p : Parser S σ α} {q} : Twins S E convS conv p q → Twins S E convS conv (lookAhead p) (lookAhead q)
  | notFollowedBy {σ α : Type} {p : Parser S σ α} {q} :
      Twins S E convS conv p q → Twins S E convS conv (notFollowedBy p) (notFollowedBy q)
  | recognize {σ α : Type} {p : Parser S σ α} {q} : Twins S E convS conv p q → Twins S E convS conv (recognize p) (recognize q)
  | eitherLeft {σ α : Type} {p : Parser S σ α} {q} (τ : Type) :
      Twins S E convS conv p q → Twins S E convS conv (eitherLeft p τ) (eitherLeft q τ)
  | eitherRight {σ α : Type} {p : Parser S σ α} {q} (τ : Type) :
      Twins S E convS conv p q → Twins S E convS conv (eitherRight p τ) (eitherRight q τ)
  | noPartial {σ α : Type} {p : Parser S σ α} {q} : Twins S E convS conv p q → Twins S E convS conv (noPartial p) (noPartial q)
  | boxed {σ α : Type} {p : Parser S σ α} {q} : Twins S E convS conv p q → Twins S E convS conv (boxed p) (boxed q)
  | opaqueP {σ α : Type} {p : Parser S σ α} {q} : Twins S E convS conv p q → Twins S E convS conv (opaqueP p) (opaqueP q)
  | lazyP {σ α : Type} {p : Unit → Parser S σ α} {q} :
      (∀ u, Twins S E convS conv (p u) (q u)) → Twins S E convS conv (lazyP p) (lazyP q)
  | factory {σ α : Type} {p : S.Input → Parser S σ α} {q : S.Input → Parser (S.withErrors E convS conv) σ α} (s : σ) :
      (∀ i, Twins S E convS conv (p i) (q i)) → Twins S E convS conv (factory p s) (factory q s)
  | anyPartialState {σ α : Type} {p : Parser S σ α} {q} :
      Twins S E convS conv p q → Twins S E convS conv (anyPartialState p) (anyPartialState q)
  | parserMacro {σ α : Type} {p : Parser S σ α} {q} :
      Twins S E convS conv p q → Twins S E convS conv (parserMacro p) (parserMacro q)
  | parserMacroUnit {σ α : Type} {p : Parser S σ α} {q} :
      Twins S E convS conv p q → Twins S E convS conv (parserMacroUnit p) (parserMacroUnit q)
  | bottom {σ α : Type} (F : Parser S σ α → Parser S σ α) (G) (s : σ) : Twins S E convS conv (recur F s 0) (recur G s 0)
  | tuple {σ τ α β : Type} {p : Parser S σ α} {q} {ps : Seq S τ β} {qs} :
      Twins S E convS conv p q → TwinsSeq S E convS conv ps qs → Twins S E convS conv (tuple p ps) (tuple q qs)
  | «with» {σ τ α β : Type} {p : Parser S σ α} {q} {p' : Parser S τ β} {q'} :
      Twins S E convS conv p q → Twins S E convS conv p' q' → Twins S E convS conv («with» p p') («with» q q')
  | skip {σ τ α β : Type} {p : Parser S σ α} {q} {p' : Parser S τ β} {q'} :
      Twins S E convS conv p q → Twins S E convS conv p' q' → Twins S E convS conv (skip p p') (skip q q')
  | between {σ τ υ α β γ : Type} {o : Parser S σ α} {o'} {c : Parser S υ γ} {c'} {p : Parser S τ β} {q} :
      Twins S E convS conv o o' → Twins S E convS conv c c' → Twins S E convS conv p q →
      Twins S E convS conv (between o c p) (between o' c' q)
  | thenP {σ τ α β : Type} {p : Parser S σ α} {q} {f : α → Parser S τ β} {g} (n : τ) :
      Twins S E convS conv p q → (∀ a, Twins S E convS conv (f a) (g a)) → Twins S E convS conv (thenP p f n) (thenP q g n)
  | thenPartial {σ τ α β : Type} {p : Parser S σ α} {q} {f : α → Parser S τ β × α} {g} (n : τ) :
      Twins S E convS conv p q → (∀ a, Twins S E convS conv (f a).1 (g a).1) → (∀ a, (f a).2 = (g a).2) →
      Twins S E convS conv (thenPartial p f n) (thenPartial q g n)
  | thenRef {σ τ α β : Type} {p : Parser S σ α} {q} {f : α → Parser S τ β} {g} (n : τ) :
      Twins S E convS conv p q → (∀ a, Twins S E convS conv (f a) (g a)) → Twins S E convS conv (thenRef p f n) (thenRef q g n)
  | choice {σ α : Type} {ps : Alts S α σ} {qs} : TwinsAlts S E convS conv ps qs → Twins S E convS conv (choice ps) (choice qs)
  | dispatch {σ α : Type} {ps : Alts S α σ} {qs} (k : Nat) :
      TwinsAlts S E convS conv ps qs → Twins S E convS conv (dispatch ps k) (dispatch qs k)
  | sliceChoice {σ α : Type} {ps : List (Parser S σ α)} {qs} (s : σ) :
      TwinsList S E convS conv ps qs → Twins S E convS conv (sliceChoice ps s) (sliceChoice qs s)
  | or {σ τ α : Type} {p : Parser S σ α} {q} {p' : Parser S τ α} {q'} :
      Twins S E convS conv p q → Twins S E convS conv p' q' → Twins S E convS conv (or p p') (or q q')
  | optional {σ α : Type} {p : Parser S σ α} {q} : Twins S E convS conv p q → Twins S E convS conv (optional p) (optional q)
  | many {σ α : Type} {p : Parser S σ α} {q} : Twins S E convS conv p q → Twins S E convS conv (many p) (many q)
  | many1 {σ α : Type} {p : Parser S σ α} {q} : Twins S E convS conv p q → Twins S E convS conv (many1 p) (many1 q)
  | skipMany {σ α : Type} {p : Parser S σ α} {q} : Twins S E convS conv p q → Twins S E convS conv (skipMany p) (skipMany q)
  | skipMany1 {σ α : Type} {p : Parser S σ α} {q} : Twins S E convS conv p q → Twins S E convS conv (skipMany1 p) (skipMany1 q)
  | countMinMax {σ α : Type} {p : Parser S σ α} {q} (lo hi : Nat) :
      Twins S E convS conv p q → Twins S E convS conv (countMinMax lo hi p) (countMinMax lo hi q)
  | count {σ α : Type} {p : Parser S σ α} {q} (n : Nat) : Twins S E convS conv p q → Twins S E convS conv (count n p) (count n q)
  | skipCount {σ α : Type} {p : Parser S σ α} {q} (n : Nat) :
      Twins S E convS conv p q → Twins S E convS conv (skipCount n p) (skipCount n q)
  | skipCountMinMax {σ α : Type} {p : Parser S σ α} {q} (lo hi : Nat) :
      Twins S E convS conv p q → Twins S E convS conv (skipCountMinMax lo hi p) (skipCountMinMax lo hi q)
  | sepBy {σ τ α β : Type} {p : Parser S σ α} {q} {s : Parser S τ β} {s'} :
      Twins S E convS conv p q → Twins S E convS conv s s' → Twins S E convS conv (sepBy p s) (sepBy q s')
  | sepBy1 {σ τ α β : Type} {p : Parser S σ α} {q} {s : Parser S τ β} {s'} :
      Twins S E convS conv p q → Twins S E convS conv s s' → Twins S E convS conv (sepBy1 p s) (sepBy1 q s')
  | sepEndBy {σ τ α β : Type} {p : Parser S σ α} {q} {s : Parser S τ β} {s'} :
      Twins S E convS conv p q → Twins S E convS conv s s' → Twins S E convS conv (sepEndBy p s) (sepEndBy q s')
  | sepEndBy1 {σ τ α β : Type} {p : Parser S σ α} {q} {s : Parser S τ β} {s'} :
      Twins S E convS conv p q → Twins S E convS conv s s' → Twins S E convS conv (sepEndBy1 p s) (sepEndBy1 q s')
  | chainl1 {σ τ α : Type} {p : Parser S σ α} {q} {o : Parser S τ (α → α → α)} {o'} :
      Twins S E convS conv p q → Twins S E convS conv o o' → Twins S E convS conv (chainl1 p o) (chainl1 q o')
  | chainr1 {σ τ α : Type} {p : Parser S σ α} {q} {o : Parser S τ (α → α → α)} {o'} :
      Twins S E convS conv p q → Twins S E convS conv o o' → Twins S E convS conv (chainr1 p o) (chainr1 q o')
  | takeUntil {σ α : Type} {p : Parser S σ α} {q} : Twins S E convS conv p q → Twins S E convS conv (takeUntil p) (takeUntil q)
  | skipUntil {σ α : Type} {p : Parser S σ α} {q} : Twins S E convS conv p q → Twins S E convS conv (skipUntil p) (skipUntil q)
  | repeatUntil {σ τ α β : Type} {p : Parser S σ α} {q} {e : Parser S τ β} {e'} :
      Twins S E convS conv p q → Twins S E convS conv e e' → Twins S E convS conv (repeatUntil p e) (repeatUntil q e')
  | repeatSkipUntil {σ τ α β : Type} {p : Parser S σ α} {q} {e : Parser S τ β} {e'} :
      Twins S E convS conv p q → Twins S E convS conv e e' → Twins S E convS conv (repeatSkipUntil p e) (repeatSkipUntil q e')
  | escaped [DecidableEq S.Tok] {σ τ α β : Type} {p : Parser S σ α} {q} (c : S.Tok) {e : Parser S τ β} {e'} :
      Twins S E convS conv p q → Twins S E convS conv e e' → Twins S E convS conv (escaped p c e) (escaped q c e')
  | iterate {J σ α : Type} (js : List J) {f : J → S.Input → Parser S σ α}
      {g : J → S.Input → Parser (S.withErrors E convS conv) σ α} (s : σ) :
      (∀ x i, Twins S E convS conv (f x i) (g x i)) → Twins S E convS conv (iterate js f s) (iterate js g s)
  | range [DecidableEq S.Rng] (R : RangeOps S) (r : S.Rng) :
      Twins S E convS conv (range R r) (range (R.withErrors E convS conv) r)
  | take (R : RangeOps S) (n : Nat) : Twins S E convS conv (take R n) (take (R.withErrors E convS conv) n)
  | takeWhile (R : RangeOps S) (f : S.Tok → Bool) : Twins S E convS conv (takeWhile R f) (takeWhile (R.withErrors E convS conv) f)
  | takeWhile1 (R : RangeOps S) (f : S.Tok → Bool) :
      Twins S E convS conv (takeWhile1 R f) (takeWhile1 (R.withErrors E convS conv) f)
  | takeUntilRange [DecidableEq S.Rng] (R : RangeOps S) (r : S.Rng) :
      Twins S E convS conv (takeUntilRange R r) (takeUntilRange (R.withErrors E convS conv) r)
  | takeFn (R : RangeOps S) (f : S.Rng → TakeRange) : Twins S E convS conv (takeFn R f) (takeFn (R.withErrors E convS conv) f)
  | recognizeWithValue (R : RangeOps S) {σ α : Type} {p : Parser S σ α} {q} :
      Twins S E convS conv p q → Twins S E convS conv (recognizeWithValue R p) (recognizeWithValue (R.withErrors E convS conv) q)
  | recognizeRange (R : RangeOps S) {σ α : Type} {p : Parser S σ α} {q} :
      Twins S E convS conv p q → Twins S E convS conv (recognizeRange R p) (recognizeRange (R.withErrors E convS conv) q)
  | lengthPrefix (R : RangeOps S) {σ α : Type} {p : Parser S σ α} {q} {f : α → Except S.SErr Nat} {g : α → Except E.SErr Nat} :
      (∀ a, ExceptTwin (f a) (g a)) → Twins S E convS conv p q →
      Twins S E convS conv (lengthPrefix R p f) (lengthPrefix (R.withErrors E convS conv) q g)

/-- The further members of a sequence. -/
inductive TwinsSeq (S : Strm) (E : ErrOps S.Tok S.Rng S.Pos) (convS : S.SErr → E.SErr) (conv : S.Err → E.Err) :
    {τ β : Type} → Seq S τ β → Seq (S.withErrors E convS conv) τ β → Prop where
  | nil : TwinsSeq S E convS conv .nil .nil
  | cons {σ τ α β : Type} {p : Parser S σ α} {q} {ps : Seq S τ β} {qs} :
      Twins S E convS conv p q → TwinsSeq S E convS conv ps qs → TwinsSeq S E convS conv (.cons p ps) (.cons q qs)

/-- The alternatives of a choice. -/
inductive TwinsAlts (S : Strm) (E : ErrOps S.Tok S.Rng S.Pos) (convS : S.SErr → E.SErr) (conv : S.Err → E.Err) :
    {α σ : Type} → Alts S α σ → Alts (S.withErrors E convS conv) α σ → Prop where
  | last {σ α : Type} {p : Parser S σ α} {q} : Twins S E convS conv p q → TwinsAlts S E convS conv (.last p) (.last q)
  | cons {σ τ α : Type} {p : Parser S σ α} {q} {ps : Alts S α τ} {qs} :
      Twins S E convS conv p q → TwinsAlts S E convS conv ps qs → TwinsAlts S E convS conv (.cons p ps) (.cons q qs)

/-- The elements of a slice of parsers. -/
inductive TwinsList (S : Strm) (E : ErrOps S.Tok S.Rng S.Pos) (convS : S.SErr → E.SErr) (conv : S.Err → E.Err) :
    {σ α : Type} → List (Parser S σ α) → List (Parser (S.withErrors E convS conv) σ α) → Prop where
  | nil {σ α : Type} : TwinsList S E convS conv (σ := σ) (α := α) [] []
  | cons {σ α : Type} {p : Parser S σ α} {q} {ps qs} :
      Twins S E convS conv p q → TwinsList S E convS conv ps qs → TwinsList S E convS conv (p :: ps) (q :: qs)

end

/-- Equal outcomes of a top level call, except for the error. -/
inductive Parser.ParsedTwin {α : Type} : Parsed S α → Parsed (S.withErrors E convS conv) α → Prop where
  | ok (v : α) (rest : S.Input) : ParsedTwin (.ok v rest) (.ok v rest)
  | err (e : S.Err) (e' : E.Err) : ParsedTwin (.err e) (.err e')
  | abort (a : Abort) : ParsedTwin (.abort a) (.abort a)

end Verif
