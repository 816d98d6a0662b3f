import Verif.Spec.Built
import Verif.Spec.Repeat
import Verif.Spec.Ranges

/-!
# What the commit status says

`S.Tells i r j`: a parser that was at `i`, answered `r` and left the stream at `j` told the truth: an
uncommitted success has not moved the stream and a committed one has read at least one token.

`Plain` and `Fresh` list the compositions for which that is proved.  They are the compositions of `Built`
except that

* `range("")`, `take_until`/`repeat_until` with an end parser that commits, `escaped` and `recognize` on
  streams without positions come with side conditions (without which it is false), and
* the combinators that remember a commitment in their state (`sep_end_by1`, `chainl1`, `iterate`) must not be
  abandoned by `attempt` and then used again without clearing the state.

`Plain h Q p`: started anew in a state satisfying `Q`, `p` tells the truth and, if it succeeds or fails softly
(`h = true`: or fails hard), leaves a state satisfying `Q`.  `Fresh p`: `p` tells the truth when started with a
default state.
-/

namespace Verif

/-- The status of a success agrees with what was read between `i` and `j`. -/
def Strm.Tells (S : Strm) {E α : Type} (i : S.Input) (r : ParseResult α E) (j : S.Input) : Prop :=
  match r with
  | .peekOk _ => j = i
  | .commitOk _ => ∃ t ts, S.Reads i (t :: ts) j
  | _ => True

/-- Never answers with a committed success when started anew. -/
def Quiet {S : Strm} {σ α : Type} (p : Parser S σ α) : Prop :=
  ∀ i s v, (p.run true i s).res ≠ .commitOk v

/-- Does the same whether it is started anew or resumed. -/
def ModeBlind {S : Strm} {σ α : Type} (p : Parser S σ α) : Prop :=
  ∀ i s, p.run false i s = p.run true i s

mutual
/-- Compositions that tell the truth from any state satisfying the predicate. -/
inductive Plain {S : Strm} (R : RangeOps S) [DecidableEq S.Tok] [DecidableEq S.Rng]
    (toks : S.Rng → List S.Tok) : Bool → {σ α : Type} → (σ → Prop) → Parser S σ α → Prop where
  | weaken {σ α : Type} {Q : σ → Prop} {p : Parser S σ α} :
      Plain R toks true Q p → Plain R toks false Q p
  -- token.rs
  | any {h} : Plain R toks h (fun _ => True) (any S)
  | satisfy {h} (f) : Plain R toks h (fun _ => True) (satisfy S f)
  | satisfyMap {h} {α : Type} (f : S.Tok → Option α) : Plain R toks h (fun _ => True) (satisfyMap S f)
  | token {h} (c) : Plain R toks h (fun _ => True) (token S c)
  | tokens {h} {τ : Type} (cmp : τ → S.Tok → Bool) (x) (ts) :
      Plain R toks h (fun _ => True) (tokens S cmp x ts)
  | tokensCmp {h} {τ : Type} (ts : List τ) (cmp : τ → S.Tok → Bool) :
      Plain R toks h (fun _ => True) (tokensCmp S ts cmp)
  | position {h} : Plain R toks h (fun _ => True) (position S)
  | oneOf {h} (ts) : Plain R toks h (fun _ => True) (oneOf S ts)
  | noneOf {h} (ts) : Plain R toks h (fun _ => True) (noneOf S ts)
  | value {h} {α : Type} (v : α) : Plain R toks h (fun _ => True) (value S v)
  | produce {h} {α : Type} (f : Unit → α) : Plain R toks h (fun _ => True) (produce S f)
  | eof {h} : Plain R toks h (fun _ => True) (eof S)
  -- combinator.rs
  | notFollowedBy {h} {σ α : Type} {p : Parser S σ α} :
      Built R p → Plain R toks h (fun _ => True) (notFollowedBy p)
  | attempt {σ α : Type} {Q : σ → Prop} {p : Parser S σ α} :
      Plain R toks true Q p → Plain R toks true Q (attempt p)
  | lookAhead {h} {σ α : Type} {p : Parser S σ α} :
      Built R p → Plain R toks h (fun _ => True) (lookAhead p)
  | map {h} {σ α β : Type} {Q : σ → Prop} {p : Parser S σ α} (f : α → β) :
      Plain R toks h Q p → Plain R toks h Q (map p f)
  | mapInput {h} {σ α β : Type} {Q : σ → Prop} {p : Parser S σ α} (f : α → S.Input → β × S.Input) :
      (∀ a i, (f a i).2 = i) → Plain R toks h Q p → Plain R toks h Q (mapInput p f)
  | flatMap {h} {σ α β : Type} {Q : σ → Prop} {p : Parser S σ α} (f : α → Except S.Err β) :
      Plain R toks h Q p → Plain R toks h Q (flatMap p f)
  | andThen {h} {σ α β : Type} {Q : σ → Prop} {p : Parser S σ α} (f : α → Except S.SErr β) :
      Plain R toks h Q p → Plain R toks h Q (andThen p f)
  | recognize {h} {σ α : Type} {Q : σ → Prop} {p : Parser S σ α} :
      S.Positioned → Plain R toks h Q p → Plain R toks h (fun s => Q s.2) (recognize p)
  | eitherLeft {h} {σ α : Type} {Q : σ → Prop} {p : Parser S σ α} (τ : Type) :
      Plain R toks h Q p → Plain R toks h (fun s => ∀ x, s = some (.inl x) → Q x) (eitherLeft p τ)
  | eitherRight {h} {τ α : Type} {Q : τ → Prop} {p : Parser S τ α} (σ : Type) :
      Plain R toks h Q p → Plain R toks h (fun s => ∀ x, s = some (.inr x) → Q x) (eitherRight p σ)
  | noPartial {h} {σ α : Type} {p : Parser S σ α} :
      Fresh R toks p → Plain R toks h (fun _ => True) (noPartial p)
  | ignore {h} {σ α : Type} {Q : σ → Prop} {p : Parser S σ α} :
      Plain R toks h Q p → Plain R toks h Q (ignore p)
  | anyPartialState {h} {σ α : Type} {Q : σ → Prop} {p : Parser S σ α} :
      Plain R toks h Q p → Plain R toks h (fun s => ∀ x, s = some x → Q x) (anyPartialState p)
  | lazyP {h} {σ α : Type} {Q : σ → Prop} {f : Unit → Parser S σ α} :
      Plain R toks h Q (f ()) → Plain R toks h Q (lazyP f)
  | factory {h} {σ α : Type} {Q : σ → Prop} {f : S.Input → Parser S σ α} (init : σ) :
      Q init → (∀ i, Plain R toks h Q (f i)) → Plain R toks h (fun s => Q s.2) (factory f init)
  | fromStr {h} {σ α β : Type} {Q : σ → Prop} {p : Parser S σ α} (u : α → Option String)
      (f : String → Except String β) : Plain R toks h Q p → Plain R toks h Q (fromStr p u f)
  | opaqueP {h} {σ α : Type} {Q : σ → Prop} {p : Parser S σ α} :
      Plain R toks h Q p → Plain R toks h Q (opaqueP p)
  | boxed {h} {σ α : Type} {Q : σ → Prop} {p : Parser S σ α} :
      Plain R toks h Q p → Plain R toks h Q (boxed p)
  | parserMacro {h} {σ α : Type} {Q : σ → Prop} {p : Parser S σ α} :
      Plain R toks h Q p → Plain R toks h Q (parserMacro p)
  | parserMacroUnit {h} {σ α : Type} {p : Parser S σ α} :
      Fresh R toks p → Plain R toks h (fun _ => True) (parserMacroUnit p)
  | fnParser {h} {α : Type} (f : S.Input → StdResult α S.Err × S.Input) :
      (∀ i, ∃ ts, S.Reads i ts (f i).2) → (∀ i, S.Tells i (ParseResult.ofStd (f i).1) (f i).2) →
      Plain R toks h (fun _ => True) (fnParser S f)
  | inputConverter {h} {T : Strm} {σ α : Type} (p : Parser T σ α)
      (convert : S.Input → Except S.Err T.Input) (back : S.Input → T.Input → S.Input)
      (convertError : S.Input → T.Err → S.Err) :
      (∀ m i j s, convert i = .ok j → ∃ ts, S.Reads i ts (back i (p.run m j s).inp)) →
      (∀ i j s, convert i = .ok j → S.Tells i (p.run true j s).res (back i (p.run true j s).inp)) →
      Plain R toks h (fun _ => True) (inputConverter p convert back convertError)
  | bottom {h} {σ α : Type} (F : Parser S σ α → Parser S σ α) (init : σ) :
      Plain R toks h (fun _ => True) (recur F init 0)
  -- error.rs
  | unexpected {h} (α : Type) (x) : Plain R toks h (fun _ => True) (unexpected S α x)
  | message {h} {σ α : Type} {Q : σ → Prop} {p : Parser S σ α} (x) :
      Plain R toks h Q p → Plain R toks h Q (message p x)
  | expected {h} {σ α : Type} {Q : σ → Prop} {p : Parser S σ α} (x) :
      Plain R toks h Q p → Plain R toks h Q (expected p x)
  | silent {h} {σ α : Type} {Q : σ → Prop} {p : Parser S σ α} :
      Plain R toks h Q p → Plain R toks h Q (silent p)
  | spanned {h} {P σ α : Type} [DecidableEq P] (a : S.Pos → Span P) (b : Span P → S.Pos) {Q : σ → Prop}
      {p : Parser S σ α} : Plain R toks h Q p → Plain R toks h Q (spanned a b p)
  -- sequence.rs
  | tuple {h} {σ τ α β : Type} {Q : σ → Prop} {D : τ → Prop} {p : Parser S σ α} {ps : Seq S τ β} :
      Plain R toks h Q p → PlainSeq R toks h D ps →
      Plain R toks h (fun s => Q s.head ∧ D s.tail) (tuple p ps)
  | «with» {h} {σ τ α β : Type} {Q : σ → Prop} {C : τ → Prop} {p : Parser S σ α} {q : Parser S τ β} :
      Plain R toks h Q p → Plain R toks h C q →
      Plain R toks h (fun s => Q s.head ∧ C s.tail.1.2) («with» p q)
  | skip {h} {σ τ α β : Type} {Q : σ → Prop} {C : τ → Prop} {p : Parser S σ α} {q : Parser S τ β} :
      Plain R toks h Q p → Plain R toks h C q →
      Plain R toks h (fun s => Q s.head ∧ C s.tail.1.2) (skip p q)
  | between {h} {σ τ υ α β γ : Type} {Q : σ → Prop} {C : τ → Prop} {D : υ → Prop}
      {o : Parser S σ α} {c : Parser S υ γ} {p : Parser S τ β} :
      Plain R toks h Q o → Plain R toks h D c → Plain R toks h C p →
      Plain R toks h (fun s => Q s.head ∧ C s.tail.1.2 ∧ D s.tail.2.1.2) (between o c p)
  | thenP {h} {σ τ α β : Type} {Q : σ → Prop} {C : τ → Prop} {p : Parser S σ α} {f : α → Parser S τ β}
      (n : τ) : C n → Plain R toks h Q p → (∀ a, Plain R toks h C (f a)) →
      Plain R toks h (fun s => Q s.1 ∧ C s.2.2) (thenP p f n)
  | thenPartial {h} {σ τ α β : Type} {Q : σ → Prop} {C : τ → Prop} {p : Parser S σ α}
      {f : α → Parser S τ β × α} (n : τ) : C n → Plain R toks h Q p → (∀ a, Plain R toks h C (f a).1) →
      Plain R toks h (fun s => Q s.1 ∧ C s.2.2) (thenPartial p f n)
  | thenRef {h} {σ τ α β : Type} {Q : σ → Prop} {C : τ → Prop} {p : Parser S σ α} {f : α → Parser S τ β}
      (n : τ) : C n → Plain R toks h Q p → (∀ a, Plain R toks h C (f a)) →
      Plain R toks h (fun s => Q s.1 ∧ C s.2.2) (thenRef p f n)
  -- choice.rs
  | choice {h} {σ α : Type} {ps : Alts S α σ} :
      FreshAlts R toks ps → Plain R toks h (fun _ => True) (choice ps)
  | or {h} {σ τ α : Type} {p : Parser S σ α} {q : Parser S τ α} :
      Fresh R toks p → Fresh R toks q → Plain R toks h (fun _ => True) (or p q)
  | sliceChoice {h} {σ α : Type} {Q : σ → Prop} (all : List (Parser S σ α)) (init : σ) :
      Q init → (∀ q ∈ all, Plain R toks h Q q) → Plain R toks h (fun s => Q s.2) (sliceChoice all init)
  | optional {h} {σ α : Type} {Q : σ → Prop} {p : Parser S σ α} :
      Plain R toks h Q p → Plain R toks h Q (optional p)
  | dispatch {h} {σ α : Type} {D : σ → Prop} {ps : Alts S α σ} (k : Nat) :
      PlainAlts R toks h D ps → Plain R toks h (fun s => ∀ x, s = some x → D x) (dispatch ps k)
  -- repeat.rs
  | many {h} {σ α : Type} {Q : σ → Prop} {p : Parser S σ α} :
      Plain R toks h Q p → Plain R toks h (fun s => Q s.2) (many p)
  | many1 {h} {σ α : Type} {Q : σ → Prop} {p : Parser S σ α} :
      Plain R toks h Q p → Plain R toks h (fun s => Q s.child) (many1 p)
  | countMinMax {h} {σ α : Type} {Q : σ → Prop} {p : Parser S σ α} (lo hi) :
      Plain R toks h Q p → Plain R toks h (fun s => Q s.child) (countMinMax lo hi p)
  | count {h h'} {σ α : Type} {Q : σ → Prop} {p : Parser S σ α} (n) :
      Plain R toks h' Q p → Plain R toks h (fun _ => True) (count n p)
  | skipCount {h h'} {σ α : Type} {Q : σ → Prop} {p : Parser S σ α} (n) :
      Plain R toks h' Q p → Plain R toks h (fun _ => True) (skipCount n p)
  | skipCountMinMax {h} {σ α : Type} {Q : σ → Prop} {p : Parser S σ α} (lo hi) :
      Plain R toks h Q p → Plain R toks h (fun s => Q s.head.child) (skipCountMinMax lo hi p)
  | skipMany {h} {σ α : Type} {Q : σ → Prop} {p : Parser S σ α} :
      Plain R toks h Q p → Plain R toks h (fun s => Q s.2) (skipMany p)
  | skipMany1 {h} {σ α : Type} {Q : σ → Prop} {p : Parser S σ α} :
      Plain R toks h Q p → Plain R toks h (fun s => Q s.child) (skipMany1 p)
  | sepBy {h h'} {σ τ α β : Type} {Q : σ → Prop} {C : τ → Prop} {p : Parser S σ α} {q : Parser S τ β} :
      Plain R toks h' Q p → Plain R toks h' C q → Plain R toks h (fun _ => True) (sepBy p q)
  | sepBy1 {h} {σ τ α β : Type} {Q : σ → Prop} {C : τ → Prop} {p : Parser S σ α} {q : Parser S τ β} :
      Plain R toks h Q p → Plain R toks h C q →
      Plain R toks h (fun s => s.1 = none ∧ C s.2.2.head ∧ Q s.2.2.tail.1.2) (sepBy1 p q)
  | sepEndBy {h h'} {σ τ α β : Type} {Q : σ → Prop} {C : τ → Prop} {p : Parser S σ α} {q : Parser S τ β} :
      Plain R toks h' Q p → Plain R toks h' C q → Plain R toks h (fun _ => True) (sepEndBy p q)
  /-- not kept after a hard failure: `parsed_one` remembers the commitment -/
  | sepEndBy1 {h} {σ τ α β : Type} {Q : σ → Prop} {C : τ → Prop} {p : Parser S σ α} {q : Parser S τ β} :
      Plain R toks h Q p → Plain R toks h C q →
      Plain R toks false (fun s => s.1 = none ∧ C s.2.2.head ∧ Q s.2.2.tail.1.2) (sepEndBy1 p q)
  /-- not kept after a hard failure: `l_state` remembers the operand and the commitment -/
  | chainl1 {h} {σ τ α : Type} {Q : σ → Prop} {C : τ → Prop} {p : Parser S σ α}
      {op : Parser S τ (α → α → α)} : ModeBlind p →
      Plain R toks h Q p → Plain R toks h C op →
      Plain R toks false (fun s => s.1 = none ∧ C s.2.head ∧ Q s.2.tail.1.2) (chainl1 p op)
  | chainr1 {h} {σ τ α : Type} {p : Parser S σ α} {op : Parser S τ (α → α → α)} :
      Fresh R toks p → Fresh R toks op → Plain R toks h (fun _ => True) (chainr1 p op)
  | takeUntil {h} {σ α : Type} {e : Parser S σ α} :
      Built R e → Quiet e → Plain R toks h (fun _ => True) (takeUntil e)
  | skipUntil {h} {σ α : Type} {e : Parser S σ α} :
      Built R e → Quiet e → Plain R toks h (fun _ => True) (skipUntil e)
  | repeatUntil {h} {σ τ α β : Type} {Q : σ → Prop} {p : Parser S σ α} {e : Parser S τ β} :
      Plain R toks h Q p → Built R e → Quiet e → Plain R toks h (fun s => Q s.parseSt) (repeatUntil p e)
  | repeatSkipUntil {h} {σ τ α β : Type} {Q : σ → Prop} {p : Parser S σ α} {e : Parser S τ β} :
      Plain R toks h Q p → Built R e → Quiet e →
      Plain R toks h (fun s => Q s.head.parseSt) (repeatSkipUntil p e)
  | escaped {h} {σ τ α β : Type} {p : Parser S σ α} {q : Parser S τ β} (esc) :
      Fresh R toks p → Stays p → Fresh R toks q → Commits q →
      Plain R toks h (fun _ => True) (escaped p esc q)
  /-- not kept after a hard failure: `committed` is remembered -/
  | iterate {h} {J σ α : Type} {Q : σ → Prop} (items : List J) {f : J → S.Input → Parser S σ α} (init : σ) :
      Q init → (∀ x i, Plain R toks h Q (f x i)) →
      Plain R toks false (fun s => s.committed = false ∧ Q s.next) (iterate items f init)
  -- range.rs
  | range {h} (r) : toks r ≠ [] → Plain R toks h (fun _ => True) (range R r)
  | take {h} (n) : Plain R toks h (fun _ => True) (take R n)
  | takeWhile {h} (f) : Plain R toks h (fun _ => True) (takeWhile R f)
  | takeWhile1 {h} (f) : Plain R toks h (fun _ => True) (takeWhile1 R f)
  | recognizeWithValue {h} {σ α : Type} {p : Parser S σ α} :
      Built R p → Plain R toks h (fun _ => True) (recognizeWithValue R p)
  | recognizeRange {h} {σ α : Type} {p : Parser S σ α} :
      Built R p → Plain R toks h (fun _ => True) (recognizeRange R p)
  | takeUntilRange {h} (r) : Plain R toks h (fun _ => True) (takeUntilRange R r)
  | takeFn {h} (f) : Plain R toks h (fun _ => True) (takeFn R f)
  | lengthPrefix {h} {σ α : Type} {p : Parser S σ α} (f : α → Except S.SErr Nat) :
      Fresh R toks p → Plain R toks h (fun _ => True) (lengthPrefix R p f)
  -- byte.rs, char.rs, regex.rs
  | satisfyNamed {h} (f) (n) : Plain R toks h (fun _ => True) (satisfyNamed S f n)
  | spaces {h} (f) (n) : Plain R toks h (fun _ => True) (spaces S f n)
  | newline {h} (lf) : Plain R toks h (fun _ => True) (newline S lf)
  | crlf {h} (cr lf) : Plain R toks h (fun _ => True) (crlf S cr lf)
  | stringCmp {h} {τ α : Type} (ts : List τ) (cmp : τ → S.Tok → Bool) (x) (v : α) :
      Plain R toks h (fun _ => True) (stringCmp S ts cmp x v)
  | takeUntilByte {h} (b f) : Plain R toks h (fun _ => True) (takeUntilByte R b f)
  | takeUntilBytes {h} (b n) : Plain R toks h (fun _ => True) (takeUntilBytes R b n)
  | intParser {h} {α : Type} (n) (conv : List S.Tok → α) : n ≠ 0 →
      Plain R toks h (fun _ => True) (intParser S n conv)
  | regexMatch {h} (re) : Plain R toks h (fun _ => True) (regexMatch R re)
  | regexFind {h} (re) : Plain R toks h (fun _ => True) (regexFind R re)
  | regexFindMany {h} (re) : Plain R toks h (fun _ => True) (regexFindMany R re)
  | regexCaptures {h} (re) : Plain R toks h (fun _ => True) (regexCaptures R re)
  | regexCapturesMany {h} (re) : Plain R toks h (fun _ => True) (regexCapturesMany R re)

/-- The members of a tuple. -/
inductive PlainSeq {S : Strm} (R : RangeOps S) [DecidableEq S.Tok] [DecidableEq S.Rng]
    (toks : S.Rng → List S.Tok) : Bool → {τ β : Type} → (τ → Prop) → Seq S τ β → Prop where
  | nil {h} : PlainSeq R toks h (fun _ => True) .nil
  | cons {h} {σ τ α β : Type} {Q : σ → Prop} {D : τ → Prop} {p : Parser S σ α} {ps : Seq S τ β} :
      Plain R toks h Q p → PlainSeq R toks h D ps →
      PlainSeq R toks h (fun t => Q t.1.2 ∧ D t.2) (.cons p ps)

/-- The arms of `dispatch!`. -/
inductive PlainAlts {S : Strm} (R : RangeOps S) [DecidableEq S.Tok] [DecidableEq S.Rng]
    (toks : S.Rng → List S.Tok) : Bool → {τ α : Type} → (τ → Prop) → Alts S α τ → Prop where
  | last {h} {σ α : Type} {Q : σ → Prop} {p : Parser S σ α} :
      Plain R toks h Q p → PlainAlts R toks h Q (.last p)
  | cons {h} {σ τ α : Type} {Q : σ → Prop} {D : τ → Prop} {p : Parser S σ α} {ps : Alts S α τ} :
      Plain R toks h Q p → PlainAlts R toks h D ps →
      PlainAlts R toks h (Sum.elim Q D) (.cons p ps)

/-- Compositions that tell the truth when started with a default state. -/
inductive Fresh {S : Strm} (R : RangeOps S) [DecidableEq S.Tok] [DecidableEq S.Rng]
    (toks : S.Rng → List S.Tok) : {σ α : Type} → Parser S σ α → Prop where
  | plain {h} {σ α : Type} {Q : σ → Prop} {p : Parser S σ α} : Plain R toks h Q p → Fresh R toks p
  | attempt {σ α : Type} {p : Parser S σ α} : Fresh R toks p → Fresh R toks (attempt p)
  | optional {σ α : Type} {p : Parser S σ α} : Fresh R toks p → Fresh R toks (optional p)
  | map {σ α β : Type} {p : Parser S σ α} (f : α → β) : Fresh R toks p → Fresh R toks (map p f)
  | expected {σ α : Type} {p : Parser S σ α} (x) : Fresh R toks p → Fresh R toks (expected p x)
  | message {σ α : Type} {p : Parser S σ α} (x) : Fresh R toks p → Fresh R toks (message p x)
  | boxed {σ α : Type} {p : Parser S σ α} : Fresh R toks p → Fresh R toks (boxed p)
  | parserMacro {σ α : Type} {p : Parser S σ α} : Fresh R toks p → Fresh R toks (parserMacro p)
  | tuple {σ τ α β : Type} {p : Parser S σ α} {ps : Seq S τ β} :
      Fresh R toks p → FreshSeq R toks ps → Fresh R toks (tuple p ps)
  /-- here the first operand may be any that starts anew when resumed from its default state -/
  | chainl1 {h} {σ τ α : Type} {Q : σ → Prop} {C : τ → Prop} {p : Parser S σ α}
      {op : Parser S τ (α → α → α)} : StartsAnew p →
      Plain R toks h Q p → Plain R toks h C op → Fresh R toks (chainl1 p op)

/-- The members of a tuple started with default states. -/
inductive FreshSeq {S : Strm} (R : RangeOps S) [DecidableEq S.Tok] [DecidableEq S.Rng]
    (toks : S.Rng → List S.Tok) : {τ β : Type} → Seq S τ β → Prop where
  | nil : FreshSeq R toks .nil
  | cons {σ τ α β : Type} {p : Parser S σ α} {ps : Seq S τ β} :
      Fresh R toks p → FreshSeq R toks ps → FreshSeq R toks (.cons p ps)

/-- The alternatives of a choice: it tries each with a default state. -/
inductive FreshAlts {S : Strm} (R : RangeOps S) [DecidableEq S.Tok] [DecidableEq S.Rng]
    (toks : S.Rng → List S.Tok) : {τ α : Type} → Alts S α τ → Prop where
  | last {σ α : Type} {p : Parser S σ α} : Fresh R toks p → FreshAlts R toks (.last p)
  | cons {σ τ α : Type} {p : Parser S σ α} {ps : Alts S α τ} :
      Fresh R toks p → FreshAlts R toks ps → FreshAlts R toks (.cons p ps)
end

end Verif
