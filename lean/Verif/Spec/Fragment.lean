import Verif.Spec.Resume

/-!
# The parsers that can be fed

`Frag … p D k r`: the parser `p` belongs to the fragment of the library that can be handed its input in
pieces, and `D` is what it is supposed to do.  Whether a state left behind may be used for a fresh start is
tracked by two flags: `k`, after a success, and `r`, after a failure without commitment.  Repetitions and
choices that keep a state need them.

`FragSeq`, `FragAlts`, `FragAll` and `FragArms` are the same for the members of a tuple, the alternatives
of a choice, the continuations of `then` and the arms of `dispatch!`.
-/

namespace Verif

/-- What is known of the ranges of a stream: `toks` are the tokens of a range, `wt` is the size of a token,
`mkR` makes a range out of tokens, `bytes` and `byte` are the bytes of a range and of a token. -/
structure Ranges (S : Strm) where
  ops : RangeOps S
  toks : S.Rng → List S.Tok
  wt : S.Tok → Nat
  mkR : List S.Tok → S.Rng
  bytes : S.Rng → List UInt8
  byte : S.Tok → UInt8

/-- The range operations obey their laws. -/
structure Ranges.Lawful {S : Strm} (V : Ranges S) : Prop where
  ops : V.ops.Lawful V.toks V.wt
  mkR : ∀ r, V.mkR (V.toks r) = r

/-- They do, and every token has size one: slices, but not `&str`. -/
structure Ranges.Units {S : Strm} (V : Ranges S) : Prop where
  ops : V.ops.Units V.toks V.wt
  mkR : ∀ r, V.mkR (V.toks r) = r
  bytes : ∀ r, V.bytes r = (V.toks r).map V.byte

variable {S : Strm} [DecidableEq S.Tok] [DecidableEq S.Rng]

mutual

/-- The parsers that can be fed. -/
inductive Frag (V : Ranges S) :
    {σ α : Type} → Parser S σ α → Den S.Tok α → (k r : Bool) → Prop where
  | weaken {σ α : Type} {p : Parser S σ α} {D : Den S.Tok α} {k r k' r' : Bool} :
      Frag V p D k r → (k' = true → k = true) → (r' = true → r = true) → Frag V p D k' r'
  -- token.rs
  | any : Frag V (any S) (.tok some) true true
  | satisfy (f) : Frag V (satisfy S f) (.tok fun t => if f t then some t else none) true true
  | satisfyMap {α : Type} (f : S.Tok → Option α) : Frag V (satisfyMap S f) (.tok f) true true
  | token (c) : Frag V (token S c) (.tok fun t => if t = c then some t else none) true true
  | oneOf (ts) : Frag V (oneOf S ts) (.tok fun t => if t ∈ ts then some t else none) true true
  | noneOf (ts) : Frag V (noneOf S ts) (.tok fun t => if t ∈ ts then none else some t) true true
  | value {α : Type} (v : α) : Frag V (value S v) (.pure v) true true
  | produce {α : Type} (f : Unit → α) : Frag V (produce S f) (.pure (f ())) true true
  | unexpected (α : Type) (x) : Frag V (unexpected S α x) .never true true
  -- combinator.rs, error.rs
  | map {σ α β : Type} {p : Parser S σ α} {D : Den S.Tok α} {k r : Bool} (f : α → β) :
      Frag V p D k r → Frag V (map p f) (D.map f) k r
  | ignore {σ α : Type} {p : Parser S σ α} {D : Den S.Tok α} {k r : Bool} :
      Frag V p D k r → Frag V (ignore p) (D.map fun _ => ()) k r
  | flatMap {σ α β : Type} {p : Parser S σ α} {D : Den S.Tok α} {k r r' : Bool} (f : α → Except S.Err β) :
      Frag V p D k r → (r' = true → r = true ∧ (k = true ∨ D.Consuming)) →
      Frag V (flatMap p f) (D.bind fun v => .ofExcept (f v)) k r'
  | andThen {σ α β : Type} {p : Parser S σ α} {D : Den S.Tok α} {k r : Bool} (f : α → Except S.SErr β) :
      Frag V p D k r → D.Consuming → Frag V (andThen p f) (D.bind fun v => .ofExcept (f v)) k r
  | noPartial {σ α : Type} {p : Parser S σ α} {D : Den S.Tok α} {k r : Bool} :
      Frag V p D k r → Frag V (noPartial p) D true true
  | lookAhead {σ α : Type} {p : Parser S σ α} {D : Den S.Tok α} {k r : Bool} : V.Lawful →
      Frag V p D k r → Frag V (lookAhead p) (Den.peek D) true true
  | recognize {σ α : Type} {p : Parser S σ α} {D : Den S.Tok α} {k r : Bool} :
      Frag V p D k r → Frag V (recognize p) ((D.consumed id).map Prod.fst) k r
  | eitherLeft {σ α : Type} {p : Parser S σ α} {D : Den S.Tok α} {k r : Bool} (τ : Type) :
      Frag V p D k r → Frag V (eitherLeft p τ) D k r
  | eitherRight {τ α : Type} {p : Parser S τ α} {D : Den S.Tok α} {k r : Bool} (σ : Type) :
      Frag V p D k r → Frag V (eitherRight p σ) D k r
  | anyPartialState {σ α : Type} {p : Parser S σ α} {D : Den S.Tok α} {k r : Bool} :
      Frag V p D k r → Frag V (anyPartialState p) D k r
  | lazyP {σ α : Type} {f : Unit → Parser S σ α} {D : Den S.Tok α} {k r : Bool} :
      Frag V (f ()) D k r → Frag V (lazyP f) D k r
  | opaqueP {σ α : Type} {p : Parser S σ α} {D : Den S.Tok α} {k r : Bool} :
      Frag V p D k r → Frag V (opaqueP p) D k r
  | boxed {σ α : Type} {p : Parser S σ α} {D : Den S.Tok α} {k r : Bool} :
      Frag V p D k r → Frag V (boxed p) D k r
  | parserMacro {σ α : Type} {p : Parser S σ α} {D : Den S.Tok α} {k r : Bool} :
      Frag V p D k r → Frag V (parserMacro p) D k r
  | message {σ α : Type} {p : Parser S σ α} {D : Den S.Tok α} {k r : Bool} (x) :
      Frag V p D k r → Frag V (message p x) D k r
  | expected {σ α : Type} {p : Parser S σ α} {D : Den S.Tok α} {k r : Bool} (x) :
      Frag V p D k r → Frag V (expected p x) D k r
  | silent {σ α : Type} {p : Parser S σ α} {D : Den S.Tok α} {k r : Bool} :
      Frag V p D k r → Frag V (silent p) D k r
  -- sequence.rs
  | tuple {σ τ α β : Type} {p : Parser S σ α} {ps : Seq S τ β} {D : Den S.Tok α} {E : Den S.Tok β} {k r r' : Bool} :
      Frag V p D k r → FragSeq V ps E k → (r' = true → r = true ∧ D.Firm E) → Frag V (tuple p ps) (D.seq E) k r'
  | «with» {σ τ α β : Type} {p : Parser S σ α} {q : Parser S τ β} {D : Den S.Tok α} {E : Den S.Tok β} {k r r₂ r' : Bool} :
      Frag V p D k r → Frag V q E k r₂ → (r' = true → r = true ∧ D.Firm E) → Frag V («with» p q) (D.bind fun _ => E) k r'
  | skip {σ τ α β : Type} {p : Parser S σ α} {q : Parser S τ β} {D : Den S.Tok α} {E : Den S.Tok β} {k r r₂ r' : Bool} :
      Frag V p D k r → Frag V q E k r₂ → (r' = true → r = true ∧ D.Firm E) →
      Frag V (skip p q) (D.bind fun v => E.map fun _ => v) k r'
  | between {σ τ υ α β γ : Type} {o : Parser S σ α} {p : Parser S τ β} {c : Parser S υ γ}
      {O : Den S.Tok α} {P : Den S.Tok β} {C : Den S.Tok γ} {k r r₂ r₃ r' : Bool} :
      Frag V o O k r → Frag V p P k r₂ → Frag V c C k r₃ →
      (r' = true → r = true ∧ O.Firm (P.bind fun v => C.map fun _ => v)) →
      Frag V (between o c p) (O.bind fun _ => P.bind fun v => C.map fun _ => v) k r'
  | thenP {σ τ α β : Type} {p : Parser S σ α} {f : α → Parser S τ β} {n : τ} {D : Den S.Tok α}
      {F : α → Den S.Tok β} {k r k₂ r₂ r' : Bool} :
      Frag V p D k r → FragAll V f F k₂ r₂ n →
      (r' = true → r = true ∧ (k = true ∧ r₂ = true ∨ ∀ v, D.Firm (F v))) →
      Frag V (thenP p f n) (D.bind F) (k && k₂) r'
  | thenRef {σ τ α β : Type} {p : Parser S σ α} {f : α → Parser S τ β} {n : τ} {D : Den S.Tok α}
      {F : α → Den S.Tok β} {k r k₂ r₂ r' : Bool} :
      Frag V p D k r → FragAll V f F k₂ r₂ n →
      (r' = true → r = true ∧ (k = true ∧ r₂ = true ∨ ∀ v, D.Firm (F v))) →
      Frag V (thenRef p f n) (D.bind fun v => (F v).map fun x => (v, x)) (k && k₂) r'
  | thenPartial {σ τ α β : Type} {p : Parser S σ α} {f : α → Parser S τ β} {n : τ} {D : Den S.Tok α}
      {F : α → Den S.Tok β} {k r k₂ r₂ r' : Bool} :
      Frag V p D k r → FragAll V f F k₂ r₂ n →
      (r' = true → r = true ∧ (k = true ∧ r₂ = true ∨ ∀ v, D.Firm (F v))) →
      Frag V (thenPartial p (fun v => (f v, v)) n) (D.bind F) (k && k₂) r'
  -- choice.rs
  | choice {σ α : Type} {ps : Alts S α σ} {D : Den S.Tok α} : FragAlts V ps D → Frag V (choice ps) D true true
  | or {σ τ α : Type} {p : Parser S σ α} {q : Parser S τ α} {D E : Den S.Tok α} {k r k₂ r₂ : Bool} :
      Frag V p D k r → Frag V q E k₂ r₂ → Frag V (or p q) (D.or E) true true
  | optional {σ α : Type} {p : Parser S σ α} {D : Den S.Tok α} {k r : Bool} :
      Frag V p D k r → Frag V (optional p) D.optional (k && r) true
  | dispatch {σ α : Type} {ps : Alts S α σ} {F : Nat → Den S.Tok α} {k r : Bool} {n : σ} (j : Nat) :
      FragArms V ps F k r n → Frag V (dispatch ps j) (F j) k r
  -- repeat.rs
  | many {σ α : Type} {p : Parser S σ α} {D : Den S.Tok α} {r : Bool} :
      Frag V p D true r → D.Consuming → Frag V (many p) D.many r true
  | many1 {σ α : Type} {p : Parser S σ α} {D : Den S.Tok α} {r : Bool} :
      Frag V p D true r → D.Consuming → Frag V (many1 p) D.many1 r r
  | sepEndBy1 {σ τ α β : Type} {p : Parser S σ α} {q : Parser S τ β} {D : Den S.Tok α} {E : Den S.Tok β} {r : Bool} :
      Frag V p D true true → Frag V q E true r → E.Consuming → Frag V (sepEndBy1 p q) (D.sepEndBy1 E) r true
  | sepEndBy {σ τ α β : Type} {p : Parser S σ α} {q : Parser S τ β} {D : Den S.Tok α} {E : Den S.Tok β} {r : Bool} :
      Frag V p D true true → Frag V q E true r → E.Consuming → Frag V (sepEndBy p q) (D.sepEndBy E) true true
  | chainl1 {σ τ α : Type} {p : Parser S σ α} {q : Parser S τ (α → α → α)} {D : Den S.Tok α} {E : Den S.Tok (α → α → α)}
      {r r' : Bool} : Frag V p D true r → Frag V q E true r' → E.Consuming → Frag V (chainl1 p q) (D.chainl1 E) r' r
  | skipMany {σ α : Type} {p : Parser S σ α} {D : Den S.Tok α} {r : Bool} :
      Frag V p D true r → D.Consuming → Frag V (skipMany p) (D.many.map fun _ => ()) r true
  | skipMany1 {σ α : Type} {p : Parser S σ α} {D : Den S.Tok α} {r : Bool} :
      Frag V p D true r → D.Consuming → Frag V (skipMany1 p) (D.many1.map fun _ => ()) r r
  | countMinMax {σ α : Type} {p : Parser S σ α} {D : Den S.Tok α} {r r' : Bool} {lo hi : Nat} :
      Frag V p D true r → lo ≤ hi → (r' = true → r = true ∧ D.Consuming) →
      Frag V (countMinMax lo hi p) (D.count lo hi) r r'
  | skipCountMinMax {σ α : Type} {p : Parser S σ α} {D : Den S.Tok α} {r r' : Bool} {lo hi : Nat} :
      Frag V p D true r → lo ≤ hi → (r' = true → r = true ∧ D.Consuming) →
      Frag V (skipCountMinMax lo hi p) ((D.count lo hi).map fun _ => ()) r r'
  | iterate {J σ α : Type} (items : List J) {f : J → Parser S σ α} {F : J → Den S.Tok α} {r r' : Bool} {n : σ} :
      FragAll V f F true r n → (r' = true → r = true ∧ ∀ x, (F x).Consuming) →
      Frag V (iterate items (fun x _ => f x) n) (.iterate F items) true r'
  -- range.rs
  | range {r} : V.Units → V.toks r ≠ [] → Frag V (range V.ops r) (.text (V.toks r) r) true true
  | take (n) : V.Units → Frag V (take V.ops n) (.exactly n V.mkR) true true
  | takeWhile (f) : V.Lawful → Frag V (takeWhile V.ops f) (.span f V.mkR) true true
  | takeWhile1 (f) : V.Lawful → Frag V (takeWhile1 V.ops f) (.span1 f V.mkR) true true
  | recognizeWithValue {σ α : Type} {p : Parser S σ α} {D : Den S.Tok α} {k r : Bool} : V.Lawful →
      Frag V p D k r → Frag V (recognizeWithValue V.ops p) (D.consumed V.mkR) k r
  | recognizeRange {σ α : Type} {p : Parser S σ α} {D : Den S.Tok α} {k r : Bool} : V.Lawful →
      Frag V p D k r → Frag V (recognizeRange V.ops p) ((D.consumed V.mkR).map Prod.fst) k r
  | takeUntilRange (r) : V.Units → Frag V (takeUntilRange V.ops r) (.upToSoft (Den.cut id (V.toks r)) V.mkR) true false
  -- byte.rs
  | satisfyNamed (f) (n) : Frag V (satisfyNamed S f n) (.tok fun t => if f t then some t else none) true true
  | spaces (f) (n) :
      Frag V (spaces S f n) ((Den.tok fun t => if f t then some t else none).many.map fun _ => ()) true true
  | newline (lf) : Frag V (newline S lf) (.tok fun t => if t = lf then some t else none) true true
  | crlf (cr lf) : Frag V (crlf S cr lf)
      ((Den.tok fun t => if t = cr then some t else none).bind fun _ => .tok fun t => if t = lf then some t else none) true true
  | intParser {α : Type} {n : Nat} (conv : List S.Tok → α) : n ≠ 0 → Frag V (intParser S n conv) (.exactly n conv) true true
  | takeUntilByte (f) : V.Units →
      Frag V (takeUntilByte V.ops V.bytes f) (.upTo (Den.cutAt fun t => f (V.byte t)) V.mkR) true true
  | takeUntilBytes (needle) : V.Units →
      Frag V (takeUntilBytes V.ops V.bytes needle) (.upTo (Den.cut V.byte needle) V.mkR) true true

/-- All members of a tuple but the first. -/
inductive FragSeq (V : Ranges S) : {τ β : Type} → Seq S τ β → Den S.Tok β → (k : Bool) → Prop where
  | nil {k : Bool} : FragSeq V .nil (.pure ()) k
  | cons {σ τ α β : Type} {p : Parser S σ α} {ps : Seq S τ β} {D : Den S.Tok α} {E : Den S.Tok β} {k r : Bool} :
      Frag V p D k r → FragSeq V ps E k → FragSeq V (.cons p ps) (D.seq E) k

/-- The alternatives of a choice. -/
inductive FragAlts (V : Ranges S) : {σ α : Type} → Alts S α σ → Den S.Tok α → Prop where
  | last {σ α : Type} {p : Parser S σ α} {D : Den S.Tok α} {k r : Bool} : Frag V p D k r → FragAlts V (.last p) D
  | cons {σ τ α : Type} {p : Parser S σ α} {ps : Alts S α τ} {D E : Den S.Tok α} {k r : Bool} :
      Frag V p D k r → FragAlts V ps E → FragAlts V (.cons p ps) (D.or E)

/-- Continuations: those without state, a single one, one whose value only says how often to repeat, the arms of a
`dispatch!`, and sequences of two such. -/
inductive FragAll (V : Ranges S) : {γ τ β : Type} → (γ → Parser S τ β) → (γ → Den S.Tok β) →
    (k r : Bool) → (n : τ) → Prop where
  | unit {γ β : Type} {f : γ → Parser S Unit β} {F : γ → Den S.Tok β} {k r : Bool} :
      (∀ v, Frag V (f v) (F v) k r) → FragAll V f F k r ()
  | const {γ τ β : Type} {p : Parser S τ β} {D : Den S.Tok β} {k r : Bool} :
      Frag V p D k r → FragAll V (fun _ : γ => p) (fun _ => D) k r p.init
  | countMinMax {γ τ β : Type} {p : Parser S τ β} {D : Den S.Tok β} {r r' : Bool} {lo hi : γ → Nat} :
      Frag V p D true r → (∀ v, lo v ≤ hi v) → (r' = true → r = true ∧ D.Consuming) →
      FragAll V (fun v => countMinMax (lo v) (hi v) p) (fun v => D.count (lo v) (hi v)) r r' ⟨0, [], p.init⟩
  | dispatch {γ σ α : Type} {ps : Alts S α σ} {F : Nat → Den S.Tok α} {k r : Bool} {n : σ} (sel : γ → Nat) :
      FragArms V ps F k r n → FragAll V (fun v => dispatch ps (sel v)) (fun v => F (sel v)) k r none
  | map {γ τ β δ : Type} {f : γ → Parser S τ β} {F : γ → Den S.Tok β} {k r : Bool} {n : τ} (g : γ → β → δ) :
      FragAll V f F k r n → FragAll V (fun v => map (f v) (g v)) (fun v => (F v).map (g v)) k r n
  | pair {γ σ τ α β : Type} {f : γ → Parser S σ α} {F : γ → Den S.Tok α} {g : γ → Parser S τ β} {G : γ → Den S.Tok β}
      {k r r₂ r' : Bool} {n : σ} {n₂ : τ} :
      FragAll V f F k r n → FragAll V g G k r₂ n₂ → (r' = true → r = true ∧ ∀ v, (F v).Firm ((G v).seq (.pure ()))) →
      FragAll V (fun v => pair (f v) (g v)) (fun v => (F v).seq ((G v).seq (.pure ()))) k r'
        ⟨none, n, ((none, n₂), ()), 0⟩
  | «with» {γ σ τ α β : Type} {f : γ → Parser S σ α} {F : γ → Den S.Tok α} {g : γ → Parser S τ β} {G : γ → Den S.Tok β}
      {k r r₂ r' : Bool} {n : σ} {n₂ : τ} :
      FragAll V f F k r n → FragAll V g G k r₂ n₂ → (r' = true → r = true ∧ ∀ v, (F v).Firm (G v)) →
      FragAll V (fun v => «with» (f v) (g v)) (fun v => (F v).bind fun _ => G v) k r' ⟨none, n, ((none, n₂), ()), 0⟩
  | skip {γ σ τ α β : Type} {f : γ → Parser S σ α} {F : γ → Den S.Tok α} {g : γ → Parser S τ β} {G : γ → Den S.Tok β}
      {k r r₂ r' : Bool} {n : σ} {n₂ : τ} :
      FragAll V f F k r n → FragAll V g G k r₂ n₂ → (r' = true → r = true ∧ ∀ v, (F v).Firm (G v)) →
      FragAll V (fun v => skip (f v) (g v)) (fun v => (F v).bind fun x => (G v).map fun _ => x) k r'
        ⟨none, n, ((none, n₂), ()), 0⟩

/-- The arms of a `dispatch!`. -/
inductive FragArms (V : Ranges S) : {σ α : Type} → Alts S α σ → (Nat → Den S.Tok α) → (k r : Bool) → (n : σ) → Prop where
  | last {σ α : Type} {p : Parser S σ α} {D : Den S.Tok α} {k r : Bool} :
      Frag V p D k r → FragArms V (.last p) (fun _ => D) k r p.init
  | cons {σ τ α : Type} {p : Parser S σ α} {ps : Alts S α τ} {D : Den S.Tok α} {F : Nat → Den S.Tok α} {k r : Bool} {n : τ} :
      Frag V p D k r → FragArms V ps F k r n →
      FragArms V (.cons p ps) (fun j => match j with | 0 => D | j + 1 => F j) k r (.inl p.init)

end

end Verif
