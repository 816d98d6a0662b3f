import Verif.Spec.Sequence

/-!
# Reference semantics of the repetition combinators

Only in terms of the answers of the sub-parsers; `Ref.Run` and `Ref.IsMany` are in `Spec/Answer.lean`.
-/

namespace Verif

namespace Ref

variable {I E α β γ : Type}

/-- At least one: the answer of the first when it fails, otherwise greedy repetition. -/
def IsMany1 (m : Sem I E α) (i : I) (a : Answer I E (List α)) : Prop :=
  match m i with
  | .ok _ _ _ => IsMany m i a
  | .soft => a = .soft
  | .hard e => a = .hard e
  | .abort x => a = .abort x

/-- From `lo` to `hi` times, as often as possible. -/
def IsCount (lo hi : Nat) (m : Sem I Unit α) (i : I) (a : Answer I Unit (List α)) : Prop :=
  ∃ vs c k, Run m i vs c k ∧ vs.length ≤ hi ∧
    if vs.length = hi then a = .ok c vs k
    else
      match m k with
      | .ok _ _ _ => False
      | .soft => a = if lo ≤ vs.length then .ok c vs k else if c then .hard () else .soft
      | .hard e => a = .hard e
      | .abort x => a = .abort x

/-- One element, then greedily: a separator and an element. -/
def IsSepBy1 (p : Sem I Unit α) (sep : Sem I Unit β) (i : I) (a : Answer I Unit (List α)) : Prop :=
  match p i with
  | .ok c v j => ∃ b, IsMany (bind sep fun _ => p) j b ∧ a = (b.map (v :: ·)).after c
  | .soft => a = .soft
  | .hard e => a = .hard e
  | .abort x => a = .abort x

/-- After one element `v` (committed: `c`), greedily: a separator and an element; the list may end with a
separator, which is consumed. -/
def IsSepEndRest (p : Sem I Unit α) (sep : Sem I Unit β) (c : Bool) (v : α) (j : I)
    (a : Answer I Unit (List α)) : Prop :=
  ∃ vs d k, Run (bind sep fun _ => p) j vs d k ∧
    match sep k with
    | .soft => a = .ok (c || d) (v :: vs) k
    | .hard e => a = .hard e
    | .abort x => a = .abort x
    | .ok c' _ k' =>
      match p k' with
      | .ok _ _ _ => False
      | .soft => a = .ok (c || d || c') (v :: vs) k'
      | .hard e => a = .hard e
      | .abort x => a = .abort x

/-- One element, then the rest as above. -/
def IsSepEndBy1 (p : Sem I Unit α) (sep : Sem I Unit β) (i : I) (a : Answer I Unit (List α)) : Prop :=
  match p i with
  | .ok c v j => IsSepEndRest p sep c v j a
  | .soft => a = .soft
  | .hard e => a = .hard e
  | .abort x => a = .abort x

/-- A list or nothing at all. -/
def OrEmpty (is : I → Answer I Unit (List α) → Prop) (i : I) (a : Answer I Unit (List α)) : Prop :=
  ∃ b, is i b ∧ a = match b with
    | .soft => .ok false [] i
    | b => b

/-- One operand, then greedily an operator and an operand; the values are combined from the left. -/
def IsChainl1 (p : Sem I Unit α) (op : Sem I Unit (α → α → α)) (i : I) (a : Answer I Unit α) : Prop :=
  match p i with
  | .ok c v j => ∃ b, IsMany (bind op fun f => map p fun x => (f, x)) j b ∧
      a = (b.map (List.foldl (fun l fx => fx.1 l fx.2) v)).after c
  | .soft => a = .soft
  | .hard e => a = .hard e
  | .abort x => a = .abort x

/-- `v f₁ (x₁ f₂ (x₂ ...))`. -/
def foldRight (v : α) : List ((α → α → α) × α) → α
  | [] => v
  | (f, x) :: rest => f v (foldRight x rest)

end Ref

/-- Resuming from the default state is starting anew. -/
def StartsAnew {S : Strm} {σ α : Type} (p : Parser S σ α) : Prop :=
  ∀ i, p.run false i p.init = p.run true i p.init

/-! ## Until an end marker -/

/-- Tokens read one by one, at each of which `e` fails softly. -/
inductive Strm.Until (S : Strm) {E α : Type} (e : Sem S.Input E α) :
    S.Input → List S.Tok → S.Input → Prop where
  | nil (i) : S.Until e i [] i
  | cons {i j k : S.Input} {t : S.Tok} {ts : List S.Tok} : e i = .soft → S.uncons i = (.ok t, j) →
      S.Until e j ts k → S.Until e i (t :: ts) k

/-- Values of `p` one after the other, before each of which `e` fails softly. -/
inductive Ref.Until {I E α β : Type} (p : Sem I E α) (e : Sem I E β) : I → List α → Bool → I → Prop where
  | nil (i) : Ref.Until p e i [] false i
  | cons {i j k : I} {c d : Bool} {v : α} {vs : List α} : e i = .soft → p i = .ok c v j →
      Ref.Until p e j vs d k → Ref.Until p e i (v :: vs) (c || d) k

/-- All tokens up to the first place where `e` does not fail softly.  Where the input ends first, a partial
stream asks for more (a committed failure). -/
def Strm.IsTakeUntil (S : Strm) {α : Type} (e : Sem S.Input Unit α) (i : S.Input)
    (a : Answer S.Input Unit (List S.Tok)) : Prop :=
  ∃ ts k, S.Until e i ts k ∧
    match e k with
    | .ok c _ _ => a = .ok (!ts.isEmpty || c) ts k
    | .soft => ∃ err k', S.uncons k = (.error err, k') ∧
        a = if S.isPartial k' then .hard () else .soft
    | .hard x => a = .hard x
    | .abort x => a = .abort x

/-- All values of `p` up to the first place where `e` does not fail softly. -/
def Ref.IsRepeatUntil {I E α β : Type} (p : Sem I E α) (e : Sem I E β) (i : I)
    (a : Answer I E (List α)) : Prop :=
  ∃ vs c k, Ref.Until p e i vs c k ∧
    match e k with
    | .ok d _ _ => a = .ok (c || d) vs k
    | .soft =>
      match p k with
      | .ok _ _ _ => False
      | .soft => a = .soft
      | .hard x => a = .hard x
      | .abort x => a = .abort x
    | .hard x => a = .hard x
    | .abort x => a = .abort x

/-- One parser for every item, in order. -/
def Ref.iterate {I J α : Type} (f : J → I → Sem I Unit α) : List J → Sem I Unit (List α)
  | [] => Ref.value []
  | x :: xs => fun i => Ref.bind (f x i) (fun v => Ref.map (Ref.iterate f xs) (v :: ·)) i

/-! ## Escapes -/

/-- Ordinary parts, matched by `p`, and escape sequences: the token `esc`, where `p` fails softly, and
what `q` matches after it.  Reading an escape sequence commits. -/
inductive Strm.Escapes (S : Strm) {α β : Type} (p : Sem S.Input Unit α) (esc : S.Tok)
    (q : Sem S.Input Unit β) : S.Input → Bool → S.Input → Prop where
  | nil (i) : S.Escapes p esc q i false i
  | plain {i j k : S.Input} {c d : Bool} {v : α} : p i = .ok c v j → S.Escapes p esc q j d k →
      S.Escapes p esc q i (c || d) k
  | escape {i j k l : S.Input} {c d : Bool} {v : β} : p i = .soft → S.uncons i = (.ok esc, j) →
      q j = .ok c v k → S.Escapes p esc q k d l → S.Escapes p esc q i true l

/-- Up to the first place where there is neither an ordinary part nor `esc`; `esc` must be followed by
something `q` matches; where the input ends a partial stream asks for more. -/
def Strm.IsEscaped (S : Strm) [DecidableEq S.Tok] {α β : Type} (p : Sem S.Input Unit α) (esc : S.Tok)
    (q : Sem S.Input Unit β) (i : S.Input) (a : Answer S.Input Unit Unit) : Prop :=
  ∃ c k, S.Escapes p esc q i c k ∧
    match p k with
    | .ok _ _ _ => False
    | .hard x => a = .hard x
    | .abort x => a = .abort x
    | .soft =>
      match S.uncons k with
      | (.error _, k') => a = if S.isPartial k' then .hard () else .ok c () k
      | (.ok t, k') =>
        if t = esc then
          match q k' with
          | .ok _ _ _ => False
          | .soft => a = .hard ()
          | .hard x => a = .hard x
          | .abort x => a = .abort x
        else a = .ok c () k

/-- A parser that commits whenever it succeeds. -/
def Commits {S : Strm} {σ α : Type} (p : Parser S σ α) : Prop :=
  ∀ i c v j, p.answer i = .ok c v j → c = true

/-- A parser that, called directly, leaves the input where it was when it fails softly. -/
def Stays {S : Strm} {σ α : Type} (p : Parser S σ α) : Prop :=
  ∀ i e j, p.lazy i = (.peekErr e, j) → j = i

/-! ## Iterators -/

/-- Successive calls of `next` on an iterator, in terms of what a call gives. -/
inductive Nexts {I V : Type} (next : I → Option V × I) : I → List V → I → Prop where
  | nil (i) : Nexts next i [] i
  | cons {i j k : I} {v : V} {vs : List V} : next i = (some v, j) → Nexts next j vs k → Nexts next i (v :: vs) k

end Verif
