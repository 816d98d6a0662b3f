import Verif.Spec.Behaved
import Verif.Model.Byte

/-!
# Parsing an input that arrives in pieces

`Outcome`/`Den`: what a parser should do, as a function of the tokens that are left and of whether more
may follow.  No stream, state, mode or position occurs.

`feed`: hand an input to a parser in pieces, the way `decode` does: after a request for more, the tokens
that were not consumed and the next piece are parsed with the state the parser left behind.
-/

namespace Verif

/-- The first `n` tokens left in an input. -/
def Strm.leftN (S : Strm) : Nat → S.Input → List S.Tok
  | 0, _ => []
  | n + 1, i =>
    match S.uncons i with
    | (.ok t, j) => t :: S.leftN n j
    | (.error _, _) => []

/-- All tokens left in an input. -/
def Strm.left (S : Strm) (i : S.Input) : List S.Tok := S.leftN (S.size i) i

/-- Streams that can be fed: reads fail at the end of the input only, the errors made of that are
recognised and stay recognisable, and the position changes with every token. -/
structure Strm.Feedable (S : Strm) : Prop where
  lawful : S.Lawful
  ends : S.EndsOnly
  eoi : S.E.isEoiS S.E.endOfInput = true
  from_error : ∀ p e, S.E.isEoiS e = true → S.E.isEoi (S.E.fromError p e) = true
  add : ∀ e x, S.E.isEoi e = true → S.E.isEoi (S.E.add e x) = true
  clear : ∀ e, S.E.isEoi e = true → S.E.isEoi (S.E.clearExpected e) = true
  advances : ∀ {i t ts j}, S.Reads i (t :: ts) j → S.position j ≠ S.position i

/-- What a parser should do: succeed (having consumed something or not), ask for more input, or fail
without or after having committed. -/
inductive Outcome (T α : Type) where
  | ok (committed : Bool) (v : α) (rest : List T)
  | pend
  | soft
  | hard

/-- The outcome for given tokens; the flag says whether more may follow. -/
abbrev Den (T α : Type) := Bool → List T → Outcome T α

namespace Outcome

variable {T α β : Type}

def map (f : α → β) : Outcome T α → Outcome T β
  | ok c v r => ok c (f v) r
  | pend => pend
  | soft => soft
  | hard => hard

/-- The same outcome with more tokens behind the input. -/
def extend (x : List T) : Outcome T α → Outcome T α
  | ok c v r => ok c v (r ++ x)
  | pend => pend
  | soft => soft
  | hard => hard

/-- After something that committed, everything is committed. -/
def after (c : Bool) : Outcome T α → Outcome T α
  | ok c' v r => ok (c || c') v r
  | pend => pend
  | soft => if c then hard else soft
  | hard => hard

end Outcome

namespace Den

variable {T α β γ : Type}

/-- Too few tokens. -/
def short (b : Bool) : Outcome T α := if b then .pend else .soft

/-- One token, accepted and turned into a value by `f`. -/
def tok (f : T → Option α) : Den T α
  | b, [] => short b
  | _, t :: ts =>
    match f t with
    | some v => .ok true v ts
    | none => .soft

/-- Success without reading. -/
def pure (v : α) : Den T α := fun _ a => .ok false v a

/-- Failure without reading. -/
def never : Den T α := fun _ _ => .soft

/-- A value, or failure. -/
def ofExcept {E : Type} : Except E α → Den T α
  | .ok v => pure v
  | .error _ => never

/-- Change the value. -/
def map (D : Den T α) (f : α → β) : Den T β := fun b a => (D b a).map f

/-- One after the other. -/
def bind (D : Den T α) (F : α → Den T β) : Den T β := fun b a =>
  match D b a with
  | .ok c v r => (F v b r).after c
  | .pend => .pend
  | .soft => .soft
  | .hard => .hard

/-- Both, one after the other. -/
def seq (D : Den T α) (E : Den T β) : Den T (α × β) := bind D fun v => map E fun y => (v, y)

/-- The first that does not fail softly. -/
def or (D E : Den T α) : Den T α := fun b a =>
  match D b a with
  | .soft => E b a
  | x => x

/-- A soft failure is a success without value. -/
def optional (D : Den T α) : Den T (Option α) := or (map D some) (pure none)

/-- The value without consuming anything. -/
def peek (D : Den T α) : Den T α := fun b a =>
  match D b a with
  | .ok _ v _ => .ok false v a
  | x => x

/-- At most `n` times, as often as possible. -/
def manyN (D : Den T α) : Nat → Den T (List α)
  | 0, _, _ => .hard
  | n + 1, b, a =>
    match D b a with
    | .ok c v r => ((manyN D n b r).map (v :: ·)).after c
    | .pend => .pend
    | .soft => .ok false [] a
    | .hard => .hard

/-- As often as possible (for parsers that consume something when they succeed). -/
def many (D : Den T α) : Den T (List α) := fun b a => manyN D (a.length + 1) b a

/-- As often as possible, and at least once. -/
def many1 (D : Den T α) : Den T (List α) := bind D fun v => map (many D) (v :: ·)

/-- As often as possible, at least `lo` and at most `hi` times. -/
def count (D : Den T α) : (lo hi : Nat) → Den T (List α)
  | _, 0, _, a => .ok false [] a
  | lo, hi + 1, b, a =>
    match D b a with
    | .ok c v r => ((count D (lo - 1) hi b r).map (v :: ·)).after c
    | .pend => .pend
    | .soft => if lo = 0 then .ok false [] a else .soft
    | .hard => .hard

/-- One for each item, in order. -/
def iterate {J : Type} (F : J → Den T α) : List J → Den T (List α)
  | [] => pure []
  | x :: xs => bind (F x) fun v => map (iterate F xs) (v :: ·)

/-- At most `n` times, as often as possible: a separator and an element; the last element may be missing. -/
def sepEndN (D : Den T α) (E : Den T β) : Nat → Den T (List α)
  | 0, _, _ => .hard
  | n + 1, b, a =>
    match E b a with
    | .ok c _ r =>
      match D b r with
      | .ok c' v r' => ((sepEndN D E n b r').map (v :: ·)).after (c || c')
      | .pend => .pend
      | .soft => .ok c [] r
      | .hard => .hard
    | .pend => .pend
    | .soft => .ok false [] a
    | .hard => .hard

/-- Elements with separators between them, and perhaps one at the end; at least one element. -/
def sepEndBy1 (D : Den T α) (E : Den T β) : Den T (List α) :=
  bind D fun v => map (fun b a => sepEndN D E (a.length + 1) b a) (v :: ·)

/-- Elements with separators between them, and perhaps one at the end. -/
def sepEndBy (D : Den T α) (E : Den T β) : Den T (List α) := or (sepEndBy1 D E) (pure [])

/-- At most `n` times, as often as possible: an operator and an operand, combined with what is on the left. -/
def chainN (D : Den T α) (E : Den T (α → α → α)) : Nat → α → Den T α
  | 0, _, _, _ => .hard
  | n + 1, l, b, a =>
    match E b a with
    | .ok c op r =>
      match D b r with
      | .ok c' x r' => (chainN D E n (op l x) b r').after (c || c')
      | .pend => .pend
      | .soft => if c then .hard else .ok false l a
      | .hard => .hard
    | .pend => .pend
    | .soft => .ok false l a
    | .hard => .hard

/-- Operands with operators between them, combined from the left. -/
def chainl1 (D : Den T α) (E : Den T (α → α → α)) : Den T α :=
  bind D fun l b a => chainN D E (a.length + 1) l b a

/-- Exactly `n` tokens. -/
def exactly (n : Nat) (f : List T → α) : Den T α := fun b a =>
  if n ≤ a.length then .ok (n != 0) (f (a.take n)) (a.drop n) else short b

/-- The given tokens. -/
def text [DecidableEq T] (ts : List T) (v : α) : Den T α := fun b a =>
  if ts.length ≤ a.length then
    if a.take ts.length = ts then .ok true v (a.drop ts.length) else .soft
  else short b

/-- The longest prefix of tokens satisfying `f`. -/
def span (f : T → Bool) (mk : List T → α) : Den T α := fun b a =>
  if b && a.all f then .pend
  else .ok (!(a.takeWhile f).isEmpty) (mk (a.takeWhile f)) (a.dropWhile f)

/-- The longest prefix of tokens satisfying `f`, if there are any. -/
def span1 (f : T → Bool) (mk : List T → α) : Den T α := fun b a =>
  if b && a.all f then .pend
  else if (a.takeWhile f).isEmpty then .soft
  else .ok true (mk (a.takeWhile f)) (a.dropWhile f)

/-- The value together with the tokens consumed. -/
def consumed (D : Den T α) (mk : List T → β) : Den T (β × α) := fun b a =>
  match D b a with
  | .ok c v r => .ok c (mk (a.take (a.length - r.length)), v) r
  | .pend => .pend
  | .soft => .soft
  | .hard => .hard

/-- Split before the first suffix that starts with `needle`; `byte` is what is compared. -/
def cut {U : Type} [DecidableEq U] (byte : T → U) (needle : List U) : List T → Option (List T × List T)
  | [] => if needle = [] then some ([], []) else none
  | t :: ts =>
    if needle <+: (t :: ts).map byte then some ([], t :: ts)
    else (cut byte needle ts).map fun x => (t :: x.1, x.2)

/-- Split before the first token satisfying `f`. -/
def cutAt (f : T → Bool) : List T → Option (List T × List T)
  | [] => none
  | t :: ts => if f t then some ([], t :: ts) else (cutAt f ts).map fun x => (t :: x.1, x.2)

/-- Everything up to where `split` splits. -/
def upTo (split : List T → Option (List T × List T)) (mk : List T → α) : Den T α := fun b a =>
  match split a with
  | some (p, r) => .ok (!p.isEmpty) (mk p) r
  | none => if b then .pend else if a.isEmpty then .soft else .hard

/-- Everything up to where `split` splits; nothing else is a reason to commit. -/
def upToSoft (split : List T → Option (List T × List T)) (mk : List T → α) : Den T α := fun b a =>
  match split a with
  | some (p, r) => .ok (!p.isEmpty) (mk p) r
  | none => short b

/-- Success always consumes something. -/
def Consuming (D : Den T α) : Prop := ∀ b a c v r, D b a = .ok c v r → r.length < a.length

/-- After `D` has succeeded without consuming anything, `E` does not fail softly. -/
def Firm (D : Den T α) (E : Den T β) : Prop :=
  ∀ b a v, D b a = .ok false v a → E b a ≠ .soft

end Den

/-- Ranges whose size is the number of their tokens, and that are refused only for want of tokens. -/
structure RangeOps.Units {S : Strm} (R : RangeOps S) (toks : S.Rng → List S.Tok) (wt : S.Tok → Nat) : Prop where
  lawful : R.Lawful toks wt
  unit : ∀ t, wt t = 1
  short : ∀ {n i e j}, R.unconsRange n i = (.error e, j) → S.E.isEoiS e = true

/-- How feeding ends: with a value, the tokens that are left over and those that were never handed out;
with a request for still more; or with a failure. -/
inductive Fed (T α : Type) where
  | ok (v : α) (rest : List T)
  | more
  | failed

/-- Makes the input of the `n`-th call out of the tokens it is to see and whether more may follow. -/
structure Strm.Source (S : Strm) (mk : Nat → List S.Tok → Bool → S.Input) : Prop where
  left : ∀ n ts more, S.left (mk n ts more) = ts
  isPartial : ∀ n ts more, S.isPartial (mk n ts more) = more

/-- Feed the pieces to `p`.  `s` is the partial state, `u` are the tokens not yet consumed; after the last
piece more may follow if `open_`. -/
def feed {S : Strm} {σ α : Type} (p : Parser S σ α) (mk : Nat → List S.Tok → Bool → S.Input)
    (open_ : Bool) : (n : Nat) → σ → (u : List S.Tok) → List (List S.Tok) → Fed S.Tok α
  | _, _, _, [] => .more
  | n, s, u, c :: cs =>
    let more := open_ || !cs.isEmpty
    match p.parseWithState (mk n (u ++ c) more) s with
    | (.ok v, j, _) => .ok v (S.left j ++ cs.flatten)
    | (.error (.inr e), j, s') =>
      if more && S.E.isEoi e then feed p mk open_ (n + 1) s' (S.left j) cs else .failed
    | (.error (.inl _), _, _) => .failed

end Verif
