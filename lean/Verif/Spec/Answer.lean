import Verif.Model.Parser
import Verif.Spec.Laws

/-!
# What a caller sees of a parser call, and reference combinators on that level

`Answer` forgets the partial state, the content of uncommitted errors and where a failed parser left
the stream.  The reference combinators below say what each combinator should do, in terms of the
answers of its parts only.  They mention no stream operation, state or checkpoint.
-/

namespace Verif

/-- The answer of a parser: a value, whether it committed and the remaining input; a failure without
commitment; a committed failure; or a panic / endless loop. -/
inductive Answer (I E α : Type) where
  | ok (committed : Bool) (v : α) (rest : I)
  | soft
  | hard (e : E)
  | abort (a : Abort)

/-- Answers as a function of the input. -/
abbrev Sem (I E α : Type) := I → Answer I E α

/-- Read off the answer of a result. -/
def Answer.of {I E α : Type} : ParseResult α E → I → Answer I E α
  | .commitOk v, j => .ok true v j
  | .peekOk v, j => .ok false v j
  | .commitErr e, _ => .hard e
  | .peekErr _, _ => .soft
  | .abort a, _ => .abort a

/-- The answer of a call. -/
def Out.answer {S : Strm} {σ α : Type} (o : Out S σ α) : Answer S.Input S.Err α :=
  Answer.of o.res o.inp

/-- The answer of a parser that starts anew on `i`. -/
def Parser.answer {S : Strm} {σ α : Type} (p : Parser S σ α) : Sem S.Input S.Err α :=
  fun i => (p.run true i p.init).answer

namespace Answer

variable {I E α β : Type}

/-- Forget which error a committed failure carries. -/
def shape : Answer I E α → Answer I Unit α
  | ok c v j => ok c v j
  | soft => soft
  | hard _ => hard ()
  | abort a => abort a

/-- Change the value. -/
def map (f : α → β) : Answer I E α → Answer I E β
  | ok c v j => ok c (f v) j
  | soft => soft
  | hard e => hard e
  | abort a => abort a

/-- After a part that committed, everything is committed. -/
def after (c : Bool) : Answer I Unit α → Answer I Unit α
  | ok c' v j => ok (c || c') v j
  | soft => if c then hard () else soft
  | hard e => hard e
  | abort a => abort a

end Answer

/-- The answer without the content of errors. -/
def Parser.shape {S : Strm} {σ α : Type} (p : Parser S σ α) : Sem S.Input Unit α :=
  fun i => (p.answer i).shape

namespace Ref

variable {I E α β γ : Type}

/-- Success of a parser, without the input. -/
def value (v : α) : Sem I E α := fun i => .ok false v i

/-- Change the value only. -/
def map (m : Sem I E α) (f : α → β) : Sem I E β := fun i => (m i).map f

/-- Run `m`, then what `f` gives for its value, where `m` stopped. -/
def bind (m : Sem I Unit α) (f : α → Sem I Unit β) : Sem I Unit β := fun i =>
  match m i with
  | .ok c v j => (f v j).after c
  | .soft => .soft
  | .hard e => .hard e
  | .abort a => .abort a

/-- The first alternative that does not fail softly, each on the original input. -/
def choice : List (Sem I E α) → Sem I E α
  | [], _ => .soft
  | m :: ms, i =>
    match m i with
    | .soft => choice ms i
    | r => r

/-- A soft failure is a success without value, on the original input. -/
def optional (m : Sem I E α) : Sem I E (Option α) := fun i =>
  match m i with
  | .ok c v j => .ok c (some v) j
  | .soft => .ok false none i
  | .hard e => .hard e
  | .abort a => .abort a

/-- Every failure is soft. -/
def attempt (m : Sem I E α) : Sem I E α := fun i =>
  match m i with
  | .hard _ => .soft
  | r => r

/-- Succeed where `m` does, but consume nothing. -/
def lookAhead (m : Sem I E α) : Sem I E α := fun i =>
  match m i with
  | .ok _ v _ => .ok false v i
  | r => r

/-- Succeed where `m` fails; consume nothing. -/
def notFollowedBy (m : Sem I E α) : Sem I E Unit := fun i =>
  match m i with
  | .ok _ _ _ => .soft
  | .soft => .ok false () i
  | .hard _ => .ok false () i
  | .abort a => .abort a

/-- Several successes of `m` one after the other: the values, whether one committed, and where the
last stopped. -/
inductive Run (m : Sem I E α) : I → List α → Bool → I → Prop where
  | nil (i : I) : Run m i [] false i
  | cons {i j k : I} {c d : Bool} {v : α} {vs : List α} :
      m i = .ok c v j → Run m j vs d k → Run m i (v :: vs) (c || d) k

/-- `a` is the answer of greedy repetition: the longest run of successes, unless what comes after it
is a committed failure. -/
def IsMany (m : Sem I E α) (i : I) (a : Answer I E (List α)) : Prop :=
  ∃ vs c k, Run m i vs c k ∧
    match m k with
    | .ok _ _ _ => False
    | .soft => a = .ok c vs k
    | .hard e => a = .hard e
    | .abort x => a = .abort x

end Ref

/-! ## Hypotheses on sub-parsers -/

/-- A parser that consumes at least one token whenever it succeeds. -/
def Consuming {S : Strm} {σ α : Type} (p : Parser S σ α) : Prop :=
  ∀ i c v j, p.answer i = .ok c v j → ∃ t ts, S.Reads i (t :: ts) j

/-- A parser that starts anew gives the same answer whatever an earlier, abandoned call left in its
state. -/
def Forgetful {S : Strm} {σ α : Type} (p : Parser S σ α) : Prop :=
  ∀ s i, (p.run true i s).answer = p.answer i

/-- Started anew from a state satisfying `Clean` the parser answers as from the default state, and when
it succeeds or fails softly the state it leaves is `Clean` again. -/
structure ReusableIn {S : Strm} {σ α : Type} (Clean : σ → Prop) (p : Parser S σ α) : Prop where
  init : Clean p.init
  same : ∀ s, Clean s → ∀ i, (p.run true i s).answer = p.answer i
  ok : ∀ s, Clean s → ∀ i, (p.run true i s).res.isOk = true → Clean (p.run true i s).st
  soft : ∀ s, Clean s → ∀ i e, (p.run true i s).res = .peekErr e → Clean (p.run true i s).st

/-- A parser whose state can be used again, without clearing it, after a success or a soft failure. -/
def Reusable {S : Strm} {σ α : Type} (p : Parser S σ α) : Prop := ∃ Clean, ReusableIn Clean p

/-- Outcomes after which the state must be clean again; `h`: committed failures too. -/
def ParseResult.kept {E α : Type} (h : Bool) : ParseResult α E → Bool
  | .commitOk _ => true
  | .peekOk _ => true
  | .peekErr _ => true
  | .commitErr _ => h
  | .abort _ => false

/-- Calls that start anew from a clean state give the same result, and leave a clean state. -/
structure Keeps {S : Strm} {σ α : Type} (h : Bool) (Clean : σ → Prop) (p : Parser S σ α) : Prop where
  init : Clean p.init
  same : ∀ s s', Clean s → Clean s' → ∀ i, (p.run true i s).res = (p.run true i s').res ∧
    (p.run true i s).inp = (p.run true i s').inp
  keep : ∀ s, Clean s → ∀ i, (p.run true i s).res.kept h = true → Clean (p.run true i s).st

end Verif
