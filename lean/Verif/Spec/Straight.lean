import Verif.Model.Byte
import Verif.Spec.Lockstep

/-!
# Programs without backtracking

Programs built from the combinators that never go back over a token that was consumed: sequences, choices, repetitions,
labels, ... but not `attempt`, `look_ahead` or `not_followed_by`.
-/

namespace Verif

variable {T Rg P : Type} [DecidableEq P] {E : ErrOps T Rg P}

mutual

/-- A program without `attempt`, `look_ahead` and `not_followed_by`. -/
inductive Straight : {σ α : Type} → ((X : Impl E) → Parser X.strm σ α) → Prop where
  | any : Straight fun X => any X.strm
  | satisfy (f : T → Bool) : Straight fun X => satisfy X.strm f
  | satisfyMap {α : Type} (f : T → Option α) : Straight fun X => satisfyMap X.strm f
  | token [DecidableEq T] (c : T) : Straight fun X => token X.strm c
  | oneOf [DecidableEq T] (ts : List T) : Straight fun X => oneOf X.strm ts
  | noneOf [DecidableEq T] (ts : List T) : Straight fun X => noneOf X.strm ts
  | tokens {κ : Type} (cmp : κ → T → Bool) (x : Info T Rg) (ts : List κ) : Straight fun X => tokens X.strm cmp x ts
  | tokensCmp {κ : Type} (ts : List κ) (cmp : κ → T → Bool) : Straight fun X => tokensCmp X.strm ts cmp
  | position : Straight fun X => position X.strm
  | eof : Straight fun X => eof X.strm
  | value {α : Type} (v : α) : Straight fun X => value X.strm v
  | produce {α : Type} (f : Unit → α) : Straight fun X => produce X.strm f
  | unexpected (α : Type) (x : Info T Rg) : Straight fun X => unexpected X.strm α x
  | bottom {σ α : Type} (F : (X : Impl E) → Parser X.strm σ α → Parser X.strm σ α) (s : σ) : Straight fun X => recur (F X) s 0
  | map {σ α β : Type} {p : (X : Impl E) → Parser X.strm σ α} (f : α → β) : Straight p → Straight fun X => map (p X) f
  | flatMap {σ α β : Type} {p : (X : Impl E) → Parser X.strm σ α} (f : α → Except E.Err β) :
      Straight p → Straight fun X => flatMap (p X) f
  | ignore {σ α : Type} {p : (X : Impl E) → Parser X.strm σ α} : Straight p → Straight fun X => ignore (p X)
  | message {σ α : Type} {p : (X : Impl E) → Parser X.strm σ α} (x : Info T Rg) : Straight p → Straight fun X => message (p X) x
  | expected {σ α : Type} {p : (X : Impl E) → Parser X.strm σ α} (x : Info T Rg) : Straight p → Straight fun X => expected (p X) x
  | silent {σ α : Type} {p : (X : Impl E) → Parser X.strm σ α} : Straight p → Straight fun X => silent (p X)
  | spanned {Q σ α : Type} [DecidableEq Q] {p : (X : Impl E) → Parser X.strm σ α} (f : P → Span Q) (g : Span Q → P) :
      Straight p → Straight fun X => spanned f g (p X)
  | boxed {σ α : Type} {p : (X : Impl E) → Parser X.strm σ α} : Straight p → Straight fun X => boxed (p X)
  | opaqueP {σ α : Type} {p : (X : Impl E) → Parser X.strm σ α} : Straight p → Straight fun X => opaqueP (p X)
  | lazyP {σ α : Type} {p : (X : Impl E) → Parser X.strm σ α} : Straight p → Straight fun X => lazyP fun _ => p X
  | anyPartialState {σ α : Type} {p : (X : Impl E) → Parser X.strm σ α} : Straight p → Straight fun X => anyPartialState (p X)
  | parserMacro {σ α : Type} {p : (X : Impl E) → Parser X.strm σ α} : Straight p → Straight fun X => parserMacro (p X)
  | parserMacroUnit {σ α : Type} {p : (X : Impl E) → Parser X.strm σ α} : Straight p → Straight fun X => parserMacroUnit (p X)
  | tuple {σ τ α β : Type} {p : (X : Impl E) → Parser X.strm σ α} {ps : (X : Impl E) → Seq X.strm τ β} :
      Straight p → StraightSeq ps → Straight fun X => tuple (p X) (ps X)
  | «with» {σ τ α β : Type} {p : (X : Impl E) → Parser X.strm σ α} {q : (X : Impl E) → Parser X.strm τ β} :
      Straight p → Straight q → Straight fun X => «with» (p X) (q X)
  | skip {σ τ α β : Type} {p : (X : Impl E) → Parser X.strm σ α} {q : (X : Impl E) → Parser X.strm τ β} :
      Straight p → Straight q → Straight fun X => skip (p X) (q X)
  | between {σ τ υ α β γ : Type} {o : (X : Impl E) → Parser X.strm σ α} {c : (X : Impl E) → Parser X.strm υ γ}
      {p : (X : Impl E) → Parser X.strm τ β} : Straight o → Straight c → Straight p → Straight fun X => between (o X) (c X) (p X)
  | thenP {σ τ α β : Type} {p : (X : Impl E) → Parser X.strm σ α} {f : (X : Impl E) → α → Parser X.strm τ β} (n : τ) :
      Straight p → (∀ a, Straight fun X => f X a) → Straight fun X => thenP (p X) (f X) n
  | choice {σ α : Type} {ps : (X : Impl E) → Alts X.strm α σ} : StraightAlts ps → Straight fun X => choice (ps X)
  | or {σ τ α : Type} {p : (X : Impl E) → Parser X.strm σ α} {q : (X : Impl E) → Parser X.strm τ α} :
      Straight p → Straight q → Straight fun X => or (p X) (q X)
  | optional {σ α : Type} {p : (X : Impl E) → Parser X.strm σ α} : Straight p → Straight fun X => optional (p X)
  | many {σ α : Type} {p : (X : Impl E) → Parser X.strm σ α} : Straight p → Straight fun X => many (p X)
  | many1 {σ α : Type} {p : (X : Impl E) → Parser X.strm σ α} : Straight p → Straight fun X => many1 (p X)
  | skipMany {σ α : Type} {p : (X : Impl E) → Parser X.strm σ α} : Straight p → Straight fun X => skipMany (p X)
  | skipMany1 {σ α : Type} {p : (X : Impl E) → Parser X.strm σ α} : Straight p → Straight fun X => skipMany1 (p X)
  | countMinMax {σ α : Type} {p : (X : Impl E) → Parser X.strm σ α} (lo hi : Nat) : Straight p → Straight fun X => countMinMax lo hi (p X)
  | count {σ α : Type} {p : (X : Impl E) → Parser X.strm σ α} (n : Nat) : Straight p → Straight fun X => count n (p X)
  | sepBy {σ τ α β : Type} {p : (X : Impl E) → Parser X.strm σ α} {s : (X : Impl E) → Parser X.strm τ β} :
      Straight p → Straight s → Straight fun X => sepBy (p X) (s X)
  | sepBy1 {σ τ α β : Type} {p : (X : Impl E) → Parser X.strm σ α} {s : (X : Impl E) → Parser X.strm τ β} :
      Straight p → Straight s → Straight fun X => sepBy1 (p X) (s X)
  | sepEndBy {σ τ α β : Type} {p : (X : Impl E) → Parser X.strm σ α} {s : (X : Impl E) → Parser X.strm τ β} :
      Straight p → Straight s → Straight fun X => sepEndBy (p X) (s X)
  | sepEndBy1 {σ τ α β : Type} {p : (X : Impl E) → Parser X.strm σ α} {s : (X : Impl E) → Parser X.strm τ β} :
      Straight p → Straight s → Straight fun X => sepEndBy1 (p X) (s X)
  | chainl1 {σ τ α : Type} {p : (X : Impl E) → Parser X.strm σ α} {o : (X : Impl E) → Parser X.strm τ (α → α → α)} :
      Straight p → Straight o → Straight fun X => chainl1 (p X) (o X)

/-- The further members of a sequence. -/
inductive StraightSeq : {τ β : Type} → ((X : Impl E) → Seq X.strm τ β) → Prop where
  | nil : StraightSeq fun _ => .nil
  | cons {σ τ α β : Type} {p : (X : Impl E) → Parser X.strm σ α} {ps : (X : Impl E) → Seq X.strm τ β} :
      Straight p → StraightSeq ps → StraightSeq fun X => .cons (p X) (ps X)

/-- The alternatives of a choice. -/
inductive StraightAlts : {α σ : Type} → ((X : Impl E) → Alts X.strm α σ) → Prop where
  | last {σ α : Type} {p : (X : Impl E) → Parser X.strm σ α} : Straight p → StraightAlts fun X => .last (p X)
  | cons {σ τ α : Type} {p : (X : Impl E) → Parser X.strm σ α} {ps : (X : Impl E) → Alts X.strm α τ} :
      Straight p → StraightAlts ps → StraightAlts fun X => .cons (p X) (ps X)

end

end Verif
