import Verif.Model.Choice
import Verif.Model.Position

/-!
# What a well-behaved stream is

`Reads i ts j`: starting from `i`, single-token reads deliver exactly `ts` and leave `j`.
`Lawful`: the expectations of the `Stream` documentation.  They are proved for the library's streams
in `Verif.Proof.Instances`.
-/

namespace Verif

namespace Strm

/-- Reading the tokens `ts` one at a time leads from `i` to `j`. -/
inductive Reads (S : Strm) : S.Input → List S.Tok → S.Input → Prop where
  | nil (i : S.Input) : Reads S i [] i
  | cons {i j k : S.Input} {t : S.Tok} {ts : List S.Tok} :
      S.uncons i = (.ok t, j) → Reads S j ts k → Reads S i (t :: ts) k

/-- A stream whose failing reads change nothing, whose checkpoints can be restored from anywhere
further on, and which is finite. -/
structure Lawful (S : Strm) : Prop where
  /-- a read that fails leaves the stream as it was -/
  uncons_error : ∀ {i e j}, S.uncons i = (.error e, j) → j = i
  /-- going back to a checkpoint restores the stream -/
  reset : ∀ {i ts j}, S.Reads i ts j → S.reset (S.checkpoint i) j = (none, i)
  /-- every read token is one of finitely many -/
  size : ∀ {i t j}, S.uncons i = (.ok t, j) → S.size i = S.size j + 1
  /-- reading does not change whether the input is partial -/
  isPartial : ∀ {i t j}, S.uncons i = (.ok t, j) → S.isPartial j = S.isPartial i

end Strm

/-- No token is left: reading fails. -/
def Strm.AtEnd (S : Strm) (i : S.Input) : Prop := ∃ e, (S.uncons i).1 = .error e

/-- Run a stateful predicate over tokens as long as it accepts: `none` if it rejects one. -/
def accepts {T ς : Type} (f : ς → T → Bool × ς) : ς → List T → Option ς
  | s, [] => some s
  | s, t :: ts =>
    match f s t with
    | (true, s') => accepts f s' ts
    | (false, _) => none

/-- A maximal scan: from `i` the predicate accepts the tokens `ts`, which lead to `j`, and there the
input ends or the predicate rejects the next token.  It was called on exactly these tokens, in order. -/
def Strm.Scan (S : Strm) {ς : Type} (f : ς → S.Tok → Bool × ς) (s : ς) (i : S.Input)
    (ts : List S.Tok) (s' : ς) (j : S.Input) : Prop :=
  S.Reads i ts j ∧ ∃ s1, accepts f s ts = some s1 ∧
    ((S.AtEnd j ∧ s' = s1) ∨ ∃ t k, S.uncons j = (.ok t, k) ∧ f s1 t = (false, s'))

/-- The size of a list of tokens whose sizes are given by `w` (1 for slices, UTF-8 length for `&str`). -/
def weight {T : Type} (w : T → Nat) (ts : List T) : Nat := (ts.map w).sum

/-- A lawful range stream: `toks` gives the tokens a range stands for, `w` the size of a token. -/
structure RangeOps.Lawful {S : Strm} (R : RangeOps S) (toks : S.Rng → List S.Tok)
    (w : S.Tok → Nat) : Prop where
  inj : ∀ {r r'}, toks r = toks r' → r = r'
  pos : ∀ t, 0 < w t
  len : ∀ r, R.len r = weight w (toks r)
  /-- whatever can be read forms a range -/
  exists_range : ∀ {i ts j}, S.Reads i ts j → ∃ r, toks r = ts
  /-- taking a range of size `n` reads tokens of total size `n` … -/
  range_ok : ∀ {n i r j}, R.unconsRange n i = (.ok r, j) → S.Reads i (toks r) j ∧ R.len r = n
  /-- … and fails, changing nothing, only if there is no prefix of that size -/
  range_error : ∀ {n i e j}, R.unconsRange n i = (.error e, j) →
    j = i ∧ ∀ ts k, S.Reads i ts k → weight w ts ≠ n
  /-- the distance is the size of what was read -/
  distance : ∀ {i ts j}, S.Reads i ts j → R.distance j (S.checkpoint i) = weight w ts
  /-- `range` is everything that is left -/
  whole : ∀ i, ∃ j, S.Reads i (toks (R.range i)) j ∧ S.AtEnd j
  while_scan : ∀ {ς : Type} {f : ς → S.Tok → Bool × ς} {s i x s' j},
    R.unconsWhile f s i = ((x, s'), j) → ∃ r, x = .ok r ∧ S.Scan f s i (toks r) s' j
  while1_scan : ∀ {ς : Type} {f : ς → S.Tok → Bool × ς} {s i x s' j},
    R.unconsWhile1 f s i = ((x, s'), j) →
      (∃ r, x = .commitOk r ∧ toks r ≠ [] ∧ S.Scan f s i (toks r) s' j) ∨
      (∃ e, x = .peekErr e ∧ j = i ∧ S.Scan f s i [] s' i)

/-- A lawful positioner: restoring works and a range counts as its tokens. -/
structure Positioner.Lawful {T R : Type} (X : Positioner T R) (toks : R → List T) : Prop where
  reset : ∀ x y, X.reset y (X.checkpoint x) = x
  range : ∀ x r, X.updateRange x r = (toks r).foldl X.update x

/-- Membership of a parser in a tuple after its head. -/
def Seq.Mem {S : Strm} {τ β : Type} : Seq S τ β → (Σ (σ : Type) (α : Type), Parser S σ α) → Prop
  | .nil, _ => False
  | .cons p ps, q => q = ⟨_, _, p⟩ ∨ ps.Mem q

/-- Membership of a parser in the alternatives of a choice. -/
def Alts.Mem {S : Strm} {α τ : Type} : Alts S α τ → (Σ (σ : Type), Parser S σ α) → Prop
  | .last p, q => q = ⟨_, p⟩
  | .cons p ps, q => q = ⟨_, p⟩ ∨ ps.Mem q

end Verif
