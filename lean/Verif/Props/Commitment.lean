import Verif.Proof.Commitment
import Verif.Proof.SliceLaws
import Verif.Proof.StrLaws
import Verif.Proof.Feed
import Verif.Props.Chunks

/-!
# C02: the commit status tells the truth about consumption
-/

namespace Verif

set_option linter.unusedVariables false

variable {S : Strm} {R : RangeOps S} [DecidableEq S.Tok] [DecidableEq S.Rng]
variable {toks : S.Rng → List S.Tok} {w : S.Tok → Nat} {σ τ α β : Type}

/-- **C02.**  A parser (composed as listed in `Fresh`) that answers `PeekOk` has left the stream exactly where
it was; one that answers `CommitOk` has read at least one token. -/
theorem C02_commit_status (hS : S.Lawful) (hR : R.Lawful toks w) {p : Parser S σ α} (hp : Fresh R toks p)
    (i : S.Input) :
    (∀ v j, p.answer i = .ok false v j → j = i) ∧
    (∀ v j, p.answer i = .ok true v j → ∃ t ts, S.Reads i (t :: ts) j) := by
  have h := (fresh_good hS hR hp).2.run i
  simp only [Parser.answer, Out.answer]
  cases hr : (p.run true i p.init).res with
  | commitOk v =>
    rw [hr] at h
    refine ⟨fun v' j e => (nomatch e), fun v' j e => ?_⟩
    cases e
    exact h
  | peekOk v =>
    rw [hr] at h
    refine ⟨fun v' j e => ?_, fun v' j e => (nomatch e)⟩
    cases e
    exact h
  | commitErr e => exact ⟨fun v' j e => (nomatch e), fun v' j e => (nomatch e)⟩
  | peekErr e => exact ⟨fun v' j e => (nomatch e), fun v' j e => (nomatch e)⟩
  | abort e => exact ⟨fun v' j e => (nomatch e), fun v' j e => (nomatch e)⟩

/-- **C02** in the middle of a parse: a parser composed as in `Plain` tells the truth each time it is started, not
only the first: from any state satisfying its predicate, which holds of the default state and again after each
success, soft failure and (`h = true`) hard failure. -/
theorem C02_reused (hS : S.Lawful) (hR : R.Lawful toks w) {h : Bool} {Q : σ → Prop} {p : Parser S σ α}
    (hp : Plain R toks h Q p) :
    Q p.init ∧ ∀ i s, Q s →
      (∀ v, (p.run true i s).res = .peekOk v → (p.run true i s).inp = i) ∧
      (∀ v, (p.run true i s).res = .commitOk v → ∃ t ts, S.Reads i (t :: ts) (p.run true i s).inp) ∧
      ((p.run true i s).res.kept h = true → Q (p.run true i s).st) := by
  have hg := (plain_good hS hR hp).2
  refine ⟨hg.init, fun i s hs => ⟨fun v hv => ?_, fun v hv => ?_, hg.keep i s hs⟩⟩
  · have := hg.run i s hs
    rw [hv] at this
    exact this
  · have := hg.run i s hs
    rw [hv] at this
    exact this

/-- The other two entry points of a parser (`parse_lazy` and `parse_committed_mode`, which the combinators call
in place of `parse_mode`) tell the truth as well. -/
theorem C02_entry_points (hS : S.Lawful) (hR : R.Lawful toks w) {p : Parser S σ α} (hp : Fresh R toks p)
    (i : S.Input) : S.Tells i (p.lazy i).1 (p.lazy i).2 ∧
      S.Tells i (p.committed true i p.init).res (p.committed true i p.init).inp :=
  ⟨(fresh_good hS hR hp).2.lazy i, (fresh_good hS hR hp).2.committed i⟩

/-- **C02** for the parsers of the resumable fragment (C14). -/
theorem C02_fragment {V : Ranges S} {p : Parser S σ α} {D : Den S.Tok α} {k r : Bool}
    (hF : S.Feedable) (hp : Frag V p D k r) (i : S.Input) :
    (∀ v j, p.answer i = .ok false v j → j = i) ∧
    (∀ v j, p.answer i = .ok true v j → ∃ t ts, S.Reads i (t :: ts) j) := by
  have hr := frag_resumable hF hp
  have key : ∀ c v j, p.answer i = .ok c v j → ∃ ts, S.Reads i ts j ∧ c = !ts.isEmpty := by
    intro c v j e
    have hd := den_ok_of_answer hr e
    have hm := C14_denotes hF hp i
    rw [hd] at hm
    obtain ⟨j', e', ⟨ts, hts⟩, _⟩ := hm
    rw [e] at e'
    cases e'
    obtain ⟨Ready, Rep, h, _⟩ := hr
    obtain ⟨x, hx, hc⟩ := (h true).good.read hd
    rw [hF.lawful.left_reads hts] at hx
    exact ⟨ts, hts, (List.append_cancel_right hx) ▸ hc⟩
  refine ⟨fun v j e => ?_, fun v j e => ?_⟩
  · obtain ⟨ts, hts, hc⟩ := key _ _ _ e
    cases ts with
    | nil => exact Strm.reads_nil.1 hts
    | cons t ts => cases hc
  · obtain ⟨ts, hts, hc⟩ := key _ _ _ e
    cases ts with
    | nil => cases hc
    | cons t ts => exact ⟨t, ts, hts⟩

/-! ## Where the code deviates -/

private abbrev B := sliceS Nat 1
private abbrev RB := sliceR Nat 1

private abbrev both {σ τ α β : Type} (p : Parser B σ α) (q : Parser B τ β) := tuple p (.cons q .nil)

/-- `range` of an empty range answers `CommitOk` although nothing was read. -/
theorem C02_empty_range (i : B.Input) : (range RB []).answer i = .ok true [] i := by
  obtain ⟨ptr, data⟩ := i
  rfl

/-- `take_until` commits if its end parser does, although it reads only what comes before (C33). -/
theorem C02_take_until_end :
    (takeUntil (token B 0)).answer ⟨0, [0]⟩ = .ok true [] ⟨0, [0]⟩ := rfl

/-- `escaped` may read an escape token without committing (C42). -/
theorem C02_escaped : ∃ v, (escaped (takeWhile1 RB fun t => t != 9) 9 (value B ())).answer ⟨0, [9]⟩ =
    .ok false v ⟨1, []⟩ := ⟨_, rfl⟩

/-- `sep_end_by1` abandoned inside `attempt` after it had committed: when it is started again it still has the
element it parsed the first time, and answers `CommitOk` with that element although the token there is not even
one it accepts. -/
theorem C02_stale_sep_end_by1 :
    let p := optional (attempt (sepEndBy1 (both (token B 1) (token B 2)) (token B 0)))
    let o := p.run true ⟨0, [1, 2, 0, 1, 3]⟩ p.init
    o.res = .peekOk none ∧ o.inp = ⟨0, [1, 2, 0, 1, 3]⟩ ∧
    (p.run true ⟨0, [7]⟩ o.st).res = .commitOk (some [(1, 2, ())]) ∧
    (p.run true ⟨0, [7]⟩ o.st).inp = ⟨0, [7]⟩ ∧
    p.answer ⟨0, [7]⟩ = .ok false none ⟨0, [7]⟩ := ⟨rfl, rfl, rfl, rfl, rfl⟩

/-- The same happens within one ordinary call of `parse`: a repetition around such an `attempt` returns an element
that is not there.  In `1 2 0 1 3` the second round, which is at `2`, reports a `(1, 2)`. -/
theorem C02_stale_sep_end_by1_in_many :
    let p := optional (attempt (sepEndBy1 (both (token B 1) (token B 2)) (token B 0)))
    (many (skip p (any B))).answer ⟨0, [1, 2, 0, 1, 3]⟩ =
      .ok true [none, some [(1, 2, ())], none, none, none] ⟨5, []⟩ := rfl

/-- `chainl1` abandoned inside `attempt` keeps its left operand. -/
theorem C02_stale_chainl1 :
    let p := optional (attempt (chainl1 (token B 1) (map (both (token B 0) (token B 0)) fun _ => Nat.add)))
    let o := p.run true ⟨0, [1, 0, 5]⟩ p.init
    o.res = .peekOk none ∧ o.inp = ⟨0, [1, 0, 5]⟩ ∧
    (p.run true ⟨0, [7]⟩ o.st).res = .commitOk (some 1) ∧
    (p.run true ⟨0, [7]⟩ o.st).inp = ⟨0, [7]⟩ ∧
    p.answer ⟨0, [7]⟩ = .ok false none ⟨0, [7]⟩ := ⟨rfl, rfl, rfl, rfl, rfl⟩

/-- `iterate` abandoned inside `attempt` keeps its status and what it has put into its collection. -/
theorem C02_stale_iterate :
    let f : Bool → B.Input → Parser B (Option (Unit ⊕ Unit)) (Option Nat) := fun b _ =>
      if b then eitherLeft (optional (token B 1)) Unit
      else eitherRight (map (notFollowedBy (token B 5)) fun _ => none) Unit
    let p := optional (attempt (iterate [true, false] f none))
    let o := p.run true ⟨0, [1, 5]⟩ p.init
    o.res = .peekOk none ∧ o.inp = ⟨0, [1, 5]⟩ ∧
    (p.run true ⟨0, [7]⟩ o.st).res = .commitOk (some [some 1, none, none]) ∧
    (p.run true ⟨0, [7]⟩ o.st).inp = ⟨0, [7]⟩ ∧
    p.answer ⟨0, [7]⟩ = .ok false (some [none, none]) ⟨0, [7]⟩ := ⟨rfl, rfl, rfl, rfl, rfl⟩

/-- A resumed `many` says what this call read, not what the earlier ones did. -/
theorem C02_resumed_many :
    let p := many (token B 1)
    (p.run false ⟨1, []⟩ ([1], ())).res = .peekOk [1] := rfl

/-! ## Examples -/

/-- A list of integers in brackets: `[ 1 , 2 ]`. -/
example : Fresh RB id (between (token B 91) (token B 93) (sepBy (many1 (satisfy B fun t => 48 ≤ t ∧ t ≤ 57)) (token B 44))) :=
  .plain (h := true) (.between (.token _) (.token _)
    (.sepBy (h' := true) (.many1 (.satisfy _)) (.token _)))
example : Fresh RB id (or (map (attempt (both (token B 1) (token B 2))) fun _ => 0)
    (map (both (optional (token B 1)) (many (token B 3))) fun _ => 1)) :=
  .plain (h := true) (.or
    (.map _ (.attempt (.tuple (.plain (h := true) (.token _)) (.cons (.plain (h := true) (.token _)) .nil))))
    (.map _ (.tuple (.plain (h := true) (.optional (.token _)))
      (.cons (.plain (h := true) (.many (.token _))) .nil))))
example : (or (map (attempt (both (token B 1) (token B 2))) fun _ => 0)
    (map (both (optional (token B 1)) (many (token B 3))) fun _ => 1)).answer ⟨0, [1, 3, 3]⟩ = .ok true 1 ⟨3, []⟩ ∧
  (or (map (attempt (both (token B 1) (token B 2))) fun _ => 0)
    (map (both (optional (token B 1)) (many (token B 3))) fun _ => 1)).answer ⟨0, [5]⟩ = .ok false 1 ⟨0, [5]⟩ :=
  ⟨rfl, rfl⟩
/-- A repetition of chains of additions, each closed by a `;`: the states of `chainl1` are used again. -/
example : Fresh RB id (many (skip (chainl1 (token B 1) (map (token B 43) fun _ => Nat.add)) (token B 59))) :=
  .plain (h := false) (.many (.skip
    (.chainl1 (h := false) (fun i s => rfl) (.token _) (.map _ (.token _))) (.token _)))
example : (many (skip (chainl1 (token B 1) (map (token B 43) fun _ => Nat.add)) (token B 59))).answer
    ⟨0, [1, 43, 1, 59, 1, 59, 7]⟩ = .ok true [2, 1] ⟨6, [7]⟩ := rfl
/-- On `&str`. -/
example (i : strS.Input) (v) (j) (h : (tuple (takeWhile strR fun c => c != ',') (.cons (range strR [',', 'é']) .nil)).answer i = .ok true v j) :
    ∃ t ts, strS.Reads i (t :: ts) j :=
  (C02_commit_status str_lawful strR_lawful (.plain (h := true) (.tuple (.takeWhile _) (.cons (.range _ (by simp)) .nil))) i).2 v j h

end Verif
