import Verif.Model.Wrap
import Verif.Spec.Resume
import Verif.Proof.RangeLemmas
import Verif.Spec.RegexSpec
import Verif.Proof.SliceLaws
import Verif.Proof.StrLaws
import Verif.Proof.WrapLaws

/-!
# C39: regex parsers consume up to the end of the match, for any engine
-/

namespace Verif

variable {S : Strm} {R : RangeOps S} {toks : S.Rng → List S.Tok} {w : S.Tok → Nat} {β : Type}

private theorem reads_split {i j : S.Input} {as bs : List S.Tok} (h : S.Reads i (as ++ bs) j) :
    ∃ k, S.Reads i as k ∧ S.Reads k bs j := by
  induction as generalizing i with
  | nil => exact ⟨i, .nil i, h⟩
  | cons a as ih =>
    obtain ⟨l, h1, h2⟩ := Strm.reads_cons.1 h
    obtain ⟨k, h3, h4⟩ := ih h2
    exact ⟨k, .cons h1 h3, h4⟩

private theorem take_upTo (hR : R.Lawful toks w) (i : S.Input) (e : Nat) (m : S.Rng)
    (h : EndsAt toks w (R.range i) e m) :
    ∃ j r, S.UpTo toks w i e m j ∧ (take R e).lazy i = (if e = 0 then .peekOk r else .commitOk r, j) := by
  obtain ⟨pre, post, h1, rfl⟩ := h
  obtain ⟨l, h2, _⟩ := hR.whole i
  rw [h1] at h2
  obtain ⟨k, h3, _⟩ := reads_split h2
  obtain ⟨r, _, h4⟩ := unconsRangeP_reads hR h3
  exact ⟨k, r, ⟨pre, h3, rfl⟩, h4⟩

private theorem of_take (x : ParseResult S.Rng S.Err × S.Input) (e : Nat) (r : S.Rng) (j : S.Input) (v : β)
    (h : x = (if e = 0 then .peekOk r else .commitOk r, j)) :
    Answer.of (x.1.map fun _ => v) x.2 = .ok (e != 0) v j := by
  subst h
  by_cases he : e = 0
  · simp [he, ParseResult.map, Answer.of]
  · simp [he, ParseResult.map, Answer.of]

private theorem regexAll_end (ms : List (Nat × β)) (x : Nat × β) : (regexAll (ms ++ [x])).1 = x.1 := by
  simp [regexAll]

private theorem take_zero (hR : R.Lawful toks w) (i : S.Input) :
    ∃ r, (take R 0).lazy i = (.peekOk r, i) := by
  obtain ⟨r, _, h⟩ := unconsRangeP_reads hR (.nil i)
  have h' : R.unconsRangeP 0 i = (.peekOk r, i) := by simpa [weight] using h
  exact ⟨r, h'⟩

/-- C39: `match_` succeeds if the engine finds the pattern and never consumes anything. -/
theorem C39_match (re : Regex S.Rng) (m : Bool) (i : S.Input) :
    ((regexMatch R re).run m i ()).inp = i ∧
    (regexMatch R re).answer i = if re.isMatch (R.range i) then .ok false (R.range i) i else .soft := by
  simp only [regexMatch, Parser.answer, Parser.ofLazy]
  by_cases h : re.isMatch (R.range i) = true
  · simp only [if_pos h]; exact ⟨trivial, rfl⟩
  · simp only [if_neg h]; exact ⟨trivial, rfl⟩

/-- C39: `find` returns the first match and consumes exactly up to its end; without a match it fails,
uncommitted. -/
theorem C39_find (hR : R.Lawful toks w) (re : Regex S.Rng) (hre : re.Sound toks w) (i : S.Input) :
    (re.findIter (R.range i) = [] ∧ (regexFind R re).answer i = .soft) ∨
    (∃ e m ms j, re.findIter (R.range i) = (e, m) :: ms ∧ S.UpTo toks w i e m j ∧
      (regexFind R re).answer i = .ok (e != 0) m j) := by
  cases h : re.findIter (R.range i) with
  | nil => refine .inl ⟨rfl, ?_⟩; simp only [regexFind, Parser.answer, Parser.ofLazy, h]; rfl
  | cons x ms =>
    obtain ⟨e, m⟩ := x
    obtain ⟨j, r, h1, h2⟩ := take_upTo hR i e m (hre.find (R.range i) e m (by rw [h]; simp))
    refine .inr ⟨e, m, ms, j, rfl, h1, ?_⟩
    simp only [regexFind, Parser.answer, Parser.ofLazy, h, regexFirst, regexTake]
    exact of_take _ e r j m h2

/-- C39: `find_many` returns all matches, in order, and consumes exactly up to the end of the last one
(nothing, if there is none). -/
theorem C39_find_many (hR : R.Lawful toks w) (re : Regex S.Rng) (hre : re.Sound toks w) (i : S.Input) :
    (re.findIter (R.range i) = [] ∧ (regexFindMany R re).answer i = .ok false [] i) ∨
    (∃ ms e m j, re.findIter (R.range i) = ms ++ [(e, m)] ∧ S.UpTo toks w i e m j ∧
      (regexFindMany R re).answer i = .ok (e != 0) (ms.map (·.2) ++ [m]) j) := by
  rcases List.eq_nil_or_concat (re.findIter (R.range i)) with h | ⟨ms, ⟨e, m⟩, h⟩
  · obtain ⟨r, hr⟩ := take_zero hR i
    refine .inl ⟨h, ?_⟩
    simp only [regexFindMany, Parser.answer, Parser.ofLazy, h]
    change Answer.of (((take R 0).lazy i).1.map fun _ => _) ((take R 0).lazy i).2 = _
    rw [hr]; rfl
  · rw [List.concat_eq_append] at h
    obtain ⟨j, r, h1, h2⟩ := take_upTo hR i e m (hre.find (R.range i) e m (by rw [h]; simp))
    refine .inr ⟨ms, e, m, j, h, h1, ?_⟩
    simp only [regexFindMany, Parser.answer, Parser.ofLazy, h]
    have := of_take _ e r j (ms.map (·.2) ++ [m]) h2
    simpa [regexAll, Out.answer] using this

/-- C39: `captures` returns the groups of the first match and consumes exactly up to the end of that match. -/
theorem C39_captures (hR : R.Lawful toks w) (re : Regex S.Rng) (hre : re.Sound toks w) (i : S.Input) :
    (re.captures (R.range i) = [] ∧ (regexCaptures R re).answer i = .soft) ∨
    (∃ e gs ms m j, re.captures (R.range i) = (e, gs) :: ms ∧ gs.head? = some m ∧ S.UpTo toks w i e m j ∧
      (regexCaptures R re).answer i = .ok (e != 0) gs j) := by
  cases h : re.captures (R.range i) with
  | nil => refine .inl ⟨rfl, ?_⟩; simp only [regexCaptures, Parser.answer, Parser.ofLazy, h]; rfl
  | cons x ms =>
    obtain ⟨e, gs⟩ := x
    obtain ⟨m, hm, hs⟩ := hre.captures (R.range i) e gs (by rw [h]; simp)
    obtain ⟨j, r, h1, h2⟩ := take_upTo hR i e m hs
    refine .inr ⟨e, gs, ms, m, j, rfl, hm, h1, ?_⟩
    simp only [regexCaptures, Parser.answer, Parser.ofLazy, h, regexFirst, regexTake]
    exact of_take _ e r j gs h2

/-- C39: `captures_many`. -/
theorem C39_captures_many (hR : R.Lawful toks w) (re : Regex S.Rng) (hre : re.Sound toks w) (i : S.Input) :
    (re.captures (R.range i) = [] ∧ (regexCapturesMany R re).answer i = .ok false [] i) ∨
    (∃ ms e gs m j, re.captures (R.range i) = ms ++ [(e, gs)] ∧ gs.head? = some m ∧ S.UpTo toks w i e m j ∧
      (regexCapturesMany R re).answer i = .ok (e != 0) (ms.map (·.2) ++ [gs]) j) := by
  rcases List.eq_nil_or_concat (re.captures (R.range i)) with h | ⟨ms, ⟨e, gs⟩, h⟩
  · obtain ⟨r, hr⟩ := take_zero hR i
    refine .inl ⟨h, ?_⟩
    simp only [regexCapturesMany, Parser.answer, Parser.ofLazy, h]
    change Answer.of (((take R 0).lazy i).1.map fun _ => _) ((take R 0).lazy i).2 = _
    rw [hr]; rfl
  · rw [List.concat_eq_append] at h
    obtain ⟨m, hm, hs⟩ := hre.captures (R.range i) e gs (by rw [h]; simp)
    obtain ⟨j, r, h1, h2⟩ := take_upTo hR i e m hs
    refine .inr ⟨ms, e, gs, m, j, h, hm, h1, ?_⟩
    simp only [regexCapturesMany, Parser.answer, Parser.ofLazy, h]
    have := of_take _ e r j (ms.map (·.2) ++ [gs]) h2
    simpa [regexAll, Out.answer] using this

/-! ## Examples -/

private abbrev B := sliceS Nat 1

/-- An engine that looks for single tokens above 4. -/
private def bigFrom : Nat → List Nat → List (Nat × List Nat)
  | _, [] => []
  | k, t :: ts => if 4 < t then (k + 1, [t]) :: bigFrom (k + 1) ts else bigFrom (k + 1) ts

private def big : Regex (List Nat) :=
  ⟨fun r => r.any (4 < ·), bigFrom 0, fun r => (bigFrom 0 r).map fun x => (x.1, [x.2]), "[5-9]"⟩

private theorem bigFrom_ends (pre r : List Nat) (e : Nat) (m : List Nat) (h : (e, m) ∈ bigFrom pre.length r) :
    EndsAt (S := B) id (fun _ => 1) (pre ++ r) e m := by
  induction r generalizing pre with
  | nil => cases h
  | cons t ts ih =>
    have ih' := ih (pre ++ [t])
    simp only [List.length_append, List.length_cons, List.length_nil, List.append_assoc, List.singleton_append] at ih'
    simp only [bigFrom] at h
    by_cases ht : 4 < t
    · rw [if_pos ht] at h
      cases h with
      | head => exact ⟨pre, ts, by simp, by
          have : weight (fun _ : Nat => 1) pre = pre.length := by
            clear ih ih'
            induction pre <;> simp_all [weight, Nat.add_comm]
          simp [weight_append, this]; rfl⟩
      | tail _ h => exact ih' h
    · rw [if_neg ht] at h; exact ih' h

private theorem big_sound : big.Sound (S := B) id (fun _ => 1) where
  find := fun text e m h => bigFrom_ends [] text e m h
  captures := fun text e gs h => by
    obtain ⟨⟨e', m⟩, h1, h2⟩ := List.mem_map.1 h
    cases h2
    exact ⟨m, rfl, bigFrom_ends [] text _ m h1⟩

example (i : B.Input) := C39_find (sliceR_lawful Nat 1) big big_sound i
example : (regexFind (sliceR Nat 1) big).answer ⟨0, [1, 7, 2, 8, 3]⟩ = .ok true [7] ⟨2, [2, 8, 3]⟩ := rfl
example : (regexFindMany (sliceR Nat 1) big).answer ⟨0, [1, 7, 2, 8, 3]⟩ = .ok true [[7], [8]] ⟨4, [3]⟩ := rfl
example : (regexCaptures (sliceR Nat 1) big).answer ⟨0, [1, 7, 2, 8, 3]⟩ = .ok true [[7]] ⟨2, [2, 8, 3]⟩ := rfl
example : (regexFind (sliceR Nat 1) big).answer ⟨0, [1, 2]⟩ = .soft := rfl
example : (regexMatch (sliceR Nat 1) big).answer ⟨0, [1, 7]⟩ = .ok false [1, 7] ⟨0, [1, 7]⟩ := rfl

/-! ## Partial input -/

private abbrev P := maybeS B
private abbrev PR : RangeOps P := maybeR (sliceR Nat 1)
private def mkP (n : Nat) (ts : List Nat) (more : Bool) : P.Input := (⟨100 * n, ts⟩, more)

/-- **C14 fails** for the regex parsers: they do not look at whether more input may follow.  `find` fails where it should ask for
more, `find_many` stops at the end of a piece, and `match_` refuses what a later piece would make match. -/
theorem C14_regex_fails :
    (let p := regexFind PR big;
      p.shape (⟨0, [1, 7]⟩, false) = .ok true [7] (⟨2, []⟩, false) ∧ feed p mkP false 0 p.init [] [[1], [7]] = .failed) ∧
    (let p := regexFindMany PR big;
      p.shape (⟨0, [7, 8]⟩, false) = .ok true [[7], [8]] (⟨2, []⟩, false) ∧
      feed p mkP false 0 p.init [] [[7], [8]] = .ok [[7]] [8]) ∧
    (let p := regexMatch PR big;
      p.shape (⟨0, [1, 7]⟩, false) = .ok false [1, 7] (⟨0, [1, 7]⟩, false) ∧ feed p mkP false 0 p.init [] [[1], [7]] = .failed) := by
  refine ⟨⟨?_, ?_⟩, ⟨?_, ?_⟩, ?_, ?_⟩ <;> rfl

end Verif
