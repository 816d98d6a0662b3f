import Verif.Proof.Fragment
import Verif.Proof.Feed
import Verif.Proof.FeedInst
import Verif.Props.Wrappers

/-!
# C14, C15: parsing an input that arrives in pieces

`Frag` (`Verif.Spec.Fragment`) is the fragment of parsers, `feed` and `Strm.left` (`Verif.Spec.Resume`) say what
it means to be handed the input in pieces.
-/

namespace Verif

variable {S : Strm} [DecidableEq S.Tok] [DecidableEq S.Rng] {V : Ranges S} {σ α β : Type} {p : Parser S σ α}
  {D : Den S.Tok α} {k r : Bool} {mk : Nat → List S.Tok → Bool → S.Input}

/-- What a parser of the fragment does, on any input: it does what its denotation says, which does not know of
streams, states or modes. -/
theorem C14_denotes (hF : S.Feedable) (hp : Frag V p D k r) (i : S.Input) :
    match D (S.isPartial i) (S.left i) with
    | .ok c v l => ∃ j, p.answer i = .ok c v j ∧ S.Reach i j ∧ S.left j = l
    | .pend => ∃ e, p.answer i = .hard e ∧ S.E.isEoi e = true
    | .soft => p.answer i = .soft
    | .hard => ∃ e, p.answer i = .hard e :=
  answer_of_den (frag_resumable hF hp) i

/-- **C14.**  If the whole input, `i`, is accepted with value `v`, then so is the same input in any pieces, with the
same value and the same remainder. -/
theorem C14_chunks (hF : S.Feedable) (hM : S.Source mk) (hp : Frag V p D k r) (chunks : List (List S.Tok))
    (hne : chunks ≠ []) (i : S.Input) (hi : S.left i = chunks.flatten) {c : Bool} {v : α} {j : S.Input}
    (h : p.answer i = .ok c v j) : feed p mk (S.isPartial i) 0 p.init [] chunks = .ok v (S.left j) := by
  have hr := frag_resumable hF hp
  have hd := den_ok_of_answer hr h
  obtain ⟨Ready, Rep, hr, _, hm⟩ := hr
  refine feed_of_den hr hm hM hF.lawful _ chunks 0 p.init [] [] (fun live => ?_) hne (c := c) ?_
  · exact (hr live).ready_rep (hr live).ready_init
  · rw [List.nil_append, List.nil_append, ← hi]
    exact hd

/-- **C14** for `parse` of the whole. -/
theorem C14_parse (hF : S.Feedable) (hV : V.Lawful) (hM : S.Source mk) (hp : Frag V p D k r)
    (chunks : List (List S.Tok)) (hne : chunks ≠ []) (i : S.Input) (hi : S.left i = chunks.flatten) {v : α} {j : S.Input}
    (h : p.parse i = .ok v j) : feed p mk (S.isPartial i) 0 p.init [] chunks = .ok v (S.left j) := by
  obtain ⟨c, h⟩ := ((C41_parse p ((frag_built hp).coherent hF.lawful hV.ops) i).1 v j).1 h
  exact C14_chunks hF hM hp chunks hne i hi h

/-- **C45.**  `iterate(items, |x, _| f(x))` fed in any pieces builds the same collection as on the whole input: the
item whose parser was interrupted is parsed by the next call, none is lost and none is parsed twice. -/
theorem C45_chunks {J : Type} {f : J → Parser S σ α} {F : J → Den S.Tok α} {n : σ} (hF : S.Feedable)
    (hM : S.Source mk) (hf : FragAll V f F true r n) (items : List J) (chunks : List (List S.Tok))
    (hne : chunks ≠ []) (i : S.Input) (hi : S.left i = chunks.flatten) {c : Bool} {vs : List α} {j : S.Input}
    (h : (iterate items (fun x _ => f x) n).answer i = .ok c vs j) :
    feed (iterate items (fun x _ => f x) n) mk (S.isPartial i) 0 (iterate items (fun x _ => f x) n).init [] chunks =
      .ok vs (S.left j) :=
  C14_chunks hF hM (.iterate (r' := false) items hf (fun h => by cases h)) chunks hne i hi h

/-- **C14.**  If the whole input is not enough (a committed failure for the end of the input, and nothing that could
follow changes this), then neither are its pieces. -/
theorem C14_more (hF : S.Feedable) (hM : S.Source mk) (hp : Frag V p D k r) (chunks : List (List S.Tok))
    (h : D true chunks.flatten = .pend) : feed p mk true 0 p.init [] chunks = .more := by
  obtain ⟨Ready, Rep, hr, _, _⟩ := frag_resumable hF hp
  exact feed_of_pend (hr true) hM hF.lawful chunks 0 p.init [] []
    ((hr true).ready_rep (hr true).ready_init) (fun _ => h)

/-- **C14.**  If the whole input is rejected without commitment, then no pieces of it are accepted (for parsers
that can be started anew after such a failure). -/
theorem C14_reject (hF : S.Feedable) (hM : S.Source mk) (hp : Frag V p D k true) (chunks : List (List S.Tok))
    (i : S.Input) (hi : S.left i = chunks.flatten) (h : p.answer i = .soft) (v : α) (rest : List S.Tok) :
    feed p mk (S.isPartial i) 0 p.init [] chunks ≠ .ok v rest := by
  have hr := frag_resumable hF hp
  have hd : D (S.isPartial i) (S.left i) = .soft := by
    have h1 := answer_of_den hr i
    revert h1
    cases D (S.isPartial i) (S.left i) with
    | soft => intro _; rfl
    | ok c v l => rintro ⟨j, h1, _⟩; rw [h] at h1; cases h1
    | pend => rintro ⟨j, h1, _⟩; rw [h] at h1; cases h1
    | hard => rintro ⟨j, h1⟩; rw [h] at h1; cases h1
  obtain ⟨Ready, Rep, hr, hm', hm⟩ := hr
  refine feed_of_soft hr hm hm' hM hF.lawful _ chunks 0 p.init [] [] (fun live => ?_) List.prefix_rfl ?_ v rest
  · exact (hr live).ready_rep (hr live).ready_init
  · rw [List.nil_append, ← hi]
    exact hd

/-- **C14.**  Two ways of cutting an input that is accepted give the same. -/
theorem C14_same (hF : S.Feedable) (hM : S.Source mk) (hp : Frag V p D k r) (chunks chunks' : List (List S.Tok))
    (hne : chunks ≠ []) (hne' : chunks' ≠ []) (hc : chunks.flatten = chunks'.flatten) (open_ : Bool) {c : Bool} {v : α}
    {j : S.Input} (h : p.answer (mk 0 chunks.flatten open_) = .ok c v j) :
    feed p mk open_ 0 p.init [] chunks = feed p mk open_ 0 p.init [] chunks' := by
  have h1 := C14_chunks hF hM hp chunks hne _ (hM.left _ _ _) h
  have h2 := C14_chunks hF hM hp chunks' hne' _ ((hM.left _ _ _).trans hc) h
  rw [hM.isPartial] at h1 h2
  rw [h1, h2]

/-- **C15.**  On an input after which more may follow, only a committed failure for the end of the input may be
changed by what follows: with any tokens appended the answer is the same, and what is left is longer by them. -/
theorem C15_stable (hF : S.Feedable) (hp : Frag V p D k r) (i i' : S.Input) (hi : S.isPartial i = true)
    (x : List S.Tok) (hx : S.left i' = S.left i ++ x) :
    match p.answer i with
    | .ok c v j => ∃ j', p.answer i' = .ok c v j' ∧ S.left j' = S.left j ++ x
    | .soft => p.answer i' = .soft
    | .hard e => S.E.isEoi e = true ∨ ∃ e', p.answer i' = .hard e'
    | .abort _ => False := by
  have hr := frag_resumable hF hp
  have h1 := answer_of_den hr i
  have h2 := answer_of_den hr i'
  obtain ⟨_, _, hr, _⟩ := hr
  have hs := (hr true).good.stable (S.left i) x (S.isPartial i')
  rw [hi] at h1
  rw [hx] at h2
  revert h1 hs
  cases D true (S.left i) with
  | ok c v l =>
    rintro ⟨j, h1, _, h3⟩ hs
    rw [hs (by simp)] at h2
    obtain ⟨j', h2, _, h4⟩ := h2
    rw [h1]
    exact ⟨j', h2, by rw [h4, h3]⟩
  | pend =>
    rintro ⟨e, h1, h3⟩ _
    rw [h1]
    exact .inl h3
  | soft =>
    intro h1 hs
    rw [hs (by simp)] at h2
    rw [h1]
    exact h2
  | hard =>
    rintro ⟨e, h1⟩ hs
    rw [hs (by simp)] at h2
    rw [h1]
    exact .inr h2

/-- **C15.**  The failure for the end of the input is a committed one: no parser of the fragment fails softly, or
succeeds, where a continuation of the input would make it succeed, or succeed differently. -/
theorem C15_no_guess (hF : S.Feedable) (hp : Frag V p D k r) (i i' : S.Input) (hi : S.isPartial i = true)
    (x : List S.Tok) (hx : S.left i' = S.left i ++ x) {c : Bool} {v : α} {j : S.Input} (h : p.answer i' = .ok c v j) :
    (∃ e, p.answer i = .hard e ∧ S.E.isEoi e = true) ∨
    ∃ j', p.answer i = .ok c v j' ∧ S.left j = S.left j' ++ x := by
  have hs := C15_stable hF hp i i' hi x hx
  revert hs
  cases ha : p.answer i with
  | ok c' v' j' =>
    rintro ⟨j'', h1, h2⟩
    rw [h] at h1
    cases h1
    exact .inr ⟨j', rfl, h2⟩
  | soft => intro h1; rw [h] at h1; cases h1
  | hard e =>
    rintro (h1 | ⟨e', h1⟩)
    · exact .inl ⟨e, rfl, h1⟩
    · rw [h] at h1; cases h1
  | abort => exact False.elim

/-! ## Examples

`MaybePartialStream(&[T])`, every call at another address. -/

private abbrev B := maybeS (sliceS Char 1)
private abbrev R : RangeOps B := maybeR (sliceR Char 1)
private def mkB (n : Nat) (ts : List Char) (more : Bool) : B.Input := (⟨100 * n, ts⟩, more)
private def VB : Ranges B := ⟨R, id, fun _ => 1, id, fun _ => [], fun _ => 0⟩

private theorem feedable_B : B.Feedable := maybe_feedable (slice_feedable Char (by decide))
private theorem source_B : B.Source mkB :=
  ⟨fun _ _ _ => (maybe_left _).trans (slice_left _ _), fun _ _ _ => rfl⟩
private theorem lawful_VB : VB.Lawful := ⟨(maybeR_units (sliceR_units Char 1)).lawful, fun _ => rfl⟩

/-- Numbers ended by `;`, as many as there are, then `.`. -/
private def numbers := skip (many (skip (takeWhile1 R Char.isDigit) (token B ';'))) (token B '.')

private theorem numbers_frag : ∃ D, Frag VB numbers D true false :=
  ⟨_, Frag.skip
    (Frag.many (r := true)
      (Frag.skip (Frag.takeWhile1 _ lawful_VB) (Frag.token (S := B) ';') (r' := true)
        fun _ => ⟨rfl, (Den.consuming_span1 _ _).firm _⟩)
      ((Den.consuming_span1 _ _).bind fun _ => (Den.Good.tok _).map _))
    (Frag.token (S := B) '.') (r' := false) (by simp)⟩

-- the hypotheses of the theorems are met, and their conclusion is not trivial
example (chunks : List (List Char)) (hne : chunks ≠ []) (h : chunks.flatten = "12;345;.x".toList) :
    feed numbers mkB false 0 numbers.init [] chunks = .ok ["12".toList, "345".toList] ['x'] := by
  obtain ⟨D, hp⟩ := numbers_frag
  exact C14_chunks (i := (⟨0, "12;345;.x".toList⟩, false)) feedable_B source_B hp chunks hne
    (((maybe_left _).trans (slice_left _ _)).trans h.symm) (c := true) (j := (⟨8, ['x']⟩, false)) (by rfl)
example : feed numbers mkB false 0 numbers.init [] [['1'], ['2'], [], [';', '3'], ['4'], ['5', ';', '.', 'x']] =
    .ok ["12".toList, "345".toList] ['x'] := by rfl

/-- Numbers with `-` between them, each the difference of what is left of it and the number. -/
private def differences := chainl1 (map (takeWhile1 R Char.isDigit) List.length) (map (token B '-') fun _ x y => (x - y : Nat))

private theorem differences_frag : ∃ D, Frag VB differences D true true :=
  ⟨_, Frag.chainl1 (Frag.map _ (Frag.takeWhile1 _ lawful_VB)) (Frag.map _ (Frag.token (S := B) '-')) ((Den.consuming_tok _).map _)⟩

example (chunks : List (List Char)) (hne : chunks ≠ []) (h : chunks.flatten = "12345-67-8.".toList) :
    feed differences mkB false 0 differences.init [] chunks = .ok 2 ['.'] := by
  obtain ⟨D, hp⟩ := differences_frag
  exact C14_chunks (i := (⟨0, "12345-67-8.".toList⟩, false)) feedable_B source_B hp chunks hne
    (((maybe_left _).trans (slice_left _ _)).trans h.symm) (c := true) (j := (⟨10, ['.']⟩, false)) (by rfl)
example : feed differences mkB false 0 differences.init [] [['1', '2', '3'], ['4', '5', '-'], ['6', '7'], [], ['-', '8', '.']] =
    .ok 2 ['.'] := by rfl

/-- Numbers with `;` between them and perhaps after them. -/
private def items := sepEndBy (takeWhile1 R Char.isDigit) (token B ';')

private theorem items_frag : ∃ D, Frag VB items D true true :=
  ⟨_, Frag.sepEndBy (Frag.takeWhile1 _ lawful_VB) (Frag.token (S := B) ';') (Den.consuming_tok _)⟩

example (chunks : List (List Char)) (hne : chunks ≠ []) (h : chunks.flatten = "12;3;.".toList) :
    feed items mkB false 0 items.init [] chunks = .ok ["12".toList, "3".toList] ['.'] := by
  obtain ⟨D, hp⟩ := items_frag
  exact C14_chunks (i := (⟨0, "12;3;.".toList⟩, false)) feedable_B source_B hp chunks hne
    (((maybe_left _).trans (slice_left _ _)).trans h.symm) (c := true) (j := (⟨5, ['.']⟩, false)) (by rfl)
example : feed items mkB false 0 items.init [] [['1'], ['2', ';'], ['3'], [], [';'], ['.']] =
    .ok ["12".toList, "3".toList] ['.'] := by rfl

-- `crlf` and `look_ahead` read their piece again
-- for every item of the list, what it stands for
private abbrev spell := iterate (['a', 'b'] : List Char) (fun t _ => token B t) ()

example (chunks : List (List Char)) (hne : chunks ≠ []) (h : chunks.flatten = "abx".toList) :
    feed spell mkB false 0 spell.init [] chunks = .ok ['a', 'b'] ['x'] :=
  C45_chunks (V := VB) (f := token B) (i := (⟨0, "abx".toList⟩, false)) feedable_B source_B
    (.unit fun t => Frag.token t) ['a', 'b'] chunks hne
    (((maybe_left _).trans (slice_left _ _)).trans h.symm) (c := true) (j := (⟨2, ['x']⟩, false)) (by rfl)

example : feed spell mkB false 0 spell.init [] [['a'], [], ['b', 'x']] = .ok ['a', 'b'] ['x'] := rfl

example : feed (skip (crlf B '\r' '\n') (lookAhead (token B 'x'))) mkB false 0 (skip (crlf B '\r' '\n') (lookAhead (token B 'x'))).init []
    [['\r'], ['\n'], ['x', 'y']] = .ok '\n' ['x', 'y'] := by rfl

/-! ## Deviations: parsers of the library that cannot be fed

In each case `answer` is what the whole input gives and `feed` what its pieces give. -/

private abbrev digit := satisfy B Char.isDigit
private abbrev letter := satisfy B Char.isAlpha
private abbrev both {σ τ α β : Type} (p : Parser B σ α) (q : Parser B τ β) := tuple p (.cons q .nil)
private abbrev whole (s : String) : B.Input := (⟨0, s.toList⟩, false)
private abbrev pieces (l : List String) : List (List Char) := l.map String.toList

/-- `count` forgets what it has when it asks for more (it is a `parser!` without partial state): the pieces are
accepted with another value. -/
theorem C14_count_loses :
    (count 2 digit).answer (whole "12") = .ok true ['1', '2'] (⟨2, []⟩, false) ∧
    feed (count 2 digit) mkB false 0 () [] (pieces ["1", "2"]) = .ok ['2'] [] := ⟨rfl, rfl⟩

/-- `tokens` and `string` start over after asking for more, though what they read is gone. -/
theorem C14_tokens_fail :
    (tokens B (fun x y => x == y) (.static "abc") ['a', 'b', 'c']).answer (whole "abc") =
      .ok true ['a', 'b', 'c'] (⟨3, []⟩, false) ∧
    feed (tokens B (fun x y => x == y) (.static "abc") ['a', 'b', 'c']) mkB false 0 () [] (pieces ["ab", "c"]) =
      .failed := ⟨rfl, rfl⟩

/-- `length_prefix` does the same. -/
theorem C14_length_prefix_fails :
    let p := lengthPrefix R (map digit fun c => c.toNat - 48) .ok
    p.answer (whole "2ab") = .ok true ['a', 'b'] (⟨3, []⟩, false) ∧
    feed p mkB false 0 () [] (pieces ["2", "ab"]) = .failed := ⟨rfl, rfl⟩

/-- `sep_by1` forgets, when resumed, that it had its first element. -/
theorem C14_sep_by1_fails :
    (sepBy1 digit (token B ',')).answer (whole "1,2,3") = .ok true ['1', '2', '3'] (⟨5, []⟩, false) ∧
    feed (sepBy1 digit (token B ',')) mkB false 0 (sepBy1 digit (token B ',')).init [] (pieces ["1,", "2,3"]) =
      .ok ['1', '2'] [',', '3'] ∧
    feed (sepBy1 digit (token B ',')) mkB false 0 (sepBy1 digit (token B ',')).init [] (pieces ["1", ",2,3"]) =
      .failed := ⟨rfl, rfl, rfl⟩

/-- `attempt` does not rewind when more is asked for: the alternative then starts in the middle. -/
theorem C14_attempt_fails :
    let p := or (map (attempt (both digit letter)) fun _ => 0) (map (both digit digit) fun _ => 1)
    p.answer (whole "12") = .ok true 1 (⟨2, []⟩, false) ∧
    feed p mkB false 0 p.init [] (pieces ["1", "2"]) = .failed := ⟨rfl, rfl⟩

/-- A sequence may accept in pieces what it rejects (after committing) as a whole: what the resumed call absorbed
is forgotten when a later member fails without consuming anything. -/
theorem C14_hard_failure_lost :
    let p := many (both digit letter)
    (∃ e, p.answer (whole "12") = .hard e) ∧
    feed p mkB false 0 p.init [] (pieces ["1", "2"]) = .ok [] ['2'] := ⟨⟨_, rfl⟩, rfl⟩

/-- The state a repetition leaves in a sequence that failed without consuming anything: `optional('-')` is not
asked again.  (`many1` needs its parser to be restartable after a soft failure: the flag `r` of `Frag`.) -/
theorem C14_stale_sequence :
    let p := many1 (both (many (both (optional (token B '-')) digit)) (token B ';'))
    (∃ j, p.answer (whole "1;-2;") = .ok true [([(none, '1', ())], ';', ()), ([(some '-', '2', ())], ';', ())] j ∧
      B.left j = []) ∧
    feed p mkB false 0 p.init [] (pieces ["1;", "-2;"]) = .ok [([(none, '1', ())], ';', ())] ['-', '2', ';'] :=
  ⟨⟨_, rfl, rfl⟩, rfl⟩

/-- `then` keeps the continuation of a call that `attempt` has undone, and runs it when a later call, interrupted before it had a
continuation of its own, is resumed: here what follows `7 8` is compared with `1`, and the `7` is lost. -/
theorem C14_stale_then :
    let twice := fun c => map (both (token B c) (token B c)) fun x => x.1
    let p := many (both (optional (attempt (thenP (map (both digit digit) fun x => x.1) twice (twice '0').init)))
      (map (both digit (both digit digit)) fun x => [x.1, x.2.1.1, x.2.1.2.1]))
    (∃ j, p.answer (whole "1917877555") = .ok true [(none, ['1', '9', '1'], ()), (some '7', ['5', '5', '5'], ())] j ∧ B.left j = []) ∧
    feed p mkB false 0 p.init [] (pieces ["1917", "877555"]) =
      .ok [(none, ['1', '9', '1'], ()), (none, ['8', '7', '7'], ()), (none, ['5', '5', '5'], ())] [] :=
  ⟨⟨_, rfl, rfl⟩, rfl⟩

/-- `take_until` goes back to where the end marker began when that asks for more, but the marker's parser remembers what it had read:
resumed, it looks at `a` where it expects `b`, and then takes the `b` alone for the marker. -/
theorem C14_take_until_fails :
    let p := takeUntil (both (token B 'a') (token B 'b'))
    p.answer (whole "xab") = .ok true ['x'] (⟨1, ['a', 'b']⟩, false) ∧
    feed p mkB false 0 p.init [] (pieces ["xa", "b"]) = .ok ['x', 'a'] ['b'] := ⟨rfl, rfl⟩

/-- So does `repeat_until`: here it misses the first marker. -/
theorem C14_repeat_until_fails :
    let p := repeatUntil (any B) (both (token B 'a') (token B 'b'))
    p.answer (whole "xabab") = .ok true ['x'] (⟨1, ['a', 'b', 'a', 'b']⟩, false) ∧
    feed p mkB false 0 p.init [] (pieces ["xa", "bab"]) = .ok ['x', 'a', 'b'] ['a', 'b'] := ⟨rfl, rfl⟩

/-- A choice over an array or slice remembers the alternative that asked for more, even if it read nothing. -/
theorem C14_array_choice_fails :
    let p := sliceChoice [range R ['a', 'b'], range R ['a', 'c']] ()
    p.answer (whole "ac") = .ok true ['a', 'c'] (⟨2, []⟩, false) ∧
    feed p mkB false 0 p.init [] (pieces ["a", "c"]) = .failed := ⟨rfl, rfl⟩

/-- `chainr1` keeps nothing for a later call: what came before the interruption is lost. -/
theorem C14_chainr1_fails :
    let p := chainr1 (map digit fun c => [c]) (map (token B '-') fun _ l r => '(' :: l ++ '-' :: r ++ [')'])
    p.shape (whole "1-2;") = .ok true ['(', '1', '-', '2', ')'] (⟨3, [';']⟩, false) ∧
    feed p mkB false 0 p.init [] (pieces ["1-", "2;"]) = .ok ['2'] [';'] := ⟨rfl, rfl⟩

/-- Nor does `escaped`: interrupted after the escape character, it takes the character that was escaped for the end of the text. -/
theorem C14_escaped_fails :
    let p := escaped (takeWhile1 R fun c => c != '"' && c != '\\') '\\' (any B)
    p.shape (whole "a\\\"b\"") = .ok true () (⟨4, ['"']⟩, false) ∧
    feed p mkB false 0 p.init [] (pieces ["a\\", "\"b\""]) = .ok () ['"', 'b', '"'] := ⟨rfl, rfl⟩

/-- `eof` and `not_followed_by` take the end of a piece for the end of the input. -/
theorem C14_eof_fails :
    let p := both (token B 'a') (eof B)
    (∃ e, p.answer (whole "ab") = .hard e) ∧
    feed p mkB false 0 p.init [] (pieces ["a", "b"]) = .ok ('a', (), ()) ['b'] := ⟨⟨_, rfl⟩, rfl⟩

theorem C14_not_followed_by_fails :
    let p := both (token B 'a') (notFollowedBy (token B 'b'))
    (∃ e, p.answer (whole "ab") = .hard e) ∧
    feed p mkB false 0 p.init [] (pieces ["a", "b"]) = .ok ('a', (), ()) ['b'] := ⟨⟨_, rfl⟩, rfl⟩

/-- Deviation from C15: `eof` succeeds at the end of an input that is not complete. -/
theorem C15_eof_guesses :
    (eof B).answer (⟨0, []⟩, true) = .ok false () (⟨0, []⟩, true) ∧
    (eof B).answer (⟨0, ['x']⟩, true) = .soft := ⟨rfl, rfl⟩

/-- Deviation from C15: so does `not_followed_by`. -/
theorem C15_not_followed_by_guesses :
    (notFollowedBy digit).answer (⟨0, []⟩, true) = .ok false () (⟨0, []⟩, true) ∧
    (notFollowedBy digit).answer (⟨0, ['1']⟩, true) = .soft := ⟨rfl, rfl⟩

/-- Deviation from C15: at the end of the input `and_then` reports its own error as a committed one, and without
commitment when more follows.  (The fragment has it for parsers that consume.) -/
theorem C15_and_then_guesses :
    let p : Parser B _ Unit := andThen (value B 0) fun _ => .error UnexpectedParse.unexpected
    (∃ e, p.answer (⟨0, []⟩, true) = .hard e ∧ B.E.isEoi e = false) ∧ p.answer (⟨0, ['x']⟩, true) = .soft :=
  ⟨⟨_, rfl, rfl⟩, rfl⟩

end Verif
