import Verif.Props.UntilChunks
import Verif.Props.RepeatUntilChunks
import Verif.Props.Until

/-!
# C14, C33: `skip_until` and `repeat_skip_until`
-/

namespace Verif

variable {S : Strm} {σ τ α β : Type}

private theorem run_skip (p : Parser S σ α) (m : Bool) (i : S.Input) (s : σ) (t : (Option Unit × Unit) × Unit) (off : Nat) :
    ∃ t' off', (parserMacro («with» p (value S ()))).run m i ⟨none, s, t, off⟩ =
      ⟨(p.run m i s).res.map (fun _ => ()), (p.run m i s).inp, ⟨none, (p.run m i s).st, t', off'⟩⟩ := by
  have hrun : (parserMacro («with» p (value S ()))).run m i ⟨none, s, t, off⟩ =
    (seqRun (ignore p) (.cons (value S ()) .nil) m i ⟨none, s, t, off⟩).mapRes (·.map fun x => x.2.1) := rfl
  have hig : (ignore p).run m i s = (p.run m i s).mapRes (·.map fun _ => ()) := rfl
  rw [hrun]
  unfold seqRun
  simp only [Option.isNone_none, Bool.or_true, if_true, hig]
  generalize p.run m i s = o
  obtain ⟨r, j, u⟩ := o
  cases r <;> exact ⟨_, _, rfl⟩

private theorem state_skip (p : Parser S σ α) (hp : ∀ e, (p.addError e).error = e.error) (i : S.Input) (s : σ)
    (t : (Option Unit × Unit) × Unit) (off : Nat) :
    ∃ t' off', (parserMacro («with» p (value S ()))).parseWithState i ⟨none, s, t, off⟩ =
      ((p.parseWithState i s).1.map (fun _ => ()), (p.parseWithState i s).2.1, ⟨none, (p.parseWithState i s).2.2, t', off'⟩) := by
  obtain ⟨t', off', h⟩ := run_skip p false i s t off
  refine ⟨t', off', ?_⟩
  have hadd : ∀ e, ((parserMacro («with» p (value S ()))).addError e).error = e.error := by
    intro e
    show (if (p.addError e).offset ≤ 1 then _ else _ : Tracked S.Err).error = _
    split
    · exact hp e
    · show (ite _ _ _ : Tracked S.Err).error = _
      have hv : ∀ x : Tracked S.Err, (value S ()).addError x = x := fun _ => rfl
      simp only [hv]
      split <;> split <;> exact hp e
  unfold Parser.parseWithState Parser.streamPartial Strm.describing
  simp only [h]
  generalize p.run false i s = o
  obtain ⟨r, j, u⟩ := o
  cases r with
  | peekErr e =>
    simp only [ParseResult.map, Strm.describe, Strm.tryReset]
    cases S.reset (S.checkpoint i) j with
    | mk a k =>
      cases a with
      | some x => rfl
      | none =>
        simp only
        cases S.uncons k with
        | mk b l =>
          cases b with
          | error _ => simp only [hp, hadd]; rfl
          | ok t =>
            simp only
            cases S.reset (S.checkpoint i) l with
            | mk c n =>
              cases c with
              | some x => rfl
              | none => simp only [hp, hadd]; rfl
  | _ => rfl

private theorem feed_skip (p : Parser S σ α) (hp : ∀ e, (p.addError e).error = e.error)
    (mk : Nat → List S.Tok → Bool → S.Input) (open_ : Bool) (chunks : List (List S.Tok)) :
    ∀ (n : Nat) (s : σ) (t : (Option Unit × Unit) × Unit) (off : Nat) (u : List S.Tok),
      feed (parserMacro («with» p (value S ()))) mk open_ n ⟨none, s, t, off⟩ u chunks = (feed p mk open_ n s u chunks).forget := by
  induction chunks with
  | nil => intro _ _ _ _ _; rfl
  | cons c cs ih =>
    intro n s t off u
    unfold feed
    obtain ⟨t', off', h⟩ := state_skip p hp (mk n (u ++ c) (open_ || !cs.isEmpty)) s t off
    simp only [h]
    generalize p.parseWithState (mk n (u ++ c) (open_ || !cs.isEmpty)) s = o
    obtain ⟨r, j, s'⟩ := o
    cases r with
    | ok v => rfl
    | error x =>
      cases x with
      | inl a => rfl
      | inr e =>
        simp only [Except.map]
        split
        · exact ih _ _ _ _ _
        · rfl

/-- **C14.**  `skip_until(end)` does in any pieces what `take_until(end)` does, without the tokens. -/
theorem C14_skip_until (e : Parser S σ α) (mk : Nat → List S.Tok → Bool → S.Input) (open_ : Bool) (chunks : List (List S.Tok)) :
    feed (skipUntil e) mk open_ 0 (skipUntil e).init [] chunks =
      (feed (takeUntil e) mk open_ 0 (takeUntil e).init [] chunks).forget :=
  feed_skip (takeUntil e) (fun _ => rfl) mk open_ chunks 0 _ _ _ _

/-- **C14.**  `repeat_skip_until(p, end)` does in any pieces what `repeat_until(p, end)` does, without the elements. -/
theorem C14_repeat_skip_until (p : Parser S σ α) (e : Parser S τ β) (mk : Nat → List S.Tok → Bool → S.Input) (open_ : Bool)
    (chunks : List (List S.Tok)) :
    feed (repeatSkipUntil p e) mk open_ 0 (repeatSkipUntil p e).init [] chunks =
      (feed (repeatUntil p e) mk open_ 0 (repeatUntil p e).init [] chunks).forget :=
  feed_skip (repeatUntil p e) (fun _ => rfl) mk open_ chunks 0 _ _ _ _

/-- **C33.**  `repeat_skip_until` is `repeat_until` without the elements. -/
theorem C33_repeat_skip_until (p : Parser S σ α) (e : Parser S τ β) (i : S.Input) :
    (repeatSkipUntil p e).shape i = ((repeatUntil p e).shape i).map fun _ => () := by
  have h := C12_with (repeatUntil p e) (value S ()) i
  rw [show (repeatSkipUntil p e).shape i = («with» (repeatUntil p e) (value S ())).shape i from rfl, h]
  simp only [Ref.bind]
  cases (repeatUntil p e).shape i with
  | ok c v j => cases c <;> rfl
  | _ => rfl

private theorem answer_of_shape {p : Parser S σ α} {i : S.Input} {c : Bool} {v : α} {j : S.Input} :
    p.answer i = .ok c v j ↔ p.shape i = .ok c v j := by
  unfold Parser.shape
  cases p.answer i <;> simp [Answer.shape]

/-- **C14.**  `skip_until(end)` with an `end` that has no state of its own: if the whole input is accepted, so it is in any
pieces, with the same remainder. -/
theorem C14_skip_until_stateless (hF : S.Feedable) {mk : Nat → List S.Tok → Bool → S.Input} (hM : S.Source mk)
    {e : Parser S Unit β} {F : Bool → List S.Tok → Sight} (he : Sees e F) (chunks : List (List S.Tok))
    (hne : chunks ≠ []) (i : S.Input) (hi : S.left i = chunks.flatten) {c : Bool} {j : S.Input}
    (h : (skipUntil e).answer i = .ok c () j) :
    feed (skipUntil e) mk (S.isPartial i) 0 (skipUntil e).init [] chunks = .ok () (S.left j) := by
  rw [C14_skip_until]
  rw [answer_of_shape, C33_skip_until] at h
  cases hs : (takeUntil e).shape i with
  | ok c' v j' =>
    rw [hs] at h; cases h
    rw [C14_take_until_stateless hF hM he chunks hne i hi (answer_of_shape.2 hs)]
    rfl
  | _ => rw [hs] at h; cases h

/-- **C14.**  The same for `repeat_skip_until(p, end)` with any resumable `p` that consumes. -/
theorem C14_repeat_skip_until_stateless [DecidableEq S.Tok] [DecidableEq S.Rng] (hF : S.Feedable)
    {mk : Nat → List S.Tok → Bool → S.Input} (hM : S.Source mk)
    {V : Ranges S} {p : Parser S σ α} {D : Den S.Tok α} {r : Bool} (hp : Frag V p D true r) (hc : D.Consuming)
    {e : Parser S Unit β} {F : Bool → List S.Tok → Sight} (he : Sees e F) (chunks : List (List S.Tok))
    (hne : chunks ≠ []) (i : S.Input) (hi : S.left i = chunks.flatten) {c : Bool} {j : S.Input}
    (h : (repeatSkipUntil p e).answer i = .ok c () j) :
    feed (repeatSkipUntil p e) mk (S.isPartial i) 0 (repeatSkipUntil p e).init [] chunks = .ok () (S.left j) := by
  rw [C14_repeat_skip_until]
  rw [answer_of_shape, C33_repeat_skip_until] at h
  cases hs : (repeatUntil p e).shape i with
  | ok c' v j' =>
    rw [hs] at h; cases h
    rw [C14_repeat_until_stateless hF hM hp hc he chunks hne i hi (answer_of_shape.2 hs)]
    rfl
  | _ => rw [hs] at h; cases h

/-! ## The hypotheses can be met -/

private abbrev B := maybeS (sliceS Char 1)
private abbrev R : RangeOps B := maybeR (sliceR Char 1)
private def mkB (n : Nat) (ts : List Char) (more : Bool) : B.Input := (⟨100 * n, ts⟩, more)
private def VB : Ranges B := ⟨R, id, fun _ => 1, id, fun _ => [], fun _ => 0⟩
private theorem feedable_B : B.Feedable := maybe_feedable (slice_feedable Char (by decide))
private theorem source_B : B.Source mkB :=
  ⟨fun _ _ _ => (maybe_left _).trans (slice_left _ _), fun _ _ _ => rfl⟩
private theorem lawful_VB : VB.Lawful := ⟨(maybeR_units (sliceR_units Char 1)).lawful, fun _ => rfl⟩

private abbrev skipNumbers := repeatSkipUntil (skip (takeWhile1 R Char.isDigit) (token B ';')) (token B '.')

example (chunks : List (List Char)) (hne : chunks ≠ []) (h : chunks.flatten = "12;345;.x".toList) :
    feed skipNumbers mkB false 0 skipNumbers.init [] chunks = .ok () ['.', 'x'] :=
  C14_repeat_skip_until_stateless (V := VB) feedable_B source_B
    (Frag.skip (Frag.takeWhile1 _ lawful_VB) (Frag.token (S := B) ';') (r' := false) (by simp))
    ((Den.consuming_span1 _ _).bind fun _ => (Den.Good.tok _).map _)
    (C14_sees feedable_B lawful_VB (Frag.token (S := B) '.') fun _ _ => rfl) chunks hne (⟨0, "12;345;.x".toList⟩, false)
    (((maybe_left _).trans (slice_left _ _)).trans h.symm) (c := true) (j := (⟨7, ['.', 'x']⟩, false)) (by rfl)

example : feed skipNumbers mkB false 0 skipNumbers.init [] [['1'], ['2', ';', '3'], [], ['4', '5'], [';'], ['.', 'x']] =
    .ok () ['.', 'x'] := by rfl

private abbrev skipLine := skipUntil (token B '.')

example (chunks : List (List Char)) (hne : chunks ≠ []) (h : chunks.flatten = "ab.c".toList) :
    feed skipLine mkB false 0 skipLine.init [] chunks = .ok () ".c".toList :=
  C14_skip_until_stateless (i := (⟨0, "ab.c".toList⟩, false)) feedable_B source_B
    (C14_sees feedable_B lawful_VB (Frag.token (V := VB) '.') fun _ _ => rfl) chunks hne
    (((maybe_left _).trans (slice_left _ _)).trans h.symm) (c := true) (j := (⟨2, ".c".toList⟩, false)) (by rfl)

example : (skipNumbers).shape (⟨0, "12;345;.x".toList⟩, false) = .ok true () (⟨7, ['.', 'x']⟩, false) := by rfl

end Verif
