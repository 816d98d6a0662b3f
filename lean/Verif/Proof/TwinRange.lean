import Verif.Proof.TwinRepeat

/-!
# Range parsers that do the same except for the errors
-/

namespace Verif

variable {S : Strm} {E : ErrOps S.Tok S.Rng S.Pos} {convS : S.SErr → E.SErr} {conv : S.Err → E.Err}
variable {σ τ υ α β γ : Type} {p : Parser S σ α} {q : Parser (S.withErrors E convS conv) σ α}

theorem twin_unconsRangeP (R : RangeOps S) (n : Nat) (i : S.Input) :
    LazyTwin (S := S) (E := E) (R.unconsRangeP n i) ((R.withErrors E convS conv).unconsRangeP n i) := by
  unfold RangeOps.unconsRangeP
  dsimp only [RangeOps.withErrors, convertR]
  generalize R.unconsRange n i = x
  obtain ⟨e | r, j⟩ := x
  · exact ⟨twin_wrap j e _, rfl⟩
  · dsimp only [mapExceptErr]
    split <;> twinsl

theorem twin_unconsWhileP (hw : ∀ i, S.isPartial i = false) (R : RangeOps S) {ς : Type} (f : ς → S.Tok → Bool × ς) (s : ς) (i : S.Input) :
    (R.unconsWhileP f s i).1.1.Twin ((R.withErrors E convS conv).unconsWhileP f s i).1.1 ∧
    (R.unconsWhileP f s i).1.2 = ((R.withErrors E convS conv).unconsWhileP f s i).1.2 ∧
    (R.unconsWhileP f s i).2 = ((R.withErrors E convS conv).unconsWhileP f s i).2 := by
  unfold RangeOps.unconsWhileP
  dsimp only [RangeOps.withErrors, convertR]
  generalize R.unconsWhile f s i = x
  obtain ⟨⟨e | r, t⟩, j⟩ := x
  · exact ⟨twin_wrap j e _, rfl, rfl⟩
  · simp only [mapExceptErr, hw, Bool.false_eq_true, if_false]
    by_cases h : R.len r = 0 <;> simp only [h, if_true, if_false] <;> exact ⟨by constructor, trivial, trivial⟩

theorem twin_unconsWhile1P (hw : ∀ i, S.isPartial i = false) (R : RangeOps S) {ς : Type} (f : ς → S.Tok → Bool × ς) (s : ς) (i : S.Input) :
    (R.unconsWhile1P f s i).1.1.Twin ((R.withErrors E convS conv).unconsWhile1P f s i).1.1 ∧
    (R.unconsWhile1P f s i).1.2 = ((R.withErrors E convS conv).unconsWhile1P f s i).1.2 ∧
    (R.unconsWhile1P f s i).2 = ((R.withErrors E convS conv).unconsWhile1P f s i).2 := by
  unfold RangeOps.unconsWhile1P
  dsimp only [RangeOps.withErrors, convertR]
  generalize R.unconsWhile1 f s i = x
  obtain ⟨⟨r, t⟩, j⟩ := x
  cases r with
  | commitErr e =>
    simp only [ParseResult.mapErr, hw, Bool.false_eq_true, if_false]
    exact ⟨twin_wrap j e _, trivial, trivial⟩
  | _ =>
    simp only [ParseResult.mapErr, hw, Bool.false_eq_true, if_false]
    exact ⟨by constructor, trivial, trivial⟩

theorem twin_if {c : Bool} {a b : Out S σ α} {a' b' : Out (S.withErrors E convS conv) σ α} (h : OutTwin a a') (h' : OutTwin b b') :
    OutTwin (if c = true then a else b) (if c = true then a' else b') := by
  cases c
  · exact h'
  · exact h

theorem twin_retake (R : RangeOps S) (b : S.Ckpt) (s : Nat × σ) (i : S.Input) (f : S.Rng → α) :
    OutTwin (retake R b s i f) (retake (R.withErrors E convS conv) b s i f) := by
  unfold retake
  refine twin_reset fun k => ?_
  have h := twin_unconsRangeP (E := E) (convS := convS) (conv := conv) R (R.distance i b) k
  have hm := Twin.map f h.1
  exact ⟨hm, h.2, by dsimp only; rw [Twin.isOk hm]; rfl⟩

namespace TwinP

theorem range [DecidableEq S.Rng] (R : RangeOps S) (r : S.Rng) :
    TwinP (range R r) (range (R.withErrors E convS conv) r) := .ofLazy rfl rfl fun i => by
  dsimp only [RangeOps.withErrors, convertR]
  generalize R.unconsRange (R.len r) i = x
  obtain ⟨e | o, j⟩ := x
  · exact ⟨twin_wrap j e _, rfl⟩
  · dsimp only [mapExceptErr]
    split <;> twinsl

theorem take (R : RangeOps S) (n : Nat) : TwinP (take R n) (take (R.withErrors E convS conv) n) :=
  .ofLazy rfl rfl fun i => twin_unconsRangeP R n i

theorem takeWhile (hw : ∀ i, S.isPartial i = false) (R : RangeOps S) (f : S.Tok → Bool) :
    TwinP (takeWhile R f) (takeWhile (R.withErrors E convS conv) f) := .ofMode rfl rfl fun m i s => by
  unfold partialRange
  simp only [hw, Bool.not_false, if_true]
  have h := twin_unconsWhileP (E := E) (convS := convS) (conv := conv) hw R (pureP f) () i
  exact ⟨h.1, h.2.2, rfl⟩

theorem takeWhile1 (hw : ∀ i, S.isPartial i = false) (R : RangeOps S) (f : S.Tok → Bool) :
    TwinP (takeWhile1 R f) (takeWhile1 (R.withErrors E convS conv) f) := .ofMode rfl rfl fun m i s => by
  unfold partialRange
  simp only [hw, Bool.not_false, if_true]
  have h := twin_unconsWhile1P (E := E) (convS := convS) (conv := conv) hw R (pureP f) () i
  exact ⟨h.1, h.2.2, rfl⟩

theorem recognizeWithValue (R : RangeOps S) (h : TwinP p q) :
    TwinP (recognizeWithValue R p) (recognizeWithValue (R.withErrors E convS conv) q) := by
  refine .ofMode (by rw [h.init]) rfl fun m i s => ?_
  dsimp only
  split
  · twin h.run m i s.2 : p.run m i s.2, q.run m i s.2
    case commitOk => exact twin_retake _ _ _ _ _
    case peekOk => exact twin_retake _ _ _ _ _
    case commitErr => exact twin_reset fun _ => by twins
    all_goals twins
  · dsimp only [RangeOps.withErrors, convertR]
    generalize R.unconsRange s.1 i = x
    obtain ⟨e | o, j⟩ := x
    · twins
    · dsimp only [mapExceptErr]
      twin h.run m j s.2 : p.run m j s.2, q.run m j s.2
      case commitOk => exact twin_retake _ _ _ _ _
      case peekOk => exact twin_retake _ _ _ _ _
      case commitErr => exact twin_reset fun _ => by twins
      all_goals twins

theorem recognizeRange (R : RangeOps S) (h : TwinP p q) :
    TwinP (recognizeRange R p) (recognizeRange (R.withErrors E convS conv) q) := ((h.recognizeWithValue R).map _).parserMacro

/-- Both searches have met no error, or an error at the same distance. -/
def FirstTwin {F G : Type} (a : Option (F × Nat)) (b : Option (G × Nat)) : Prop := a.map (·.2) = b.map (·.2)

theorem takeUntilRangeLoop [DecidableEq S.Rng] (R : RangeOps S) (r : S.Rng) (b : S.Ckpt) : ∀ (n : Nat) (e : Option (S.SErr × Nat))
    (e' : Option (E.SErr × Nat)) (i : S.Input) (st : Nat), FirstTwin e e' →
    OutTwin (takeUntilRangeLoop R r b n e i st) (takeUntilRangeLoop (R.withErrors E convS conv) r b n e' i st)
  | 0, _, _, _, _, _ => by twins
  | n + 1, e, e', i, st, he => by
    unfold Verif.takeUntilRangeLoop
    dsimp only [RangeOps.withErrors, convertR]
    generalize R.unconsRange (R.len r) i = x
    obtain ⟨x | o, j⟩ := x
    · dsimp only [mapExceptErr]
      refine twin_reset fun k => ?_
      dsimp only [Strm.withErrors, convertS]
      generalize S.uncons k = y
      obtain ⟨y | t, l⟩ := y
      · dsimp only [mapExceptErr]
        refine twin_reset fun o => ?_
        cases e <;> cases e' <;> first | cases he | skip
        · exact ⟨twin_wrap o _ _, rfl, rfl⟩
        · exact ⟨twin_wrap o _ _, rfl, Option.some.inj he⟩
      · dsimp only [mapExceptErr]
        refine takeUntilRangeLoop R r b n _ _ l st ?_
        cases e <;> cases e' <;> first | cases he | skip
        · rfl
        · exact he
    · dsimp only [mapExceptErr]
      split
      · refine twin_reset fun k => ?_
        generalize R.unconsRange (R.distance j b - R.len r) k = y
        obtain ⟨y | t, l⟩ := y
        · twins
        · dsimp only [mapExceptErr]
          split <;> twins
      · refine twin_reset fun k => ?_
        dsimp only [Strm.withErrors, convertS]
        generalize S.uncons k = y
        obtain ⟨y | t, l⟩ := y
        · twins
        · exact takeUntilRangeLoop R r b n e e' l st he

theorem takeUntilRange [DecidableEq S.Rng] (R : RangeOps S) (r : S.Rng) :
    TwinP (takeUntilRange R r) (takeUntilRange (R.withErrors E convS conv) r) := .ofMode rfl rfl fun m i s => by
  dsimp only
  twinl (twin_unconsRangeP (E := E) (convS := convS) (conv := conv) R s i) : R.unconsRangeP s i, (R.withErrors E convS conv).unconsRangeP s i
  case commitOk => exact takeUntilRangeLoop R r _ _ _ _ _ _ rfl
  case peekOk => exact takeUntilRangeLoop R r _ _ _ _ _ _ rfl
  all_goals twins

theorem takeFn (R : RangeOps S) (f : S.Rng → TakeRange) : TwinP (takeFn R f) (takeFn (R.withErrors E convS conv) f) :=
  .ofMode rfl rfl fun m i s => by
    dsimp only [RangeOps.withErrors, convertR]
    generalize (if m = true then i else (R.unconsRange (if m = true then 0 else s) i).2) = j
    cases f (R.range j) with
    | found k =>
      dsimp only
      refine twin_reset fun l => ?_
      have h := twin_unconsRangeP (E := E) (convS := convS) (conv := conv) R ((if m = true then 0 else s) + k) l
      exact ⟨h.1, h.2, by dsimp only; rw [Twin.isOk h.1]; rfl⟩
    | notFound k =>
      dsimp only
      refine twin_reset fun l => ?_
      exact twin_if (c := !S.isPartial l && decide (R.len (R.range j) = 0)) ⟨.peekErr _ _, rfl, rfl⟩ ⟨.commitErr _ _, rfl, rfl⟩

theorem lengthPrefix (hw : ∀ i, S.isPartial i = false) (R : RangeOps S) {f : α → Except S.SErr Nat} {g : α → Except E.SErr Nat}
    (hf : ∀ a, ExceptTwin (f a) (g a)) (h : TwinP p q) :
    TwinP (lengthPrefix R p f) (lengthPrefix (R.withErrors E convS conv) q g) :=
  ((h.andThen hw hf).thenPartial _ (fun _ => take R _) fun _ => rfl).parserMacroUnit

end TwinP

end Verif
