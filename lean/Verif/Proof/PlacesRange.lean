import Verif.Proof.PlacesRep

/-! # Where errors are positioned: ranges, bytes, regexes; the induction -/

namespace Verif

set_option linter.unusedSectionVars false
set_option linter.unusedVariables false

variable {S : Strm} {Own : S.Pos → Prop} {σ τ υ α β γ : Type}

section
variable (hS : S.Lawful) (hE : S.E.Placing) {R : RangeOps S} {toks : S.Rng → List S.Tok} {w : S.Tok → Nat}
  (hR : R.Lawful toks w)
include hS hE hR

theorem unconsRangeP_located (n : Nat) (i : S.Input) : S.Located Own i (R.unconsRangeP n i).1 := by
  have h := unconsRange_reach hS hR n i
  unfold RangeOps.unconsRangeP
  revert h
  generalize R.unconsRange n i = x
  obtain ⟨r, j⟩ := x
  intro h
  cases r with
  | error e => exact .back h (wrapStreamError_located hS hE j e)
  | ok r => simp only; split <;> trivial

theorem unconsWhileP_located {ς : Type} (f : ς → S.Tok → Bool × ς) (s : ς) (i : S.Input) :
    S.Located Own i (R.unconsWhileP f s i).1.1 := by
  unfold RangeOps.unconsWhileP
  cases h : R.unconsWhile f s i with
  | mk x j =>
    obtain ⟨r, s'⟩ := x
    have hj : S.Reach i j := by
      obtain ⟨r, _, h, _⟩ := hR.while_scan h
      exact ⟨_, h⟩
    have he := hS.inputAtEof_eq j
    have hk : ∀ x : S.Rng, S.Located Own i (if R.len x = 0 then (.peekOk x : ParseResult S.Rng S.Err) else .commitOk x) := by
      intro x; split <;> trivial
    cases r <;> simp only
    · exact .back hj (wrapStreamError_located hS hE j _)
    · rw [he]
      generalize (S.inputAtEof j).1 = b
      split
      · cases b
        · exact hk _
        · exact spot_fromError_at hS hE hj _
      · exact hk _

theorem unconsWhile1P_located {ς : Type} (f : ς → S.Tok → Bool × ς) (s : ς) (i : S.Input) :
    S.Located Own i (R.unconsWhile1P f s i).1.1 := by
  unfold RangeOps.unconsWhile1P
  cases h : R.unconsWhile1 f s i with
  | mk x j =>
    obtain ⟨r, s'⟩ := x
    have hj : S.Reach i j := by
      rcases hR.while1_scan h with ⟨r', _, _, h, _⟩ | ⟨e, _, rfl, _⟩
      · exact ⟨_, h⟩
      · exact .refl _
    have he := hS.inputAtEof_eq j
    cases r <;> simp only
    · rw [he]
      generalize (S.inputAtEof j).1 = b
      split
      · cases b
        · trivial
        · exact spot_fromError_at hS hE hj _
      · trivial
    · trivial
    · rw [he]
      generalize (S.inputAtEof j).1 = b
      split
      · cases b
        · exact .back hj (wrapStreamError_located hS hE j _)
        · exact spot_fromError_at hS hE hj _
      · exact .back hj (wrapStreamError_located hS hE j _)
    · rw [he]
      generalize (S.inputAtEof j).1 = b
      split
      · cases b
        · exact spot_empty_at hS hE hj
        · exact spot_fromError_at hS hE hj _
      · exact spot_empty_at hS hE hj
    · trivial

theorem places_range [DecidableEq S.Rng] (r : S.Rng) : Places Own (range R r) := by
  refine .ofLazy hS hE (moves_range hS hR r).lazy (fun i => ?_) (keeps_addExpected hS hE _) (keeps_id hS hE)
  have h := unconsRange_reach hS hR (R.len r) i
  revert h
  generalize R.unconsRange (R.len r) i = x
  obtain ⟨q, j⟩ := x
  intro h
  cases q <;> simp only
  · exact .back h (wrapStreamError_located hS hE j _)
  · split
    · trivial
    · exact spot_empty hS hE i

theorem places_take (n : Nat) : Places Own (take R n) :=
  .ofLazy hS hE (unconsRangeP_reach hS hR n) (unconsRangeP_located hS hE hR n) (keeps_id hS hE) (keeps_id hS hE)

theorem retake_located {i j : S.Input} (h : S.Reach i j) (s : Nat × σ) (f : S.Rng → α) :
    S.Located Own i (retake R (S.checkpoint i) s j f).res := by
  unfold retake
  simp only [hS.tryReset_eq h]
  exact .map _ (unconsRangeP_located hS hE hR _ i)

theorem partialRange_located {first resume : S.Input → ParseResult S.Rng S.Err × S.Input}
    (h1 : ∀ i, S.Reach i (first i).2) (h2 : ∀ i, S.Reach i (resume i).2)
    (l1 : ∀ i, S.Located Own i (first i).1) (l2 : ∀ i, S.Located Own i (resume i).1) (m : Bool) (i : S.Input)
    (d : Nat) : S.Located Own i (partialRange R first resume m i d).res := by
  unfold partialRange
  simp only
  split
  · exact l1 i
  · split
    · split
      · rw [hS.tryReset_eq (h1 i)]; exact l1 i
      · exact l1 i
    · have h3 := unconsRange_reach hS hR d i
      revert h3
      generalize R.unconsRange d i = x
      obtain ⟨q, j⟩ := x
      intro h3
      cases q <;> simp only
      · trivial
      · have h4 : S.Reach i (resume j).2 := Strm.Reach.trans h3 (h2 j)
        have l4 : S.Located Own i (resume j).1 := .back h3 (l2 j)
        split
        · rename_i e he; rw [he] at l4; exact l4
        · rename_i e he; rw [he] at l4; rw [hS.tryReset_eq h4]; exact l4
        · trivial
        · exact retake_located hS hE hR h4 _ _

theorem places_takeWhile (f : S.Tok → Bool) : Places Own (takeWhile R f) :=
  .ofMode hS hE (moves_takeWhile hS hR f).run
    (partialRange_located hS hE hR (fun i => unconsWhileP_reach hS hR _ _ i)
      (fun i => unconsWhileP_reach hS hR _ _ i) (fun i => unconsWhileP_located hS hE hR _ _ i)
      (fun i => unconsWhileP_located hS hE hR _ _ i)) (keeps_id hS hE) (keeps_id hS hE)

theorem places_takeWhile1 (f : S.Tok → Bool) : Places Own (takeWhile1 R f) :=
  .ofMode hS hE (moves_takeWhile1 hS hR f).run
    (partialRange_located hS hE hR (fun i => unconsWhile1P_reach hS hR _ _ i)
      (fun i => unconsWhileP_reach hS hR _ _ i) (fun i => unconsWhile1P_located hS hE hR _ _ i)
      (fun i => unconsWhileP_located hS hE hR _ _ i)) (keeps_id hS hE) (keeps_id hS hE)

theorem places_recognizeWithValue {p : Parser S σ α} (h : Places Own p) :
    Places Own (recognizeWithValue R p) := by
  have body : ∀ (m : Bool) (i j : S.Input) (s : Nat × σ), S.Reach i j →
      S.Located Own i (match (p.run m j s.2).res with
        | .commitOk x => retake R (S.checkpoint i) (s.1, (p.run m j s.2).st) (p.run m j s.2).inp
            fun r => (r, x)
        | .peekOk x => retake R (S.checkpoint i) (s.1, (p.run m j s.2).st) (p.run m j s.2).inp
            fun r => (r, x)
        | .peekErr e => ⟨.peekErr e, (p.run m j s.2).inp, (s.1, (p.run m j s.2).st)⟩
        | .commitErr e =>
          S.tryReset (S.checkpoint i) (p.run m j s.2).inp
            (R.distance (p.run m j s.2).inp (S.checkpoint i), (p.run m j s.2).st) fun k =>
            ⟨.commitErr e, k, (R.distance (p.run m j s.2).inp (S.checkpoint i), (p.run m j s.2).st)⟩
        | .abort a => ⟨.abort a, (p.run m j s.2).inp, (s.1, (p.run m j s.2).st)⟩ :
          Out S (Nat × σ) (S.Rng × α)).res := by
    intro m i j s hij
    have h1 := hij.trans (h.moves.run m j s.2)
    have l1 : S.Located Own i (p.run m j s.2).res := .back hij (h.run m j s.2)
    split
    · exact retake_located hS hE hR h1 _ _
    · exact retake_located hS hE hR h1 _ _
    · rename_i e he; rw [he] at l1; exact l1
    · rename_i e he; rw [he] at l1; rw [hS.tryReset_eq h1]; exact l1
    · trivial
  refine .ofMode hS hE (moves_recognizeWithValue hS hR h.moves).run (fun m i s => ?_) h.addError (keeps_id hS hE)
  simp only
  split
  · exact body m i i s (.refl i)
  · have h3 := unconsRange_reach hS hR s.1 i
    revert h3
    generalize R.unconsRange s.1 i = x
    obtain ⟨q, j⟩ := x
    intro h3
    cases q with
    | error e => trivial
    | ok r => exact body m i j s h3

theorem places_recognizeRange {p : Parser S σ α} (h : Places Own p) : Places Own (recognizeRange R p) :=
  places_parserMacro hS hE (places_map hS hE (places_recognizeWithValue hS hE hR h) _)

theorem takeUntilRangeLoop_located [DecidableEq S.Rng] (r : S.Rng) (i0 : S.Input) (n : Nat)
    (fe : Option (S.SErr × Nat)) (i : S.Input) (hi : S.Reach i0 i) (st : Nat) :
    S.Located Own i0 (takeUntilRangeLoop R r (S.checkpoint i0) n fe i st).res := by
  induction n generalizing fe i st with
  | zero => trivial
  | succ n ih =>
    unfold takeUntilRangeLoop
    simp only
    have h1 := unconsRange_reach hS hR (R.len r) i
    revert h1
    generalize R.unconsRange (R.len r) i = x
    obtain ⟨q, j⟩ := x
    intro h1
    have h1' : S.Reach i j := h1
    have hu := hS.uncons_reach i
    revert hu
    generalize hy : S.uncons i = y
    obtain ⟨u, l⟩ := y
    intro hu
    have hu' : S.Reach i l := hu
    cases q <;> simp only
    · rw [hS.tryReset_eq h1', hy]
      cases u with
      | ok t => exact ih _ _ (hi.trans hu') _
      | error e => simp only [hS.tryReset_eq (hi.trans hu')]; exact wrapStreamError_located hS hE i0 _
    · split
      · rw [hS.tryReset_eq (hi.trans h1')]
        generalize R.unconsRange (R.distance j (S.checkpoint i0) - R.len r) i0 = z
        obtain ⟨w, l2⟩ := z
        cases w with
        | error e => trivial
        | ok c => simp only; split <;> trivial
      · rw [hS.tryReset_eq h1', hy]
        cases u with
        | ok t => exact ih _ _ (hi.trans hu') _
        | error e => trivial

theorem places_takeUntilRange [DecidableEq S.Rng] (r : S.Rng) : Places Own (takeUntilRange R r) := by
  refine .ofMode hS hE (moves_takeUntilRange hS hR r).run (fun _ i st => ?_) (keeps_id hS hE) (keeps_id hS hE)
  simp only
  have h1 := unconsRangeP_reach hS hR st i
  have l1 := unconsRangeP_located (Own := Own) hS hE hR st i
  revert h1 l1
  generalize R.unconsRangeP st i = x
  obtain ⟨q, j⟩ := x
  intro h1 l1
  cases q <;> simp only
  · exact takeUntilRangeLoop_located hS hE hR r i _ _ _ h1 _
  · exact takeUntilRangeLoop_located hS hE hR r i _ _ _ h1 _
  · exact l1
  · exact l1
  · trivial

theorem places_takeFn (search : S.Rng → TakeRange) : Places Own (takeFn R search) := by
  refine .ofMode hS hE (moves_takeFn hS hR search).run (fun m i st => ?_) (keeps_id hS hE) (keeps_id hS hE)
  have hj : ∀ n, S.Reach i (if m then i else (R.unconsRange n i).2) := by
    intro n
    split
    · exact .refl i
    · exact unconsRange_reach hS hR n i
  simp only
  split
  · rw [hS.tryReset_eq (hj _)]; exact unconsRangeP_located hS hE hR _ i
  · have hk := (hj (if m = true then 0 else st)).trans (unconsRange_reach hS hR
      (R.len (R.range (if m then i else (R.unconsRange (if m = true then 0 else st) i).2))) _)
    rw [hS.tryReset_eq hk]
    have hk' := fun x => spot_fromError_at (Own := Own) hS hE hk x
    have h : ∀ (b : Bool) (x y : Out S Nat S.Rng), S.Located Own i x.res → S.Located Own i y.res →
        S.Located Own i (if b = true then x else y).res := by
      intro b x y hx hy
      cases b
      · exact hy
      · exact hx
    exact h _ _ _ (hk' _) (hk' _)

theorem places_lengthPrefix {p : Parser S σ α} (h : Places Own p) (f : α → Except S.SErr Nat) :
    Places Own (lengthPrefix R p f) :=
  places_parserMacroUnit hS hE
    (places_thenPartial hS hE (places_andThen hS hE h f) (fun _ => places_take hS hE hR _) _)

theorem places_takeUntilByte (b : S.Rng → List UInt8) (f : UInt8 → Bool) :
    Places Own (takeUntilByte R b f) := places_parserMacro hS hE (places_takeFn hS hE hR _)

theorem places_takeUntilBytes (b : S.Rng → List UInt8) (n : List UInt8) :
    Places Own (takeUntilBytes R b n) := places_parserMacro hS hE (places_takeFn hS hE hR _)

theorem places_regexMatch (re : Regex S.Rng) : Places Own (regexMatch R re) := by
  refine .ofLazy hS hE (moves_regexMatch hS hR re).lazy (fun i => ?_) (keeps_addExpected hS hE _) (keeps_id hS hE)
  split
  · trivial
  · exact spot_empty hS hE i

theorem regexTake_located (r : Nat × Option α) (i : S.Input) : S.Located Own i (regexTake R r i).1 := by
  unfold regexTake
  split
  · exact .map _ (unconsRangeP_located hS hE hR _ i)
  · exact spot_empty hS hE i

theorem places_regexFind (re : Regex S.Rng) : Places Own (regexFind R re) :=
  .ofLazy hS hE (moves_regexFind hS hR re).lazy (fun i => regexTake_located hS hE hR _ i)
    (keeps_addExpected hS hE _) (keeps_id hS hE)

theorem places_regexCaptures (re : Regex S.Rng) : Places Own (regexCaptures R re) :=
  .ofLazy hS hE (moves_regexCaptures hS hR re).lazy (fun i => regexTake_located hS hE hR _ i)
    (keeps_addExpected hS hE _) (keeps_id hS hE)

theorem places_regexFindMany (re : Regex S.Rng) : Places Own (regexFindMany R re) :=
  .ofLazy hS hE (moves_regexFindMany hS hR re).lazy (fun i => .map _ (unconsRangeP_located hS hE hR _ i))
    (keeps_addExpected hS hE _) (keeps_id hS hE)

theorem places_regexCapturesMany (re : Regex S.Rng) : Places Own (regexCapturesMany R re) :=
  .ofLazy hS hE (moves_regexCapturesMany hS hR re).lazy (fun i => .map _ (unconsRangeP_located hS hE hR _ i))
    (keeps_addExpected hS hE _) (keeps_id hS hE)

end

section
variable (hS : S.Lawful) (hE : S.E.Placing)
include hS hE

theorem places_satisfyNamed (f : S.Tok → Bool) (n : String) : Places Own (satisfyNamed S f n) :=
  places_expected hS hE (places_satisfy hS hE f) _

theorem places_spaces (f : S.Tok → Bool) (n : String) : Places Own (spaces S f n) :=
  places_expected hS hE (places_skipMany hS hE (places_satisfyNamed hS hE f n)) _

theorem places_newline [DecidableEq S.Tok] (lf : S.Tok) : Places Own (newline S lf) :=
  places_satisfyNamed hS hE _ _

theorem places_crlf [DecidableEq S.Tok] (cr lf : S.Tok) : Places Own (crlf S cr lf) :=
  places_expected hS hE
    (places_noPartial hS hE (places_with hS hE (places_satisfy hS hE _) (places_newline hS hE lf))) _

theorem places_stringCmp (ts : List τ) (cmp : τ → S.Tok → Bool) (x : Info S.Tok S.Rng) (v : α) :
    Places Own (stringCmp S ts cmp x v) :=
  places_expected hS hE (places_map hS hE (places_tokensCmp hS hE ts cmp) _) _

theorem readN_located (n : Nat) (buf : List S.Tok) (i : S.Input) : S.Located Own i (readN S n buf i).1 := by
  induction n generalizing buf i with
  | zero => trivial
  | succ n ih =>
    have h1 := unconsP_reach hS i
    have l1 := unconsP_located (Own := Own) hS hE i
    unfold readN
    revert h1 l1
    generalize S.unconsP i = x
    obtain ⟨r, j⟩ := x
    intro h1 l1
    cases r <;> simp only
    · exact .back h1 (ih _ _)
    · exact .back h1 (ih _ _)
    · exact l1
    · exact l1
    · trivial

theorem places_intParser (n : Nat) (conv : List S.Tok → α) : Places Own (intParser S n conv) := by
  have h1 := fun i => readN_reach hS n [] i
  refine places_fnParser hS hE _ (fun i => (moves_intParser hS n conv).lazy i) fun i => ?_
  have l1 := readN_located (Own := Own) hS hE n [] i
  simp only
  split
  · trivial
  · trivial
  · trivial
  · rename_i e he; rw [he] at l1; rw [hS.reset_reach (h1 i)]; exact l1
  · rename_i e he; rw [he] at l1; rw [hS.reset_reach (h1 i)]; exact l1

end

/-- Composed parsers report errors at spots. -/
theorem Placed.places (hS : S.Lawful) (hE : S.E.Placing) {R : RangeOps S} {toks : S.Rng → List S.Tok}
    {w : S.Tok → Nat} (hR : R.Lawful toks w) [DecidableEq S.Tok] [DecidableEq S.Rng] {p : Parser S σ α}
    (h : Placed R Own p) : Places Own p := by
  induction h with
  | any => exact places_any hS hE
  | satisfy f => exact places_satisfy hS hE f
  | satisfyMap f => exact places_satisfyMap hS hE f
  | token c => exact places_token hS hE c
  | tokens cmp x ts => exact places_tokens hS hE cmp x ts
  | tokensCmp ts cmp => exact places_tokensCmp hS hE ts cmp
  | position => exact places_position hS hE
  | oneOf ts => exact places_oneOf hS hE ts
  | noneOf ts => exact places_noneOf hS hE ts
  | value v => exact places_value hS hE v
  | produce f => exact places_produce hS hE f
  | eof => exact places_eof hS hE
  | notFollowedBy _ ih => exact places_notFollowedBy hS hE ih.moves
  | attempt _ ih => exact places_attempt hS hE ih
  | lookAhead _ ih => exact places_lookAhead hS hE ih
  | map f _ ih => exact places_map hS hE ih f
  | mapInput f hf _ ih => exact places_mapInput hS hE ih f hf
  | flatMap f hf _ ih => exact places_flatMap hS hE ih f hf
  | andThen f _ ih => exact places_andThen hS hE ih f
  | recognize _ ih => exact places_recognize hS hE ih
  | eitherLeft τ _ ih => exact places_eitherLeft hS hE ih τ
  | eitherRight σ _ ih => exact places_eitherRight hS hE ih σ
  | noPartial _ ih => exact places_noPartial hS hE ih
  | ignore _ ih => exact places_ignore hS hE ih
  | anyPartialState _ ih => exact places_anyPartialState hS hE ih
  | lazyP _ ih => exact places_lazyP hS hE ih
  | factory init _ ih => exact places_factory hS hE ih init
  | fromStr u f _ ih => exact places_fromStr hS hE ih u f
  | opaqueP _ ih => exact places_opaqueP hS hE ih
  | boxed _ ih => exact places_boxed hS hE ih
  | parserMacro _ ih => exact places_parserMacro hS hE ih
  | parserMacroUnit _ ih => exact places_parserMacroUnit hS hE ih
  | fnParser f hf hl => exact places_fnParser hS hE f hf hl
  | inputConverter p c b ce hb h1 h2 => exact places_inputConverter hS hE p c b ce hb h1 h2
  | bottom F init => exact places_bottom hS hE F init
  | unexpected α x => exact places_unexpected hS hE x
  | message x _ ih => exact places_message hS hE ih x
  | expected x _ ih => exact places_expected hS hE ih x
  | silent _ ih => exact places_silent hS hE ih
  | spanned a b hb _ ih => exact places_spanned hS hE a b hb ih
  | tuple ps _ _ ih ihs => exact places_tuple hS hE ih ps ihs
  | pair _ _ ih1 ih2 => exact places_pair hS hE ih1 ih2
  | «with» _ _ ih1 ih2 => exact places_with hS hE ih1 ih2
  | skip _ _ ih1 ih2 => exact places_skip hS hE ih1 ih2
  | between _ _ _ ih1 ih2 ih3 => exact places_between hS hE ih1 ih2 ih3
  | thenP n _ _ ih ihf => exact places_thenP hS hE ih ihf n
  | thenPartial n _ _ ih ihf => exact places_thenPartial hS hE ih ihf n
  | thenRef n _ _ ih ihf => exact places_thenRef hS hE ih ihf n
  | choice _ ih => exact places_choice hS hE ih
  | or _ _ ih1 ih2 => exact places_or hS hE ih1 ih2
  | sliceChoice all init _ ih => exact places_sliceChoice hS hE all ih init
  | optional _ ih => exact places_optional hS hE ih
  | dispatch k _ ih => exact places_dispatch hS hE ih k
  | many _ ih => exact places_many hS hE ih
  | many1 _ ih => exact places_many1 hS hE ih
  | countMinMax lo hi _ ih => exact places_countMinMax hS hE lo hi ih
  | count n _ ih => exact places_count hS hE n ih
  | skipCount n _ ih => exact places_skipCount hS hE n ih
  | skipCountMinMax lo hi _ ih => exact places_skipCountMinMax hS hE lo hi ih
  | skipMany _ ih => exact places_skipMany hS hE ih
  | skipMany1 _ ih => exact places_skipMany1 hS hE ih
  | sepBy _ _ ih1 ih2 => exact places_sepBy hS hE ih1 ih2
  | sepBy1 _ _ ih1 ih2 => exact places_sepBy1 hS hE ih1 ih2
  | sepEndBy _ _ ih1 ih2 => exact places_sepEndBy hS hE ih1 ih2
  | sepEndBy1 _ _ ih1 ih2 => exact places_sepEndBy1 hS hE ih1 ih2
  | chainl1 _ _ ih1 ih2 => exact places_chainl1 hS hE ih1 ih2
  | chainr1 _ _ ih1 ih2 => exact places_chainr1 hS hE ih1 ih2
  | takeUntil _ ih => exact places_takeUntil hS hE ih
  | skipUntil _ ih => exact places_skipUntil hS hE ih
  | repeatUntil _ _ ih1 ih2 => exact places_repeatUntil hS hE ih1 ih2
  | repeatSkipUntil _ _ ih1 ih2 => exact places_repeatSkipUntil hS hE ih1 ih2
  | escaped esc _ _ ih1 ih2 => exact places_escaped hS hE ih1 ih2 esc
  | iterate items init _ ih => exact places_iterate hS hE items ih init
  | range r => exact places_range hS hE hR r
  | take n => exact places_take hS hE hR n
  | takeWhile f => exact places_takeWhile hS hE hR f
  | takeWhile1 f => exact places_takeWhile1 hS hE hR f
  | recognizeWithValue _ ih => exact places_recognizeWithValue hS hE hR ih
  | recognizeRange _ ih => exact places_recognizeRange hS hE hR ih
  | takeUntilRange r => exact places_takeUntilRange hS hE hR r
  | takeFn f => exact places_takeFn hS hE hR f
  | lengthPrefix f _ ih => exact places_lengthPrefix hS hE hR ih f
  | satisfyNamed f n => exact places_satisfyNamed hS hE f n
  | spaces f n => exact places_spaces hS hE f n
  | newline lf => exact places_newline hS hE lf
  | crlf cr lf => exact places_crlf hS hE cr lf
  | stringCmp ts cmp x v => exact places_stringCmp hS hE ts cmp x v
  | takeUntilByte b f => exact places_takeUntilByte hS hE hR b f
  | takeUntilBytes b n => exact places_takeUntilBytes hS hE hR b n
  | intParser n conv => exact places_intParser hS hE n conv
  | regexMatch re => exact places_regexMatch hS hE hR re
  | regexFind re => exact places_regexFind hS hE hR re
  | regexFindMany re => exact places_regexFindMany hS hE hR re
  | regexCaptures re => exact places_regexCaptures hS hE hR re
  | regexCapturesMany re => exact places_regexCapturesMany hS hE hR re

end Verif
