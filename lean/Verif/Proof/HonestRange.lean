import Verif.Proof.HonestRep

/-! # The commit status tells the truth: range, byte and regex parsers -/

namespace Verif

set_option linter.unusedSectionVars false
set_option linter.unusedVariables false

variable {S : Strm} {σ τ υ α β γ : Type} {h : Bool} {Q : σ → Prop} {C : τ → Prop}
  {R : RangeOps S} {toks : S.Rng → List S.Tok} {w : S.Tok → Nat}

theorem since_of_len (hR : R.Lawful toks w) {n : Nat} {i j : S.Input} {r : S.Rng} (hr : S.Reads i (toks r) j)
    (hl : R.len r = n) : S.Since (decide (n ≠ 0)) i j := by
  rw [hR.len] at hl
  by_cases hn : n = 0
  · rw [hn] at hl
    rw [(weight_eq_zero hR.pos).1 hl] at hr
    simp only [hn, ne_eq, not_true_eq_false, decide_false]
    exact Strm.reads_nil.1 hr
  · simp only [ne_eq, hn, not_false_eq_true, decide_true]
    cases ht : toks r with
    | nil => rw [ht] at hl; exact absurd hl.symm hn
    | cons t ts => rw [ht] at hr; exact ⟨t, ts, hr⟩

theorem tells_size {E : Type} {n : Nat} {i j : S.Input} (hs : S.Since (decide (n ≠ 0)) i j) (v : α) :
    S.Tells i (if n = 0 then .peekOk v else .commitOk v : ParseResult α E) j := by
  by_cases hn : n = 0
  · simp only [hn, ne_eq, not_true_eq_false, decide_false] at hs
    rw [if_pos hn]
    exact hs
  · simp only [ne_eq, hn, not_false_eq_true, decide_true] at hs
    rw [if_neg hn]
    exact hs

theorem wrap_tells (i j k : S.Input) (e : S.SErr) : S.Tells i (S.wrapStreamError (α := α) j e) k := by
  unfold Strm.wrapStreamError
  split <;> trivial

theorem tells_unconsRangeP (hR : R.Lawful toks w) (n : Nat) (i : S.Input) :
    S.Tells i (R.unconsRangeP n i).1 (R.unconsRangeP n i).2 := by
  unfold RangeOps.unconsRangeP
  cases hx : R.unconsRange n i with
  | mk x j =>
    cases x with
    | error e => exact wrap_tells _ _ _ _
    | ok r =>
      obtain ⟨h1, h2⟩ := hR.range_ok hx
      exact tells_size (since_of_len hR h1 h2) r

theorem tells_unconsWhileP (hS : S.Lawful) (hR : R.Lawful toks w) {ς : Type} (f : ς → S.Tok → Bool × ς) (s : ς)
    (i : S.Input) : S.Tells i (R.unconsWhileP f s i).1.1 (R.unconsWhileP f s i).2 := by
  unfold RangeOps.unconsWhileP
  rcases hx : R.unconsWhile f s i with ⟨⟨x, s'⟩, j⟩
  obtain ⟨r, rfl, hr, _⟩ := hR.while_scan hx
  have := since_of_len hR hr rfl
  simp only
  by_cases hp : S.isPartial j = true
  · rw [if_pos hp, hS.inputAtEof_eq j]
    cases (S.inputAtEof j).1
    · exact tells_size this r
    · trivial
  · rw [if_neg hp]
    exact tells_size this r

theorem tells_unconsWhile1P (hS : S.Lawful) (hR : R.Lawful toks w) {ς : Type} (f : ς → S.Tok → Bool × ς) (s : ς)
    (i : S.Input) : S.Tells i (R.unconsWhile1P f s i).1.1 (R.unconsWhile1P f s i).2 := by
  unfold RangeOps.unconsWhile1P
  rcases hx : R.unconsWhile1 f s i with ⟨⟨x, s'⟩, j⟩
  rcases hR.while1_scan hx with ⟨r, rfl, hne, hr, _⟩ | ⟨e, rfl, rfl, _⟩
  · have : S.Since true i j := by
      cases ht : toks r with
      | nil => exact absurd ht hne
      | cons t ts => rw [ht] at hr; exact ⟨t, ts, hr⟩
    simp only
    by_cases hp : S.isPartial j = true
    · rw [if_pos hp, hS.inputAtEof_eq j]
      cases (S.inputAtEof j).1
      · exact this
      · trivial
    · rw [if_neg hp]
      exact this
  · simp only
    by_cases hp : S.isPartial j = true
    · rw [if_pos hp, hS.inputAtEof_eq j]
      cases (S.inputAtEof j).1 <;> trivial
    · rw [if_neg hp]
      trivial

theorem honest_range [DecidableEq S.Rng] (hR : R.Lawful toks w) (r : S.Rng) (hne : toks r ≠ []) :
    HonestIn h (fun _ => True) (range R r) := by
  refine .ofLazy fun i => ?_
  simp only
  cases hx : R.unconsRange (R.len r) i with
  | mk x j =>
    cases x with
    | error e => exact wrap_tells _ _ _ _
    | ok o =>
      simp only
      by_cases ho : o = r
      · rw [if_pos ho]
        subst ho
        have hr := (hR.range_ok hx).1
        cases ht : toks o with
        | nil => exact absurd ht hne
        | cons t ts => rw [ht] at hr; exact ⟨t, ts, hr⟩
      · rw [if_neg ho]; trivial

theorem honest_take (hR : R.Lawful toks w) (n : Nat) : HonestIn h (fun _ => True) (take R n) :=
  .ofLazy (tells_unconsRangeP hR n)

theorem partialRange_tells {first resume : S.Input → ParseResult S.Rng S.Err × S.Input}
    (hf : ∀ i, S.Tells i (first i).1 (first i).2) (i : S.Input) (d : Nat) :
    S.Tells i (partialRange R first resume true i d).res (partialRange R first resume true i d).inp := by
  have := hf i
  revert this
  unfold partialRange
  simp only [Bool.true_or, if_true]
  generalize first i = x
  obtain ⟨r, j⟩ := x
  intro this
  by_cases hp : S.isPartial i = true
  · simp only [hp, Bool.not_true, Bool.false_eq_true, if_false]
    cases r with
    | commitErr e =>
      simp only [Strm.tryReset]
      split <;> trivial
    | _ => exact this
  · simp only [hp, Bool.not_false, if_true]
    exact this

theorem honest_takeWhile (hS : S.Lawful) (hR : R.Lawful toks w) (f : S.Tok → Bool) :
    HonestIn h (fun _ => True) (takeWhile R f) :=
  .ofMode trivial (fun i s _ => partialRange_tells (fun i => tells_unconsWhileP hS hR _ _ i) i s)
    (fun _ _ _ _ => trivial)

theorem honest_takeWhile1 (hS : S.Lawful) (hR : R.Lawful toks w) (f : S.Tok → Bool) :
    HonestIn h (fun _ => True) (takeWhile1 R f) :=
  .ofMode trivial (fun i s _ => partialRange_tells (fun i => tells_unconsWhile1P hS hR _ _ i) i s)
    (fun _ _ _ _ => trivial)

theorem retake_tells (hS : S.Lawful) (hR : R.Lawful toks w) {i j : S.Input} (hr : S.Reach i j) (s : Nat × σ)
    (f : S.Rng → α) :
    S.Tells i (retake R (S.checkpoint i) s j f).res (retake R (S.checkpoint i) s j f).inp := by
  obtain ⟨ts, hr⟩ := hr
  obtain ⟨r, _, e⟩ := retake_eq hS hR hr s f
  rw [e]
  cases ts with
  | nil => exact Strm.reads_nil.1 hr
  | cons t ts => exact ⟨t, ts, hr⟩

theorem honest_recognizeWithValue (hS : S.Lawful) (hR : R.Lawful toks w) {p : Parser S σ α} (hm : Moves p) :
    HonestIn h (fun _ => True) (recognizeWithValue R p) := by
  refine .ofMode trivial (fun i s _ => ?_) (fun _ _ _ _ => trivial)
  have h1 := hm.run true i s.2
  revert h1
  simp only [if_true]
  generalize p.run true i s.2 = o
  obtain ⟨r, j, t⟩ := o
  intro h1
  cases r with
  | commitOk v => exact retake_tells hS hR h1 _ _
  | peekOk v => exact retake_tells hS hR h1 _ _
  | commitErr e => simp only [hS.tryReset_eq h1]; trivial
  | _ => trivial

theorem honest_recognizeRange (hS : S.Lawful) (hR : R.Lawful toks w) {p : Parser S σ α} (hm : Moves p) :
    HonestIn h (fun _ => True) (recognizeRange R p) :=
  honest_parserMacro (honest_map (honest_recognizeWithValue hS hR hm) _)

theorem takeUntilRangeLoop_tells [DecidableEq S.Rng] (hS : S.Lawful) (hR : R.Lawful toks w) (r : S.Rng)
    (i0 : S.Input) : ∀ (n : Nat) (fe : Option (S.SErr × Nat)) (i : S.Input) (st : Nat), S.Reach i0 i →
    S.Tells i0 (takeUntilRangeLoop R r (S.checkpoint i0) n fe i st).res
      (takeUntilRangeLoop R r (S.checkpoint i0) n fe i st).inp := by
  intro n
  induction n with
  | zero => exact fun _ _ _ _ => trivial
  | succ n ih =>
    intro fe i st hi
    simp only [takeUntilRangeLoop]
    cases hx : R.unconsRange (R.len r) i with
    | mk x j =>
      cases x with
      | ok xs =>
        have hr := (hR.range_ok hx).1
        simp only
        by_cases hxs : xs = r
        · rw [if_pos hxs, hS.tryReset_eq (hi.trans ⟨_, hr⟩)]
          generalize R.distance j (S.checkpoint i0) - R.len r = d
          cases hy : R.unconsRange d i0 with
          | mk y l =>
            cases y with
            | error e => trivial
            | ok c =>
              obtain ⟨h1, h2⟩ := hR.range_ok hy
              have := since_of_len hR h1 h2
              simp only
              by_cases hd : d = 0
              · simp only [hd, ne_eq, not_true_eq_false, decide_false, if_true] at this ⊢
                exact this
              · simp only [hd, ne_eq, not_false_eq_true, decide_true, if_false] at this ⊢
                exact this
        · rw [if_neg hxs, hS.tryReset_eq ⟨_, hr⟩]
          cases hu : S.uncons i with
          | mk y l =>
            cases y with
            | error e => trivial
            | ok t => exact ih _ _ _ (hi.trans ⟨[t], .cons hu (.nil l)⟩)
      | error e =>
        have := (hR.range_error hx).1
        subst this
        simp only
        rw [hS.tryReset_eq (.refl j)]
        cases hu : S.uncons j with
        | mk y l =>
          cases y with
          | error e =>
            have := hS.uncons_error hu
            subst this
            simp only [hS.tryReset_eq hi]
            exact wrap_tells _ _ _ _
          | ok t => exact ih _ _ _ (hi.trans ⟨[t], .cons hu (.nil l)⟩)

theorem reach_unconsRangeP (hR : R.Lawful toks w) (n : Nat) (i : S.Input) : S.Reach i (R.unconsRangeP n i).2 := by
  unfold RangeOps.unconsRangeP
  cases hx : R.unconsRange n i with
  | mk x j =>
    cases x with
    | error e => rw [(hR.range_error hx).1]; exact .refl i
    | ok r => exact ⟨_, (hR.range_ok hx).1⟩

theorem honest_takeUntilRange [DecidableEq S.Rng] (hS : S.Lawful) (hR : R.Lawful toks w) (r : S.Rng) :
    HonestIn h (fun _ => True) (takeUntilRange R r) := by
  refine .ofMode trivial (fun i s _ => ?_) (fun _ _ _ _ => trivial)
  have hr := reach_unconsRangeP hR s i
  revert hr
  simp only
  generalize R.unconsRangeP s i = x
  obtain ⟨y, j⟩ := x
  intro hr
  cases y with
  | commitOk v => exact takeUntilRangeLoop_tells hS hR r i _ _ j _ hr
  | peekOk v => exact takeUntilRangeLoop_tells hS hR r i _ _ j _ hr
  | _ => trivial

theorem honest_takeFn (hS : S.Lawful) (hR : R.Lawful toks w) (f : S.Rng → TakeRange) :
    HonestIn h (fun _ => True) (takeFn R f) := by
  refine .ofMode trivial (fun i s _ => ?_) (fun _ _ _ _ => trivial)
  simp only [if_true]
  cases f (R.range i) with
  | found k =>
    simp only [hS.tryReset_eq (.refl i)]
    exact tells_unconsRangeP hR _ i
  | notFound n =>
    have : S.Reach i (R.unconsRange (R.len (R.range i)) i).2 := by
      cases hx : R.unconsRange (R.len (R.range i)) i with
      | mk x j =>
        cases x with
        | error e => rw [(hR.range_error hx).1]; exact .refl i
        | ok r => exact ⟨_, (hR.range_ok hx).1⟩
    simp only [hS.tryReset_eq this]
    split <;> trivial

theorem fresh_thenPartial {p : Parser S σ α} {f : α → Parser S τ β × α} (n : τ) (hn : C n)
    (hp : HonestFresh p) (hf : ∀ a, HonestIn h C (f a).1) : HonestFresh (thenPartial p f n) := by
  refine .ofMode fun i => ?_
  have hr := hp.run i
  revert hr
  simp only [if_true]
  generalize p.run true i p.init = o
  obtain ⟨r, j, s'⟩ := o
  intro hr
  cases r with
  | commitOk v => exact thenMerge_tells (c := true) hr ((hf v).committed j _ hn)
  | peekOk v => exact thenMerge_tells (c := false) hr ((hf v).committed j _ hn)
  | _ => trivial

theorem honest_lengthPrefix (hS : S.Lawful) (hR : R.Lawful toks w) {p : Parser S σ α} (hm : Moves p)
    (hp : HonestFresh p) (f : α → Except S.SErr Nat) : HonestIn h (fun _ => True) (lengthPrefix R p f) :=
  honest_parserMacroUnit (fresh_thenPartial (h := true) (C := fun _ => True) () trivial
    (fresh_andThen hS hm hp f) fun a => honest_take hR a)

/-! ## Bytes, characters and regular expressions -/

theorem honest_satisfyNamed (f : S.Tok → Bool) (n : String) : HonestIn h (fun _ => True) (satisfyNamed S f n) :=
  honest_expected (honest_satisfy f) _

theorem honest_spaces (hS : S.Lawful) (f : S.Tok → Bool) (n : String)
    (hm : Moves (ignore (satisfyNamed S f n))) : HonestIn h (fun _ => True) (spaces S f n) :=
  honest_expected (honest_skipMany hS hm (honest_satisfyNamed f n)) _

theorem honest_newline [DecidableEq S.Tok] (lf : S.Tok) : HonestIn h (fun _ => True) (newline S lf) :=
  honest_satisfyNamed _ _

theorem honest_crlf [DecidableEq S.Tok] (cr lf : S.Tok) : HonestIn h (fun _ => True) (crlf S cr lf) :=
  honest_expected (honest_noPartial (honest_with (h := true) (honest_satisfy _) (honest_newline lf)).fresh) _

theorem honest_stringCmp (ts : List β) (cmp : β → S.Tok → Bool) (x : Info S.Tok S.Rng) (v : α) :
    HonestIn h (fun _ => True) (stringCmp S ts cmp x v) :=
  honest_expected (honest_map (honest_tokensCmp ts cmp) _) _

theorem honest_takeUntilByte (hS : S.Lawful) (hR : R.Lawful toks w) (b : S.Rng → List UInt8) (f : UInt8 → Bool) :
    HonestIn h (fun _ => True) (takeUntilByte R b f) := honest_parserMacro (honest_takeFn hS hR _)

theorem honest_takeUntilBytes (hS : S.Lawful) (hR : R.Lawful toks w) (b : S.Rng → List UInt8) (n : List UInt8) :
    HonestIn h (fun _ => True) (takeUntilBytes R b n) := honest_parserMacro (honest_takeFn hS hR _)

theorem readN_since (i0 : S.Input) : ∀ (n : Nat) (c : Bool) (buf : List S.Tok) (i : S.Input), S.Since c i0 i →
    (∃ x, (readN S n buf i).1 = .commitOk x ∧ S.Since (c || decide (n ≠ 0)) i0 (readN S n buf i).2) ∨
    ∀ v, (readN S n buf i).1 ≠ .commitOk v ∧ (readN S n buf i).1 ≠ .peekOk v
  | 0, c, buf, i, hs => .inl ⟨buf, rfl, by simp only [readN]; simpa using hs⟩
  | n + 1, c, buf, i, hs => by
    simp only [readN]
    have e : (c || decide (n + 1 ≠ 0)) = true := by simp
    rw [e]
    cases hx : S.unconsP i with
    | mk r j =>
      cases r with
      | commitOk t =>
        have := readN_since i0 n true (buf ++ [t]) j (hs.step (since_of_unconsP (.inl hx)))
        simpa using this
      | peekOk t =>
        have := readN_since i0 n true (buf ++ [t]) j (hs.step (since_of_unconsP (.inr hx)))
        simpa using this
      | commitErr e => exact .inr fun v => ⟨(fun h => by cases h), (fun h => by cases h)⟩
      | peekErr e => exact .inr fun v => ⟨(fun h => by cases h), (fun h => by cases h)⟩
      | abort e => exact .inr fun v => ⟨(fun h => by cases h), (fun h => by cases h)⟩

theorem honest_intParser (n : Nat) (conv : List S.Tok → α) (hn : n ≠ 0) :
    HonestIn h (fun _ => True) (intParser S n conv) := by
  refine honest_fnParser _ fun i => ?_
  have := readN_since i n false [] i rfl
  revert this
  simp only
  generalize readN S n [] i = x
  obtain ⟨r, j⟩ := x
  intro this
  rcases this with ⟨y, hy, hs⟩ | hno
  · simp only at hy hs
    subst hy
    simp only [ne_eq, hn, not_false_eq_true, decide_true, Bool.or_true] at hs
    exact hs
  · cases r with
    | commitOk v => exact absurd rfl (hno v).1
    | peekOk v => exact absurd rfl (hno v).2
    | commitErr e => simp only; split <;> trivial
    | peekErr e => simp only; split <;> trivial
    | abort a => trivial

theorem honest_regexMatch (re : Regex S.Rng) : HonestIn h (fun _ => True) (regexMatch R re) := by
  refine .ofLazy fun i => ?_
  split
  · rfl
  · trivial

theorem regexTake_tells (hR : R.Lawful toks w) (r : Nat × Option β) (i : S.Input) :
    S.Tells i (regexTake R r i).1 (regexTake R r i).2 := by
  unfold regexTake
  cases r.2 with
  | none => trivial
  | some v => exact tells_map (E' := S.Err) (tells_unconsRangeP hR r.1 i) _

theorem honest_regexFind (hR : R.Lawful toks w) (re : Regex S.Rng) :
    HonestIn h (fun _ => True) (regexFind R re) := .ofLazy fun i => regexTake_tells hR _ i

theorem honest_regexFindMany (hR : R.Lawful toks w) (re : Regex S.Rng) :
    HonestIn h (fun _ => True) (regexFindMany R re) :=
  .ofLazy fun i => tells_map (E' := S.Err) (tells_unconsRangeP hR _ i) _

theorem honest_regexCaptures (hR : R.Lawful toks w) (re : Regex S.Rng) :
    HonestIn h (fun _ => True) (regexCaptures R re) := .ofLazy fun i => regexTake_tells hR _ i

theorem honest_regexCapturesMany (hR : R.Lawful toks w) (re : Regex S.Rng) :
    HonestIn h (fun _ => True) (regexCapturesMany R re) :=
  .ofLazy fun i => tells_map (E' := S.Err) (tells_unconsRangeP hR _ i) _

end Verif
