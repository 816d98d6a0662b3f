import Verif.Proof.Safe
import Verif.Proof.SliceLaws
import Verif.Props.Repeat

/-!
# C36: repetition over parsers that consume terminates

`NeverAborts (many p)` means that the loop of `many` ends, within its fuel of one iteration per remaining
token (and one more for an element that is being resumed and one to find the end), without a panic.
-/

namespace Verif

set_option linter.unusedVariables false

variable {S : Strm} {σ τ υ α β γ : Type}

/-! ## The repetition combinators -/

/-- **C36** for `many`. -/
theorem C36_many (hS : S.Lawful) {p : Parser S σ α} (hm : Moves p) (ha : NeverAborts p) (hp : Progress p) :
    NeverAborts (many p) := by
  intro m i s
  refine fast_safe (iter_safe hS hm.run ha some (hp.weaken _) _ none _ _ ?_ ?_) _
  · cases m <;> simp [IterS.new]
  · intro a h; cases h

/-- **C36** for `many1`. -/
theorem C36_many1 (hS : S.Lawful) {p : Parser S σ α} (hm : Moves p) (ha : NeverAborts p) (hp : Progress p) :
    NeverAborts (many1 p) := by
  have hr : ∀ m i s a, (many1Rest p m i s).res ≠ .abort a := by
    intro m i s
    refine fast_safe (iter_safe hS hm.run ha some (hp.weaken _) _ none _ _ ?_ ?_) _
    · cases m <;> simp
    · intro a h; cases h
  intro m i s a
  show (if m || !s.parsedOne then _ else many1Rest p m i s).res ≠ _
  split
  · have h1 := ha m i s.child
    revert h1
    generalize p.run m i s.child = o
    obtain ⟨r, j, u⟩ := o
    cases r with
    | commitOk v => intro _; exact hr _ _ _ _
    | peekOk v => intro _; exact hr _ _ _ _
    | commitErr e => intro _ h; cases h
    | peekErr e => intro _ h; cases h
    | abort b => intro h; exact absurd rfl (h b)
  · exact hr _ _ _ _

/-- **C36.**  `many1` of a consuming parser consumes, so it can be repeated in turn. -/
theorem C36_many1_progress (hS : S.Lawful) {p : Parser S σ α} (hm : Moves p) (hp : Progress p) :
    Progress (many1 p) := by
  intro i s
  have h1 := hp i s.child
  have hr : ∀ j st, S.Reach j (many1Rest p true j st).inp := fun j st =>
    iterExtend_reach hS hm some _ none st.elements ⟨j, st.committed, .ok, st.child, true⟩
  simp only [many1, Parser.ofMode, Bool.true_or, if_true]
  revert h1
  generalize p.run true i s.child = o
  obtain ⟨r, j, u⟩ := o
  intro h1
  cases r with
  | commitOk v =>
    intro _
    obtain ⟨t, ts, h⟩ := h1 rfl
    exact reads_append_left h (hr j _)
  | peekOk v =>
    intro _
    obtain ⟨t, ts, h⟩ := h1 rfl
    exact reads_append_left h (hr j _)
  | _ => intro h; cases h

/-- **C36** for `skip_many`. -/
theorem C36_skip_many (hS : S.Lawful) {p : Parser S σ α} (hm : Moves p) (ha : NeverAborts p) (hp : Progress p) :
    NeverAborts (skipMany p) :=
  never_parserMacro (never_ignore (C36_many hS (moves_ignore hS hm) (never_ignore ha) (progress_ignore hp)))

/-- **C36** for `skip_many1`. -/
theorem C36_skip_many1 (hS : S.Lawful) {p : Parser S σ α} (hm : Moves p) (ha : NeverAborts p) (hp : Progress p) :
    NeverAborts (skipMany1 p) :=
  never_parserMacro (never_ignore (C36_many1 hS (moves_ignore hS hm) (never_ignore ha) (progress_ignore hp)))

/-- **C36** for `sep_by1`: it suffices that the element or the separator consumes. -/
theorem C36_sep_by1 (hS : S.Lawful) {p : Parser S σ α} {sep : Parser S τ β} (hmp : Moves p) (hms : Moves sep)
    (hap : NeverAborts p) (has : NeverAborts sep) (hp : Progress p ∨ Progress sep) :
    NeverAborts (sepBy1 p sep) := by
  have hr := iter_safe hS (moves_with hS (moves_boxed hS hms) (moves_boxed hS hmp)).run
    (never_with (never_boxed has) (never_boxed hap)) some
    ((progress_with hS (moves_boxed hS hms) (moves_boxed hS hmp) hp.symm).weaken _)
  have go : ∀ (m : Bool) (c : Commit Unit) (els : List α) (i : S.Input) (s : SepSt σ τ α) (a : Abort),
      ParseResult.combineCommit c (fun _ => ((iterExtend («with» (boxed sep) (boxed p)) some (S.size i + 2) none els
        (IterS.new m i s)).2.intoResultFast (iterExtend («with» (boxed sep) (boxed p)) some (S.size i + 2) none els
        (IterS.new m i s)).1).1) ≠ .abort a := by
    intro m c els i s
    refine combine_safe (fast_safe (hr _ none _ _ ?_ ?_) _)
    · cases m <;> simp [IterS.new]
    · intro a h; cases h
  intro m i s a
  simp only [sepBy1, Parser.ofMode]
  obtain ⟨one, els, child⟩ := s
  cases one with
  | some c => exact go _ _ _ _ _ _
  | none =>
    have h1 := hap m i child.tail.1.2
    simp only
    revert h1
    generalize p.run m i child.tail.1.2 = o
    obtain ⟨r, j, u⟩ := o
    cases r with
    | commitOk v => intro _; exact go m (.commit ()) _ j _ a
    | peekOk v => intro _; exact go m (.peek ()) _ j _ a
    | commitErr e => intro _ h; cases h
    | peekErr e => intro _ h; cases h
    | abort b => intro h; exact absurd rfl (h b)

private theorem never_emptyList : NeverAborts (emptyList S α) := never_ofLazy fun _ _ h => by cases h

/-- **C36** for `sep_by`. -/
theorem C36_sep_by (hS : S.Lawful) {p : Parser S σ α} {sep : Parser S τ β} (hmp : Moves p) (hms : Moves sep)
    (hap : NeverAborts p) (has : NeverAborts sep) (hp : Progress p ∨ Progress sep) :
    NeverAborts (sepBy p sep) :=
  never_or (C36_sep_by1 hS (moves_boxed hS hmp) (moves_boxed hS hms) (never_boxed hap) (never_boxed has) hp)
    never_emptyList

/-- The tail of `sep_end_by1` reads something whenever it yields an element. -/
private theorem sep_end_progress (hS : S.Lawful) {p : Parser S σ α} {sep : Parser S τ β} (hmp : Moves p)
    (hms : Moves sep) (hp : Progress p ∨ Progress sep) :
    ProgressIf (fun x => id x ≠ none) («with» sep (optional p)) := by
  rcases hp with hp | hp
  · intro i s x hx hn
    have h : ProgressIf (fun x => x ≠ none) (optional p) := by
      intro i s y hy hn
      have h1 := hp i s
      revert hy
      simp only [optional, Parser.ofMode]
      revert h1
      have h2 := hmp.run true i s
      revert h2
      generalize p.run true i s = o
      obtain ⟨r, j, u⟩ := o
      intro h2 h1
      cases r with
      | commitOk v => intro _; exact h1 rfl
      | peekOk v => intro _; exact h1 rfl
      | commitErr e => intro h; rcases h with h | h <;> cases h
      | peekErr e =>
        simp only
        rw [hS.tryReset_eq h2]
        intro h
        rcases h with h | h
        · cases h
        · cases h; exact absurd rfl hn
      | abort e => intro h; rcases h with h | h <;> cases h
    have e : («with» sep (optional p)).run true i s = ((pair (ignore sep) (optional p)).run true i s).mapRes
      (·.map fun x => x.2.1) := rfl
    rw [e] at hx ⊢
    have h' := progressIf_second hS (moves_ignore hS hms) (moves_optional hS hmp) h i s
    simp only [Out.mapRes] at hx ⊢
    revert hx h'
    generalize (pair (ignore sep) (optional p)).run true i s = o
    obtain ⟨r, j, u⟩ := o
    intro hx h'
    cases r with
    | commitOk v =>
      refine h' v (.inl rfl) ?_
      rcases hx with hx | hx <;> cases hx
      exact hn
    | peekOk v =>
      refine h' v (.inr rfl) ?_
      rcases hx with hx | hx <;> cases hx
      exact hn
    | _ => rcases hx with hx | hx <;> cases hx
  · exact (progress_with hS hms (moves_optional hS hmp) (.inl hp)).weaken _

/-- **C36** for `sep_end_by1`. -/
theorem C36_sep_end_by1 (hS : S.Lawful) {p : Parser S σ α} {sep : Parser S τ β} (hmp : Moves p) (hms : Moves sep)
    (hap : NeverAborts p) (has : NeverAborts sep) (hp : Progress p ∨ Progress sep) :
    NeverAborts (sepEndBy1 p sep) := by
  have hr := iter_safe hS (moves_with hS (moves_boxed hS hms) (moves_optional hS (moves_boxed hS hmp))).run
    (never_with (never_boxed has) (never_optional hS (moves_boxed hS hmp) (never_boxed hap))) id
    (sep_end_progress hS (moves_boxed hS hmp) (moves_boxed hS hms) hp)
  have go : ∀ (m : Bool) (c : Commit Unit) (els : List α) (i : S.Input) (s : SepSt σ τ (Option α)) (a : Abort),
      ParseResult.combineCommit c (fun _ => ((iterExtend («with» (boxed sep) (optional (boxed p))) id (S.size i + 2) none els
        (IterS.new m i s)).2.intoResultFast (iterExtend («with» (boxed sep) (optional (boxed p))) id (S.size i + 2) none els
        (IterS.new m i s)).1).1) ≠ .abort a := by
    intro m c els i s
    refine combine_safe (fast_safe (hr _ none _ _ ?_ ?_) _)
    · cases m <;> simp [IterS.new]
    · intro a h; cases h
  intro m i s a
  simp only [sepEndBy1, Parser.ofMode]
  obtain ⟨one, els, child⟩ := s
  cases one with
  | some c => exact go _ _ _ _ _ _
  | none =>
    have h1 := hap m i child.tail.1.2
    simp only
    revert h1
    generalize p.run m i child.tail.1.2 = o
    obtain ⟨r, j, u⟩ := o
    cases r with
    | commitOk v => intro _; exact go m (.commit ()) _ j _ a
    | peekOk v => intro _; exact go m (.peek ()) _ j _ a
    | commitErr e => intro _ h; cases h
    | peekErr e => intro _ h; cases h
    | abort b => intro h; exact absurd rfl (h b)

/-- **C36** for `sep_end_by`. -/
theorem C36_sep_end_by (hS : S.Lawful) {p : Parser S σ α} {sep : Parser S τ β} (hmp : Moves p) (hms : Moves sep)
    (hap : NeverAborts p) (has : NeverAborts sep) (hp : Progress p ∨ Progress sep) :
    NeverAborts (sepEndBy p sep) :=
  never_or (C36_sep_end_by1 hS (moves_boxed hS hmp) (moves_boxed hS hms) (never_boxed hap) (never_boxed has) hp)
    never_emptyList

private theorem chain_safe (hS : S.Lawful) {t : Parser S τ ((α → α → α) × α × Unit)} (hm : Moves t)
    (ha : NeverAborts t) (hp : Progress t) (n : Nat) (m : Bool) (l : α) (c : Commit Unit) (i : S.Input) (s : τ)
    (hn : S.size i + (if m then 1 else 2) ≤ n) (a : Abort) : (chainl1Loop t n m l c i s).res ≠ .abort a := by
  induction n generalizing m l c i s with
  | zero => exfalso; revert hn; cases m <;> simp
  | succ n ih =>
    have h1 := ha m i s
    have h2 := hm.run m i s
    have h3 : m = true → (t.run m i s).res.isOk = true → S.size (t.run m i s).inp + 1 ≤ S.size i := by
      rintro rfl hk
      obtain ⟨x, xs, hr⟩ := hp i s hk
      have := hS.reads_size hr
      simp only [List.length_cons] at this
      omega
    unfold chainl1Loop
    simp only
    revert h1 h2 h3
    generalize t.run m i s = o
    obtain ⟨r, j, u⟩ := o
    intro h1 h2 h3
    have h4 := hS.reach_size h2
    have h5 : ParseResult.isOk r = true → S.size j + 1 ≤ n := by
      intro hr
      have h6 := fun hm => h3 hm hr
      simp only at h4 h6
      cases m
      · simp at hn; omega
      · have := h6 rfl
        simp at hn
        omega
    cases r with
    | commitOk x => exact ih true _ _ _ _ (h5 rfl)
    | peekOk x => exact ih true _ _ _ _ (h5 rfl)
    | commitErr e => intro h; cases h
    | peekErr e =>
      simp only [ParseResult.toStd]
      rw [hS.tryReset_eq h2]
      cases c <;> intro h <;> cases h
    | abort b => exact absurd rfl (h1 b)

/-- **C36** for `chainl1`: it suffices that the operand or the operator consumes. -/
theorem C36_chainl1 (hS : S.Lawful) {p : Parser S σ α} {op : Parser S τ (α → α → α)} (hmp : Moves p)
    (hmo : Moves op) (hap : NeverAborts p) (hao : NeverAborts op) (hp : Progress p ∨ Progress op) :
    NeverAborts (chainl1 p op) := by
  have go := chain_safe hS (moves_pair hS (moves_boxed hS hmo) (moves_boxed hS hmp))
    (never_pair (never_boxed hao) (never_boxed hap))
    (progress_pair hS (moves_boxed hS hmo) (moves_boxed hS hmp) hp.symm)
  intro m i s a
  simp only [chainl1, Parser.ofMode]
  obtain ⟨one, child⟩ := s
  cases one with
  | some c => exact go _ _ _ _ _ _ (by cases m <;> simp) _
  | none =>
    have h1 := hap false i child.tail.1.2
    simp only
    revert h1
    generalize p.run false i child.tail.1.2 = o
    obtain ⟨r, j, u⟩ := o
    cases r with
    | commitOk v => intro _; exact go _ _ _ _ _ _ (by simp) _
    | peekOk v => intro _; exact go _ _ _ _ _ _ (by simp) _
    | commitErr e => intro _ h; cases h
    | peekErr e => intro _ h; cases h
    | abort b => intro h; exact absurd rfl (h b)

/-- **C36** for `take_until` / `skip_until`: no condition on the end parser. -/
theorem C36_take_until (hS : S.Lawful) {e : Parser S σ α} (hm : Moves e) (ha : NeverAborts e) :
    NeverAborts (takeUntil e) := by
  suffices h : ∀ m n c i els s a, S.size i + 1 ≤ n → (takeUntilLoop e m n c i els s).res ≠ .abort a by
    exact fun m i s a => h _ _ _ _ _ _ _ (Nat.le_refl _)
  intro m n
  induction n with
  | zero => intro c i els s a h; omega
  | succ n ih =>
    intro c i els s a hn
    have h1 := ha m i s
    have h2 := hm.run m i s
    unfold takeUntilLoop
    simp only
    revert h1 h2
    generalize e.run m i s = o
    obtain ⟨r, j, u⟩ := o
    intro h1 h2
    cases r with
    | commitOk x =>
      simp only [ParseResult.toStd]
      rw [hS.tryReset_eq h2]
      cases c <;> intro h <;> cases h
    | peekOk x =>
      simp only [ParseResult.toStd]
      rw [hS.tryReset_eq h2]
      cases c <;> intro h <;> cases h
    | commitErr e =>
      simp only [ParseResult.toStd]
      rw [hS.tryReset_eq h2]
      intro h; cases h
    | peekErr e =>
      simp only [ParseResult.toStd]
      rw [hS.tryReset_eq h2]
      have h3 := unconsP_safe i
      have h4 : ∀ t k, (S.unconsP i = (.commitOk t, k) ∨ S.unconsP i = (.peekOk t, k)) → S.size k + 1 ≤ n :=
        fun t k h => by have := hS.size (unconsP_ok h); omega
      revert h3 h4
      generalize S.unconsP i = x
      obtain ⟨r, k⟩ := x
      intro h3 h4
      cases r with
      | commitOk t => exact ih _ _ _ _ _ (h4 _ _ (.inl rfl))
      | peekOk t => exact ih _ _ _ _ _ (h4 _ _ (.inr rfl))
      | abort b => exact absurd rfl (h3 b)
      | _ => intro h; cases h
    | abort b => exact absurd rfl (h1 b)

/-- **C36** for `skip_until`. -/
theorem C36_skip_until (hS : S.Lawful) {e : Parser S σ α} (hm : Moves e) (ha : NeverAborts e) :
    NeverAborts (skipUntil e) :=
  never_parserMacro (never_with (C36_take_until hS hm ha) (never_value _))

/-- **C36** for `repeat_until`: the repeated parser consumes, the end parser need not. -/
theorem C36_repeat_until (hS : S.Lawful) {p : Parser S σ α} {e : Parser S τ β} (hmp : Moves p) (hme : Moves e)
    (hap : NeverAborts p) (hae : NeverAborts e) (hp : Progress p) : NeverAborts (repeatUntil p e) := by
  suffices h : ∀ n m c i (s : RepeatSt σ τ α) a,
      2 * S.size i + (if s.isParse then (if m then 1 else 3) else 2) ≤ n →
      (repeatUntilLoop p e n m c i s).res ≠ .abort a by
    refine fun m i s a => h _ _ _ _ _ _ ?_
    split
    · split <;> omega
    · omega
  intro n
  induction n with
  | zero => intro m c i s a h; exfalso; revert h; split; split <;> omega; omega
  | succ n ih =>
    intro m c i s a hn
    obtain ⟨out, isP, ps, es⟩ := s
    unfold repeatUntilLoop
    cases isP with
    | true =>
      simp only [if_true] at hn ⊢
      have h1 := hap m i ps
      have h2 := hmp.run m i ps
      have h3 : m = true → (p.run m i ps).res.isOk = true → S.size (p.run m i ps).inp + 1 ≤ S.size i := by
        rintro rfl hk
        obtain ⟨x, xs, hr⟩ := hp i ps hk
        have := hS.reads_size hr
        simp only [List.length_cons] at this
        omega
      revert h1 h2 h3
      generalize p.run m i ps = o
      obtain ⟨r, j, u⟩ := o
      intro h1 h2 h3
      have h4 := hS.reach_size h2
      have h5 : ParseResult.isOk r = true → 2 * S.size j + 2 ≤ n := by
        intro hr
        have h6 := fun hm => h3 hm hr
        simp only at h4 h6
        cases m
        · simp at hn; omega
        · have := h6 rfl
          simp at hn
          omega
      cases r with
      | commitOk v => exact ih _ _ _ _ _ (h5 rfl)
      | peekOk v => exact ih _ _ _ _ _ (h5 rfl)
      | abort b => exact absurd rfl (h1 b)
      | _ => intro h; cases h
    | false =>
      have h1 := hae m i es
      have h2 := hme.run m i es
      simp only [Bool.false_eq_true, if_false] at hn ⊢
      revert h1 h2
      generalize e.run m i es = o
      obtain ⟨r, j, u⟩ := o
      intro h1 h2
      cases r with
      | commitOk x =>
        simp only [ParseResult.toStd]
        rw [hS.tryReset_eq h2]
        cases c <;> intro h <;> cases h
      | peekOk x =>
        simp only [ParseResult.toStd]
        rw [hS.tryReset_eq h2]
        cases c <;> intro h <;> cases h
      | commitErr e =>
        simp only [ParseResult.toStd]
        rw [hS.tryReset_eq h2]
        intro h; cases h
      | peekErr e =>
        simp only [ParseResult.toStd]
        rw [hS.tryReset_eq h2]
        refine ih _ _ _ _ _ ?_
        simp only [if_true]
        omega
      | abort b => exact absurd rfl (h1 b)

/-- The lazy entry point aborts and succeeds as `run` does. -/
private theorem lazy_facts {p : Parser S σ α} (hc : Coherent p) (ha : NeverAborts p) (i : S.Input) :
    (∀ a, (p.lazy i).1 ≠ .abort a) ∧
    (Progress p → (p.lazy i).1.isOk = true → ∃ t ts, S.Reads i (t :: ts) (p.lazy i).2) := by
  have h1 := hc.lazy i
  have h2 := ha true i p.init
  have h3 : Progress p → _ := fun h => h i p.init
  unfold Parser.answer at h1
  revert h1 h2 h3
  generalize p.run true i p.init = o
  generalize p.lazy i = x
  obtain ⟨r, j, u⟩ := o
  obtain ⟨r', j'⟩ := x
  intro h1 h2 h3
  cases r <;> cases r' <;> simp only [Answer.of, Out.answer] at h1 <;> cases h1 <;>
    first
    | exact absurd rfl (h2 _)
    | exact ⟨fun a h => (by cases h), fun hp _ => h3 hp rfl⟩
    | exact ⟨fun a h => (by cases h), fun hp h => (by cases h)⟩

private theorem chainr1_safe (hS : S.Lawful) {p : Parser S σ α} {op : Parser S τ (α → α → α)} (hmp : Moves p)
    (hmo : Moves op) (hcp : Coherent p) (hco : Coherent op) (hap : NeverAborts p) (hao : NeverAborts op)
    (hp : Progress p) (n : Nat) :
    (∀ i, 2 * S.size i + 1 ≤ n → (∀ a, (chainr1Lazy p op n i).1 ≠ .abort a) ∧
      ((chainr1Lazy p op n i).1.isOk = true → S.size (chainr1Lazy p op n i).2 + 1 ≤ S.size i)) ∧
    (∀ l c i, 2 * S.size i + 2 ≤ n → ∀ a, (chainr1Loop p op n l c i).1 ≠ .abort a) := by
  induction n with
  | zero => exact ⟨fun i h => by omega, fun l c i h => by omega⟩
  | succ n ih =>
    have reach := chainr1_reach hS hmp hmo n
    constructor
    · intro i hn
      obtain ⟨h1, h2⟩ := lazy_facts hcp hap i
      have h2 := h2 hp
      unfold chainr1Lazy
      revert h1 h2
      generalize p.lazy i = x
      obtain ⟨r, j⟩ := x
      intro h1 h2
      have key : ParseResult.isOk r = true → ∀ l c, (∀ a, (chainr1Loop p op n l c j).1 ≠ .abort a) ∧
          ((chainr1Loop p op n l c j).1.isOk = true → S.size (chainr1Loop p op n l c j).2 + 1 ≤ S.size i) := by
        intro hr l c
        obtain ⟨t, ts, h⟩ := h2 hr
        have h := hS.reads_size h
        simp only [List.length_cons] at h
        refine ⟨ih.2 l c j (by omega), fun _ => ?_⟩
        have := hS.reach_size (reach.2 l c j)
        omega
      cases r with
      | commitOk l => exact key rfl l _
      | peekOk l => exact key rfl l _
      | abort b => exact absurd rfl (h1 b)
      | _ => exact ⟨fun a h => (by cases h), fun h => (by cases h)⟩
    · intro l c i hn
      obtain ⟨h1, -⟩ := lazy_facts hco hao i
      have h2 := hmo.lazy i
      unfold chainr1Loop
      simp only
      revert h1 h2
      generalize op.lazy i = x
      obtain ⟨r, j⟩ := x
      intro h1 h2
      have h3 := hS.reach_size h2
      simp only at h3
      have key : ∀ (f : α → α → α) (c : Commit Unit) a, (match (chainr1Lazy p op n j).1.toStd with
          | .ok r rest => chainr1Loop p op n (f l r) (c.merge rest) (chainr1Lazy p op n j).2
          | .err (.commit e) => (.commitErr e.error, (chainr1Lazy p op n j).2)
          | .err (.peek _) =>
            match S.reset (S.checkpoint j) (chainr1Lazy p op n j).2 with
            | (some e, k) => (.commitErr e, k)
            | (none, k) => (.ofStd (.ok l c), k)
          | .abort a => (.abort a, (chainr1Lazy p op n j).2)).1 ≠ .abort a := by
        intro f c a
        obtain ⟨k1, k2⟩ := ih.1 j (by omega)
        have k3 := reach.1 j
        revert k1 k2 k3
        generalize chainr1Lazy p op n j = y
        obtain ⟨r, k⟩ := y
        intro k1 k2 k3
        simp only at k2
        cases r with
        | commitOk v => exact ih.2 _ _ _ (by have := k2 rfl; simp only; omega) a
        | peekOk v => exact ih.2 _ _ _ (by have := k2 rfl; simp only; omega) a
        | abort b => exact absurd rfl (k1 b)
        | commitErr e => intro h; cases h
        | peekErr e =>
          simp only [ParseResult.toStd, hS.reset_reach k3]
          cases c <;> intro h <;> cases h
      cases r with
      | commitOk v => exact key v _
      | peekOk v => exact key v _
      | abort b => exact absurd rfl (h1 b)
      | commitErr e => intro a h; cases h
      | peekErr e =>
        simp only [ParseResult.toStd, hS.reset_reach h2]
        cases c <;> intro a h <;> cases h

/-- **C36** for `chainr1`: no endless recursion either. -/
theorem C36_chainr1 (hS : S.Lawful) {p : Parser S σ α} {op : Parser S τ (α → α → α)} (hmp : Moves p)
    (hmo : Moves op) (hcp : Coherent p) (hco : Coherent op) (hap : NeverAborts p) (hao : NeverAborts op)
    (hp : Progress p) : NeverAborts (chainr1 p op) :=
  fun _ i _ => ((chainr1_safe hS hmp hmo hcp hco hap hao hp _).1 i (by omega)).1

/-- **C36** for `escaped`: the parser of ordinary characters consumes; the one after the escape token need
not. -/
theorem C36_escaped [DecidableEq S.Tok] (hS : S.Lawful) {p : Parser S σ α} {q : Parser S τ β} (hmp : Moves p)
    (hmq : Moves q) (hcp : Coherent p) (hcq : Coherent q) (hap : NeverAborts p) (haq : NeverAborts q)
    (hp : Progress p) (esc : S.Tok) : NeverAborts (escaped p esc q) := by
  suffices h : ∀ n c i a, S.size i + 1 ≤ n → (escapedLoop p esc q n c i).1 ≠ .abort a by
    exact fun _ i _ a => h _ _ i a (Nat.le_refl _)
  intro n
  induction n with
  | zero => intro c i a h; omega
  | succ n ih =>
    intro c i a hn
    obtain ⟨h1, h2⟩ := lazy_facts hcp hap i
    have h2 := h2 hp
    have h3 := hmp.lazy i
    unfold escapedLoop
    revert h1 h2 h3
    generalize p.lazy i = x
    obtain ⟨r, j⟩ := x
    intro h1 h2 h3
    have size : ParseResult.isOk r = true → S.size j + 1 ≤ n := by
      intro hr
      obtain ⟨t, ts, h⟩ := h2 hr
      have h := hS.reads_size h
      simp only [List.length_cons] at h
      omega
    cases r with
    | commitOk v => exact ih _ _ _ (size rfl)
    | peekOk v => exact ih _ _ _ (size rfl)
    | commitErr e => intro h; cases h
    | abort b => exact absurd rfl (h1 b)
    | peekErr e =>
      simp only
      have hj := hS.reach_size h3
      have k1 := unconsP_safe j
      have k2 : ∀ t k, (S.unconsP j = (.commitOk t, k) ∨ S.unconsP j = (.peekOk t, k)) → S.size k + 1 ≤ n :=
        fun t k h => by have := hS.size (unconsP_ok h); simp only at hj; omega
      have stop : ∀ k, (match S.reset (S.checkpoint j) k with
        | (some e, l) => (ParseResult.commitErr e, l)
        | (none, l) => (if c.isPeek then .peekOk () else .commitOk (), l) : ParseResult Unit S.Err × S.Input).1 ≠ .abort a := by
        intro k
        generalize S.reset (S.checkpoint j) k = y
        obtain ⟨e, l⟩ := y
        cases e
        · cases c <;> intro h <;> cases h
        · intro h; cases h
      revert k1 k2
      generalize S.unconsP j = x
      obtain ⟨r, k⟩ := x
      intro k1 k2
      have key : ∀ t, S.size k + 1 ≤ n → (if t = esc then
            (let o := q.committed true k q.init
            match o.res with
            | .peekOk _ => escapedLoop p esc q n c o.inp
            | .commitOk _ => escapedLoop p esc q n (.commit ()) o.inp
            | .commitErr e => (.commitErr e, o.inp)
            | .peekErr e => (.commitErr e.error, o.inp)
            | .abort a => (.abort a, o.inp))
          else (match S.reset (S.checkpoint j) k with
            | (some e, l) => (ParseResult.commitErr e, l)
            | (none, l) => (if c.isPeek then .peekOk () else .commitOk (), l))).1 ≠ .abort a := by
        intro t hk
        split
        · have c1 := hcq.committed true k q.init
          have c2 := haq true k q.init
          have c3 := hmq.committed true k q.init
          revert c1 c2 c3
          generalize q.run true k q.init = o
          generalize q.committed true k q.init = o'
          obtain ⟨r, j, u⟩ := o
          obtain ⟨r', j', u'⟩ := o'
          intro c1 c2 c3
          have := hS.reach_size c3
          simp only at this ⊢
          cases r' with
          | commitOk v => exact ih _ _ _ (by omega)
          | peekOk v => exact ih _ _ _ (by omega)
          | abort b =>
            cases r <;> simp only [Out.answer, Answer.of] at c1 <;> cases c1
            exact absurd rfl (c2 _)
          | _ => intro h; cases h
        · exact stop k
      cases r with
      | commitOk t => exact key t (k2 _ _ (.inl rfl))
      | peekOk t => exact key t (k2 _ _ (.inr rfl))
      | commitErr e => intro h; cases h
      | peekErr e => exact stop k
      | abort b => exact absurd rfl (k1 b)

private theorem next_none' {p : Parser S σ α} (ha : NeverAborts p) {it it' : IterS S σ}
    (h : iterNext p it = (none, it')) (a : Abort) : it'.state ≠ .abort a := next_none ha it h a

private theorem limited (p : Parser S σ α) (ha : NeverAborts p) (n : Nat) (els : List α) (it : IterS S σ)
    (hs : ∀ a, it.state ≠ .abort a) :
    (∀ a, (iterExtend p some (n + 1) (some n) els it).2.state ≠ .abort a) ∧
    els.length ≤ (iterExtend p some (n + 1) (some n) els it).1.length ∧
    (iterExtend p some (n + 1) (some n) els it).1.length ≤ els.length + n := by
  induction n generalizing els it with
  | zero => exact ⟨hs, Nat.le_refl _, Nat.le_refl _⟩
  | succ n ih =>
    rw [iterExtend]
    · cases hnx : iterNext p it with
      | mk o it' =>
        cases o with
        | none => exact ⟨next_none ha it hnx, Nat.le_refl _, Nat.le_add_right _ _⟩
        | some x =>
          obtain ⟨h1, h2, h3⟩ := ih (els ++ [x]) it' (by
            intro a h
            have : it'.state = it.state := by
              revert hnx
              unfold iterNext
              simp only
              generalize p.run it.first it.inp it.st = o
              obtain ⟨r, j, u⟩ := o
              cases r with
              | peekErr e => simp only; split <;> intro h <;> cases h
              | commitOk v => intro h; cases h; rfl
              | peekOk v => intro h; cases h; rfl
              | _ => intro h; cases h
            exact hs a (this ▸ h))
          simp only [List.length_append, List.length_singleton] at h2 h3
          simp only [Option.map, Nat.add_sub_cancel]
          exact ⟨h1, by omega, by omega⟩
    · intro h; cases h

/-- **C36** for `count_min_max`: from any state that its calls can leave the loop ends and the
subtraction `max - count` does not underflow.  No condition on `p`: at most `max` elements are parsed. -/
theorem C36_count_min_max {p : Parser S σ α} (ha : NeverAborts p) (lo hi : Nat) :
    SafeIn (fun s : CountSt σ α => s.count ≤ hi) (countMinMax lo hi p) := by
  refine ⟨Nat.zero_le _, fun m i s hs => ?_⟩
  obtain ⟨h1, h2, h3⟩ := limited p ha (hi - s.count) s.elements (IterS.new m i s.child) (by
    intro a h; cases h)
  simp only [countMinMax, Parser.ofMode]
  rw [if_neg (by omega)]
  generalize hr : iterExtend p some (hi - s.count + 1) (some (hi - s.count)) s.elements (IterS.new m i s.child) = r at *
  have hc : s.count + (r.1.length - s.elements.length) ≤ hi := by omega
  split
  · refine ⟨fun a => ?_, hc⟩
    simp only [IterS.fail]
    cases hst : r.2.state with
    | abort b => exact absurd hst (h1 b)
    | ok => simp only; split <;> intro h <;> cases h
    | peekErr e => simp only; split <;> intro h <;> cases h
    | commitErr e => intro h; cases h
  · refine ⟨fast_safe h1 _, ?_⟩
    simp only
    split
    · exact Nat.zero_le _
    · exact hc

/-- **C36** for `count`. -/
theorem C36_count {p : Parser S σ α} (ha : NeverAborts p) (n : Nat) : NeverAborts (count n p) :=
  fun m i _ => ((C36_count_min_max ha 0 n).run m i _ (Nat.zero_le _)).1

/-- **C36** for `iterate`: no condition, there is one call per item. -/
theorem C36_iterate {J : Type} (items : List J) {f : J → S.Input → Parser S σ α} (init : σ)
    (ha : ∀ x i, NeverAborts (f x i)) : NeverAborts (iterate items f init) := by
  have h : ∀ (xs : List J) m c b i s a, (iterateLoop f xs m c b i s).res ≠ .abort a := by
    intro xs
    induction xs with
    | nil => intro m c b i s a; cases c <;> intro h <;> cases h
    | cons x xs ih =>
      intro m c b i s a
      have h1 := ha x i m i s
      unfold iterateLoop
      simp only
      revert h1
      generalize (f x i).run m i s = o
      obtain ⟨r, j, u⟩ := o
      intro h1
      cases r with
      | commitOk v => exact ih _ _ _ _ _ _
      | peekOk v => exact ih _ _ _ _ _ _
      | commitErr e => intro h; cases h
      | abort b => exact absurd rfl (h1 b)
      | peekErr e =>
        simp only
        split
        · intro h; cases h
        · cases c <;> intro h <;> cases h
  intro m i s a
  simp only [iterate, Parser.ofMode]
  split <;> exact h _ _ _ _ _ _ _

/-! ## How many iterations -/

private theorem run_bound (hS : S.Lawful) {m : Sem S.Input S.Err α}
    (hp : ∀ i c v j, m i = .ok c v j → ∃ t ts, S.Reads i (t :: ts) j) {i k : S.Input} {vs : List α} {c : Bool}
    (h : Ref.Run m i vs c k) : vs.length + S.size k ≤ S.size i := by
  induction h with
  | nil i => simp
  | cons h1 h2 ih =>
    obtain ⟨t, ts, h⟩ := hp _ _ _ _ h1
    have h := hS.reads_size h
    simp only [List.length_cons] at h ⊢
    omega

/-- **C36.**  Every element costs at least one token: `many(p)` never yields more elements than it
consumes tokens. -/
theorem C36_many_bound (hS : S.Lawful) {p : Parser S σ α} (hm : Moves p) (hr : Reusable p) (hp : Consuming p)
    (i : S.Input) {c : Bool} {vs : List α} {j : S.Input} (h : (many p).answer i = .ok c vs j) :
    vs.length + S.size j ≤ S.size i := by
  obtain ⟨ws, d, k, h1, h2⟩ := C07_many hS hm hr hp i
  rw [h] at h2
  have := run_bound hS hp h1
  revert h2
  cases p.answer k with
  | soft => intro h2; cases h2; exact this
  | ok c v j => intro h; exact h.elim
  | _ => intro h; cases h

/-- **C36.**  The bound on the number of iterations in the model of `many` is not a restriction: any
larger one gives the same elements, state and result. -/
theorem C36_fuel (hS : S.Lawful) {p : Parser S σ α} (hm : Moves p) (hp : Progress p) (m : Bool) (k : Nat)
    (els : List α) (i : S.Input) (s : σ) :
    iterExtend p some (S.size i + 2 + k) none els (IterS.new m i s) =
      iterExtend p some (S.size i + 2) none els (IterS.new m i s) :=
  iter_fuel hS hm.run some (hp.weaken _) _ k none els _ (by cases m <;> simp [IterS.new])

/-- **C36**: the condition is necessary.  If an element can be parsed without consuming anything, the loop
never ends: whatever the number of iterations allowed, it asks for more. -/
theorem C36_many_diverges {p : Parser S σ α} {i : S.Input} {s : σ} {v : α}
    (h : p.run true i s = ⟨.peekOk v, i, s⟩) (n : Nat) (els : List α) (c : Bool) :
    (iterExtend p some n none els ⟨i, c, .ok, s, true⟩).2.state = .abort .diverge := by
  induction n generalizing els with
  | zero => rfl
  | succ n ih =>
    rw [iterExtend]
    · have e : iterNext p ⟨i, c, .ok, s, true⟩ = (some v, ⟨i, c, .ok, s, true⟩) := by
        simp only [iterNext, h]
      rw [e]
      exact ih _
    · intro h; cases h

/-! ## Concrete cases -/

private abbrev B := sliceS Nat 1
private abbrev el := pair (token B 1) (optional (token B 2))

private theorem moves_el : Moves el := Built.moves (R := sliceR Nat 1) (slice_lawful _ _) (sliceR_lawful _ _)
  (.pair (.token _) (.optional (.token _)))
private theorem moves_tok (t : Nat) : Moves (token B t) :=
  Built.moves (R := sliceR Nat 1) (slice_lawful _ _) (sliceR_lawful _ _) (.token _)

/-- `many(many1((1, optional(2))))` cannot loop or panic, whatever happened before. -/
example : NeverAborts (many (many1 el)) := by
  have h1 : NeverAborts el := never_pair (never_token _) (never_optional (slice_lawful _ _) (moves_tok 2) (never_token _))
  have h2 : Progress el := progress_pair (slice_lawful _ _) (moves_tok 1)
    (moves_optional (slice_lawful _ _) (moves_tok 2)) (.inl (progress_token _))
  refine C36_many (slice_lawful _ _) ?_ (C36_many1 (slice_lawful _ _) moves_el h1 h2) ?_
  · exact moves_many1 (slice_lawful _ _) moves_el
  · exact C36_many1_progress (slice_lawful _ _) moves_el h2

example : (many (optional (token B 1))).answer ⟨0, [2]⟩ = .abort .diverge := rfl

/-- `range("")` claims to have committed although it consumes nothing: repeating it never ends. -/
theorem C36_empty_range : (many (range (sliceR Nat 1) [])).answer ⟨0, [2]⟩ = .abort .diverge := rfl

end Verif
