import Verif.Proof.PlacesSeq

/-! # Where errors are positioned: repetition -/

namespace Verif

set_option linter.unusedSectionVars false
set_option linter.unusedVariables false

variable {S : Strm} {Own : S.Pos → Prop} {σ τ υ α β γ : Type}

theorem located_commit {i : S.Input} {r : ParseResult α S.Err} (h : S.Located Own i r) {e : Tracked S.Err}
    (he : r.toStd = .err (.commit e)) : S.Spot Own i (S.E.position e.error) := by
  cases r <;> cases he
  exact h

theorem located_ok {i : S.Input} (v : α) (c : Commit Unit) :
    S.Located Own i (ParseResult.ofStd (E := S.Err) (.ok v c)) := by
  cases c <;> trivial

theorem combineCommit_located {i : S.Input} {c : Commit γ} {r : ParseResult α S.Err} (h : S.Located Own i r) :
    S.Located Own i (ParseResult.combineCommit c fun _ => r) := by
  cases c <;> cases r <;> first | trivial | exact h

section
variable (hS : S.Lawful) (hE : S.E.Placing)
include hS hE

/-- The error an iteration stopped with, if any. -/
def IterSt.Located (Own : S.Pos → Prop) (i : S.Input) : IterSt S.Err → Prop
  | .peekErr e => S.Spot Own i (S.E.position e)
  | .commitErr e => S.Spot Own i (S.E.position e)
  | _ => True

omit hS hE in
theorem IterSt.Located.back {i j : S.Input} (h : S.Reach i j) {s : IterSt S.Err} (hs : s.Located Own j) :
    s.Located Own i := by
  cases s with
  | peekErr e => exact Strm.Spot.back h hs
  | commitErr e => exact Strm.Spot.back h hs
  | _ => trivial

theorem iterNext_located {p : Parser S σ α} (h : Places Own p) (it : IterS S σ) (hi : it.state.Located Own it.inp) :
    (iterNext p it).2.state.Located Own it.inp := by
  have hm := h.moves.run it.first it.inp it.st
  have hl := h.run it.first it.inp it.st
  unfold iterNext
  simp only
  split
  · exact hi
  · exact hi
  · rename_i e he
    rw [hS.reset_reach hm]
    rw [he] at hl
    exact hl
  · rename_i e he
    rw [he] at hl
    exact hl
  · trivial

theorem iterNext_some {p : Parser S σ α} (it : IterS S σ) (v : α) (it' : IterS S σ)
    (h : iterNext p it = (some v, it')) : it'.state = it.state := by
  unfold iterNext at h
  simp only at h
  split at h
  · cases h; rfl
  · cases h; rfl
  · split at h <;> cases h
  · cases h
  · cases h

theorem iterExtend_located {p : Parser S σ α} (h : Places Own p) (f : α → Option β) (n : Nat)
    (lim : Option Nat) (els : List β) (it : IterS S σ) (hi : it.state = .ok) :
    (iterExtend p f n lim els it).2.state.Located Own it.inp := by
  induction n generalizing lim els it with
  | zero =>
    by_cases hl : lim = some 0
    · subst hl; rw [iterExtend_lim, hi]; trivial
    · rw [iterExtend_fuel _ _ hl]; trivial
  | succ n ih =>
    by_cases hl : lim = some 0
    · subst hl; rw [iterExtend_lim, hi]; trivial
    · rw [iterExtend_succ _ _ _ hl]
      have h1 := iterNext_reach hS h.moves it
      have h2 := iterNext_located hS hE h it (by rw [hi]; trivial)
      have h3 := fun v it' => iterNext_some hS hE (p := p) it v it'
      revert h1 h2 h3
      generalize iterNext p it = x
      obtain ⟨o, it2⟩ := x
      intro h1 h2 h3
      cases o with
      | none => exact h2
      | some v =>
        have h4 := (h3 v it2 rfl).trans hi
        simp only
        split
        · exact .back h1 (ih _ _ _ h4)
        · exact h2

omit hS hE in
theorem intoResultFast_located {i : S.Input} (it : IterS S σ) (hi : it.state.Located Own i) (v : List α) :
    S.Located Own i (it.intoResultFast v).1 := by
  unfold IterS.intoResultFast
  split
  · split <;> trivial
  · split <;> trivial
  · rename_i e he; rw [he] at hi; exact hi
  · trivial

theorem fail_located {i : S.Input} (it : IterS S σ) (hm : S.Reach i it.inp) (hi : it.state.Located Own i)
    (x : S.SErr) : S.Located Own i (it.fail (α := α) x) := by
  have hf : S.Spot Own i (S.E.position (S.E.fromError (S.position it.inp) x)) := spot_fromError_at hS hE hm x
  unfold IterS.fail
  split
  · simp only
    split <;> exact hf
  · rename_i e he
    rw [he] at hi
    have : S.Spot Own i (S.E.position (S.E.merge e (S.E.fromError (S.position it.inp) x))) := by
      rcases hE.merge e (S.E.fromError (S.position it.inp) x) with h | h
      · rw [h]; exact hi
      · rw [h]; exact hf
    simp only
    split <;> exact this
  · rename_i e he
    rw [he] at hi
    change S.Spot Own i _
    rw [hE.add]
    exact hi
  · trivial

theorem places_many {p : Parser S σ α} (h : Places Own p) : Places Own (many p) :=
  .ofMode hS hE (moves_many hS h.moves).run
    (fun m i s => intoResultFast_located _ (iterExtend_located hS hE h some _ none s.1 (IterS.new m i s.2) rfl) _)
    h.addError h.addError

theorem many1Rest_located {p : Parser S σ α} (h : Places Own p) (m : Bool) (i : S.Input) (s : Many1St σ α) :
    S.Located Own i (many1Rest p m i s).res :=
  intoResultFast_located _
    (iterExtend_located hS hE h some _ none s.elements ⟨i, s.committed, .ok, s.child, m⟩ rfl) _

theorem places_many1 {p : Parser S σ α} (h : Places Own p) : Places Own (many1 p) := by
  refine .ofMode hS hE (moves_many1 hS h.moves).run (fun m i s => ?_) h.addError h.addError
  have h1 := h.moves.run m i s.child
  have h2 := h.run m i s.child
  simp only
  split
  · split
    · exact .back h1 (many1Rest_located hS hE h _ _ _)
    · exact .back h1 (many1Rest_located hS hE h _ _ _)
    · rename_i e he; rw [he] at h2; exact h2
    · rename_i e he; rw [he] at h2; exact h2
    · trivial
  · exact many1Rest_located hS hE h _ _ _

theorem places_countMinMax (lo hi : Nat) {p : Parser S σ α} (h : Places Own p) :
    Places Own (countMinMax lo hi p) := by
  refine .ofMode hS hE (moves_countMinMax hS lo hi h.moves).run (fun m i s => ?_) h.addError (keeps_id hS hE)
  have h1 := iterExtend_reach hS h.moves some (hi - s.count + 1) (some (hi - s.count)) s.elements
    (IterS.new m i s.child)
  have h2 := iterExtend_located hS hE h some (hi - s.count + 1) (some (hi - s.count)) s.elements
    (IterS.new m i s.child) rfl
  simp only
  split
  · trivial
  · split
    · exact fail_located hS hE _ h1 h2 _
    · exact intoResultFast_located _ h2 _

theorem places_count (n : Nat) {p : Parser S σ α} (h : Places Own p) : Places Own (count n p) :=
  places_parserMacroUnit hS hE (places_countMinMax hS hE 0 n h)

theorem places_skipCount (n : Nat) {p : Parser S σ α} (h : Places Own p) : Places Own (skipCount n p) :=
  places_parserMacro hS hE
    (places_with hS hE (places_count hS hE n (places_map hS hE h _)) (places_value hS hE _))

theorem places_skipCountMinMax (lo hi : Nat) {p : Parser S σ α} (h : Places Own p) :
    Places Own (skipCountMinMax lo hi p) :=
  places_parserMacro hS hE
    (places_with hS hE (places_countMinMax hS hE lo hi (places_map hS hE h _)) (places_value hS hE _))

theorem places_skipMany {p : Parser S σ α} (h : Places Own p) : Places Own (skipMany p) :=
  places_parserMacro hS hE (places_ignore hS hE (places_many hS hE (places_ignore hS hE h)))

theorem places_skipMany1 {p : Parser S σ α} (h : Places Own p) : Places Own (skipMany1 p) :=
  places_parserMacro hS hE (places_ignore hS hE (places_many1 hS hE (places_ignore hS hE h)))

theorem sepLoop_located {q : Parser S σ α} (h : Places Own q) (f : α → Option β) (n : Nat) (els : List β) (m : Bool)
    (i : S.Input) (s : σ) (c : Commit Unit) :
    S.Located Own i (ParseResult.combineCommit c fun _ =>
      ((iterExtend q f n none els (IterS.new m i s)).2.intoResultFast
        (iterExtend q f n none els (IterS.new m i s)).1).1) :=
  combineCommit_located (intoResultFast_located _ (iterExtend_located hS hE h f n none els (IterS.new m i s) rfl) _)

theorem places_sepBy1 {p : Parser S σ α} {sep : Parser S τ β} (hp : Places Own p) (hs : Places Own sep) :
    Places Own (sepBy1 p sep) := by
  have hr := places_with hS hE (places_boxed hS hE hs) (places_boxed hS hE hp)
  refine .ofMode hS hE (moves_sepBy1 hS hp.moves hs.moves).run (fun m i s => ?_) hp.addError hs.addError
  have h1 := hp.moves.run m i s.2.2.tail.1.2
  have h2 := hp.run m i s.2.2.tail.1.2
  simp only
  split
  · exact sepLoop_located hS hE hr some _ _ _ _ _ _
  · split
    · refine .back h1 ?_; dsimp only; exact sepLoop_located hS hE hr some _ _ _ _ _ _
    · refine .back h1 ?_; dsimp only; exact sepLoop_located hS hE hr some _ _ _ _ _ _
    · rename_i e he; rw [he] at h2; exact h2
    · rename_i e he; rw [he] at h2; exact h2
    · trivial

theorem places_emptyList : Places Own (emptyList S α) :=
  places_fnParser hS hE _ (fun i => .refl i) fun i => trivial

theorem places_sepBy {p : Parser S σ α} {sep : Parser S τ β} (hp : Places Own p) (hs : Places Own sep) :
    Places Own (sepBy p sep) :=
  have h := places_or hS hE (places_sepBy1 hS hE (places_boxed hS hE hp) (places_boxed hS hE hs))
    (places_emptyList hS hE)
  .ofMode hS hE h.moves.run h.run hp.addError hs.addError

theorem places_sepEndBy1 {p : Parser S σ α} {sep : Parser S τ β} (hp : Places Own p) (hs : Places Own sep) :
    Places Own (sepEndBy1 p sep) := by
  have hr := places_with hS hE (places_boxed hS hE hs) (places_optional hS hE (places_boxed hS hE hp))
  refine .ofMode hS hE (moves_sepEndBy1 hS hp.moves hs.moves).run (fun m i s => ?_) hp.addError (keeps_id hS hE)
  have h1 := hp.moves.run m i s.2.2.tail.1.2
  have h2 := hp.run m i s.2.2.tail.1.2
  simp only
  split
  · exact sepLoop_located hS hE hr id _ _ _ _ _ _
  · split
    · refine .back h1 ?_; dsimp only; exact sepLoop_located hS hE hr id _ _ _ _ _ _
    · refine .back h1 ?_; dsimp only; exact sepLoop_located hS hE hr id _ _ _ _ _ _
    · rename_i e he; rw [he] at h2; exact h2
    · rename_i e he; rw [he] at h2; exact h2
    · trivial

theorem places_sepEndBy {p : Parser S σ α} {sep : Parser S τ β} (hp : Places Own p) (hs : Places Own sep) :
    Places Own (sepEndBy p sep) :=
  have h := places_or hS hE (places_sepEndBy1 hS hE (places_boxed hS hE hp) (places_boxed hS hE hs))
    (places_emptyList hS hE)
  .ofMode hS hE h.moves.run h.run hp.addError (keeps_id hS hE)

theorem chainl1Loop_located {t : Parser S τ ((α → α → α) × α × Unit)} (h : Places Own t) (n : Nat)
    (m : Bool) (l : α) (c : Commit Unit) (i : S.Input) (s : τ) :
    S.Located Own i (chainl1Loop t n m l c i s).res := by
  induction n generalizing m l c i s with
  | zero => trivial
  | succ n ih =>
    have h1 := h.moves.run m i s
    have h2 := h.run m i s
    unfold chainl1Loop
    simp only
    split
    · exact .back h1 (ih _ _ _ _ _)
    · rename_i e he; exact located_commit h2 he
    · rw [hS.tryReset_eq h1]; exact located_ok _ _
    · trivial

theorem places_chainl1 {p : Parser S σ α} {op : Parser S τ (α → α → α)} (hp : Places Own p)
    (ho : Places Own op) : Places Own (chainl1 p op) := by
  have ht := places_pair hS hE (places_boxed hS hE ho) (places_boxed hS hE hp)
  refine .ofMode hS hE (moves_chainl1 hS hp.moves ho.moves).run (fun m i s => ?_) hp.addError (keeps_id hS hE)
  have h1 := hp.moves.run false i s.2.tail.1.2
  have h2 := hp.run false i s.2.tail.1.2
  simp only
  split
  · exact chainl1Loop_located hS hE ht _ _ _ _ _ _
  · split
    · exact .back h1 (chainl1Loop_located hS hE ht _ _ _ _ _ _)
    · exact .back h1 (chainl1Loop_located hS hE ht _ _ _ _ _ _)
    · rename_i e he; rw [he] at h2; exact h2
    · rename_i e he; rw [he] at h2; exact h2
    · trivial

theorem chainr1_located {p : Parser S σ α} {op : Parser S τ (α → α → α)} (hp : Places Own p)
    (ho : Places Own op) (n : Nat) :
    (∀ i, S.Located Own i (chainr1Lazy p op n i).1) ∧
    (∀ l c i, S.Located Own i (chainr1Loop p op n l c i).1) := by
  induction n with
  | zero => exact ⟨fun i => trivial, fun _ _ i => trivial⟩
  | succ n ih =>
    constructor
    · intro i
      have h1 := hp.moves.lazy i
      have h2 := hp.lazy i
      unfold chainr1Lazy
      revert h1 h2
      generalize p.lazy i = x
      obtain ⟨r, j⟩ := x
      intro h1 h2
      cases r <;> simp only
      · exact .back h1 (ih.2 _ _ _)
      · exact .back h1 (ih.2 _ _ _)
      · exact h2
      · exact h2
      · trivial
    · intro l c i
      have h1 := ho.moves.lazy i
      have h1' := ho.lazy i
      have h2 := (chainr1_reach hS hp.moves ho.moves n).1 (op.lazy i).2
      have h2' := ih.1 (op.lazy i).2
      unfold chainr1Loop
      simp only
      split
      · rename_i e he; exact located_commit h1' he
      · rw [hS.reset_reach h1]; exact located_ok _ _
      · trivial
      · split
        · exact .back (h1.trans h2) (ih.2 _ _ _)
        · rename_i e he; exact .back h1 (located_commit h2' he)
        · rw [hS.reset_reach h2]; exact located_ok _ _
        · trivial

theorem places_chainr1 {p : Parser S σ α} {op : Parser S τ (α → α → α)} (hp : Places Own p)
    (ho : Places Own op) : Places Own (chainr1 p op) :=
  .ofLazy hS hE (moves_chainr1 hS hp.moves ho.moves).lazy (fun i => (chainr1_located hS hE hp ho _).1 i)
    hp.addError (keeps_id hS hE)

theorem takeUntilLoop_located {e : Parser S σ α} (h : Places Own e) (m : Bool) (n : Nat) (c : Commit Unit)
    (i : S.Input) (els : List S.Tok) (s : σ) :
    S.Located Own i (takeUntilLoop e m n c i els s).res := by
  induction n generalizing c i els s with
  | zero => trivial
  | succ n ih =>
    have h1 := h.moves.run m i s
    have h1' := h.run m i s
    unfold takeUntilLoop
    simp only
    split
    · rw [hS.tryReset_eq h1]; split <;> trivial
    · rw [hS.tryReset_eq h1]
      have h2 := unconsP_reach hS i
      have h2' := unconsP_located (Own := Own) hS hE i
      revert h2 h2'
      generalize S.unconsP i = x
      obtain ⟨r, j⟩ := x
      intro h2 h2'
      cases r <;> simp only
      · exact .back h2 (ih _ _ _ _)
      · exact .back h2 (ih _ _ _ _)
      · exact h2'
      · exact h2'
      · trivial
    · rename_i e he; rw [hS.tryReset_eq h1]; exact located_commit h1' he
    · trivial

theorem places_takeUntil {e : Parser S σ α} (h : Places Own e) : Places Own (takeUntil e) :=
  .ofMode hS hE (moves_takeUntil hS h.moves).run (fun m i s => takeUntilLoop_located hS hE h m _ _ i _ _)
    (keeps_id hS hE) (keeps_id hS hE)

theorem places_skipUntil {e : Parser S σ α} (h : Places Own e) : Places Own (skipUntil e) :=
  places_parserMacro hS hE (places_with hS hE (places_takeUntil hS hE h) (places_value hS hE _))

theorem repeatUntilLoop_located {p : Parser S σ α} {e : Parser S τ β} (hp : Places Own p) (he : Places Own e)
    (n : Nat) (m : Bool) (c : Commit Unit) (i : S.Input) (s : RepeatSt σ τ α) :
    S.Located Own i (repeatUntilLoop p e n m c i s).res := by
  induction n generalizing m c i s with
  | zero => trivial
  | succ n ih =>
    unfold repeatUntilLoop
    split
    · have h1 := hp.moves.run m i s.parseSt
      have h2 := hp.run m i s.parseSt
      simp only
      split
      · exact .back h1 (ih _ _ _ _)
      · exact .back h1 (ih _ _ _ _)
      · rename_i e he; rw [he] at h2; exact h2
      · rename_i e he; rw [he] at h2; exact h2
      · trivial
    · have h1 := he.moves.run m i s.endSt
      have h2 := he.run m i s.endSt
      simp only
      split
      · rw [hS.tryReset_eq h1]; split <;> trivial
      · rw [hS.tryReset_eq h1]; exact ih _ _ _ _
      · rename_i e he; rw [hS.tryReset_eq h1]; exact located_commit h2 he
      · trivial

theorem places_repeatUntil {p : Parser S σ α} {e : Parser S τ β} (hp : Places Own p) (he : Places Own e) :
    Places Own (repeatUntil p e) :=
  .ofMode hS hE (moves_repeatUntil hS hp.moves he.moves).run
    (fun m i s => repeatUntilLoop_located hS hE hp he _ m _ i s) (keeps_id hS hE) (keeps_id hS hE)

theorem places_repeatSkipUntil {p : Parser S σ α} {e : Parser S τ β} (hp : Places Own p) (he : Places Own e) :
    Places Own (repeatSkipUntil p e) :=
  places_parserMacro hS hE (places_with hS hE (places_repeatUntil hS hE hp he) (places_value hS hE _))

theorem escapedLoop_located [DecidableEq S.Tok] {p : Parser S σ α} {q : Parser S τ β} (hp : Places Own p)
    (hq : Places Own q) (esc : S.Tok) (n : Nat) (c : Commit Unit) (i : S.Input) :
    S.Located Own i (escapedLoop p esc q n c i).1 := by
  induction n generalizing c i with
  | zero => trivial
  | succ n ih =>
    have h1 := hp.moves.lazy i
    have h1' := hp.lazy i
    unfold escapedLoop
    revert h1 h1'
    generalize p.lazy i = x
    obtain ⟨r, j⟩ := x
    intro h1 h1'
    cases r <;> simp only
    · exact .back h1 (ih _ _)
    · exact .back h1 (ih _ _)
    · exact h1'
    · have h2 := unconsP_reach hS j
      have h2' := unconsP_located (Own := Own) hS hE j
      revert h2 h2'
      generalize S.unconsP j = y
      obtain ⟨r2, k⟩ := y
      intro h2 h2'
      have hk : S.reset (S.checkpoint j) k = (none, j) := hS.reset_reach h2
      have h3 := hq.moves.committed true k q.init
      have h3' := hq.committed true k q.init
      have h4 := Strm.Reach.trans h1 h2
      have hstop : S.Located Own i (if c.isPeek then (.peekOk () : ParseResult Unit S.Err) else .commitOk ()) := by
        split <;> trivial
      cases r2 <;> simp only [hk]
      · split
        · split
          · exact .back (Strm.Reach.trans h4 h3) (ih _ _)
          · exact .back (Strm.Reach.trans h4 h3) (ih _ _)
          · rename_i e he; rw [he] at h3'; exact .back (r := .commitErr e) h4 h3'
          · rename_i e he; rw [he] at h3'; exact .back (r := .commitErr e.error) h4 h3'
          · trivial
        · exact hstop
      · split
        · split
          · exact .back (Strm.Reach.trans h4 h3) (ih _ _)
          · exact .back (Strm.Reach.trans h4 h3) (ih _ _)
          · rename_i e he; rw [he] at h3'; exact .back (r := .commitErr e) h4 h3'
          · rename_i e he; rw [he] at h3'; exact .back (r := .commitErr e.error) h4 h3'
          · trivial
        · exact hstop
      · exact .back h1 h2'
      · exact hstop
      · trivial
    · trivial

theorem places_escaped [DecidableEq S.Tok] {p : Parser S σ α} {q : Parser S τ β} (hp : Places Own p)
    (hq : Places Own q) (esc : S.Tok) : Places Own (escaped p esc q) :=
  .ofLazy hS hE (moves_escaped hS hp.moves hq.moves esc).lazy (fun i => escapedLoop_located hS hE hp hq esc _ _ i)
    (fun e => (keeps_addExpected hS hE _ _).trans (hp.addError e)) (keeps_id hS hE)

theorem iterateLoop_located {J : Type} {f : J → S.Input → Parser S σ α} (h : ∀ x i, Places Own (f x i))
    (xs : List J) (m c : Bool) (buf : List α) (i : S.Input) (s : σ) :
    S.Located Own i (iterateLoop f xs m c buf i s).res := by
  induction xs generalizing m c buf i s with
  | nil => unfold iterateLoop; simp only; split <;> trivial
  | cons x xs ih =>
    have h1 := (h x i).moves.run m i s
    have h2 := (h x i).run m i s
    unfold iterateLoop
    simp only
    split
    · exact .back h1 (ih _ _ _ _ _)
    · exact .back h1 (ih _ _ _ _ _)
    · rename_i e he
      rw [he] at h2
      rw [hS.reset_reach h1]
      simp only
      split <;> exact h2
    · rename_i e he; rw [he] at h2; exact h2
    · trivial

theorem places_iterate {J : Type} (items : List J) {f : J → S.Input → Parser S σ α}
    (h : ∀ x i, Places Own (f x i)) (init : σ) : Places Own (iterate items f init) := by
  refine .ofMode hS hE (moves_iterate hS items (fun x i => (h x i).moves) init).run (fun m i s => ?_)
    (keeps_id hS hE) (keeps_id hS hE)
  split <;> exact iterateLoop_located hS hE h _ _ _ _ _ _

end

end Verif
