import Verif.Proof.Places

/-! # Where errors are positioned: sequences and choices -/

namespace Verif

set_option linter.unusedSectionVars false
set_option linter.unusedVariables false

variable {S : Strm} {Own : S.Pos → Prop} {σ τ υ α β γ : Type}

section
variable (hS : S.Lawful) (hE : S.E.Placing)
include hS hE

/-! ## Sequences -/

omit hS hE in
theorem addSequenceErrors_position {parts : List (ErrPart S)}
    (h : ∀ q ∈ parts, KeepsPosition S q.addError ∧ KeepsPosition S q.addCommitted) (fe inner k : Nat)
    (e : Tracked S.Err) :
    S.E.position (addSequenceErrors fe inner k e parts).error = S.E.position e.error := by
  induction parts generalizing k e with
  | nil => rfl
  | cons q qs ih =>
    have hq := h q (.head _)
    have ih := ih fun q hq => h q (.tail _ hq)
    unfold addSequenceErrors
    dsimp only
    have h1 : S.E.position (if k + 1 = fe then q.addCommitted e else e).error = S.E.position e.error := by
      split
      · exact hq.2 e
      · rfl
    generalize (if k + 1 = fe then q.addCommitted e else e) = e1 at h1
    split
    · have h2 : S.E.position (q.addError (if e1.offset ≤ 1 then { e1 with offset := inner } else e1)).error =
          S.E.position e.error := by
        rw [hq.1]
        split <;> exact h1
      generalize q.addError _ = e2 at h2
      split
      · exact h2
      · rw [ih]; exact h2
    · rw [ih]; exact h1

theorem seqAddErrors_located {parts : List (ErrPart S)}
    (h : ∀ q ∈ parts, KeepsPosition S q.addError ∧ KeepsPosition S q.addCommitted) (e : Tracked S.Err)
    (fe off : Nat) (i j : S.Input) (he : S.Spot Own i (S.E.position e.error)) :
    S.Located Own i (seqAddErrors (α := α) parts e fe off j).1 := by
  unfold seqAddErrors
  dsimp only
  split
  · split
    · change S.Spot Own i _
      rw [addSequenceErrors_position h]
      dsimp only
      rw [hE.add]
      exact he
    · change S.Spot Own i _
      rw [addSequenceErrors_position h]
      exact he
  · exact he

/-- How a step of a tuple fails. -/
def SeqEnd.Located (Own : S.Pos → Prop) (i : S.Input) : SeqEnd S.Err → Prop
  | .fail e => S.Spot Own i (S.E.position e.error)
  | .commitErr e => S.Spot Own i (S.E.position e)
  | .peekErr e => S.Spot Own i (S.E.position e.error)
  | _ => True

omit hS hE in
theorem SeqEnd.Located.back {i j : S.Input} (h : S.Reach i j) {r : SeqEnd S.Err} (hr : r.Located Own j) :
    r.Located Own i := by
  cases r with
  | fail e => exact Strm.Spot.back h hr
  | commitErr e => exact Strm.Spot.back h hr
  | peekErr e => exact Strm.Spot.back h hr
  | _ => trivial

theorem seq_steps_located (ps : Seq S τ β) (h : ∀ q, ps.Mem q → Places Own q.2.2) (m : Bool) (fe cur off : Nat)
    (i : S.Input) (t : τ) : (ps.steps m fe cur off i t).fin.Located Own i := by
  induction ps generalizing m fe cur off i with
  | nil => trivial
  | cons p ps ih =>
    have hp : Places Own p := h ⟨_, _, p⟩ (.inl rfl)
    have ih := ih fun q hq => h q (.inr hq)
    obtain ⟨⟨v, s⟩, t⟩ := t
    unfold Seq.steps
    have hm := hp.moves.run m i s
    have hl := hp.run m i s
    split
    · simp only
      split
      · exact .back hm (ih _ _ _ _ _ _)
      · exact .back hm (ih _ _ _ _ _ _)
      · rename_i e he
        rw [hS.reset_reach hm]
        rw [he] at hl
        exact hl
      · rename_i e he
        rw [he] at hl
        exact hl
      · trivial
    · exact ih _ _ _ _ _ _

omit hS hE in
theorem seq_parts_keep (ps : Seq S τ β) (h : ∀ q, ps.Mem q → Places Own q.2.2) :
    ∀ q ∈ ps.parts, KeepsPosition S q.addError ∧ KeepsPosition S q.addCommitted := by
  induction ps with
  | nil => exact fun q hq => nomatch hq
  | cons p ps ih =>
    have hp : Places Own p := h ⟨_, _, p⟩ (.inl rfl)
    intro q hq
    cases hq with
    | head => exact ⟨hp.addError, hp.addCommitted⟩
    | tail _ hq => exact ih (fun q hq => h q (.inr hq)) q hq

omit hS hE in
theorem seq_addErrors_keep (ps : Seq S τ β) (h : ∀ q, ps.Mem q → Places Own q.2.2) :
    KeepsPosition S ps.addErrors := by
  induction ps with
  | nil => exact fun _ => rfl
  | cons p ps ih =>
    have hp : Places Own p := h ⟨_, _, p⟩ (.inl rfl)
    have ih := ih fun q hq => h q (.inr hq)
    intro e
    unfold Seq.addErrors
    dsimp only
    have h1 := hp.addError e
    generalize p.addError e = e1 at h1
    split
    · exact h1
    · cases ps with
      | nil => exact h1
      | cons q qs =>
        dsimp only
        rw [ih]
        split <;> exact h1

omit hS hE in
theorem seq_last_keep (ps : Seq S τ β) (h : ∀ q, ps.Mem q → Places Own q.2.2) {f : Tracked S.Err → Tracked S.Err}
    (hf : KeepsPosition S f) : KeepsPosition S (ps.lastCommitted f) := by
  induction ps generalizing f with
  | nil => exact hf
  | cons p ps ih =>
    have hp : Places Own p := h ⟨_, _, p⟩ (.inl rfl)
    exact ih (fun q hq => h q (.inr hq)) hp.addCommitted

theorem seqRest_located {p : Parser S σ α} (hp : Places Own p) (ps : Seq S τ β)
    (h : ∀ q, ps.Mem q → Places Own q.2.2) (m : Bool) (fe : Nat) (i : S.Input) (st : SeqSt σ τ α) :
    S.Located Own i (seqRest p ps m fe i st).res := by
  have hl := seq_steps_located hS hE ps h m fe 0 st.offset i st.tail
  unfold seqRest
  revert hl
  generalize ps.steps m fe 0 st.offset i st.tail = r
  obtain ⟨fin, fe', off', j, t⟩ := r
  intro hl
  cases fin with
  | done =>
    simp only [seqFinish]
    split
    · split <;> trivial
    · trivial
  | fail e =>
    refine seqAddErrors_located hS hE (fun q hq => ?_) e fe' off' i j hl
    cases hq with
    | head => exact ⟨hp.addError, hp.addCommitted⟩
    | tail _ hq => exact seq_parts_keep ps h q hq
  | commitErr e => exact hl
  | peekErr e => exact hl
  | abort a => trivial

theorem places_tuple {p : Parser S σ α} (hp : Places Own p) (ps : Seq S τ β)
    (h : ∀ q, ps.Mem q → Places Own q.2.2) : Places Own (tuple p ps) := by
  refine .ofMode hS hE (moves_tuple hS hp.moves ps fun q hq => (h q hq).moves).run (fun m i st => ?_)
    (fun e => ?_) (seq_last_keep ps h hp.addCommitted)
  · have hm := hp.moves.run m i st.head
    have h1 := hp.run m i st.head
    unfold seqRun
    split
    · simp only
      split
      · exact .back hm (seqRest_located hS hE hp ps h _ _ _ _)
      · exact .back hm (seqRest_located hS hE hp ps h _ _ _ _)
      · rename_i e he; rw [he] at h1; exact h1
      · rename_i e he; rw [he] at h1; exact h1
      · trivial
    · exact seqRest_located hS hE hp ps h _ _ _ _
  · dsimp only
    have h1 := hp.addError e
    generalize p.addError e = e1 at h1
    split
    · exact h1
    · rw [seq_addErrors_keep ps h]
      split <;> exact h1

theorem places_pair {p : Parser S σ α} {q : Parser S τ β} (hp : Places Own p) (hq : Places Own q) :
    Places Own (pair p q) := by
  refine places_tuple hS hE hp _ fun r hr => ?_
  rcases hr with rfl | hr
  · exact hq
  · cases hr

theorem places_with {p : Parser S σ α} {q : Parser S τ β} (hp : Places Own p) (hq : Places Own q) :
    Places Own («with» p q) := by
  have h := places_pair hS hE (places_ignore hS hE hp) hq
  have hm := moves_with hS hp.moves hq.moves
  exact ⟨hm, fun m i s => .map _ (h.run m i s), fun i => .map _ (h.lazy i),
    fun m i s => describing_located hS hE h.addError (h.moves.run m i s) (.map _ (h.run m i s)),
    fun i => describing_located hS hE h.addError (h.moves.run true i _) (.map _ (h.run true i _)),
    h.addError, h.addCommitted⟩

theorem places_skip {p : Parser S σ α} {q : Parser S τ β} (hp : Places Own p) (hq : Places Own q) :
    Places Own (skip p q) := by
  have h := places_pair hS hE hp (places_ignore hS hE hq)
  exact .ofMode hS hE (moves_skip hS hp.moves hq.moves).run (fun m i s => .map _ (h.run m i s)) h.addError
    h.addCommitted

theorem places_between {o : Parser S σ α} {c : Parser S υ γ} {p : Parser S τ β} (ho : Places Own o)
    (hc : Places Own c) (hp : Places Own p) : Places Own (between o c p) := by
  refine places_parserMacro hS hE (places_map hS hE (places_tuple hS hE ho _ fun r hr => ?_) _)
  rcases hr with rfl | rfl | hr
  · exact hp
  · exact hc
  · cases hr

omit hS hE in
theorem thenMerge_located {i : S.Input} (c : Bool) {r : ParseResult α S.Err} (h : S.Located Own i r) :
    S.Located Own i (thenMerge (S := S) c r) := by
  cases r <;> cases c <;> first | trivial | exact h

theorem places_thenP {p : Parser S σ α} {f : α → Parser S τ β} (hp : Places Own p) (hf : ∀ a, Places Own (f a))
    (n : τ) : Places Own (thenP p f n) := by
  refine .ofMode hS hE (moves_thenP hS hp.moves (fun a => (hf a).moves) n).run (fun m i s => ?_) hp.addError
    (keeps_id hS hE)
  have hm := hp.moves.run m i s.1
  have h1 := hp.run m i s.1
  simp only
  split
  · exact thenMerge_located _ ((hf _).committed _ _ _)
  · split
    · exact .back hm (thenMerge_located _ ((hf _).committed _ _ _))
    · exact .back hm (thenMerge_located _ ((hf _).committed _ _ _))
    · rename_i e he; rw [he] at h1; exact h1
    · rename_i e he; rw [he] at h1; exact h1
    · trivial

theorem places_thenPartial {p : Parser S σ α} {f : α → Parser S τ β × α} (hp : Places Own p)
    (hf : ∀ a, Places Own (f a).1) (n : τ) : Places Own (thenPartial p f n) := by
  refine .ofMode hS hE (moves_thenPartial hS hp.moves (fun a => (hf a).moves) n).run (fun m i s => ?_) hp.addError
    (keeps_id hS hE)
  have hm := hp.moves.run m i s.1
  have h1 := hp.run m i s.1
  simp only
  split
  · exact thenMerge_located _ ((hf _).committed _ _ _)
  · split
    · exact .back hm (thenMerge_located _ ((hf _).committed _ _ _))
    · exact .back hm (thenMerge_located _ ((hf _).committed _ _ _))
    · rename_i e he; rw [he] at h1; exact h1
    · rename_i e he; rw [he] at h1; exact h1
    · trivial

theorem places_thenRef {p : Parser S σ α} {f : α → Parser S τ β} (hp : Places Own p) (hf : ∀ a, Places Own (f a))
    (n : τ) : Places Own (thenRef p f n) := by
  refine .ofMode hS hE (moves_thenRef hS hp.moves (fun a => (hf a).moves) n).run (fun m i s => ?_) hp.addError
    (keeps_id hS hE)
  have hm := hp.moves.run m i s.1
  have h1 := hp.run m i s.1
  simp only
  split
  · exact .map _ (thenMerge_located _ ((hf _).committed _ _ _))
  · split
    · exact .back hm (.map _ (thenMerge_located _ ((hf _).committed _ _ _)))
    · exact .back hm (.map _ (thenMerge_located _ ((hf _).committed _ _ _)))
    · rename_i e he; rw [he] at h1; exact h1
    · rename_i e he; rw [he] at h1; exact h1
    · trivial

/-! ## Choices -/

/-- A failed alternative whose error is where it should be. -/
def Tried.Located (Own : S.Pos → Prop) (i : S.Input) (t : Tried S) : Prop :=
  KeepsPosition S t.addError ∧ S.Spot Own i (S.E.position t.err.error)

theorem mergeAll_located {i : S.Input} (t : Tried S) (ts : List (Tried S)) (ht : t.Located Own i)
    (hts : ∀ u ∈ ts, u.Located Own i) : S.Spot Own i (S.E.position (mergeAll t ts)) := by
  induction ts generalizing t with
  | nil => exact ht.2
  | cons u us ih =>
    have h := ih u (hts u (.head _)) fun x hx => hts x (.tail _ hx)
    rcases hE.merge t.err.error (mergeAll u us) with h' | h'
    · change S.Spot Own i (S.E.position (S.E.merge _ _)); rw [h']; exact ht.2
    · change S.Spot Own i (S.E.position (S.E.merge _ _)); rw [h']; exact h

omit hS hE in
theorem addTried_position (ts : List (Tried S)) (h : ∀ u ∈ ts, KeepsPosition S u.addError) (e : Tracked S.Err) :
    S.E.position (addTried e ts).error = S.E.position e.error := by
  unfold addTried
  induction ts generalizing e with
  | nil => rfl
  | cons u us ih =>
    rw [List.foldl_cons, ih fun x hx => h x (.tail _ hx)]
    split
    · exact h u (.head _) _
    · rfl

theorem choiceFail_located {i : S.Input} (ts : List (Tried S)) (h : ∀ u ∈ ts, u.Located Own i) :
    S.Located Own i (choiceFail (α := α) ts) := by
  cases ts with
  | nil => trivial
  | cons t ts =>
    change S.Spot Own i _
    rw [addTried_position _ fun u hu => (h u hu).1]
    exact mergeAll_located hS hE t ts (h t (.head _)) fun u hu => h u (.tail _ hu)

theorem doChoice_located {ps : Alts S α σ} (h : ∀ q, ps.Mem q → Places Own q.2) (bp : S.Pos)
    (tried : List (Tried S)) (i : S.Input) (ht : ∀ u ∈ tried, u.Located Own i) :
    S.Located Own i (ps.doChoice bp (S.checkpoint i) tried i).res := by
  induction ps generalizing tried with
  | last p =>
    have hp : Places Own p := h ⟨_, p⟩ rfl
    have hm := hp.moves.run true i p.init
    have hl := hp.run true i p.init
    unfold Alts.doChoice
    simp only
    split
    · trivial
    · trivial
    · rename_i e he; rw [he] at hl; exact hl
    · rename_i e he
      rw [he] at hl
      rw [hS.reset_reach hm]
      refine choiceFail_located hS hE _ fun u hu => ?_
      rcases List.mem_append.1 hu with hu | hu
      · exact ht u hu
      · cases List.mem_singleton.1 hu; exact ⟨hp.addError, hl⟩
    · trivial
  | cons p ps ih =>
    have hp : Places Own p := h ⟨_, p⟩ (.inl rfl)
    have hm := hp.moves.run true i p.init
    have hl := hp.run true i p.init
    unfold Alts.doChoice
    simp only
    split
    · trivial
    · trivial
    · rename_i e he; rw [he] at hl; exact hl
    · rename_i e he
      rw [he] at hl
      rw [hS.reset_reach hm]
      refine ih (fun q hq => h q (.inr hq)) _ fun u hu => ?_
      rcases List.mem_append.1 hu with hu | hu
      · exact ht u hu
      · cases List.mem_singleton.1 hu; exact ⟨hp.addError, hl⟩
    · trivial

omit hS hE in
theorem resume_located {ps : Alts S α σ} (h : ∀ q, ps.Mem q → Places Own q.2) (m : Bool) (i : S.Input) (s : σ) :
    S.Located Own i (ps.resume m i s).res := by
  induction ps with
  | last p => exact (h ⟨_, p⟩ rfl).run m i s
  | cons p ps ih =>
    cases s with
    | inl s => exact (h ⟨_, p⟩ (.inl rfl)).run m i s
    | inr s => exact ih (fun q hq => h q (.inr hq)) s

omit hS hE in
theorem alts_addErrors_keep {ps : Alts S α σ} (h : ∀ q, ps.Mem q → Places Own q.2) :
    KeepsPosition S ps.addErrors := by
  induction ps with
  | last p => exact fun e => (h ⟨_, p⟩ rfl).addError _
  | cons p ps ih => exact fun e => (ih (fun q hq => h q (.inr hq)) _).trans ((h ⟨_, p⟩ (.inl rfl)).addError _)

omit hS hE in
theorem choiceAddError_keep {add : Tracked S.Err → Tracked S.Err} (h : KeepsPosition S add) :
    KeepsPosition S (choiceAddError add) := by
  intro e
  unfold choiceAddError
  dsimp only
  split
  · exact h e
  · rfl

theorem choiceRun_located {ps : Alts S α σ} (h : ∀ q, ps.Mem q → Places Own q.2) (m : Bool) (i : S.Input)
    (s : Option σ) : S.Located Own i (choiceRun ps m i s).res := by
  unfold choiceRun
  split
  · exact resume_located h _ _ _
  · exact doChoice_located hS hE h _ _ _ fun u hu => nomatch hu

theorem places_choice {ps : Alts S α σ} (h : ∀ q, ps.Mem q → Places Own q.2) : Places Own (choice ps) :=
  .ofMode hS hE (moves_choice hS fun q hq => (h q hq).moves).run (choiceRun_located hS hE h)
    (choiceAddError_keep (alts_addErrors_keep h)) (keeps_id hS hE)

theorem places_or {p : Parser S σ α} {q : Parser S τ α} (hp : Places Own p) (hq : Places Own q) :
    Places Own (or p q) := by
  have h : ∀ r, (Alts.cons p (.last q)).Mem r → Places Own r.2 := by
    intro r hr
    rcases hr with rfl | rfl
    · exact hp
    · exact hq
  have hc := places_choice hS hE h
  refine .ofMode hS hE hc.moves.run hc.run (fun e => ?_) (keeps_id hS hE)
  split
  · exact hc.addError e
  · rfl

omit hS hE in
theorem addOnes_position {ps : List (Parser S σ α)} (h : ∀ q ∈ ps, Places Own q) : KeepsPosition S (addOnes ps) := by
  unfold addOnes
  intro e
  induction ps generalizing e with
  | nil => rfl
  | cons p ps ih =>
    dsimp only at ih ⊢
    rw [List.foldl_cons, ih fun q hq => h q (.tail _ hq)]
    exact (h p (.head _)).addError _

omit hS hE in
theorem addErrorAt_position {ps : List (Parser S σ α)} (h : ∀ q ∈ ps, Places Own q) (k : Nat) :
    KeepsPosition S (addErrorAt ps k) := by
  intro e
  unfold addErrorAt
  split
  · rename_i p hp
    exact (h p (List.mem_of_getElem? hp)).addError e
  · rfl

theorem sliceLoop_located (all : List (Parser S σ α)) (hall : ∀ q ∈ all, Places Own q) (m : Bool) (i0 : S.Input)
    (ps : List (Parser S σ α)) (h : ∀ q ∈ ps, Places Own q) (k last : Nat) (prev : Option (Tracked S.Err))
    (hprev : ∀ e, prev = some e → S.Spot Own i0 (S.E.position e.error)) (i : S.Input) (hi : S.Reach i0 i)
    (st : Nat × σ) : S.Located Own i0 (sliceLoop all m (S.checkpoint i0) ps k last prev i st).res := by
  have hsub : ∀ a b, ∀ q ∈ (all.drop a).take b, Places Own q :=
    fun a b q hq => hall q (List.mem_of_mem_drop (List.mem_of_mem_take hq))
  induction ps generalizing k last prev i st with
  | nil =>
    unfold sliceLoop
    cases prev with
    | none => exact spot_fromError_at hS hE hi _
    | some e =>
      have he := hprev e rfl
      simp only
      split
      · change S.Spot Own i0 _
        dsimp only
        rw [addErrorAt_position hall]
        dsimp only
        rw [addOnes_position (hsub _ _)]
        exact he
      · exact he
  | cons p ps ih =>
    have hp := h p (.head _)
    have ih := ih fun q hq => h q (.tail _ hq)
    unfold sliceLoop
    rw [hS.reset_reach hi]
    have hm := hp.moves.run m i0 st.2
    have hl := hp.run m i0 st.2
    simp only
    split
    · rename_i e he; rw [he] at hl; exact hl
    · trivial
    · trivial
    · trivial
    · rename_i err he
      rw [he] at hl
      cases prev with
      | none => exact ih _ _ _ (fun e h => by cases h; exact hl) _ hm _
      | some pe =>
        have hpe := hprev pe rfl
        simp only
        split
        · refine ih _ _ _ (fun e h => ?_) _ hm _
          cases h
          dsimp only
          rcases hE.merge (addErrorAt all (k - 1) { addOnes ((all.drop last).take (k - 1 - last)) pe with
            offset := pe.offset }).error err.error with h' | h'
          · rw [h', addErrorAt_position hall]
            dsimp only
            rw [addOnes_position (hsub _ _)]
            exact hpe
          · rw [h']; exact hl
        · refine ih _ _ _ (fun e h => ?_) _ hm _
          cases h
          dsimp only
          rcases hE.merge pe.error err.error with h' | h'
          · rw [h']; exact hpe
          · rw [h']; exact hl

theorem places_sliceChoice (all : List (Parser S σ α)) (h : ∀ q ∈ all, Places Own q) (init : σ) :
    Places Own (sliceChoice all init) := by
  refine .ofMode hS hE (moves_sliceChoice hS all (fun q hq => (h q hq).moves) init).run (fun m i st => ?_)
    (choiceAddError_keep (addOnes_position h)) (keeps_id hS hE)
  unfold sliceRun
  split
  · split
    · trivial
    · rename_i p hp
      exact (h p (List.mem_of_getElem? hp)).run false i st.2
  · exact sliceLoop_located hS hE all h m i all h 0 0 none (fun e h => nomatch h) i (.refl i) st

theorem places_optional {p : Parser S σ α} (h : Places Own p) : Places Own (optional p) := by
  refine .ofMode hS hE (moves_optional hS h.moves).run (fun m i s => ?_) h.addError (keeps_id hS hE)
  have hm := h.moves.run m i s
  have hl := h.run m i s
  simp only
  split
  · trivial
  · trivial
  · rename_i e he; rw [he] at hl; exact hl
  · rw [hS.tryReset_eq hm]; trivial
  · trivial

theorem places_dispatch {ps : Alts S α σ} (h : ∀ q, ps.Mem q → Places Own q.2) (k : Nat) :
    Places Own (dispatch ps k) := by
  refine .ofMode hS hE (moves_dispatch hS (fun q hq => (h q hq).moves) k).run
    (fun m i st => resume_located h _ _ _) ?_ (keeps_id hS hE)
  clear hS hE
  induction ps generalizing k with
  | last p => exact (h ⟨_, p⟩ rfl).addError
  | cons p ps ih =>
    cases k with
    | zero => exact (h ⟨_, p⟩ (.inl rfl)).addError
    | succ k => exact ih (fun q hq => h q (.inr hq)) k

end

end Verif
