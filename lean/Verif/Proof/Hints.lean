import Verif.Proof.BlameErrors
import Verif.Spec.Hints

/-!
# What tuples add to errors
-/

namespace Verif

set_option linter.unusedSectionVars false

variable {S : Strm} {Has : S.Err → S.SErr → Prop} {H : S.E.Hints} {M : Info S.Tok S.Rng → S.Tok → Prop}
  {N σ τ υ α β γ : Type} {rules : N → Gram N S.Tok} {a b : Gram N S.Tok} {F : S.Tok → Prop}
  {P Q : Info S.Tok S.Rng → Prop}

/-! ## Notes -/

theorem notes_refl (t : Tracked S.Err) : S.Notes H P t t := ⟨H.ext_refl _, Nat.le_refl _, fun _ h => .inl h⟩

theorem notes_trans {t t' t'' : Tracked S.Err} (h : S.Notes H P t t') (h' : S.Notes H P t' t'') : S.Notes H P t t'' :=
  ⟨H.ext_trans h.1 h'.1, Nat.le_trans h'.2.1 h.2.1, fun x hx => (h'.2.2 x hx).elim (h.2.2 x) .inr⟩

theorem notes_mono {t t' : Tracked S.Err} (h : S.Notes H P t t') (hPQ : ∀ x, P x → Q x) : S.Notes H Q t t' :=
  ⟨h.1, h.2.1, fun x hx => (h.2.2 x hx).imp_right (hPQ x)⟩

theorem notes_lower {t t' : Tracked S.Err} (h : S.Notes H P t t') {n : Nat} (hn : n ≤ t'.offset) :
    S.Notes H P t { t' with offset := n } := ⟨h.1, Nat.le_trans hn h.2.1, h.2.2⟩

theorem awaits_left {w : List S.Tok} {x : Info S.Tok S.Rng} (h : a.Awaits rules M w x) (hb : b.Useful rules) :
    (a.seq b).Awaits rules M w x := by
  obtain ⟨t, h1, h2⟩ := h
  exact ⟨t, h1, Gram.viable_left h2 hb⟩

theorem awaits_right {u w : List S.Tok} {x : Info S.Tok S.Rng} (hu : a.Derives rules u) (h : b.Awaits rules M w x) :
    (a.seq b).Awaits rules M (u ++ w) x := by
  obtain ⟨t, h1, h2⟩ := h
  exact ⟨t, h1, by rw [List.append_assoc]; exact Gram.viable_right hu h2⟩

theorem awaits_right' {u : List S.Tok} {x : Info S.Tok S.Rng} (hu : a.Derives rules u) (h : b.Awaits rules M [] x) :
    (a.seq b).Awaits rules M u x := by
  have := awaits_right hu h
  rwa [List.append_nil] at this

theorem awaits_alt_left {w : List S.Tok} {x : Info S.Tok S.Rng} (h : a.Awaits rules M w x) :
    (a.alt b).Awaits rules M w x := by
  obtain ⟨t, h1, h2⟩ := h
  exact ⟨t, h1, Gram.viable_alt.2 (.inl h2)⟩

theorem awaits_alt_right {w : List S.Tok} {x : Info S.Tok S.Rng} (h : b.Awaits rules M w x) :
    (a.alt b).Awaits rules M w x := by
  obtain ⟨t, h1, h2⟩ := h
  exact ⟨t, h1, Gram.viable_alt.2 (.inr h2)⟩

theorem awaits_star {w : List S.Tok} {x : Info S.Tok S.Rng} (h : a.Awaits rules M w x) :
    a.star.Awaits rules M w x := by
  obtain ⟨t, h1, h2⟩ := h
  exact ⟨t, h1, Gram.viable_star h2⟩

theorem awaits_more {u w : List S.Tok} {x : Info S.Tok S.Rng} (hu : a.Derives rules u) (h : a.star.Awaits rules M w x) :
    a.star.Awaits rules M (u ++ w) x := by
  obtain ⟨t, h1, h2⟩ := h
  exact ⟨t, h1, by rw [List.append_assoc]; exact Gram.viable_more hu h2⟩

/-! ## The members of a tuple -/

theorem blames_then_empty {p : Parser S σ α} (h : Blames Has rules a F p) :
    Blames Has rules a (Gram.Then rules .empty F) p := by
  have : Gram.Then rules (.empty) F = F := by
    funext t
    apply propext
    constructor
    · rintro (h | ⟨_, h⟩)
      · cases h
      · exact h
    · exact fun h => .inr ⟨.empty, h⟩
  rw [this]
  exact h

theorem seqTells_blames {ps : Seq S τ β} (h : SeqTells Has H M rules F a ps) : SeqBlames Has rules F a ps := by
  induction h with
  | last hm hp _ =>
    refine .cons hm (blames_then_empty hp.toBlames) .nil
  | cons hm hp _ _ ih => exact .cons hm hp.toBlames ih

theorem seqTells_parts {ps : Seq S τ β} (h : SeqTells Has H M rules F a ps) : ps.parts ≠ [] := by
  induction h <;> simp [Seq.parts]

theorem seqTells_extend {ps : Seq S τ β} (h : SeqTells Has H M rules F a ps) (t : Tracked S.Err) :
    S.Notes H (fun _ => True) t (ps.addErrors t) := by
  induction h generalizing t with
  | @last σ α a p hm hp _ =>
    unfold Seq.addErrors
    dsimp only
    have h1 := (hp.extends_ t).1
    split
    · exact notes_lower h1 (Nat.sub_le _ _)
    · exact h1
  | @cons σ τ α β a b p ps hm hp _ hs ih =>
    unfold Seq.addErrors
    dsimp only
    have h1 := (hp.extends_ t).1
    split
    · exact notes_lower h1 (Nat.sub_le _ _)
    · cases ps with
      | nil => exact h1
      | cons q qs =>
        dsimp only
        split
        · exact notes_trans (notes_lower h1 (Nat.sub_le _ _)) (ih _)
        · exact notes_trans h1 (ih _)

theorem seqTells_last {ps : Seq S τ β} (h : SeqTells Has H M rules F a ps) (f : Tracked S.Err → Tracked S.Err)
    (t : Tracked S.Err) {w : List S.Tok} (hw : a.Derives rules w) : S.Notes H (a.Awaits rules M w) t (ps.lastCommitted f t) := by
  induction h generalizing f w with
  | @last σ α a p hm hp hl =>
    obtain ⟨u, v, rfl, h1, h2⟩ := Gram.derives_seq.1 hw
    cases h2
    rw [List.append_nil] at hw ⊢
    simp only [Seq.lastCommitted]
    cases u with
    | nil => exact notes_mono (hl h1 t) fun x hx => awaits_left hx trivial
    | cons c cs => exact notes_mono (hp.comm t _ h1 (by simp)) fun x hx => awaits_left hx trivial
  | cons hm hp _ hs ih =>
    obtain ⟨u, v, rfl, h1, h2⟩ := Gram.derives_seq.1 hw
    exact notes_mono (ih _ h2) fun x hx => awaits_right h1 hx

theorem seqTells_last_any {ps : Seq S τ β} (h : SeqTells Has H M rules F a ps) (f : Tracked S.Err → Tracked S.Err)
    (t : Tracked S.Err) : S.Notes H (fun _ => True) t (ps.lastCommitted f t) := by
  induction h generalizing f with
  | last hm hp hl => exact (hp.extends_ t).2
  | cons hm hp _ hs ih => exact ih _

/-- What is added at the index `k` and after it. -/
theorem addSequence_cons {fe inner k : Nat} {t : Tracked S.Err} {p : Parser S σ α} {ps : List (ErrPart S)} :
    (k + 1 = fe → addSequenceErrors fe inner k t (p.part :: ps) =
      addSequenceErrors fe inner (k + 1) { p.addCommitted t with offset := (p.addCommitted t).offset - p.count } ps) ∧
    (k + 1 < fe → addSequenceErrors fe inner k t (p.part :: ps) =
      addSequenceErrors fe inner (k + 1) { t with offset := t.offset - p.count } ps) ∧
    (fe ≤ k → ∃ t', t'.error = t.error ∧ t'.offset = (if t.offset ≤ 1 then inner else t.offset) ∧
      addSequenceErrors fe inner k t (p.part :: ps) =
      if (p.addError t').offset ≤ 1 then p.addError t'
      else addSequenceErrors fe inner (k + 1) { p.addError t' with offset := (p.addError t').offset - p.count } ps) := by
  refine ⟨fun h => ?_, fun h => ?_, fun h => ?_⟩
  · have h1 : ¬ fe ≤ k := by omega
    simp only [addSequenceErrors, h, h1, if_true, if_false, Parser.part]
  · have h1 : ¬ fe ≤ k := by omega
    have h2 : ¬ k + 1 = fe := by omega
    simp only [addSequenceErrors, h2, h1, if_false, Parser.part]
  · refine ⟨if t.offset ≤ 1 then { t with offset := inner } else t, ?_, ?_, ?_⟩
    · split <;> rfl
    · split <;> rfl
    · have h2 : ¬ k + 1 = fe := by omega
      simp only [addSequenceErrors, h2, h, if_true, if_false, Parser.part]

theorem satAdd_le (a b : Nat) : satAdd a b ≤ a + b := Nat.min_le_left _ _

/-- How the steps of a tuple fail, and what its members then add to the error.  `n` is the sum of the counts of the members
before the one that failed. -/
theorem steps_tell (hS : S.Lawful) {ps : Seq S τ β} (h : SeqTells Has H M rules F a ps) (fe cur off : Nat)
    (hfe : fe ≤ cur + 1) (i : S.Input) (hp : S.isPartial i = false) :
    fe ≤ (ps.steps true fe cur off i ps.init).firstEmpty ∧
    match (ps.steps true fe cur off i ps.init).fin with
    | .fail e => ∃ w n, S.Reads i w (ps.steps true fe cur off i ps.init).inp ∧ a.Viable rules w ∧
        S.Beyond rules a w (ps.steps true fe cur off i ps.init).inp ∧
        (∀ x, H.Lists e.error x → a.Awaits rules M w x) ∧
        (ps.steps true fe cur off i ps.init).offset ≤ off + n ∧
        ((ps.steps true fe cur off i ps.init).firstEmpty ≤ cur + 1 →
          (ps.steps true fe cur off i ps.init).firstEmpty = fe ∧ w = [] ∧
          ∀ t, t.offset ≤ 1 + n → S.Notes H (a.Awaits rules M []) t (ps.addErrors t) ∧ (ps.addErrors t).offset ≤ 1) ∧
        ∀ t, (t.offset ≤ 1 + n ∨ t.offset ≤ max 1 e.offset) → ∀ x,
          H.Lists (addSequenceErrors (ps.steps true fe cur off i ps.init).firstEmpty e.offset (cur + 1) t ps.parts).error x →
          H.Lists t.error x ∨ a.Awaits rules M w x
    | .commitErr e => ∃ w l, S.Reads i w l ∧ a.Viable rules w ∧ S.Beyond rules a w l ∧
        ∀ x, H.Lists e x → a.Awaits rules M w x
    | .peekErr _ => False
    | _ => True := by
  -- a member that fails itself
  have base : ∀ {σ τ α β : Type} {a b : Gram N S.Tok} {G : S.Tok → Prop} {p : Parser S σ α} {ps : Seq S τ β} {fe cur off : Nat}
      {i : S.Input} {e : Tracked S.Err}, Tells Has H M rules a (b.Then rules G) p → b.Useful rules → fe ≤ cur + 1 →
      S.isPartial i = false → (p.run true i p.init).res = .peekErr e →
      ∃ w n, S.Reads i w i ∧ (a.seq b).Viable rules w ∧ S.Beyond rules (a.seq b) w i ∧
        (∀ x, H.Lists e.error x → (a.seq b).Awaits rules M w x) ∧ off ≤ off + n ∧
        (fe ≤ cur + 1 → fe = fe ∧ w = [] ∧ ∀ t, t.offset ≤ 1 + n →
          S.Notes H ((a.seq b).Awaits rules M []) t ((Seq.cons p ps).addErrors t) ∧
          ((Seq.cons p ps).addErrors t).offset ≤ 1) ∧
        ∀ t, (t.offset ≤ 1 + n ∨ t.offset ≤ max 1 e.offset) → ∀ x,
          H.Lists (addSequenceErrors fe e.offset (cur + 1) t (p.part :: ps.parts)).error x →
          H.Lists t.error x ∨ (a.seq b).Awaits rules M w x := by
    intro σ τ α β a b G p ps fe cur off i e hpt hub hfe hp hr
    have hs := shape_of_err hr
    have hpred := hpt.predicts i
    rw [hs] at hpred
    obtain ⟨hl, hadd⟩ := hpt.softly i e hp hr
    refine ⟨[], 0, .nil i, Gram.viable_left (Gram.viable_nil hpt.useful) hub,
      beyond_left hpt.accepts hp (.nil i) (fun c v j h => by rw [hs] at h; cases h)
        (fun x h => by rw [hs] at h; cases h) (beyond_nil hpred.1), fun x hx => awaits_left (hl x hx) hub,
      Nat.le_refl _, fun _ => ⟨rfl, rfl, fun t ht => ?_⟩, fun t ht x hx => ?_⟩
    · obtain ⟨h1, h2⟩ := hadd t (by omega)
      unfold Seq.addErrors
      dsimp only
      rw [if_pos h2]
      exact ⟨notes_lower (notes_mono h1 fun x hx => awaits_left hx hub) (Nat.sub_le _ _), Nat.le_trans (Nat.sub_le _ _) h2⟩
    · obtain ⟨t', h1, h2, h3⟩ := (addSequence_cons (inner := e.offset) (t := t) (p := p) (ps := ps.parts)).2.2 hfe
      obtain ⟨h4, h5⟩ := hadd t' (by rw [h2]; split <;> omega)
      rw [h3, if_pos h5] at hx
      rcases h4.2.2 x hx with h6 | h6
      · rw [h1] at h6; exact .inl h6
      · exact .inr (awaits_left h6 hub)
  induction h generalizing fe cur off i with
  | @last σ α a p hm hpt _ =>
    have hmv := hm.run true i p.init
    simp only [Seq.steps, Seq.init, Bool.true_or, if_true]
    have hpt' : Blames Has rules a (Gram.Then rules .empty F) p := blames_then_empty hpt.toBlames
    cases hr : (p.run true i p.init).res with
    | commitOk x => exact ⟨by dsimp only; omega, trivial⟩
    | peekOk x => exact ⟨Nat.le_refl _, trivial⟩
    | abort x => exact ⟨Nat.le_refl _, trivial⟩
    | commitErr e =>
      refine ⟨Nat.le_refl _, ?_⟩
      have ha : p.answer i = .hard e := answer_of_hard.2 hr
      obtain ⟨w, l, h1, h3, h4, h5⟩ := hpt.hardly i e hp ha
      have hs := shape_of_hard ha
      exact ⟨w, l, h1, Gram.viable_left h3 trivial,
        beyond_left hpt'.accepts hp h1 (fun c v j h => by rw [hs] at h; cases h)
          (fun x h => by rw [hs] at h; cases h) h4, fun x hx => awaits_left (h5 x hx) trivial⟩
    | peekErr e =>
      dsimp only
      rw [hS.reset_reach hmv]
      exact ⟨Nat.le_refl _, base (ps := .nil) { hpt with toBlames := hpt' } trivial hfe hp hr⟩
  | @cons σ τ α β a b p ps hm hpt hmod hs ih =>
    have hmv := hm.run true i p.init
    have hub := seq_useful (seqTells_blames hs)
    have hpred := hpt.predicts i
    simp only [Seq.steps, Seq.init, Bool.true_or, if_true]
    cases hr : (p.run true i p.init).res with
    | abort x => exact ⟨Nat.le_refl _, trivial⟩
    | commitErr e =>
      refine ⟨Nat.le_refl _, ?_⟩
      have ha : p.answer i = .hard e := answer_of_hard.2 hr
      obtain ⟨w, l, h1, h3, h4, h5⟩ := hpt.hardly i e hp ha
      have hs := shape_of_hard ha
      exact ⟨w, l, h1, Gram.viable_left h3 hub,
        beyond_left hpt.accepts hp h1 (fun c v j h => by rw [hs] at h; cases h)
          (fun x h => by rw [hs] at h; cases h) h4, fun x hx => awaits_left (h5 x hx) hub⟩
    | peekErr e =>
      dsimp only
      rw [hS.reset_reach hmv]
      exact ⟨Nat.le_refl _, base hpt hub hfe hp hr⟩
    | commitOk x =>
      have hx := (shape_of_res (p := p)).1 hr
      rw [hx] at hpred
      obtain ⟨u, h1, h2, h3, _⟩ := hpred
      have hstop := hpt.stop i _ _ _ u hp hx h1
      have h4 := ih (cur + 1 + 1) (cur + 1) (satAdd off p.count) (Nat.le_refl _) (p.run true i p.init).inp
        ((hS.reads_isPartial h1).trans hp)
      dsimp only
      revert h4
      generalize ps.steps true (cur + 1 + 1) (cur + 1) (satAdd off p.count) (p.run true i p.init).inp ps.init = r
      obtain ⟨fin, f, o, j, st⟩ := r
      rintro ⟨h5, h6⟩
      dsimp only at h5 h6 ⊢
      refine ⟨by omega, ?_⟩
      cases fin with
      | done => trivial
      | abort x => trivial
      | peekErr e => exact h6
      | commitErr e =>
        obtain ⟨w, l, h7, h9, h10, h11⟩ := h6
        exact ⟨u ++ w, l, reads_append h1 h7, Gram.viable_right h2 h9,
          beyond_right hS hpt.accepts hp hx h1 h7 hstop h10, fun x hx => awaits_right h2 (h11 x hx)⟩
      | fail e =>
        obtain ⟨w, n, h7, h9, h10, h11, h12, h13, h14⟩ := h6
        have hsat := satAdd_le off p.count
        refine ⟨u ++ w, p.count + n, reads_append h1 h7, Gram.viable_right h2 h9,
          beyond_right hS hpt.accepts hp hx h1 h7 hstop h10, fun x hx => awaits_right h2 (h11 x hx), by omega,
          fun h => by omega, fun t ht x hx => ?_⟩
        rcases Nat.lt_or_ge (cur + 1 + 1) f with hf | hf
        · rw [Seq.parts, addSequence_cons.2.1 hf] at hx
          exact (h14 _ (by dsimp only; omega) x hx).imp_right fun h => awaits_right h2 h
        · obtain ⟨h15, rfl, _⟩ := h13 hf
          rw [Seq.parts, addSequence_cons.1 h15.symm] at hx
          have hne : u ≠ [] := by rintro rfl; cases h3
          have hc := hpt.comm t u h2 hne
          have hle := hc.2.1
          rcases h14 _ (by dsimp only; omega) x hx with h | h
          · rcases hc.2.2 x h with h | h
            · exact .inl h
            · rw [List.append_nil]; exact .inr (awaits_left h hub)
          · exact .inr (awaits_right h2 h)
    | peekOk x =>
      have hx := (shape_of_res (p := p)).2 hr
      rw [hx] at hpred
      obtain ⟨u, h1, h2, h3, _⟩ := hpred
      have hu : u = [] := by
        cases u with
        | nil => rfl
        | cons t ts => cases h3
      subst hu
      have hstop := hpt.stop i _ _ _ [] hp hx h1
      obtain ⟨hcount, hmod⟩ := hmod h2
      have h4 := ih fe (cur + 1) (satAdd off p.count) (by omega) (p.run true i p.init).inp
        ((hS.reads_isPartial h1).trans hp)
      dsimp only
      revert h4
      cases ps with
      | nil => exact absurd rfl (seqTells_parts hs)
      | cons q qs =>
      generalize (Seq.cons q qs).steps true fe (cur + 1) (satAdd off p.count) (p.run true i p.init).inp (Seq.cons q qs).init = r
      obtain ⟨fin, f, o, j, st⟩ := r
      rintro ⟨h5, h6⟩
      dsimp only at h5 h6 ⊢
      refine ⟨h5, ?_⟩
      cases fin with
      | done => trivial
      | abort x => trivial
      | peekErr e => exact h6
      | commitErr e =>
        obtain ⟨w, l, h7, h9, h10, h11⟩ := h6
        exact ⟨w, l, reads_append h1 h7, Gram.viable_right h2 h9,
          beyond_right hS hpt.accepts hp hx h1 h7 hstop h10, fun x hx => awaits_right h2 (h11 x hx)⟩
      | fail e =>
        obtain ⟨w, n, h7, h9, h10, h11, h12, h13, h14⟩ := h6
        have hsat := satAdd_le off p.count
        refine ⟨w, p.count + n, reads_append h1 h7, Gram.viable_right h2 h9,
          beyond_right hS hpt.accepts hp hx h1 h7 hstop h10, fun x hx => awaits_right h2 (h11 x hx), by omega,
          fun h => ?_, fun t ht x hx => ?_⟩
        · obtain ⟨h15, rfl, h16⟩ := h13 (by omega)
          refine ⟨h15, rfl, fun t ht => ?_⟩
          rw [Seq.addErrors]
          have hm1 := hmod t
          have hm2 := hm1.2.1
          split
          · rename_i hle
            exact ⟨notes_lower (notes_mono hm1 fun x hx => awaits_left hx hub) (Nat.sub_le _ _),
              Nat.le_trans (Nat.sub_le _ _) hle⟩
          · split
            · rename_i heq
              obtain ⟨h17, h18⟩ := h16 { p.addError t with offset := (p.addError t).offset - p.count } (by dsimp only; omega)
              exact ⟨notes_trans (notes_lower (notes_mono hm1 fun x hx => awaits_left hx hub) (Nat.sub_le _ _))
                (notes_mono h17 fun x hx => awaits_right h2 hx), h18⟩
            · obtain ⟨h17, h18⟩ := h16 (p.addError t) (by omega)
              exact ⟨notes_trans (notes_mono hm1 fun x hx => awaits_left hx hub)
                (notes_mono h17 fun x hx => awaits_right h2 hx), h18⟩
        · rcases Nat.lt_or_ge (cur + 1 + 1) f with hf | hf
          · rw [Seq.parts, addSequence_cons.2.1 hf] at hx
            exact (h14 _ (by dsimp only; omega) x hx).imp_right fun h => awaits_right h2 h
          · obtain ⟨h15, rfl, _⟩ := h13 hf
            obtain ⟨t', h17, h18, h19⟩ := (addSequence_cons (inner := e.offset) (t := t) (p := p)
              (ps := (Seq.cons q qs).parts) (fe := f) (k := cur + 1)).2.2 (by omega)
            have hm1 := hmod t'
            have hm2 := hm1.2.1
            have hm3 : ∀ x, H.Lists (p.addError t').error x → H.Lists t.error x ∨ (a.seq b).Awaits rules M [] x := by
              intro x hx
              rw [← h17]
              exact (hm1.2.2 x hx).imp_right fun h => awaits_left h hub
            rw [Seq.parts, h19] at hx
            split at hx
            · exact hm3 x hx
            · rcases h14 _ (by dsimp only; split at h18 <;> omega) x hx with h | h
              · exact hm3 x h
              · exact .inr (awaits_right h2 h)

end Verif
