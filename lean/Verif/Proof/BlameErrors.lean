import Verif.Proof.Blame
import Verif.Proof.PlacesSeq
import Verif.Props.Chain

/-!
# Errors that name what they blame: one lemma per combinator
-/

namespace Verif

set_option linter.unusedSectionVars false

variable {S : Strm} {Has : S.Err → S.SErr → Prop} {N σ τ υ α β γ : Type} {rules : N → Gram N S.Tok} {a b : Gram N S.Tok}
  {F : S.Tok → Prop}

/-! ## Errors -/

theorem Strm.Adds.near {f : Tracked S.Err → Tracked S.Err} (h : S.Adds Has f) {l : S.Input} {t : Tracked S.Err}
    (ht : S.Near Has l t.error) : S.Near Has l (f t).error :=
  ⟨(h t).1.trans ht.1, fun he => (h t).2 _ (.inl rfl) (ht.2 he)⟩

theorem culprit_cases (l : S.Input) : S.culprit l = S.E.endOfInput ∨ ∃ x, S.culprit l = S.E.unexpected x := by
  unfold Strm.culprit
  split
  · exact .inr ⟨_, rfl⟩
  · exact .inl rfl

theorem culprit_tok {l k : S.Input} {t : S.Tok} (h : S.uncons l = (.ok t, k)) : S.culprit l = S.E.unexpected (.token t) := by
  simp only [Strm.culprit, h]

theorem culprit_end {l k : S.Input} {x : S.SErr} (h : S.uncons l = (.error x, k)) : S.culprit l = S.E.endOfInput := by
  simp only [Strm.culprit, h]

theorem Strm.Adds.blamed {f : Tracked S.Err → Tracked S.Err} (h : S.Adds Has f) {l : S.Input} {t : Tracked S.Err}
    (ht : S.Blamed Has l t.error) : S.Blamed Has l (f t).error :=
  ⟨(h t).1.trans ht.1, (h t).2 _ (culprit_cases l) ht.2⟩

theorem adds_id : S.Adds Has id := fun _ => ⟨rfl, fun _ _ h => h⟩

theorem Strm.Adds.comp {f g : Tracked S.Err → Tracked S.Err} (hf : S.Adds Has f) (hg : S.Adds Has g) :
    S.Adds Has fun t => f (g t) :=
  fun t => ⟨((hf _).1).trans (hg t).1, fun y hy h => (hf _).2 y hy ((hg t).2 y hy h)⟩

/-- The offset does not matter. -/
theorem Strm.Adds.offset {f : Tracked S.Err → Tracked S.Err} (hf : S.Adds Has f) (n : Tracked S.Err → Nat) :
    S.Adds Has fun t => f { t with offset := n t } := fun t => hf { t with offset := n t }

theorem adds_ite {c : Tracked S.Err → Prop} [DecidablePred c] {f g : Tracked S.Err → Tracked S.Err} (hf : S.Adds Has f)
    (hg : S.Adds Has g) : S.Adds Has fun t => if c t then f t else g t := by
  intro t
  dsimp only
  split
  · exact hf t
  · exact hg t

theorem adds_set (n : Tracked S.Err → Nat) : S.Adds Has fun t => { t with offset := n t } :=
  fun _ => ⟨rfl, fun _ _ h => h⟩

section
variable (hS : S.Lawful) (hE : S.E.Naming Has)
include hE

theorem adds_add (x : S.SErr) : S.Adds Has fun t => { t with error := S.E.add t.error x } :=
  fun _ => ⟨hE.add _ _, fun _ _ h => hE.has_keep _ _ _ h⟩

theorem adds_addExpected (x : Info S.Tok S.Rng) : S.Adds Has (addExpected S x) := adds_add hE _

theorem near_merge {l : S.Input} {e e' : S.Err} (h : S.Near Has l e) (h' : S.Near Has l e') :
    S.Near Has l (S.E.merge e e') :=
  ⟨(hE.merge e e').elim (·.trans h.1) (·.trans h'.1), fun he => hE.has_merge _ _ _ (h.1.trans h'.1.symm) (h.2 he)⟩

theorem near_tok {l k : S.Input} {t : S.Tok} {e : S.Err} (hu : S.uncons l = (.ok t, k)) (h : S.Near Has l e) :
    S.Blamed Has l (S.E.add e (S.E.unexpected (.token t))) :=
  ⟨(hE.add _ _).trans h.1, by rw [culprit_tok hu]; exact hE.has_add _ _⟩

theorem near_end {l k : S.Input} {x : S.SErr} {e : S.Err} (hu : S.uncons l = (.error x, k)) (h : S.Near Has l e) :
    S.Blamed Has l e := ⟨h.1, by rw [culprit_end hu]; exact h.2 ⟨_, by rw [hu]⟩⟩

theorem adds_label {f : Tracked S.Err → Tracked S.Err} (hf : S.Adds Has f) (x : S.SErr) :
    S.Adds Has fun t => S.E.setExpected t x f :=
  fun t => ⟨hE.setExpected t x f fun t => (hf t).1, fun y hy h => hE.has_label t x f y hy ((hf t).2 y hy h)⟩

/-! ## Tuples -/

omit hE in
theorem adds_sequence {parts : List (ErrPart S)}
    (h : ∀ q ∈ parts, S.Adds Has q.addError ∧ S.Adds Has q.addCommitted) (fe inner k : Nat) :
    S.Adds Has fun e => addSequenceErrors fe inner k e parts := by
  induction parts generalizing k with
  | nil => exact adds_id
  | cons q qs ih =>
    have hq := h q (.head _)
    have ih := ih fun q hq => h q (.tail _ hq)
    intro e
    unfold addSequenceErrors
    dsimp only
    have h1 : S.E.position (if k + 1 = fe then q.addCommitted e else e).error = S.E.position e.error ∧
        ∀ y, (y = S.E.endOfInput ∨ ∃ x, y = S.E.unexpected x) → Has e.error y →
          Has (if k + 1 = fe then q.addCommitted e else e).error y := by
      split
      · exact hq.2 e
      · exact adds_id e
    generalize (if k + 1 = fe then q.addCommitted e else e) = e1 at h1
    split
    · have h2 : S.E.position (q.addError (if e1.offset ≤ 1 then { e1 with offset := inner } else e1)).error =
          S.E.position e.error ∧ ∀ y, (y = S.E.endOfInput ∨ ∃ x, y = S.E.unexpected x) → Has e.error y →
          Has (q.addError (if e1.offset ≤ 1 then { e1 with offset := inner } else e1)).error y := by
        split
        · exact ⟨((hq.1 _).1).trans h1.1, fun y hy h => (hq.1 _).2 y hy (h1.2 y hy h)⟩
        · exact ⟨((hq.1 _).1).trans h1.1, fun y hy h => (hq.1 _).2 y hy (h1.2 y hy h)⟩
      generalize q.addError _ = e2 at h2
      split
      · exact h2
      · exact ⟨((ih _ _).1).trans h2.1, fun y hy h => (ih _ _).2 y hy (h2.2 y hy h)⟩
    · exact ⟨((ih _ _).1).trans h1.1, fun y hy h => (ih _ _).2 y hy (h1.2 y hy h)⟩

theorem seqAddErrors_blame {parts : List (ErrPart S)}
    (h : ∀ q ∈ parts, S.Adds Has q.addError ∧ S.Adds Has q.addCommitted) (e : Tracked S.Err) (fe off : Nat)
    (l : S.Input) (he : S.Near Has l e.error) :
    (∀ e', (seqAddErrors (α := α) parts e fe off l).1 = .commitErr e' → fe ≠ 0 ∧ S.Blamed Has l e') ∧
    (∀ e', (seqAddErrors (α := α) parts e fe off l).1 = .peekErr e' → fe = 0 ∧ S.Near Has l e'.error) := by
  unfold seqAddErrors
  dsimp only
  split
  · rename_i hfe
    cases hu : S.uncons l with
    | mk r k =>
      cases r with
      | ok t =>
        dsimp only
        refine ⟨fun e' h' => ?_, fun e' h' => by cases h'⟩
        injection h' with h'
        subst h'
        exact ⟨hfe, (adds_sequence h fe e.offset 0).blamed
          (t := { e with offset := off, error := S.E.add e.error (S.E.unexpected (.token t)) }) (near_tok hE hu he)⟩
      | error x =>
        dsimp only
        refine ⟨fun e' h' => ?_, fun e' h' => by cases h'⟩
        injection h' with h'
        subst h'
        exact ⟨hfe, (adds_sequence h fe e.offset 0).blamed (t := { e with offset := off }) (near_end hE hu he)⟩
  · rename_i hfe
    refine ⟨fun e' h' => (by cases h'), fun e' h' => ?_⟩
    injection h' with h'
    subst h'
    exact ⟨Decidable.not_not.1 hfe, he⟩

omit hE in
theorem seq_useful {ps : Seq S τ β} (h : SeqBlames Has rules F a ps) : a.Useful rules := by
  induction h with
  | nil => trivial
  | cons _ hp _ ih => exact ⟨hp.useful, ih⟩

omit hE in
theorem parts_adds {ps : Seq S τ β} (h : SeqBlames Has rules F a ps) :
    ∀ q ∈ ps.parts, S.Adds Has q.addError ∧ S.Adds Has q.addCommitted := by
  induction h with
  | nil => exact fun q hq => nomatch hq
  | cons _ hp _ ih =>
    intro q hq
    cases hq with
    | head => exact ⟨hp.addError, hp.addCommitted⟩
    | tail _ hq => exact ih q hq

omit hE in
theorem seq_addErrors_adds {ps : Seq S τ β} (h : SeqBlames Has rules F a ps) : S.Adds Has ps.addErrors := by
  induction h with
  | nil => exact adds_id
  | @cons _ _ _ _ a b p ps _ hp hs ih =>
    intro e
    unfold Seq.addErrors
    dsimp only
    have h1 := hp.addError e
    generalize p.addError e = e1 at h1
    split
    · exact h1
    · cases ps with
      | nil => exact h1
      | cons q qs =>
        dsimp only
        split
        · exact ⟨((ih _).1).trans h1.1, fun y hy h => (ih _).2 y hy (h1.2 y hy h)⟩
        · exact ⟨((ih _).1).trans h1.1, fun y hy h => (ih _).2 y hy (h1.2 y hy h)⟩

omit hE in
theorem seq_last_adds {ps : Seq S τ β} (h : SeqBlames Has rules F a ps) {f : Tracked S.Err → Tracked S.Err}
    (hf : S.Adds Has f) : S.Adds Has (ps.lastCommitted f) := by
  induction h generalizing f with
  | nil => exact hf
  | cons _ hp _ ih => exact ih hp.addCommitted

omit hE in
theorem shape_of_res {p : Parser S σ α} {i : S.Input} {x : α} :
    ((p.run true i p.init).res = .commitOk x → p.shape i = .ok true x (p.run true i p.init).inp) ∧
    ((p.run true i p.init).res = .peekOk x → p.shape i = .ok false x (p.run true i p.init).inp) := by
  constructor <;> intro h <;> simp only [Parser.shape, Parser.answer, Out.answer, h] <;> rfl

omit hE in
theorem shape_of_err {p : Parser S σ α} {i : S.Input} {e : Tracked S.Err} (h : (p.run true i p.init).res = .peekErr e) :
    p.shape i = .soft := by
  simp only [Parser.shape, Parser.answer, Out.answer, h]; rfl

omit hE in
theorem answer_of_hard {p : Parser S σ α} {i : S.Input} {e : S.Err} :
    p.answer i = .hard e ↔ (p.run true i p.init).res = .commitErr e := by
  simp only [Parser.answer, Out.answer]
  cases (p.run true i p.init).res <;> simp [Answer.of]

omit hE in
theorem shape_of_hard {p : Parser S σ α} {i : S.Input} {e : S.Err} (h : p.answer i = .hard e) : p.shape i = .hard () := by
  simp only [Parser.shape, h, Answer.shape]

/-- How the steps of a tuple fail. -/
theorem steps_blame (hS : S.Lawful) {ps : Seq S τ β} (h : SeqBlames Has rules F a ps) (fe cur off : Nat) (i : S.Input)
    (hp : S.isPartial i = false) :
    (fe ≠ 0 → (ps.steps true fe cur off i ps.init).firstEmpty ≠ 0) ∧
    match (ps.steps true fe cur off i ps.init).fin with
    | .fail e => ∃ w, S.Reads i w (ps.steps true fe cur off i ps.init).inp ∧
        S.Near Has (ps.steps true fe cur off i ps.init).inp e.error ∧ a.Viable rules w ∧
        S.Beyond rules a w (ps.steps true fe cur off i ps.init).inp ∧
        ((ps.steps true fe cur off i ps.init).firstEmpty = 0 → w = [])
    | .commitErr e => ∃ w l, S.Reads i w l ∧ S.Blamed Has l e ∧ a.Viable rules w ∧ S.Beyond rules a w l
    | .peekErr _ => False
    | _ => True := by
  induction h generalizing fe cur off i with
  | nil => exact ⟨id, trivial⟩
  | @cons _ _ _ _ a b p ps hm hpb hs ih =>
    have hmv := hm.run true i p.init
    have hub := seq_useful hs
    have hpred := hpb.predicts i
    simp only [Seq.steps, Seq.init, Bool.true_or, if_true]
    have key : ∀ (c : Bool) (x : _) (fe' : Nat), p.shape i = .ok c x (p.run true i p.init).inp → (fe ≠ 0 → fe' ≠ 0) →
        (c = true → fe' ≠ 0) →
        (fe ≠ 0 → (ps.steps true fe' (cur + 1) (satAdd off p.count) (p.run true i p.init).inp ps.init).firstEmpty ≠ 0) ∧
        match (ps.steps true fe' (cur + 1) (satAdd off p.count) (p.run true i p.init).inp ps.init).fin with
        | .fail e => ∃ w, S.Reads i w (ps.steps true fe' (cur + 1) (satAdd off p.count) (p.run true i p.init).inp ps.init).inp ∧
            S.Near Has (ps.steps true fe' (cur + 1) (satAdd off p.count) (p.run true i p.init).inp ps.init).inp e.error ∧
            (a.seq b).Viable rules w ∧
            S.Beyond rules (a.seq b) w (ps.steps true fe' (cur + 1) (satAdd off p.count) (p.run true i p.init).inp ps.init).inp ∧
            ((ps.steps true fe' (cur + 1) (satAdd off p.count) (p.run true i p.init).inp ps.init).firstEmpty = 0 → w = [])
        | .commitErr e => ∃ w l, S.Reads i w l ∧ S.Blamed Has l e ∧ (a.seq b).Viable rules w ∧ S.Beyond rules (a.seq b) w l
        | .peekErr _ => False
        | _ => True := by
      intro c x fe' hx hfe hc
      rw [hx] at hpred
      obtain ⟨u, h1, h2, h3, _⟩ := hpred
      have hstop := hpb.stop i _ _ _ u hp hx h1
      have h4 := ih fe' (cur + 1) (satAdd off p.count) (p.run true i p.init).inp ((hS.reads_isPartial h1).trans hp)
      revert h4
      generalize ps.steps true fe' (cur + 1) (satAdd off p.count) (p.run true i p.init).inp ps.init = r
      obtain ⟨fin, f, o, j, st⟩ := r
      rintro ⟨h5, h6⟩
      refine ⟨fun h => h5 (hfe h), ?_⟩
      cases fin with
      | done => trivial
      | fail e =>
        obtain ⟨w, h7, h8, h9, h10, h11⟩ := h6
        refine ⟨u ++ w, reads_append h1 h7, h8, Gram.viable_right h2 h9,
          beyond_right hS hpb.accepts hp hx h1 h7 hstop h10, fun hf => ?_⟩
        have hw := h11 hf
        cases c with
        | true => exact absurd hf (h5 (hc rfl))
        | false =>
          cases u with
          | nil => simp [hw]
          | cons t ts => cases h3
      | commitErr e =>
        obtain ⟨w, l, h7, h8, h9, h10⟩ := h6
        exact ⟨u ++ w, l, reads_append h1 h7, h8, Gram.viable_right h2 h9,
          beyond_right hS hpb.accepts hp hx h1 h7 hstop h10⟩
      | peekErr e => exact h6
      | abort x => trivial
    have hsoft := hpb.soft i
    have hhard := hpb.hard i
    cases hr : (p.run true i p.init).res with
    | commitOk x => exact key true x (cur + 1 + 1) ((shape_of_res (p := p)).1 hr) (fun _ => by omega) (fun _ => by omega)
    | peekOk x => exact key false x fe ((shape_of_res (p := p)).2 hr) id (fun h => by cases h)
    | commitErr e =>
      refine ⟨id, ?_⟩
      have ha : p.answer i = .hard e := answer_of_hard.2 hr
      obtain ⟨w, l, h1, h2, h3, h4⟩ := hhard e hp ha
      have hs := shape_of_hard ha
      exact ⟨w, l, h1, h2, Gram.viable_left h3 hub,
        beyond_left hpb.accepts hp h1 (fun c v j h => by rw [hs] at h; cases h) (fun x h => by rw [hs] at h; cases h) h4⟩
    | abort x => exact ⟨id, trivial⟩
    | peekErr e =>
      dsimp only
      rw [hS.reset_reach hmv]
      have hs := shape_of_err hr
      rw [hs] at hpred
      refine ⟨id, [], .nil i, hsoft e hp hr, ?_, ?_, fun _ => rfl⟩
      · exact Gram.viable_left (Gram.viable_nil hpb.useful) hub
      · exact beyond_left hpb.accepts hp (.nil i) (fun c v j h => by rw [hs] at h; cases h)
          (fun x h => by rw [hs] at h; cases h) (beyond_nil hpred.1)

end

end Verif
