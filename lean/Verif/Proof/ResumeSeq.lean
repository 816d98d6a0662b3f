import Verif.Proof.ResumeCore

/-!
# Options, choices, tuples and `then` can be resumed
-/

namespace Verif

variable {S : Strm} {σ τ υ α β γ : Type}

/-- The result of a successful step does not depend on how it is written. -/
theorem okRes_cases {E : Type} {c : Bool} {v : α} {r : ParseResult α E} (h : r = okRes c v) :
    (c = true ∧ r = .commitOk v) ∨ (c = false ∧ r = .peekOk v) := by
  cases c
  · exact .inr ⟨rfl, h⟩
  · exact .inl ⟨rfl, h⟩

/-! ## `optional` -/

theorem resumes_optional (hF : S.Feedable) {live : Bool} {p : Parser S σ α} {D : Den S.Tok α} {k r : Bool} {Ready : σ → Prop}
    {Rep : σ → List S.Tok → List S.Tok → Prop} (h : Resumes live p D k r Ready Rep) :
    Resumes live (optional p) D.optional (k && r) true Ready Rep := by
  have key : ∀ (b : Bool) (w : List S.Tok) (m : Bool) (i : S.Input) (s : σ),
      Step (D b (w ++ S.left i)) (When k Ready) (When r Ready) Rep w i (p.run m i s) →
      Step (D.optional b (w ++ S.left i)) (When (k && r) Ready) (When true Ready) Rep w i ((optional p).run m i s) := by
    intro b w m i s hs
    have hrun : (optional p).run m i s = (match (p.run m i s).res with
      | .peekOk x => ⟨.peekOk (some x), (p.run m i s).inp, (p.run m i s).st⟩
      | .commitOk x => ⟨.commitOk (some x), (p.run m i s).inp, (p.run m i s).st⟩
      | .commitErr e => ⟨.commitErr e, (p.run m i s).inp, (p.run m i s).st⟩
      | .peekErr _ => S.tryReset (S.checkpoint i) (p.run m i s).inp (p.run m i s).st
          fun j => ⟨.peekOk none, j, (p.run m i s).st⟩
      | .abort a => ⟨.abort a, (p.run m i s).inp, (p.run m i s).st⟩) := rfl
    rw [hrun]
    simp only [Den.optional, Den.or, Den.map]
    cases hd : D b (w ++ S.left i) with
    | ok c v r =>
      rw [hd] at hs
      obtain ⟨⟨c', h1, h2⟩, h3, h4, h5⟩ := hs
      cases c' with
      | true => simp only [h1, okRes_true]; exact ⟨⟨true, rfl, h2⟩, h3, h4, fun hk => h5 (by simp_all)⟩
      | false => simp only [h1, okRes_false]; exact ⟨⟨false, rfl, h2⟩, h3, h4, fun hk => h5 (by simp_all)⟩
    | pend =>
      rw [hd] at hs
      obtain ⟨e, x, h1, h2, h3, h4⟩ := hs
      simp only [h1]
      exact ⟨e, x, rfl, h2, h3, h4⟩
    | soft =>
      rw [hd] at hs
      obtain ⟨rfl, ⟨e, h1⟩, h2, h3⟩ := hs
      simp only [h1]
      rw [hF.lawful.tryReset_eq h2]
      exact ⟨⟨false, rfl, fun _ => rfl⟩, .refl i, rfl, fun hk => h3 (by simp_all)⟩
    | hard => trivial
  refine ⟨h.good.optional, h.ready_init, h.ready_rep, ?_, committed_ofMode hF.lawful _ _ _ _ _,
    fun i hL hs => key _ [] _ i _ (h.first i hL hs), ?_, fun i hL hs hu => key _ _ _ i _ (h.resume i hL hs hu)⟩
  · intro s w u hr hw b x
    have := h.firm hr hw b x
    simp only [Den.optional, Den.or, Den.map]
    cases hd : D b (w ++ (u ++ x)) with
    | soft => exact absurd hd this.1
    | _ => rw [hd] at this; exact this.map some
  · intro s m i hL hs hh
    simp only [Den.optional, Den.or, Den.map] at hh
    cases hd : D (S.isPartial i) (S.left i) with
    | hard =>
      obtain ⟨e, he⟩ := h.first_hard m i hL hs hd
      exact ⟨e, by simp only [optional, Parser.ofMode, he]⟩
    | _ => rw [hd] at hh; cases hh

theorem resumable_optional (hF : S.Feedable) {p : Parser S σ α} {D : Den S.Tok α} {k r : Bool} (h : Resumable p D k r) :
    Resumable (optional p) D.optional (k && r) true := by
  obtain ⟨Ready, Rep, h, m⟩ := h
  exact ⟨Ready, Rep, fun live => resumes_optional hF (h live), m⟩

/-! ## Choices -/

/-- A run of `do_choice!` from the start does what `W` says. -/
def ChoiceStep (W : Outcome S.Tok α) (Rep : σ → List S.Tok → List S.Tok → Prop)
    (i : S.Input) (o : ChoiceOut S σ α) : Prop :=
  match W with
  | .ok c v r => o.res = okRes c v ∧ S.Reach i o.inp ∧ S.left o.inp = r ∧ o.st = none
  | .pend => ∃ e x, o.res = .commitErr e ∧ S.E.isEoi e = true ∧ S.Reads i x o.inp ∧
      ((x = [] ∧ o.st = none) ∨ (x ≠ [] ∧ ∃ s, o.st = some s ∧ Rep s x (S.left o.inp)))
  | .soft => (∃ e, o.res = .peekErr e) ∧ S.Reach i o.inp ∧ o.st = none
  | .hard => ∃ e, o.res = .commitErr e

/-- What `Resumes` becomes for the alternatives of a choice. -/
structure AltsResume (live : Bool) (ps : Alts S α σ) (D : Den S.Tok α) (Rep : σ → List S.Tok → List S.Tok → Prop) : Prop where
  good : D.Good
  absorbed : ∀ {s w u}, Rep s w u → w ≠ []
  firm : ∀ {s w u}, Rep s w u → ∀ b x, (D b (w ++ (u ++ x))).Firm
  start : ∀ tried i, S.isPartial i = live → ChoiceStep (D (S.isPartial i) (S.left i)) Rep i
    (ps.doChoice (S.position i) (S.checkpoint i) tried i)
  resume : ∀ {s w u} i, S.isPartial i = live → Rep s w u → u <+: S.left i →
    Step (D (S.isPartial i) (w ++ S.left i)) (fun _ => True) (fun _ => True) Rep w i (ps.resume false i s)

theorem choiceFail_append (tried : List (Tried S)) (t : Tried S) :
    ∃ e, choiceFail (α := α) (tried ++ [t]) = .peekErr e := by
  cases tried with
  | nil => exact ⟨_, rfl⟩
  | cons a as => exact ⟨_, rfl⟩

theorem Step.weaken {W : Outcome S.Tok α} {A F : σ → Prop} {Rep Rep' : σ → List S.Tok → List S.Tok → Prop}
    {w : List S.Tok} {i : S.Input} {o : Out S σ α} (h : Step W A F Rep w i o)
    (hr : ∀ x, W = .pend → S.Reads i x o.inp → Rep o.st (w ++ x) (S.left o.inp) → Rep' o.st (w ++ x) (S.left o.inp)) :
    Step W (fun _ => True) (fun _ => True) Rep' w i o := by
  cases W with
  | ok c v r => obtain ⟨h1, h2, h3, _⟩ := h; exact ⟨h1, h2, h3, trivial⟩
  | pend => obtain ⟨e, x, h1, h2, h3, h4⟩ := h; exact ⟨e, x, h1, h2, h3, hr x rfl h3 h4⟩
  | soft => obtain ⟨h1, h2, h3, _⟩ := h; exact ⟨h1, h2, h3, trivial⟩
  | hard => trivial

theorem position_changed (hF : S.Feedable) {i j : S.Input} {x : List S.Tok} (h : S.Reads i x j) :
    (x = [] ∧ ¬S.position j ≠ S.position i) ∨ (x ≠ [] ∧ S.position j ≠ S.position i) := by
  cases x with
  | nil => rw [Strm.reads_nil.1 h]; exact .inl ⟨rfl, fun h => h rfl⟩
  | cons t ts => exact .inr ⟨by simp, hF.advances h⟩

theorem alts_last (hF : S.Feedable) {live : Bool} {p : Parser S σ α} {D : Den S.Tok α} {k r : Bool} {Ready : σ → Prop}
    {Rep : σ → List S.Tok → List S.Tok → Prop} (h : Resumes live p D k r Ready Rep) :
    AltsResume live (Alts.last p) D (fun s w u => w ≠ [] ∧ Rep s w u) where
  good := h.good
  absorbed hr := hr.1
  firm hr b x := h.firm hr.2 hr.1 b x
  start tried i hL := by
    have hs := h.first i hL h.ready_init
    have hh := h.first_hard true i hL h.ready_init
    simp only [Alts.doChoice]
    generalize p.run true i p.init = o at hs hh
    cases hd : D (S.isPartial i) (S.left i) with
    | ok c v r =>
      rw [hd] at hs
      obtain ⟨⟨c', h1, h2⟩, h3, h4, _⟩ := hs
      cases h2 rfl
      cases c <;> simp only [h1, okRes_true, okRes_false] <;> exact ⟨rfl, h3, h4, rfl⟩
    | pend =>
      rw [hd] at hs
      obtain ⟨e, x, h1, h2, h3, h4⟩ := hs
      simp only [h1]
      refine ⟨e, x, rfl, h2, h3, ?_⟩
      rcases position_changed hF h3 with ⟨hx, hp⟩ | ⟨hx, hp⟩
      · exact .inl ⟨hx, if_neg hp⟩
      · exact .inr ⟨hx, _, if_pos hp, hx, h4⟩
    | soft =>
      rw [hd] at hs
      obtain ⟨_, ⟨e, h1⟩, h2, _⟩ := hs
      simp only [h1, hF.lawful.reset_reach h2]
      exact ⟨choiceFail_append _ _, .refl i, rfl⟩
    | hard =>
      obtain ⟨e, he⟩ := hh hd
      simp only [he]
      exact ⟨e, rfl⟩
  resume {s w u} i hL hr hu := by
    refine (h.resume i hL hr.2 hu).weaken fun x _ _ hx => ⟨?_, hx⟩
    have := hr.1
    simp [this]

theorem alts_cons (hF : S.Feedable) {live : Bool} {p : Parser S σ α} {D : Den S.Tok α} {k r : Bool} {Ready : σ → Prop}
    {Rep : σ → List S.Tok → List S.Tok → Prop} {ps : Alts S α τ} {E : Den S.Tok α}
    {RepA : τ → List S.Tok → List S.Tok → Prop} (h : Resumes live p D k r Ready Rep) (hps : AltsResume live ps E RepA) :
    AltsResume live (Alts.cons p ps) (D.or E) (fun s w u => match s with
      | .inl s => w ≠ [] ∧ Rep s w u
      | .inr s => RepA s w u ∧ D true (w ++ u) = .soft) where
  good := h.good.or hps.good
  absorbed {s w u} hr := by
    cases s with
    | inl s => exact hr.1
    | inr s => exact hps.absorbed hr.1
  firm {s w u} hr b x := by
    cases s with
    | inl s =>
      have := h.firm hr.2 hr.1 b x
      simp only [Den.or]
      cases hd : D b (w ++ (u ++ x)) with
      | soft => exact absurd hd this.1
      | _ => rw [hd] at this; exact this
    | inr s =>
      have hd := h.good.stable_soft hr.2 b x
      rw [List.append_assoc] at hd
      simp only [Den.or, hd]
      exact hps.firm hr.1 b x
  start tried i hL := by
    have hs := h.first i hL h.ready_init
    have hh := h.first_hard true i hL h.ready_init
    simp only [Alts.doChoice, Den.or]
    generalize p.run true i p.init = o at hs hh
    cases hd : D (S.isPartial i) (S.left i) with
    | ok c v r =>
      rw [hd] at hs
      obtain ⟨⟨c', h1, h2⟩, h3, h4, _⟩ := hs
      cases h2 rfl
      cases c <;> simp only [h1, okRes_true, okRes_false] <;> exact ⟨rfl, h3, h4, rfl⟩
    | pend =>
      rw [hd] at hs
      obtain ⟨e, x, h1, h2, h3, h4⟩ := hs
      simp only [h1]
      refine ⟨e, x, rfl, h2, h3, ?_⟩
      rcases position_changed hF h3 with ⟨hx, hp⟩ | ⟨hx, hp⟩
      · exact .inl ⟨hx, if_neg hp⟩
      · exact .inr ⟨hx, _, if_pos hp, hx, h4⟩
    | soft =>
      rw [hd] at hs
      obtain ⟨_, ⟨e, h1⟩, h2, _⟩ := hs
      simp only [h1, hF.lawful.reset_reach h2]
      have hst := hps.start (tried ++ [⟨p.addError, e⟩]) i hL
      generalize ps.doChoice (S.position i) (S.checkpoint i) (tried ++ [⟨p.addError, e⟩]) i = q at hst
      cases he : E (S.isPartial i) (S.left i) with
      | ok c v r =>
        rw [he] at hst
        obtain ⟨h3, h4, h5, h6⟩ := hst
        exact ⟨h3, h4, h5, by simp [h6]⟩
      | pend =>
        rw [he] at hst
        obtain ⟨e', x, h3, h4, h5, h6⟩ := hst
        refine ⟨e', x, h3, h4, h5, ?_⟩
        rcases h6 with ⟨h6, h7⟩ | ⟨h6, s, h7, h8⟩
        · exact .inl ⟨h6, by simp [h7]⟩
        · refine .inr ⟨h6, .inr s, by simp [h7], h8, ?_⟩
          have hb : S.isPartial i = true := by
            cases hb : S.isPartial i with
            | true => rfl
            | false => rw [hb] at he; exact absurd he (hps.good.complete _)
          rw [← hF.lawful.left_reads h5, ← hb]
          exact hd
      | soft =>
        rw [he] at hst
        obtain ⟨h3, h4, h5⟩ := hst
        exact ⟨h3, h4, by simp [h5]⟩
      | hard =>
        rw [he] at hst
        exact hst
    | hard =>
      obtain ⟨e, he⟩ := hh hd
      simp only [he]
      exact ⟨e, rfl⟩
  resume {s w u} i hL hr hu := by
    obtain ⟨y, hy⟩ := hu
    cases s with
    | inl s =>
      have hd : D.or E (S.isPartial i) (w ++ S.left i) = D (S.isPartial i) (w ++ S.left i) := by
        have := (h.firm hr.2 hr.1 (S.isPartial i) y).1
        rw [hy] at this
        simp only [Den.or]
      rw [hd]
      have := (h.resume i hL hr.2 ⟨y, hy⟩).weaken (Rep' := fun s w u => w ≠ [] ∧ Rep s w u)
        (fun x _ _ hx => ⟨by simp [hr.1], hx⟩)
      generalize D (S.isPartial i) (w ++ S.left i) = W at this
      cases W <;> exact this
    | inr s =>
      have hd : D.or E (S.isPartial i) (w ++ S.left i) = E (S.isPartial i) (w ++ S.left i) := by
        have := h.good.stable_soft hr.2 (S.isPartial i) y
        rw [List.append_assoc, hy] at this
        simp only [Den.or, this]
      rw [hd]
      have := (hps.resume i hL hr.1 ⟨y, hy⟩).weaken (Rep' := fun s w u => RepA s w u ∧ D true (w ++ u) = .soft)
        (fun x _ hx hrx => ⟨hrx, by
          have := h.good.stable_soft hr.2 true y
          rw [List.append_assoc, ← hF.lawful.left_reads hx, ← hy, ← List.append_assoc]
          exact this⟩)
      generalize E (S.isPartial i) (w ++ S.left i) = W at this
      cases W <;> exact this

theorem resumes_choice {live : Bool} {ps : Alts S α σ} {D : Den S.Tok α}
    {Rep : σ → List S.Tok → List S.Tok → Prop} (h : AltsResume live ps D Rep) {q : Parser S (Option σ) α}
    (hi : q.init = none) (hc : CommittedAs q) (hq : q.run = choiceRun ps) :
    Resumes live q D true true (fun s => s = none) (fun s w u => match s with
      | none => w = []
      | some s => Rep s w u) := by
  have start : ∀ m i, S.isPartial i = live → Step (D (S.isPartial i) (S.left i)) (When true (· = none)) (When true (· = none)) (fun s w u => match s with
      | none => w = []
      | some s => Rep s w u) [] i (choiceRun ps m i none) := by
    intro m i hL
    have hst := h.start [] i hL
    have hr : choiceRun ps m i none = ⟨(ps.doChoice (S.position i) (S.checkpoint i) [] i).res,
        (ps.doChoice (S.position i) (S.checkpoint i) [] i).inp,
        (ps.doChoice (S.position i) (S.checkpoint i) [] i).st⟩ := by
      simp only [choiceRun, ite_self]
      cases (ps.doChoice (S.position i) (S.checkpoint i) [] i).st <;> rfl
    rw [hr]
    generalize ps.doChoice (S.position i) (S.checkpoint i) [] i = o at hst
    cases hd : D (S.isPartial i) (S.left i) with
    | ok c v r =>
      rw [hd] at hst
      obtain ⟨h1, h2, h3, h4⟩ := hst
      exact ⟨⟨c, h1, fun _ => rfl⟩, h2, h3, fun _ => h4⟩
    | pend =>
      rw [hd] at hst
      obtain ⟨e, x, h1, h2, h3, h4⟩ := hst
      refine ⟨e, x, h1, h2, h3, ?_⟩
      rcases h4 with ⟨h4, h5⟩ | ⟨h4, s, h5, h6⟩
      · simp only [h5]; exact h4
      · simp only [h5]; exact h6
    | soft =>
      rw [hd] at hst
      obtain ⟨h1, h2, h3⟩ := hst
      exact ⟨rfl, h1, h2, fun _ => h3⟩
    | hard => trivial
  constructor
  · exact h.good
  · exact hi
  · intro s hs; rw [hs]
  · intro s w u hr hw b x
    cases s with
    | none => exact absurd hr hw
    | some s => exact h.firm hr b x
  · exact hc
  · intro s i hL hs
    subst hs
    rw [hq]
    exact start true i hL
  · intro s m i hL hs hh
    subst hs
    rw [hq]
    have hst := h.start [] i hL
    rw [hh] at hst
    obtain ⟨e, he⟩ := hst
    exact ⟨e, by simp only [choiceRun, ite_self, he]⟩
  · intro s w u i hL hr hu
    rw [hq]
    cases s with
    | none => cases (show w = [] from hr); exact start false i hL
    | some s =>
      have := h.resume i hL hr hu
      have hrun : choiceRun ps false i (some s) = ⟨(ps.resume false i s).res, (ps.resume false i s).inp,
        if (ps.resume false i s).res.isOk then none else some (ps.resume false i s).st⟩ := rfl
      rw [hrun]
      generalize ps.resume false i s = o at this
      obtain ⟨y, hy⟩ := hu
      cases hd : D (S.isPartial i) (w ++ S.left i) with
      | ok c v r =>
        rw [hd] at this
        obtain ⟨⟨c', h1, h2⟩, h3, h4, _⟩ := this
        exact ⟨⟨c', h1, h2⟩, h3, h4, fun _ => by rw [h1, okRes_isOk]; rfl⟩
      | pend =>
        rw [hd] at this
        obtain ⟨e, x, h1, h2, h3, h4⟩ := this
        refine ⟨e, x, h1, h2, h3, ?_⟩
        simp only [h1, ParseResult.isOk, Bool.false_eq_true, if_false]
        exact h4
      | soft =>
        have hf := (h.firm hr (S.isPartial i) y).1
        rw [hy] at hf
        exact absurd hd hf
      | hard => trivial

/-- `AltsResume` for all inputs. -/
def AltsResumable (ps : Alts S α σ) (D : Den S.Tok α) : Prop :=
  ∃ Rep : Bool → σ → List S.Tok → List S.Tok → Prop, (∀ live, AltsResume live ps D (Rep live)) ∧
    ∀ s w u, Rep true s w u → Rep false s w u

theorem alts_resumable_last (hF : S.Feedable) {p : Parser S σ α} {D : Den S.Tok α} {k r : Bool}
    (h : Resumable p D k r) : AltsResumable (Alts.last p) D := by
  obtain ⟨Ready, Rep, h, _, m⟩ := h
  exact ⟨_, fun live => alts_last hF (h live), fun s w u hs => ⟨hs.1, m _ _ _ hs.2⟩⟩

theorem alts_resumable_cons (hF : S.Feedable) {p : Parser S σ α} {D : Den S.Tok α} {k r : Bool} {ps : Alts S α τ}
    {E : Den S.Tok α} (h : Resumable p D k r) (hps : AltsResumable ps E) :
    AltsResumable (Alts.cons p ps) (D.or E) := by
  obtain ⟨Ready, Rep, h, _, m⟩ := h
  obtain ⟨RepA, hps, mA⟩ := hps
  refine ⟨_, fun live => alts_cons hF (h live) (hps live), fun s w u hs => ?_⟩
  cases s with
  | inl s => exact ⟨hs.1, m _ _ _ hs.2⟩
  | inr s => exact ⟨mA _ _ _ hs.1, hs.2⟩

theorem resumable_choice {ps : Alts S α σ} {D : Den S.Tok α} (h : AltsResumable ps D) {q : Parser S (Option σ) α}
    (hi : q.init = none) (hc : CommittedAs q) (hq : q.run = choiceRun ps) : Resumable q D true true := by
  obtain ⟨Rep, h, m⟩ := h
  refine ⟨fun _ s => s = none, fun live s w u => match s with
      | none => w = []
      | some s => Rep live s w u, fun live => resumes_choice (h live) hi hc hq, fun s hs => hs, fun s w u hs => ?_⟩
  cases s with
  | none => exact hs
  | some s => exact m _ _ _ hs

end Verif
