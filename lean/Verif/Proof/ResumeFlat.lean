import Verif.Proof.ResumeThen
import Verif.Proof.ResumeRepeat

/-!
# Resuming `flat_map`, `and_then`, `Either` and families of parsers
-/

namespace Verif

variable {S : Strm} {σ τ α β γ : Type}

theorem Den.Good.ofExcept {T E : Type} (x : Except E β) : (Den.ofExcept (T := T) x).Good := by
  cases x with
  | ok v => exact .pure v
  | error e => exact .never

/-- What the parser behind `flat_map` and `and_then` must do. -/
structure Checks (E : Type) (f : α → Except E β) (p : Parser S σ α) (q : Parser S σ β) : Prop where
  init : q.init = p.init
  committed : CommittedAs q
  ok : ∀ m i s c v y, (p.run m i s).res = okRes c v → f v = .ok y →
    q.run m i s = ⟨okRes c y, (p.run m i s).inp, (p.run m i s).st⟩
  bad_commit : ∀ m i s v e, S.Reach i (p.run m i s).inp → (p.run m i s).res = okRes true v → f v = .error e →
    ∃ e', (q.run m i s).res = .commitErr e'
  commitErr : ∀ m i s e, (p.run m i s).res = .commitErr e →
    q.run m i s = ⟨.commitErr e, (p.run m i s).inp, (p.run m i s).st⟩
  peekErr : ∀ m i s e, (p.run m i s).res = .peekErr e →
    q.run m i s = ⟨.peekErr e, (p.run m i s).inp, (p.run m i s).st⟩

theorem Step.checks {E : Type} {f : α → Except E β} {p : Parser S σ α} {q : Parser S σ β} (h : Checks E f p q)
    {D : Den S.Tok α} {k r r' : Bool} {Ready : σ → Prop} {Rep : σ → List S.Tok → List S.Tok → Prop} (hg : D.Good)
    (hr : r' = true → r = true ∧ (k = true ∨ D.Consuming))
    (hbad : D.Consuming ∨ ∀ m i s v e, (p.run m i s).res = okRes false v → f v = .error e →
      ∃ e', q.run m i s = ⟨.peekErr e', (p.run m i s).inp, (p.run m i s).st⟩)
    {w : List S.Tok} {m : Bool} {i : S.Input} {s : σ}
    (hst : Step (D (S.isPartial i) (w ++ S.left i)) (When k Ready) (When r Ready) Rep w i (p.run m i s))
    (hfirm : w ≠ [] → (D (S.isPartial i) (w ++ S.left i)).Firm) :
    Step (D.bind (fun v => Den.ofExcept (f v)) (S.isPartial i) (w ++ S.left i)) (When k Ready) (When r' Ready) Rep w i
      (q.run m i s) := by
  simp only [Den.bind]
  cases hd : D (S.isPartial i) (w ++ S.left i) with
  | ok c v l =>
    rw [hd] at hst hfirm
    obtain ⟨⟨c', h1, h2⟩, h3, h4, h5⟩ := hst
    cases hf : f v with
    | ok y =>
      simp only [hf, Den.ofExcept, Den.pure, Outcome.after, Bool.or_false]
      rw [h.ok m i s c' v y h1 hf]
      exact ⟨⟨c', rfl, h2⟩, h3, h4, h5⟩
    | error e =>
      simp only [hf, Den.ofExcept, Den.never, Outcome.after]
      cases c with
      | true => trivial
      | false =>
        have hw : w = [] := by
          cases w with
          | nil => rfl
          | cons a t => exact absurd rfl ((hfirm (by simp)).2 _ _)
        have hnc : ¬ D.Consuming := by
          intro hc
          have := hc _ _ _ _ _ hd
          obtain ⟨x, hx, hx2⟩ := hg.read hd
          cases x with
          | nil => rw [hx] at this; simp at this
          | cons _ _ => simp at hx2
        rcases hbad with hbad | hbad
        · exact absurd hbad hnc
        · cases h2 hw
          obtain ⟨e', he'⟩ := hbad m i s v e h1 hf
          simp only [Bool.false_eq_true, if_false]
          rw [he']
          refine ⟨hw, ⟨e', rfl⟩, h3, fun hr' => ?_⟩
          rcases (hr hr').2 with hk | hc
          · exact h5 hk
          · exact absurd hc hnc
  | pend =>
    rw [hd] at hst
    obtain ⟨e, x, h1, h2, h3, h4⟩ := hst
    rw [h.commitErr m i s e h1]
    exact ⟨e, x, rfl, h2, h3, h4⟩
  | soft =>
    rw [hd] at hst
    obtain ⟨h1, ⟨e, h2⟩, h3, h4⟩ := hst
    rw [h.peekErr m i s e h2]
    exact ⟨h1, ⟨e, rfl⟩, h3, fun hr' => h4 (hr hr').1⟩
  | hard => trivial

theorem Resumes.checks {E : Type} {f : α → Except E β} {p : Parser S σ α} {q : Parser S σ β} (hq : Checks E f p q)
    {live : Bool} {D : Den S.Tok α} {k r r' : Bool} {Ready : σ → Prop} {Rep : σ → List S.Tok → List S.Tok → Prop}
    (h : Resumes live p D k r Ready Rep) (hr : r' = true → r = true ∧ (k = true ∨ D.Consuming))
    (hbad : D.Consuming ∨ ∀ m i s v e, (p.run m i s).res = okRes false v → f v = .error e →
      ∃ e', q.run m i s = ⟨.peekErr e', (p.run m i s).inp, (p.run m i s).st⟩) :
    Resumes live q (D.bind fun v => Den.ofExcept (f v)) k r' Ready Rep where
  good := h.good.bind fun v => .ofExcept _
  ready_init := hq.init ▸ h.ready_init
  ready_rep := h.ready_rep
  firm {s w u} hrep hw b x := by
    have := h.firm hrep hw b x
    simp only [Den.bind]
    cases hd : D b (w ++ (u ++ x)) with
    | ok c v l =>
      rw [hd] at this
      cases c with
      | true => exact Outcome.Firm.after_true _
      | false => exact absurd rfl (this.2 _ _)
    | soft => rw [hd] at this; exact absurd rfl this.1
    | pend => exact ⟨by simp, by simp⟩
    | hard => exact ⟨by simp, by simp⟩
  committed := hq.committed
  first {s} i hL hs := by
    have := Step.checks hq h.good hr hbad (w := []) (by simpa using h.first i hL hs) (fun h => absurd rfl h)
    simpa using this
  first_hard {s} m i hL hs hd := by
    have hst := h.start m i hL hs
    simp only [Den.bind] at hd
    cases hx : D (S.isPartial i) (S.left i) with
    | ok c v l =>
      rw [hx] at hst hd
      obtain ⟨⟨c', h1, h2⟩, h3, h4, h5⟩ := hst
      cases h2 rfl
      cases hf : f v with
      | ok y => simp [hf, Den.ofExcept, Den.pure, Outcome.after] at hd
      | error e =>
        simp only [hf, Den.ofExcept, Den.never, Outcome.after] at hd
        cases c with
        | false => simp at hd
        | true => exact hq.bad_commit m i s v e h3 h1 hf
    | pend => rw [hx] at hd; cases hd
    | soft => rw [hx] at hd; cases hd
    | hard =>
      obtain ⟨e, he⟩ := h.first_hard m i hL hs hx
      rw [hq.commitErr m i s e he]
      exact ⟨e, rfl⟩
  resume {s w u} i hL hrep hu := by
    refine Step.checks hq h.good hr hbad (h.resume i hL hrep hu) fun hw => ?_
    obtain ⟨x, hx⟩ := hu
    rw [← hx]
    exact h.firm hrep hw _ x

theorem Resumable.checks {E : Type} {f : α → Except E β} {p : Parser S σ α} {q : Parser S σ β} (hq : Checks E f p q)
    {D : Den S.Tok α} {k r r' : Bool}
    (h : Resumable p D k r) (hr : r' = true → r = true ∧ (k = true ∨ D.Consuming))
    (hbad : D.Consuming ∨ ∀ m i s v e, (p.run m i s).res = okRes false v → f v = .error e →
      ∃ e', q.run m i s = ⟨.peekErr e', (p.run m i s).inp, (p.run m i s).st⟩) :
    Resumable q (D.bind fun v => Den.ofExcept (f v)) k r' := by
  obtain ⟨Ready, Rep, h, m⟩ := h
  exact ⟨Ready, Rep, fun live => (h live).checks hq hr hbad, m⟩

/-- `flat_map` -/
theorem resumable_flatMap (hF : S.Feedable) {p : Parser S σ α} {D : Den S.Tok α} {k r r' : Bool}
    (h : Resumable p D k r) (f : α → Except S.Err β) (hr : r' = true → r = true ∧ (k = true ∨ D.Consuming)) :
    Resumable (flatMap p f) (D.bind fun v => Den.ofExcept (f v)) k r' := by
  refine Resumable.checks (p := p) (D := D) (f := f) ⟨rfl, committed_ofMode hF.lawful _ _ _ _ _, ?_, ?_, ?_, ?_⟩ h hr (.inr ?_)
  · intro m i s c v y h1 h2
    simp only [Parser.ofMode, Out.mapRes, h1]
    cases c <;> simp [okRes, h2]
  · intro m i s v e _ h1 h2
    simp only [Parser.ofMode, Out.mapRes, h1, okRes_true, h2]
    exact ⟨_, rfl⟩
  · intro m i s e h1
    simp only [Parser.ofMode, Out.mapRes, h1]
  · intro m i s e h1
    simp only [Parser.ofMode, Out.mapRes, h1]
  · intro m i s v e h1 h2
    simp only [Parser.ofMode, Out.mapRes, h1, okRes_false, h2]
    exact ⟨_, rfl⟩

/-- `and_then`, behind parsers that consume something -/
theorem resumable_andThen (hF : S.Feedable) {p : Parser S σ α} {D : Den S.Tok α} {k r : Bool}
    (h : Resumable p D k r) (f : α → Except S.SErr β) (hc : D.Consuming) :
    Resumable (andThen p f) (D.bind fun v => Den.ofExcept (f v)) k r := by
  have hS := hF.lawful
  refine Resumable.checks (p := p) (D := D) (f := f) ⟨rfl, committed_ofMode hF.lawful _ _ _ _ _, ?_, ?_, ?_, ?_⟩ h (fun h => ⟨h, .inr hc⟩) (.inl hc)
  · intro m i s c v y h1 h2
    simp only [Parser.ofMode, h1]
    cases c <;> simp [okRes, h2]
  · intro m i s v e hre h1 h2
    simp only [Parser.ofMode, h1, okRes_true, h2]
    have heq := hS.inputAtEof_eq (p.run m i s).inp
    cases hp : S.isPartial (p.run m i s).inp with
    | false => exact ⟨_, rfl⟩
    | true =>
      cases hb : (S.inputAtEof (p.run m i s).inp).1 with
      | true => rw [hb] at heq; simp only [heq, if_true]; rw [hS.tryReset_eq hre]; exact ⟨_, rfl⟩
      | false => rw [hb] at heq; simp only [heq, if_true]; exact ⟨_, rfl⟩
  · intro m i s e h1
    simp only [Parser.ofMode, h1]
  · intro m i s e h1
    simp only [Parser.ofMode, h1]

/-! ## `Either` -/

/-- The state of `p` sits in a larger one. -/
theorem Resumes.embed {live : Bool} {p : Parser S σ α} {q : Parser S τ α} {D : Den S.Tok α} {k r : Bool} {Ready : σ → Prop}
    {Rep : σ → List S.Tok → List S.Tok → Prop} (h : Resumes live p D k r Ready Rep)
    (get : τ → σ) (put : σ → τ) (Rdy : τ → Prop) (hgp : ∀ x, get (put x) = x) (hg : ∀ s, Rdy s → Ready (get s))
    (hp : ∀ x, Ready x → Rdy (put x)) (hi : Rdy q.init) (hc : CommittedAs q)
    (hr : ∀ m i s, q.run m i s = (p.run m i (get s)).mapSt put) : Resumes live q D k r Rdy (fun s => Rep (get s)) := by
  have key : ∀ (W : Outcome S.Tok α) (w : List S.Tok) (m : Bool) (i : S.Input) (s : τ),
      Step W (When k Ready) (When r Ready) Rep w i (p.run m i (get s)) →
      Step W (When k Rdy) (When r Rdy) (fun s => Rep (get s)) w i (q.run m i s) := by
    intro W w m i s hs
    rw [hr]
    cases W with
    | ok c v l =>
      obtain ⟨h1, h2, h3, h4⟩ := hs
      exact ⟨h1, h2, h3, fun hk => hp _ (h4 hk)⟩
    | pend =>
      obtain ⟨e, x, h1, h2, h3, h4⟩ := hs
      exact ⟨e, x, h1, h2, h3, by simp only [Out.mapSt, hgp]; exact h4⟩
    | soft =>
      obtain ⟨h1, h2, h3, h4⟩ := hs
      exact ⟨h1, h2, h3, fun hk => hp _ (h4 hk)⟩
    | hard => trivial
  exact ⟨h.good, hi, fun hs => h.ready_rep (hg _ hs), fun hrep => h.firm hrep, hc,
    fun i hL hs => key _ _ _ _ _ (h.first i hL (hg _ hs)),
    fun m i hL hs hd => by rw [hr]; exact h.first_hard m i hL (hg _ hs) hd,
    fun i hL hrep hu => key _ _ _ _ _ (h.resume i hL hrep hu)⟩

theorem Resumable.embed {p : Parser S σ α} {q : Parser S τ α} {D : Den S.Tok α} {k r : Bool} (h : Resumable p D k r)
    (get : τ → σ) (put : σ → τ) (hgp : ∀ x, get (put x) = x) (hi : get q.init = p.init) (hc : CommittedAs q)
    (hr : ∀ m i s, q.run m i s = (p.run m i (get s)).mapSt put) : Resumable q D k r := by
  obtain ⟨Ready, Rep, h, m1, m2⟩ := h
  exact ⟨fun live s => Ready live (get s), fun live s => Rep live (get s), fun live =>
    (h live).embed get put _ hgp (fun _ h => h) (fun x hx => by dsimp only; rw [hgp]; exact hx)
      (by dsimp only; rw [hi]; exact (h live).ready_init) hc hr, fun s => m1 _, fun s => m2 _⟩

theorem resumable_eitherLeft (hF : S.Feedable) {p : Parser S σ α} {D : Den S.Tok α} {k r : Bool} (h : Resumable p D k r)
    (τ : Type) : Resumable (eitherLeft p τ) D k r :=
  h.embed (fun s => match s with | some (.inl x) => x | _ => p.init) (fun x => some (.inl x)) (fun _ => rfl) rfl
    (committed_describing hF.lawful fun _ _ _ => rfl) fun m i s => by rcases s with _ | _ | _ <;> rfl

theorem resumable_eitherRight (hF : S.Feedable) {p : Parser S τ α} {D : Den S.Tok α} {k r : Bool} (h : Resumable p D k r)
    (σ : Type) : Resumable (eitherRight p σ) D k r :=
  h.embed (fun s => match s with | some (.inr x) => x | _ => p.init) (fun x => some (.inr x)) (fun _ => rfl) rfl
    (committed_describing hF.lawful fun _ _ _ => rfl) fun m i s => by rcases s with _ | _ | _ <;> rfl

/-! ## Families -/

/-- Parsers without state -/
theorem resumableAll_unit {f : α → Parser S Unit β} {F : α → Den S.Tok β} {k r : Bool}
    (h : ∀ v, Resumable (f v) (F v) k r) : ResumableAll f F k r () := by
  have h' : ∀ v, ∃ Rep : Bool → Unit → List S.Tok → List S.Tok → Prop,
      (∀ live, Resumes live (f v) (F v) k r (fun _ => True) (Rep live)) ∧
      ∀ s w u, Rep true s w u → Rep false s w u := by
    intro v
    obtain ⟨Ready, Rep, h, _, m2⟩ := h v
    refine ⟨Rep, fun live => ?_, m2⟩
    have : Ready live = fun _ => True := by
      funext s
      exact propext ⟨fun _ => trivial, fun _ => (h live).ready_init⟩
    exact this ▸ h live
  exact ⟨fun _ _ => True, fun live v => Classical.choose (h' v) live, fun _ => trivial,
    fun live v => (Classical.choose_spec (h' v)).1 live, fun _ _ => trivial,
    fun v => (Classical.choose_spec (h' v)).2⟩

/-- The same parser whatever the value -/
theorem resumableAll_const {p : Parser S σ β} {D : Den S.Tok β} {k r : Bool} (h : Resumable p D k r) :
    ResumableAll (fun _ : α => p) (fun _ => D) k r p.init := by
  obtain ⟨Ready, Rep, h, m1, m2⟩ := h
  exact ⟨Ready, fun live _ => Rep live, fun live => (h live).ready_init, fun live _ => h live, m1, fun _ => m2⟩

/-- The value only says how often -/
theorem resumableAll_countMinMax (hF : S.Feedable) {p : Parser S σ β} {D : Den S.Tok β} {r r' : Bool}
    (h : Resumable p D true r) {lo hi : α → Nat} (hlo : ∀ v, lo v ≤ hi v) (hr' : r' = true → r = true ∧ D.Consuming) :
    ResumableAll (fun v => countMinMax (lo v) (hi v) p) (fun v => D.count (lo v) (hi v)) r r' ⟨0, [], p.init⟩ := by
  obtain ⟨Ready, Rep, h, m1, m2⟩ := h
  refine ⟨_, _, ?_, fun live v => resumes_countMinMax hF (h live) (hlo v) hr', fun s hs => ⟨hs.1, hs.2.1, m1 _ hs.2.2⟩, ?_⟩
  · exact fun live => ⟨rfl, rfl, (h live).ready_init⟩
  · rintro v s w u ⟨h0, ⟨h1, h2, h3, h4⟩ | h1⟩
    · exact ⟨h0, .inl ⟨h1, h2, h3, m1 _ h4⟩⟩
    · exact ⟨h0, .inr (h1.mono m2)⟩

/-- The value of the parser depends on the value -/
theorem resumableAll_map (hF : S.Feedable) {f : α → Parser S σ β} {F : α → Den S.Tok β} {k r : Bool} {n : σ}
    (h : ResumableAll f F k r n) (g : α → β → γ) :
    ResumableAll (fun v => map (f v) (g v)) (fun v => (F v).map (g v)) k r n := by
  obtain ⟨Rdy, RepN, h0, h, m1, m2⟩ := h
  exact ⟨Rdy, RepN, h0, fun live v => (h live v).mapped (g v) rfl (committed_ofMode hF.lawful _ _ _ _ _)
    fun _ _ _ => ⟨rfl, rfl, Mapped.map (g v) _⟩, m1, m2⟩

/-- One after the other, both depending on the value -/
theorem resumableAll_pair (hF : S.Feedable) {f : γ → Parser S σ α} {F : γ → Den S.Tok α} {g : γ → Parser S τ β}
    {G : γ → Den S.Tok β} {k r r₂ r' : Bool} {n : σ} {n₂ : τ} (h : ResumableAll f F k r n) (h2 : ResumableAll g G k r₂ n₂)
    (hr : r' = true → r = true ∧ ∀ v, Den.Firm (F v) ((G v).seq (Den.pure ()))) :
    ResumableAll (fun v => pair (f v) (g v)) (fun v => (F v).seq ((G v).seq (Den.pure ()))) k r'
      ⟨none, n, ((none, n₂), ()), 0⟩ := by
  obtain ⟨Rdy, Rep, h0, h, m1, m2⟩ := h
  obtain ⟨RdyG, RepG, g0, h2, s1, s2⟩ := h2
  refine ⟨_, _, ?_, fun live v => resumes_tuple hF (h live v) (seq_cons hF (h2 live v) seq_nil)
    fun e => ⟨(hr e).1, (hr e).2 v⟩, ?_, ?_⟩
  · exact fun live => ⟨rfl, h0 live, rfl, g0 live, trivial⟩
  · rintro t ⟨h1, h2, h3, h4, h5⟩
    exact ⟨h1, m1 _ h2, h3, s1 _ h4, h5⟩
  · rintro v t w u (⟨h1, h2, h3, h4, h5⟩ | ⟨x, w₂, h1, h2, ⟨h3, h4, h5⟩ | ⟨_, _, _, _, h3, _⟩, h6⟩)
    · exact .inl ⟨h1, m2 _ _ _ _ h2, h3, s1 _ h4, h5⟩
    · exact .inr ⟨x, w₂, h1, h2, .inl ⟨h3, s2 _ _ _ _ h4, h5⟩, fun hk => m1 _ (h6 hk)⟩
    · exact h3.elim

theorem resumableAll_ignore (hF : S.Feedable) {f : α → Parser S σ β} {F : α → Den S.Tok β} {k r : Bool} {n : σ}
    (h : ResumableAll f F k r n) : ResumableAll (fun v => ignore (f v)) (fun v => (F v).map fun _ => ()) k r n := by
  obtain ⟨Rdy, RepN, h0, h, m1, m2⟩ := h
  exact ⟨Rdy, RepN, h0, fun live v => (h live v).mapped _ rfl (committed_describing hF.lawful fun _ _ _ => rfl)
    fun _ _ _ => ⟨rfl, rfl, Mapped.map _ _⟩, m1, m2⟩

theorem resumableAll_with (hF : S.Feedable) {f : γ → Parser S σ α} {F : γ → Den S.Tok α} {g : γ → Parser S τ β}
    {G : γ → Den S.Tok β} {k r r₂ r' : Bool} {n : σ} {n₂ : τ} (h : ResumableAll f F k r n) (h2 : ResumableAll g G k r₂ n₂)
    (hr : r' = true → r = true ∧ ∀ v, Den.Firm (F v) (G v)) :
    ResumableAll (fun v => «with» (f v) (g v)) (fun v => (F v).bind fun _ => G v) k r' ⟨none, n, ((none, n₂), ()), 0⟩ := by
  obtain ⟨Rdy, Rep, h0, h, m1, m2⟩ := resumableAll_pair (r' := r') hF (resumableAll_ignore hF h) h2
    fun e => ⟨(hr e).1, fun v => ((hr e).2 v).pair _⟩
  refine ⟨Rdy, Rep, h0, fun live v => ?_, m1, m2⟩
  have := (h live v).mapped (q := «with» (f v) (g v)) (fun x => x.2.1) rfl (committed_describing hF.lawful fun _ _ _ => rfl)
    fun m i s => ⟨rfl, rfl, Mapped.map _ _⟩
  rwa [Den.with_eq] at this

theorem resumableAll_skip (hF : S.Feedable) {f : γ → Parser S σ α} {F : γ → Den S.Tok α} {g : γ → Parser S τ β}
    {G : γ → Den S.Tok β} {k r r₂ r' : Bool} {n : σ} {n₂ : τ} (h : ResumableAll f F k r n) (h2 : ResumableAll g G k r₂ n₂)
    (hr : r' = true → r = true ∧ ∀ v, Den.Firm (F v) (G v)) :
    ResumableAll (fun v => skip (f v) (g v)) (fun v => (F v).bind fun x => (G v).map fun _ => x) k r'
      ⟨none, n, ((none, n₂), ()), 0⟩ := by
  obtain ⟨Rdy, Rep, h0, h, m1, m2⟩ := resumableAll_pair (r' := r') hF h (resumableAll_ignore hF h2)
    fun e => ⟨(hr e).1, fun v b a x hd hs =>
      (hr e).2 v b a x hd (Outcome.map_soft.1 ((Den.seq_unit_soft _ b a).1 hs))⟩
  refine ⟨Rdy, Rep, h0, fun live v => ?_, m1, m2⟩
  have := (h live v).mapped (q := skip (f v) (g v)) (fun x => x.1) rfl (committed_describing hF.lawful fun _ _ _ => rfl)
    fun m i s => ⟨rfl, rfl, Mapped.map _ _⟩
  rwa [Den.skip_eq] at this

/-! ## `dispatch!` -/

/-- One arm of a `dispatch!`, with the state of all of them. -/
def armP (arms : Alts S α σ) (j : Nat) : Parser S σ α :=
  .ofMode (arms.initArm j) fun m i s => arms.resume m i (if arms.isArm j s then s else arms.initArm j)

theorem resumableAll_last (hF : S.Feedable) {p : Parser S σ α} {D : Den S.Tok α} {k r : Bool} (h : Resumable p D k r) :
    ResumableAll (armP (.last p)) (fun _ => D) k r p.init := by
  obtain ⟨Ready, Rep, h, m1, m2⟩ := h
  exact ⟨Ready, fun live _ => Rep live, fun live => (h live).ready_init, fun live j =>
    (h live).embed (q := armP (.last p) j) (fun s => s) (fun s => s) (Ready live) (fun _ => rfl) (fun _ h => h)
      (fun _ h => h) (h live).ready_init
      (committed_ofMode hF.lawful _ _ _ _ _) fun _ _ _ => rfl, m1, fun _ => m2⟩

theorem resumableAll_cons (hF : S.Feedable) {p : Parser S σ α} {D : Den S.Tok α} {k r : Bool} {ps : Alts S α τ}
    {F : Nat → Den S.Tok α} {n : τ} (h : Resumable p D k r) (hps : ResumableAll (armP ps) F k r n) :
    ResumableAll (armP (.cons p ps)) (fun j => match j with | 0 => D | j + 1 => F j) k r (.inl p.init) := by
  obtain ⟨Ready, Rep, h, m1, m2⟩ := h
  obtain ⟨Rdy, RepN, _, h2, n1, n2⟩ := hps
  refine ⟨fun live s => match s with | .inl x => Ready live x | .inr y => Rdy live y,
    fun live j s => match j with
      | 0 => Rep live (match s with | .inl x => x | .inr _ => p.init)
      | j + 1 => RepN live j (match s with | .inl _ => ps.initArm j | .inr y => y),
    fun live => (h live).ready_init, fun live j => ?_, ?_, ?_⟩
  · cases j with
    | zero =>
      refine (h live).embed (q := armP (.cons p ps) 0) (fun s => match s with | .inl x => x | .inr _ => p.init) Sum.inl
        (fun s => match s with | .inl x => Ready live x | .inr y => Rdy live y) (fun _ => rfl) ?_ (fun _ h => h)
        (h live).ready_init (committed_ofMode hF.lawful _ _ _ _ _) ?_
      · rintro (x | y) hs
        · exact hs
        · exact (h live).ready_init
      · rintro m i (x | y) <;> rfl
    | succ j =>
      refine (h2 live j).embed (q := armP (.cons p ps) (j + 1)) (fun s => match s with | .inl _ => ps.initArm j | .inr y => y)
        Sum.inr (fun s => match s with | .inl x => Ready live x | .inr y => Rdy live y) (fun _ => rfl) ?_
        (fun _ h => h) (h2 live j).ready_init (committed_ofMode hF.lawful _ _ _ _ _) ?_
      · rintro (x | y) hs
        · exact (h2 live j).ready_init
        · exact hs
      · rintro m i (x | y)
        · simp only [armP, Parser.ofMode, Alts.isArm, Bool.false_eq_true, if_false, Alts.initArm, Alts.resume, ite_self]
        · have : ∀ b : Bool, (Alts.cons p ps).resume m i (if b then Sum.inr y else Sum.inr (ps.initArm j)) =
              (ps.resume m i (if b then y else ps.initArm j)).mapSt Sum.inr := by
            intro b; cases b <;> rfl
          exact this (ps.isArm j y)
  · rintro (x | y) hs
    · exact m1 _ hs
    · exact n1 _ hs
  · rintro (_ | j) s w u hs
    · exact m2 _ _ _ hs
    · exact n2 _ _ _ _ hs

theorem isArm_init (arms : Alts S α σ) (j : Nat) : arms.isArm j (arms.initArm j) = true := by
  induction arms generalizing j with
  | last p => rfl
  | cons p ps ih => cases j with
    | zero => rfl
    | succ j => exact ih j

/-- `dispatch!` on a value -/
theorem resumableAll_dispatch (hF : S.Feedable) {arms : Alts S α σ} {F : Nat → Den S.Tok α} {k r : Bool} {n : σ}
    (h : ResumableAll (armP arms) F k r n) (sel : β → Nat) :
    ResumableAll (fun v => dispatch arms (sel v)) (fun v => F (sel v)) k r none := by
  obtain ⟨Rdy, RepN, _, h, m1, m2⟩ := h
  refine ⟨fun live s => ∀ x, s = some x → Rdy live x,
    fun live v s => RepN live (sel v) (match s with | some x => x | none => arms.initArm (sel v)),
    fun live x hx => (by cases hx), fun live v => ?_, fun s hs x hx => m1 _ (hs x hx), fun v s w u hs => m2 _ _ _ _ hs⟩
  refine (h live (sel v)).embed (q := dispatch arms (sel v))
    (fun s => match s with | some x => x | none => arms.initArm (sel v)) some
    (fun s => ∀ x, s = some x → Rdy live x) (fun _ => rfl)
    ?_ (fun x hx y hy => by cases hy; exact hx) (fun x hx => by cases hx) (committed_ofMode hF.lawful _ _ _ _ _) ?_
  · intro s hs
    cases s with
    | none => exact (h live (sel v)).ready_init
    | some x => exact hs x rfl
  · intro m i s
    cases s with
    | none => simp only [dispatch, armP, Parser.ofMode, isArm_init, if_true]
    | some x => rfl

/-- One arm of a `dispatch!` -/
theorem resumable_dispatch (hF : S.Feedable) {arms : Alts S α σ} {F : Nat → Den S.Tok α} {k r : Bool} {n : σ}
    (h : ResumableAll (armP arms) F k r n) (j : Nat) : Resumable (dispatch arms j) (F j) k r := by
  obtain ⟨Rdy, RepN, _, h, m1, m2⟩ := resumableAll_dispatch (β := Unit) hF h fun _ => j
  exact ⟨Rdy, fun live => RepN live (), fun live => h live (), m1, m2 ()⟩

end Verif
