import Verif.Proof.ResumeBase

/-!
# Token parsers, maps, choices and tuples can be resumed
-/

namespace Verif

variable {S : Strm} {σ τ α β : Type}

theorem okRes_true {E : Type} (v : α) : (okRes true v : ParseResult α E) = .commitOk v := rfl
theorem okRes_false {E : Type} (v : α) : (okRes false v : ParseResult α E) = .peekOk v := rfl

theorem okRes_isOk {E : Type} (c : Bool) (v : α) : (okRes c v : ParseResult α E).isOk = true := by
  cases c <;> rfl

/-! ## Parsers that go back to where they started when they ask for more -/

theorem resumes_atomic {live : Bool} {p : Parser S σ α} {D : Den S.Tok α} (hg : D.Good) (hc : CommittedAs p)
    (h : ∀ m i s, Step (D (S.isPartial i) (S.left i)) (fun _ => True) (fun _ => True) (fun _ w _ => w = []) [] i (p.run m i s))
    (hh : ∀ m i s, D (S.isPartial i) (S.left i) = .hard → ∃ e, (p.run m i s).res = .commitErr e) :
    Resumes live p D true true (fun _ => True) (fun _ w _ => w = []) where
  good := hg
  ready_init := trivial
  ready_rep _ := rfl
  firm hr hw := absurd hr hw
  committed := hc
  first i _ _ := (h true i _).mono (fun _ _ _ => trivial) (fun _ _ _ => trivial)
  first_hard m i _ _ := hh m i _
  resume i _ hr _ := by subst hr; exact (h false i _).mono (fun _ _ _ => trivial) (fun _ _ _ => trivial)

theorem resumable_atomic {p : Parser S σ α} {D : Den S.Tok α} (hg : D.Good) (hc : CommittedAs p)
    (h : ∀ m i s, Step (D (S.isPartial i) (S.left i)) (fun _ => True) (fun _ => True) (fun _ w _ => w = []) [] i (p.run m i s))
    (hh : ∀ m i s, D (S.isPartial i) (S.left i) = .hard → ∃ e, (p.run m i s).res = .commitErr e) :
    Resumable p D true true :=
  ⟨fun _ _ => True, fun _ _ w _ => w = [], fun _ => resumes_atomic hg hc h hh, fun _ h => h, fun _ _ _ h => h⟩

/-- A parser that does not keep a state. -/
structure Atomic (p : Parser S σ α) (D : Den S.Tok α) : Prop where
  good : D.Good
  committed : CommittedAs p
  step : ∀ m i s, Step (D (S.isPartial i) (S.left i)) (fun _ => True) (fun _ => True) (fun _ w _ => w = []) [] i (p.run m i s)
  hard : ∀ m i s, D (S.isPartial i) (S.left i) = .hard → ∃ e, (p.run m i s).res = .commitErr e

theorem Atomic.resumable {p : Parser S σ α} {D : Den S.Tok α} (h : Atomic p D) : Resumable p D true true :=
  resumable_atomic h.good h.committed h.step h.hard

theorem committed_ofLazy (hS : S.Lawful) (init : σ) (lazy : S.Input → ParseResult α S.Err × S.Input)
    (a b) (n : Nat) : CommittedAs (Parser.ofLazy init lazy a b n) :=
  committed_describing hS fun _ _ _ => rfl

theorem committed_ofMode (hS : S.Lawful) (init : σ) (run : Bool → S.Input → σ → Out S σ α)
    (a b) (n : Nat) : CommittedAs (Parser.ofMode init run a b n) :=
  committed_describing hS fun _ _ _ => rfl

theorem wrap_eoi (hF : S.Feedable) {i : S.Input} (hp : S.isPartial i = true) {e : S.SErr}
    (he : S.E.isEoiS e = true) :
    ∃ e', S.wrapStreamError (α := α) i e = .commitErr e' ∧ S.E.isEoi e' = true := by
  refine ⟨_, ?_, hF.from_error (S.position i) e he⟩
  simp only [Strm.wrapStreamError, hp, if_true]

theorem satisfyImpl_step (hF : S.Feedable) (f : S.Tok → Option α) (i : S.Input) (s : σ) :
    Step (Den.tok f (S.isPartial i) (S.left i)) (fun _ => True) (fun _ => True) (fun _ w _ => w = []) [] i
      (⟨(satisfyImpl S f i).1, (satisfyImpl S f i).2, s⟩ : Out S σ α) := by
  have hS := hF.lawful
  cases hl : S.left i with
  | nil =>
    obtain ⟨e, hu⟩ := hS.uncons_of_left_nil hl
    have he := hF.ends i e i hu
    cases hp : S.isPartial i with
    | true =>
      obtain ⟨e', h1, h2⟩ := wrap_eoi (α := S.Tok) hF hp he
      have hx : satisfyImpl S f i = (.commitErr e', i) := by
        simp only [satisfyImpl, Strm.unconsP, hu, h1]
      rw [hx]
      exact ⟨e', [], rfl, h2, .nil i, rfl⟩
    | false =>
      have hx : satisfyImpl S f i = (.peekErr (Tracked.of (S.E.fromError (S.position i) e)), i) := by
        simp only [satisfyImpl, Strm.unconsP, hu, Strm.wrapStreamError, hp]; rfl
      rw [hx]
      exact ⟨rfl, ⟨_, rfl⟩, .refl i, trivial⟩
  | cons t ts =>
    obtain ⟨j, hu, hj⟩ := hS.uncons_of_left hl
    have hx : satisfyImpl S f i = (match f t with
      | some v => (.commitOk v, j)
      | none => (.peekErr (Tracked.of (S.E.empty (S.position i))), j)) := by
      simp only [satisfyImpl, Strm.unconsP, hu]
      cases f t <;> rfl
    rw [hx]
    simp only [Den.tok]
    cases f t with
    | none => exact ⟨rfl, ⟨_, rfl⟩, ⟨[t], .cons hu (.nil _)⟩, trivial⟩
    | some v => exact ⟨⟨true, rfl, fun _ => rfl⟩, ⟨[t], .cons hu (.nil _)⟩, hj, trivial⟩

theorem tok_not_hard {T : Type} (f : T → Option α) (b : Bool) (a : List T) : Den.tok f b a ≠ .hard := by
  cases a with
  | nil => cases b <;> simp [Den.tok, Den.short]
  | cons t ts => simp only [Den.tok]; cases f t <;> simp

/-- All parsers made of `satisfy_impl`. -/
theorem atomic_tok (hF : S.Feedable) (f : S.Tok → Option α) {p : Parser S Unit α} (hc : CommittedAs p)
    (h : ∀ m i s, p.run m i s = ⟨(satisfyImpl S f i).1, (satisfyImpl S f i).2, s⟩) : Atomic p (Den.tok f) :=
  .mk (.tok f) hc (fun m i s => by rw [h]; exact satisfyImpl_step hF f i s)
    (fun _ _ _ h => absurd h (tok_not_hard f _ _))

theorem atomic_any (hF : S.Feedable) : Atomic (any S) (Den.tok some) :=
  atomic_tok hF some (committed_ofLazy hF.lawful _ _ _ _ _) fun m i s => by
    have hx : S.unconsP i = satisfyImpl S some i := by
      simp only [satisfyImpl, Strm.unconsP]
      cases hu : S.uncons i with
      | mk r j =>
        cases r with
        | ok t => rfl
        | error e => simp only [Strm.wrapStreamError]; cases S.isPartial j <;> rfl
    simp only [any, Parser.ofLazy, hx]

theorem atomic_value (v : α) {p : Parser S Unit α} (hc : CommittedAs p)
    (h : ∀ m i s, p.run m i s = ⟨.peekOk v, i, s⟩) : Atomic p (Den.pure v) :=
  .mk (.pure v) hc
    (fun m i s => by rw [h]; exact ⟨⟨false, rfl, fun _ => rfl⟩, .refl i, rfl, trivial⟩)
    (fun _ _ _ h => by simp [Den.pure] at h)

theorem atomic_never {p : Parser S Unit α} (hc : CommittedAs p)
    (h : ∀ m i s, ∃ e, p.run m i s = ⟨.peekErr e, i, s⟩) : Atomic p Den.never :=
  .mk .never hc
    (fun m i s => by obtain ⟨e, he⟩ := h m i s; rw [he]; exact ⟨rfl, ⟨e, rfl⟩, .refl i, trivial⟩)
    (fun _ _ _ h => by simp [Den.never] at h)

theorem resumes_tok (hF : S.Feedable) (f : S.Tok → Option α) {p : Parser S Unit α} (hc : CommittedAs p)
    (h : ∀ m i s, p.run m i s = ⟨(satisfyImpl S f i).1, (satisfyImpl S f i).2, s⟩) : Resumable p (Den.tok f) true true :=
  (atomic_tok hF f hc h).resumable

theorem resumes_value (v : α) {p : Parser S Unit α} (hc : CommittedAs p)
    (h : ∀ m i s, p.run m i s = ⟨.peekOk v, i, s⟩) : Resumable p (Den.pure v) true true :=
  (atomic_value v hc h).resumable

/-! ## Parsers that only change the result of another -/

/-- How results correspond. -/
inductive Mapped (E : ErrOps S.Tok S.Rng S.Pos) (f : α → β) : ParseResult α E.Err → ParseResult β E.Err → Prop where
  | commitOk (v) : Mapped E f (.commitOk v) (.commitOk (f v))
  | peekOk (v) : Mapped E f (.peekOk v) (.peekOk (f v))
  | commitErr (e e') : (E.isEoi e = true → E.isEoi e' = true) → Mapped E f (.commitErr e) (.commitErr e')
  | peekErr (e e') : Mapped E f (.peekErr e) (.peekErr e')
  | abort (a) : Mapped E f (.abort a) (.abort a)

theorem Step.mapped {W : Outcome S.Tok α} {A F : σ → Prop} {Rep : σ → List S.Tok → List S.Tok → Prop}
    {w : List S.Tok} {i : S.Input} {o : Out S σ α} {o' : Out S σ β} {f : α → β} (h : Step W A F Rep w i o)
    (hi : o'.inp = o.inp) (hs : o'.st = o.st) (hm : Mapped S.E f o.res o'.res) :
    Step (W.map f) A F Rep w i o' := by
  cases W with
  | ok c v r =>
    obtain ⟨⟨c', h1, h2⟩, h3, h4, h5⟩ := h
    refine ⟨⟨c', ?_, h2⟩, hi ▸ h3, hi ▸ h4, hs ▸ h5⟩
    rw [h1] at hm
    generalize o'.res = r' at hm
    cases c' <;> simp only [okRes_true, okRes_false] at hm ⊢ <;> cases hm <;> rfl
  | pend =>
    obtain ⟨e, x, h1, h2, h3, h4⟩ := h
    rw [h1] at hm
    generalize hr : o'.res = r at hm
    cases hm with
    | commitErr _ e' he => exact ⟨e', x, hr, he h2, hi ▸ h3, by rw [hi, hs]; exact h4⟩
  | soft =>
    obtain ⟨h1, ⟨e, h2⟩, h3, h4⟩ := h
    rw [h2] at hm
    generalize hr : o'.res = r at hm
    cases hm with
    | peekErr _ e' => exact ⟨h1, ⟨e', hr⟩, hi ▸ h3, hs ▸ h4⟩
  | hard => trivial

theorem Resumes.mapped {live : Bool} {p : Parser S σ α} {q : Parser S σ β} {D : Den S.Tok α} {k r : Bool} {Ready : σ → Prop}
    {Rep : σ → List S.Tok → List S.Tok → Prop} (h : Resumes live p D k r Ready Rep) (f : α → β) (hi : q.init = p.init)
    (hc : CommittedAs q) (hr : ∀ m i s, (q.run m i s).inp = (p.run m i s).inp ∧
      (q.run m i s).st = (p.run m i s).st ∧ Mapped S.E f (p.run m i s).res (q.run m i s).res) :
    Resumes live q (D.map f) k r Ready Rep where
  good := h.good.map f
  ready_init := hi ▸ h.ready_init
  ready_rep := h.ready_rep
  firm hr hw b x := (h.firm hr hw b x).map f
  committed := hc
  first i hL hs := (h.first i hL hs).mapped (hr _ _ _).1 (hr _ _ _).2.1 (hr _ _ _).2.2
  first_hard {s} m i hL hs e := by
    obtain ⟨x, hx⟩ := h.first_hard m i hL hs (Outcome.map_hard.1 e)
    have := (hr m i s).2.2
    rw [hx] at this
    generalize hq : (q.run m i s).res = r at this
    cases this with
    | commitErr _ e' _ => exact ⟨e', rfl⟩
  resume i hL hs hu := (h.resume i hL hs hu).mapped (hr _ _ _).1 (hr _ _ _).2.1 (hr _ _ _).2.2

theorem Resumable.mapped {p : Parser S σ α} {q : Parser S σ β} {D : Den S.Tok α} {k r : Bool} (h : Resumable p D k r) (f : α → β)
    (hi : q.init = p.init) (hc : CommittedAs q) (hr : ∀ m i s, (q.run m i s).inp = (p.run m i s).inp ∧
      (q.run m i s).st = (p.run m i s).st ∧ Mapped S.E f (p.run m i s).res (q.run m i s).res) :
    Resumable q (D.map f) k r := by
  obtain ⟨A, B, h, m⟩ := h
  exact ⟨A, B, fun live => (h live).mapped f hi hc hr, m⟩

theorem Mapped.map {E : ErrOps S.Tok S.Rng S.Pos} (f : α → β) (r : ParseResult α E.Err) : Mapped E f r (r.map f) := by
  cases r <;> constructor
  exact id

theorem Mapped.id {E : ErrOps S.Tok S.Rng S.Pos} (r : ParseResult α E.Err) : Mapped E (fun x => x) r r := by
  cases r <;> constructor
  exact _root_.id

theorem resumable_map (hF : S.Feedable) {p : Parser S σ α} {D : Den S.Tok α} {k r : Bool} (h : Resumable p D k r) (f : α → β) :
    Resumable (map p f) (D.map f) k r :=
  h.mapped f rfl (committed_ofMode hF.lawful _ _ _ _ _) fun _ _ _ => ⟨rfl, rfl, Mapped.map f _⟩

theorem resumable_ignore (hF : S.Feedable) {p : Parser S σ α} {D : Den S.Tok α} {k r : Bool} (h : Resumable p D k r) :
    Resumable (ignore p) (D.map fun _ => ()) k r :=
  h.mapped _ rfl (committed_describing hF.lawful fun _ _ _ => rfl) fun _ _ _ => ⟨rfl, rfl, Mapped.map _ _⟩

theorem Den.map_id {T : Type} (D : Den T α) : D.map (fun x => x) = D := by
  funext b a
  simp only [Den.map]
  cases D b a <;> rfl

/-- Parsers with the same `run`. -/
theorem Resumable.same {p q : Parser S σ α} {D : Den S.Tok α} {k r : Bool} (h : Resumable p D k r) (hi : q.init = p.init)
    (hc : CommittedAs q) (hr : ∀ m i s, q.run m i s = p.run m i s) : Resumable q D k r := by
  have := h.mapped (fun x => x) hi hc fun m i s => by rw [hr]; exact ⟨rfl, rfl, Mapped.id _⟩
  rwa [Den.map_id] at this

theorem resumable_expected (hF : S.Feedable) {p : Parser S σ α} {D : Den S.Tok α} {k r : Bool} (h : Resumable p D k r) (x) :
    Resumable (expected p x) D k r := h.same rfl (committed_ofMode hF.lawful _ _ _ _ _) fun _ _ _ => rfl

theorem resumable_message (hF : S.Feedable) {p : Parser S σ α} {D : Den S.Tok α} {k r : Bool} (h : Resumable p D k r) (x) :
    Resumable (message p x) D k r := by
  have := h.mapped (q := message p x) (fun x => x) rfl (committed_ofMode hF.lawful _ _ _ _ _) fun m i s => by
    simp only [message, Parser.ofMode]
    generalize p.run m i s = o
    obtain ⟨r, j, t⟩ := o
    cases r
    all_goals refine ⟨rfl, rfl, ?_⟩
    all_goals constructor
    exact hF.add _ _
  rwa [Den.map_id] at this

theorem resumable_silent (hF : S.Feedable) {p : Parser S σ α} {D : Den S.Tok α} {k r : Bool} (h : Resumable p D k r) :
    Resumable (silent p) D k r := by
  have := h.mapped (q := silent p) (fun x => x) rfl (committed_ofMode hF.lawful _ _ _ _ _) fun m i s => by
    simp only [silent, Parser.ofMode, Out.mapRes]
    generalize p.run m i s = o
    obtain ⟨r, j, t⟩ := o
    cases r
    all_goals refine ⟨trivial, trivial, ?_⟩
    all_goals constructor
    exact hF.clear _
  rwa [Den.map_id] at this

theorem resumable_parserMacro (hF : S.Feedable) {p : Parser S σ α} {D : Den S.Tok α} {k r : Bool} (h : Resumable p D k r) :
    Resumable (parserMacro p) D k r := h.same rfl (committed_ofMode hF.lawful _ _ _ _ _) fun _ _ _ => rfl

theorem resumable_boxed (hF : S.Feedable) {p : Parser S σ α} {D : Den S.Tok α} {k r : Bool} (h : Resumable p D k r) :
    Resumable (boxed p) D k r := h.same rfl (committed_ofMode hF.lawful _ _ _ _ _) fun _ _ _ => rfl

theorem resumable_opaque (hF : S.Feedable) {p : Parser S σ α} {D : Den S.Tok α} {k r : Bool} (h : Resumable p D k r) :
    Resumable (opaqueP p) D k r := h.same rfl (committed_describing hF.lawful fun _ _ _ => rfl) fun _ _ _ => rfl

theorem resumable_lazy {f : Unit → Parser S σ α} {D : Den S.Tok α} {k r : Bool} (h : Resumable (f ()) D k r) :
    Resumable (lazyP f) D k r :=
  h.same rfl ⟨fun _ _ _ _ => rfl, fun m i s e h1 h2 => ⟨e, _, h2, by
    rw [← h1]; rfl⟩⟩ fun _ _ _ => rfl

/-! ## `any_partial_state` -/

theorem resumable_anyPartialState (hF : S.Feedable) {p : Parser S σ α} {D : Den S.Tok α} {k r : Bool} (h : Resumable p D k r) :
    Resumable (anyPartialState p) D k r := by
  obtain ⟨ReadyB, RepB, hB, m1, m2⟩ := h
  refine ⟨fun live s => ∀ c, s = some c → ReadyB live c, fun live s w u => RepB live (s.getD p.init) w u,
    fun live => ?_, fun s hs c hc => m1 c (hs c hc), fun s w u => m2 _ w u⟩
  have h := hB live
  dsimp only
  revert h
  generalize ReadyB live = Ready
  generalize RepB live = Rep
  intro h
  let Rdy : Option σ → Prop := fun s => ∀ c, s = some c → Ready c
  let Rp : Option σ → List S.Tok → List S.Tok → Prop := fun s w u => Rep (s.getD p.init) w u
  have key : ∀ (W : Outcome S.Tok α) (w : List S.Tok) (m : Bool) (i : S.Input) (s : Option σ),
      Step W (When k Ready) (When r Ready) Rep w i (p.run m i (s.getD p.init)) →
      Step W (When k Rdy) (When r Rdy) Rp w i ((anyPartialState p).run m i s) := by
    intro W w m i s hs
    cases s with
    | some c =>
      change Step W (When k Rdy) (When r Rdy) Rp w i ((p.run m i c).mapSt some)
      cases W with
      | ok c' v r =>
        obtain ⟨h1, h2, h3, h4⟩ := hs
        exact ⟨h1, h2, h3, fun hk c hc => by cases hc; exact h4 hk⟩
      | pend => exact hs
      | soft =>
        obtain ⟨h1, h2, h3, h4⟩ := hs
        exact ⟨h1, h2, h3, fun hk c hc => by cases hc; exact h4 hk⟩
      | hard => trivial
    | none =>
      cases W with
      | ok c' v r =>
        obtain ⟨⟨c', h1, h1'⟩, h2, h3, h4⟩ := hs
        have he : (anyPartialState p).run m i none = ⟨okRes c' v, (p.run m i p.init).inp, none⟩ := by
          simp only [anyPartialState, Parser.ofMode]
          simp only [Option.getD_none] at h1
          cases c' <;> simp only [h1, okRes_true, okRes_false]
        rw [he]
        exact ⟨⟨c', rfl, h1'⟩, h2, h3, fun _ c hc => by cases hc⟩
      | pend =>
        obtain ⟨e, x, h1, h2, h3, h4⟩ := hs
        have he : (anyPartialState p).run m i none =
            ⟨.commitErr e, (p.run m i p.init).inp, some (p.run m i p.init).st⟩ := by
          simp only [anyPartialState, Parser.ofMode]
          simp only [Option.getD_none] at h1
          simp only [h1]
        rw [he]
        exact ⟨e, x, rfl, h2, h3, h4⟩
      | soft =>
        obtain ⟨h0, ⟨e, h1⟩, h2, h4⟩ := hs
        have he : (anyPartialState p).run m i none = ⟨.peekErr e, (p.run m i p.init).inp, none⟩ := by
          simp only [anyPartialState, Parser.ofMode]
          simp only [Option.getD_none] at h1
          simp only [h1]
        rw [he]
        exact ⟨h0, ⟨e, rfl⟩, h2, fun _ c hc => by cases hc⟩
      | hard => trivial
  constructor
  · exact h.good
  · intro c hc; cases hc
  · intro s hs
    cases s with
    | none => exact h.ready_rep h.ready_init
    | some c => exact h.ready_rep (hs c rfl)
  · intro s w u hr hw; exact h.firm hr hw
  · exact committed_describing hF.lawful fun _ _ _ => rfl
  · intro s i hL hs
    refine key _ _ _ _ _ (h.first i hL ?_)
    cases s with
    | none => exact h.ready_init
    | some c => exact hs c rfl
  · intro s m i hL hs hh
    cases s with
    | none =>
      obtain ⟨e, he⟩ := h.first_hard m i hL h.ready_init hh
      refine ⟨e, ?_⟩
      simp only [anyPartialState, Parser.ofMode, he]
    | some c => exact h.first_hard m i hL (hs c rfl) hh
  · intro s w u i hL hr hu
    exact key _ _ _ _ _ (h.resume i hL hr hu)

end Verif
