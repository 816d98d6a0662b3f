import Verif.Props.Exact
import Verif.Proof.Repeatable

/-!
# Programs whose language is known

What is needed to go through a program combinator by combinator: the parser can be repeated, which texts it accepts, and on which
tokens it fails.  Tokens are seen through a function `f` (to bytes or characters).
-/

namespace Verif

variable {S : Strm} {σ τ υ α β γ : Type} {T : Type}

/-- Texts over `T` for a stream whose tokens are seen as `T`. -/
def Texts.pull (f : S.Tok → T) (P : Texts T α) : Texts S.Tok α := fun w v o => P (w.map f) v (o.map f)

structure Known (f : S.Tok → T) (P : Texts T α) (G : Option T → Prop) (p : Parser S σ α) : Prop where
  rep : Repeatable p
  is : Describes (P.pull f) p
  fails : FailsBy (fun o => G (o.map f)) p

/-- A parser that comes later in a sequence; where it fails is not needed. -/
structure Later (f : S.Tok → T) (P : Texts T α) (p : Parser S σ α) : Prop where
  rep : Repeatable p
  is : Describes (P.pull f) p

theorem Known.later {f : S.Tok → T} {P : Texts T α} {G : Option T → Prop} {p : Parser S σ α} (h : Known f P G p) : Later f P p :=
  ⟨h.rep, h.is⟩

inductive LaterAll (f : S.Tok → T) : {σ α : Type} → Texts T α → Seq S σ α → Prop where
  | nil : LaterAll f (fun w _ _ => w = []) .nil
  | cons {σ τ α β : Type} {p : Parser S σ α} {ps : Seq S τ β} {L : Texts T α} {M : Texts T β} :
      Later f L p → LaterAll f M ps → LaterAll f (L.seq M) (.cons p ps)

variable {f : S.Tok → T} {P : Texts T α} {Q : Texts T β} {G H : Option T → Prop}

theorem lead_map (f : S.Tok → T) (w : List S.Tok) (o : Option S.Tok) : lead (w.map f) (o.map f) = (lead w o).map f := by
  cases w <;> rfl

theorem pull_seq (w : List S.Tok) (v : α × β) (o : Option S.Tok) :
    ((P.pull f).seq (Q.pull f)) w v o ↔ ((P.seq Q).pull f) w v o := by
  constructor
  · rintro ⟨u, z, rfl, h1, h2⟩
    exact ⟨u.map f, z.map f, by simp, by rw [lead_map]; exact h1, h2⟩
  · rintro ⟨u', z', h, h1, h2⟩
    obtain ⟨u, z, rfl, rfl, rfl⟩ := List.map_eq_append_iff.1 h
    rw [lead_map] at h1
    exact ⟨u, z, rfl, h1, h2⟩

theorem pull_bind {Q : α → Texts T β} (w : List S.Tok) (v : β) (o : Option S.Tok) :
    ((P.pull f).bind fun x => (Q x).pull f) w v o ↔ ((P.bind Q).pull f) w v o := by
  constructor
  · rintro ⟨u, z, x, rfl, h1, h2⟩
    exact ⟨u.map f, z.map f, x, by simp, by rw [lead_map]; exact h1, h2⟩
  · rintro ⟨u', z', x, h, h1, h2⟩
    obtain ⟨u, z, rfl, rfl, rfl⟩ := List.map_eq_append_iff.1 h
    rw [lead_map] at h1
    exact ⟨u, z, x, rfl, h1, h2⟩

theorem pull_many (w : List S.Tok) (vs : List α) (o : Option S.Tok) :
    Texts.Many (P.pull f) w vs o ↔ ((Texts.Many P).pull f) w vs o := by
  constructor
  · intro h
    induction h with
    | nil => exact .nil
    | cons h1 h2 _ ih =>
      simp only [Texts.pull, List.map_append] at ih ⊢
      exact .cons (by simpa using h1) (by rw [lead_map]; exact h2) ih
  · intro h
    simp only [Texts.pull] at h
    generalize hw : w.map f = w' at h
    generalize ho : o.map f = o' at h
    induction h generalizing w o with
    | nil => cases List.map_eq_nil_iff.1 hw; exact .nil
    | cons h1 h2 _ ih =>
      obtain ⟨u, z, rfl, rfl, rfl⟩ := List.map_eq_append_iff.1 hw
      subst ho
      refine .cons (by simpa using h1) ?_ (ih _ _ rfl rfl)
      rw [lead_map] at h2
      exact h2

theorem pull_nonempty (h : ∀ v o, ¬ P [] v o) (v : α) (o : Option S.Tok) : ¬ (P.pull f) [] v o := h v _

theorem consuming_of {p : Parser S σ α} (hp : Describes (P.pull f) p) (h : ∀ v o, ¬ P [] v o) : Consuming p := by
  intro i c v j hi
  refine takes_consuming hp.only (pull_nonempty h) i c v j ?_
  simp only [Parser.shape, hi]
  rfl

theorem Known.iff {p : Parser S σ α} {P' : Texts T α} {G' : Option T → Prop} (h : Known f P G p) (hP : ∀ w v o, P w v o ↔ P' w v o)
    (hG : ∀ o, G o ↔ G' o) : Known f P' G' p :=
  ⟨h.rep, C63_is_iff h.is fun _ _ _ => hP _ _ _, C63_fails_iff h.fails fun _ => hG _⟩

theorem Later.iff {p : Parser S σ α} {P' : Texts T α} (h : Later f P p) (hP : ∀ w v o, P w v o ↔ P' w v o) : Later f P' p :=
  ⟨h.rep, C63_is_iff h.is fun _ _ _ => hP _ _ _⟩

theorem known_one {p : Parser S Unit α} {g : T → Option α} (hm : Moves p) (h : ∀ i, S.IsOne (fun t => g (f t)) i (p.shape i)) :
    Known f (fun w v _ => ∃ b, w = [b] ∧ g b = some v) (fun o => ∀ b, o = some b → g b = none) p := by
  refine ⟨.unit hm, C63_is_iff (C63_is_one h) ?_, C63_fails_iff (C63_is_one_fails h) ?_⟩
  · intro w v o
    constructor
    · rintro ⟨t, rfl, h⟩
      exact ⟨f t, rfl, h⟩
    · rintro ⟨b, h1, h2⟩
      obtain ⟨t, rfl, rfl⟩ := List.map_eq_singleton_iff.1 h1
      exact ⟨t, rfl, h2⟩
  · intro o
    cases o <;> simp

theorem known_map (hS : S.Lawful) {p : Parser S σ α} (h : Known f P G p) (g : α → β) : Known f (P.map g) G (map p g) :=
  ⟨repeatable_map hS h.rep g, C63_is_iff (C63_is_map h.is g) fun _ _ _ => Iff.rfl, C63_is_map_fails h.fails g⟩

theorem later_map (hS : S.Lawful) {p : Parser S σ α} (h : Later f P p) (g : α → β) : Later f (P.map g) (map p g) :=
  ⟨repeatable_map hS h.rep g, C63_is_iff (C63_is_map h.is g) fun _ _ _ => Iff.rfl⟩

theorem known_with (hS : S.Lawful) {p : Parser S σ α} {q : Parser S τ β} (hp : Known f P G p) (hq : Later f Q q)
    (hP : ∀ v o, ¬ P [] v o) : Known f (P.bind fun _ => Q) G («with» p q) :=
  ⟨repeatable_with hS hp.rep hq.rep, C63_is_iff (C63_is_with hS hp.is hq.is) pull_bind,
    (C63_is_first_fails hp.is hp.fails (pull_nonempty hP)).1 q⟩

/-- `with` whose first part may succeed on nothing. -/
theorem known_with_empty (hS : S.Lawful) {p : Parser S σ α} {q : Parser S τ β} (hp : Known f P G p) (hq : Known f Q H q) :
    Known f (P.bind fun _ => Q) (fun o => G o ∨ ∃ v, P [] v o ∧ H o) («with» p q) := by
  refine ⟨repeatable_with hS hp.rep hq.rep, C63_is_iff (C63_is_with hS hp.is hq.is) pull_bind, ?_,
    leaves_congr (C12_with p q) (leaves_bind hp.is.only hp.fails.only fun _ => hq.fails.only)⟩
  intro i h1 h2
  rw [C12_with p q i]
  rcases h2 with h2 | ⟨v, h2, h3⟩
  · exact refuses_bind hp.fails.back i h1 h2
  · exact refuses_bind_empty (F := fun o => (P.pull f) [] v o ∧ H (o.map f)) (v := v)
      (fun i' k h4 h5 h6 => hp.is.back [] v i' k h4 h5 h6.1) (fun i' h4 h6 => hq.fails.back i' h4 h6.2) i h1 ⟨h2, h3⟩

theorem later_with (hS : S.Lawful) {p : Parser S σ α} {q : Parser S τ β} (hp : Later f P p) (hq : Later f Q q) :
    Later f (P.bind fun _ => Q) («with» p q) :=
  ⟨repeatable_with hS hp.rep hq.rep, C63_is_iff (C63_is_with hS hp.is hq.is) pull_bind⟩

theorem known_skip (hS : S.Lawful) {p : Parser S σ α} {q : Parser S τ β} (hp : Known f P G p) (hq : Later f Q q)
    (hP : ∀ v o, ¬ P [] v o) : Known f (P.bind fun v => Q.map fun _ => v) G (skip p q) :=
  ⟨repeatable_skip hS hp.rep hq.rep, C63_is_iff (C63_is_skip hS hp.is hq.is)
    (pull_bind (Q := fun v => Q.map fun _ => v)),
    (C63_is_first_fails hp.is hp.fails (pull_nonempty hP)).2.1 q⟩

theorem later_skip (hS : S.Lawful) {p : Parser S σ α} {q : Parser S τ β} (hp : Later f P p) (hq : Later f Q q) :
    Later f (P.bind fun v => Q.map fun _ => v) (skip p q) :=
  ⟨repeatable_skip hS hp.rep hq.rep, C63_is_iff (C63_is_skip hS hp.is hq.is)
    (pull_bind (Q := fun v => Q.map fun _ => v))⟩

theorem known_between (hS : S.Lawful) {o : Parser S σ α} {c : Parser S υ γ} {p : Parser S τ β} {N : Texts T γ} (ho : Known f P G o)
    (hp : Later f Q p) (hc : Later f N c) (hP : ∀ v o, ¬ P [] v o) :
    Known f (P.bind fun _ => Q.bind fun v => N.map fun _ => v) G (between o c p) := by
  refine ⟨repeatable_between hS ho.rep hc.rep hp.rep, C63_is_iff (C63_is_between hS ho.is hp.is hc.is) ?_,
    (C63_is_first_fails ho.is ho.fails (pull_nonempty hP)).2.2.1 c p⟩
  intro w v o
  rw [← pull_bind]
  constructor
  · rintro ⟨u, z, x, h1, h2, h3⟩
    exact ⟨u, z, x, h1, h2, (pull_bind (Q := fun v => N.map fun _ => v) _ _ _).1 h3⟩
  · rintro ⟨u, z, x, h1, h2, h3⟩
    exact ⟨u, z, x, h1, h2, (pull_bind (Q := fun v => N.map fun _ => v) _ _ _).2 h3⟩

theorem LaterAll.mem {ps : Seq S τ β} (h : LaterAll f Q ps) : ∀ q, ps.Mem q → Repeatable q.2.2 := by
  induction h with
  | nil => intro q hq; exact hq.elim
  | cons hp _ ih =>
    intro q hq
    rcases hq with rfl | hq
    · exact hp.rep
    · exact ih q hq

theorem LaterAll.is {ps : Seq S τ β} (h : LaterAll f Q ps) : ∃ M, SeqDescribes M ps ∧ ∀ w v o, M w v o ↔ (Q.pull f) w v o := by
  induction h with
  | nil => exact ⟨_, .nil, fun w v o => by simp [Texts.pull]⟩
  | @cons _ _ _ _ p ps L Q hp _ ih =>
    obtain ⟨M, h1, h2⟩ := ih
    refine ⟨_, .cons hp.is h1, fun w v o => ?_⟩
    rw [← pull_seq]
    constructor
    · rintro ⟨u, z, e, h3, h4⟩; exact ⟨u, z, e, h3, (h2 _ _ _).1 h4⟩
    · rintro ⟨u, z, e, h3, h4⟩; exact ⟨u, z, e, h3, (h2 _ _ _).2 h4⟩

theorem later_tuple (hS : S.Lawful) {p : Parser S σ α} {ps : Seq S τ β} (hp : Later f P p) (hs : LaterAll f Q ps) :
    Later f (P.seq Q) (tuple p ps) := by
  obtain ⟨M, h1, h2⟩ := hs.is
  refine ⟨repeatable_tuple hS hp.rep hs.mem, C63_is_iff (C63_is_tuple hS hp.is h1) fun w v o => ?_⟩
  rw [← pull_seq]
  constructor
  · rintro ⟨u, z, e, h3, h4⟩; exact ⟨u, z, e, h3, (h2 _ _ _).1 h4⟩
  · rintro ⟨u, z, e, h3, h4⟩; exact ⟨u, z, e, h3, (h2 _ _ _).2 h4⟩

theorem known_tuple (hS : S.Lawful) {p : Parser S σ α} {ps : Seq S τ β} (hp : Known f P G p) (hs : LaterAll f Q ps)
    (hP : ∀ v o, ¬ P [] v o) : Known f (P.seq Q) G (tuple p ps) :=
  ⟨(later_tuple hS hp.later hs).rep, (later_tuple hS hp.later hs).is,
    (C63_is_first_fails hp.is hp.fails (pull_nonempty hP)).2.2.2 ps⟩

theorem known_or (hS : S.Lawful) {p : Parser S σ α} {q : Parser S τ α} {Q : Texts T α} (hp : Known f P G p) (hq : Known f Q H q) :
    Known f (fun w v o => P w v o ∨ G (lead w o) ∧ Q w v o) (fun o => G o ∧ H o) (or p q) :=
  ⟨repeatable_or hS hp.rep hq.rep, C63_is_iff (C63_is_or hS hp.rep.moves hq.rep.moves hp.is hp.fails hq.is) fun w v o => by
    simp only [Texts.pull, lead_map], C63_is_or_fails hS hp.rep.moves hq.rep.moves hp.fails hq.fails⟩

theorem known_optional (hS : S.Lawful) {p : Parser S σ α} (hp : Known f P G p) :
    Known f (fun w v o => (∃ x, v = some x ∧ P w x o) ∨ v = none ∧ w = [] ∧ G o) (fun _ => False) (optional p) :=
  ⟨repeatable_optional hS hp.rep, C63_is_iff (C63_is_optional hS hp.rep.moves hp.is hp.fails) fun w v o => by
    simp [Texts.pull], C63_is_optional_fails hS hp.rep.moves⟩

theorem known_many (hS : S.Lawful) {p : Parser S σ α} (hp : Known f P G p) (hP : ∀ v o, ¬ P [] v o) :
    Known f (fun w vs o => Texts.Many P w vs o ∧ G o) (fun _ => False) (many p) :=
  ⟨repeatable_many hS hp.rep, C63_is_iff (C63_is_many hS hp.rep.moves hp.rep.reusable (consuming_of hp.is hP) hp.is hp.fails)
    fun w v o => by rw [pull_many]; rfl, C63_is_many_fails hS hp.rep.moves hp.rep.reusable (consuming_of hp.is hP)⟩

theorem known_skip_many (hS : S.Lawful) {p : Parser S σ α} (hp : Known f P G p) (hP : ∀ v o, ¬ P [] v o) :
    Known f (fun w _ o => (∃ vs, Texts.Many P w vs o) ∧ G o) (fun _ => False) (skipMany p) :=
  ⟨repeatable_skipMany hS hp.rep, C63_is_iff (C63_is_skip_many hS hp.rep.moves hp.rep.reusable (consuming_of hp.is hP) hp.is hp.fails)
    fun w v o => by simp only [pull_many]; rfl, C63_is_skip_many_fails hS hp.rep.moves hp.rep.reusable (consuming_of hp.is hP)⟩

theorem known_many1 (hS : S.Lawful) {p : Parser S σ α} (hp : Known f P G p) (hP : ∀ v o, ¬ P [] v o) :
    Known f (fun w vs o => Texts.Many P w vs o ∧ vs ≠ [] ∧ G o) G (many1 p) :=
  ⟨repeatable_many1 hS hp.rep, C63_is_iff (C63_is_many1 hS hp.rep.moves hp.rep.reusable (consuming_of hp.is hP) hp.is hp.fails
    (pull_nonempty hP)) fun w v o => by rw [pull_many]; rfl,
    C63_is_many1_fails hS hp.rep.moves hp.rep.reusable (consuming_of hp.is hP) hp.is hp.fails (pull_nonempty hP)⟩

theorem known_skip_many1 (hS : S.Lawful) {p : Parser S σ α} (hp : Known f P G p) (hP : ∀ v o, ¬ P [] v o) :
    Known f (fun w _ o => (∃ vs, Texts.Many P w vs o ∧ vs ≠ []) ∧ G o) G (skipMany1 p) :=
  ⟨repeatable_skipMany1 hS hp.rep, C63_is_iff (C63_is_skip_many1 hS hp.rep.moves hp.rep.reusable (consuming_of hp.is hP) hp.is
    hp.fails (pull_nonempty hP)) fun w v o => by simp only [pull_many]; rfl,
    C63_is_skip_many1_fails hS hp.rep.moves hp.rep.reusable (consuming_of hp.is hP) hp.is hp.fails (pull_nonempty hP)⟩

theorem known_expected (hS : S.Lawful) {p : Parser S σ α} (hp : Known f P G p) (x : Info S.Tok S.Rng) : Known f P G (expected p x) :=
  ⟨repeatable_expected hS hp.rep x, (C63_is_labels hp.is hp.fails x).1.1, (C63_is_labels hp.is hp.fails x).2.1⟩

theorem known_message (hS : S.Lawful) {p : Parser S σ α} (hp : Known f P G p) (x : Info S.Tok S.Rng) : Known f P G (message p x) := by
  obtain ⟨_, hk⟩ := hp.rep.keeps
  exact ⟨⟨moves_message hS hp.rep.moves x, _, keeps_message hk x⟩, (C63_is_labels hp.is hp.fails x).1.2.1,
    (C63_is_labels hp.is hp.fails x).2.2.1⟩

/-! ## Arrays of one-token parsers -/

private theorem sliceLoop_keeps {Clean : σ → Prop} {all : List (Parser S σ α)} {h : Bool} (before : S.Ckpt) (ps : List (Parser S σ α))
    (hps : ∀ q ∈ ps, Keeps h Clean q) (k l : Nat) (prev : Option (Tracked S.Err)) (i : S.Input) (st st' : Nat × σ)
    (h1 : Clean st.2) (h2 : Clean st'.2) :
    (sliceLoop all true before ps k l prev i st).res = (sliceLoop all true before ps k l prev i st').res ∧
    (sliceLoop all true before ps k l prev i st).inp = (sliceLoop all true before ps k l prev i st').inp ∧
    ((sliceLoop all true before ps k l prev i st).res.kept h = true → Clean (sliceLoop all true before ps k l prev i st).st.2) := by
  induction ps generalizing k l prev i st st' with
  | nil =>
    simp only [sliceLoop]
    cases prev with
    | none => exact ⟨rfl, rfl, fun _ => h1⟩
    | some prev =>
      dsimp only
      split
      · exact ⟨rfl, rfl, fun _ => h1⟩
      · exact ⟨rfl, rfl, fun _ => h1⟩
  | cons p ps ih =>
    have hp := hps p (by simp)
    have ih := ih fun q hq => hps q (by simp [hq])
    simp only [sliceLoop]
    cases S.reset before i with
    | mk e j =>
      cases e with
      | some e => exact ⟨rfl, rfl, fun _ => h1⟩
      | none =>
        dsimp only
        have hs := hp.same _ _ h1 h2 j
        have hk := hp.keep _ h1 j
        have hk' := hp.keep _ h2 j
        revert hs hk hk'
        generalize p.run true j st.2 = o
        generalize p.run true j st'.2 = o'
        obtain ⟨r, j1, u⟩ := o
        obtain ⟨r', j2, u'⟩ := o'
        rintro ⟨hr, hj⟩ hk hk'
        dsimp only at hr hj hk hk'
        subst hr
        subst hj
        cases r with
        | commitOk x => exact ⟨rfl, rfl, fun _ => hk rfl⟩
        | peekOk x => exact ⟨rfl, rfl, fun _ => hk rfl⟩
        | commitErr e => exact ⟨rfl, rfl, hk⟩
        | abort a => exact ⟨rfl, rfl, hk⟩
        | peekErr e =>
          cases prev with
          | none => exact ih _ _ _ _ _ _ (hk rfl) (hk' rfl)
          | some prev =>
            dsimp only
            split
            · exact ih _ _ _ _ _ _ (hk rfl) (hk' rfl)
            · exact ih _ _ _ _ _ _ (hk rfl) (hk' rfl)

theorem keeps_sliceChoice {Clean : σ → Prop} {all : List (Parser S σ α)} {h : Bool} (hps : ∀ q ∈ all, Keeps h Clean q) {init : σ}
    (hi : Clean init) : Keeps h (fun st : Nat × σ => Clean st.2) (sliceChoice all init) :=
  ⟨hi, fun s s' h1 h2 i => by
    have := sliceLoop_keeps (S.checkpoint i) all hps (all := all) 0 0 none i s s' h1 h2
    exact ⟨this.1, this.2.1⟩,
   fun s h1 i hk => (sliceLoop_keeps (S.checkpoint i) all hps (all := all) 0 0 none i s s h1 h1).2.2 hk⟩

/-- Two one-token parsers in an array. -/
theorem known_two {p q : Parser S Unit α} {g h : T → Option α} (hS : S.Lawful) (hp : Moves p) (hq : Moves q)
    (h1 : ∀ i, S.IsOne (fun t => g (f t)) i (p.shape i)) (h2 : ∀ i, S.IsOne (fun t => h (f t)) i (q.shape i)) :
    Known f (fun w v _ => ∃ b, w = [b] ∧ (g b).or (h b) = some v) (fun o => ∀ b, o = some b → (g b).or (h b) = none)
      (sliceChoice [p, q] ()) ∧
    ∀ i, S.IsOne (fun t => (g (f t)).or (h (f t))) i ((sliceChoice [p, q] ()).shape i) := by
  have hm : ∀ r ∈ [p, q], Moves r := by simp [hp, hq]
  have hk : ∀ r ∈ [p, q], Keeps false (fun _ => True) r := fun r _ => keeps_unit (h := false) r
  have hone : ∀ i, S.IsOne (fun t => (g (f t)).or (h (f t))) i ((sliceChoice [p, q] ()).shape i) := by
    intro i
    have e : (sliceChoice [p, q] ()).shape i = orSem p.shape q.shape i := by
      have := C03_slice hS (Clean := fun _ => True) (init := ()) [p, q]
        (fun r hr => ⟨hm r hr, (hk r hr).reusableIn⟩) trivial i
      simp only [Parser.shape, this, orSem, List.map_cons, List.map_nil, Ref.choice]
      cases p.answer i <;> simp only <;> (try rfl)
      cases q.answer i <;> rfl
    rw [e]
    simp only [orSem]
    rcases h1 i with ⟨t, j, hu, ha⟩ | ⟨he, ha⟩
    · rcases h2 i with ⟨t', j', hu', ha'⟩ | ⟨he', _⟩
      · rw [hu] at hu'
        cases hu'
        refine .inl ⟨t, j, hu, ?_⟩
        rw [ha, ha']
        dsimp only
        cases hg : g (f t) with
        | none =>
          simp only [Option.none_or]
        | some v => simp only [Option.some_or]
      · obtain ⟨e, he'⟩ := he'
        rw [hu] at he'
        cases he'
    · refine .inr ⟨he, ?_⟩
      rcases h2 i with ⟨t', j', hu', ha'⟩ | ⟨he', ha'⟩
      · obtain ⟨e, he⟩ := he
        rw [hu'] at he
        cases he
      · rw [ha, ha']
        by_cases hx : S.isPartial i = true <;> simp [hx]
  have hmv : Moves (sliceChoice [p, q] ()) := moves_sliceChoice hS _ hm ()
  refine ⟨⟨⟨hmv, _, keeps_sliceChoice hk trivial⟩, ?_, ?_⟩, hone⟩
  · refine C63_is_iff (C63_is_one hone) fun w v o => ?_
    constructor
    · rintro ⟨t, rfl, h⟩
      exact ⟨f t, rfl, h⟩
    · rintro ⟨b, h1, h2⟩
      obtain ⟨t, rfl, rfl⟩ := List.map_eq_singleton_iff.1 h1
      exact ⟨t, rfl, h2⟩
  · refine C63_fails_iff (C63_is_one_fails hone) fun o => ?_
    cases o <;> simp

end Verif
