import Verif.Props.Alike
import Verif.Props.Iterate
import Verif.Props.Escaped
import Verif.Props.SkipUntilChunks

/-!
# C54: more combinators over two streams: `choice`, the `skip_` repetitions, `and_then`, `iterate`, `skip_until`, `escaped`
-/

namespace Verif

variable {S S' : Strm} {σ σ' τ τ' α α' β β' : Type}
variable {R : S.Input → S'.Input → Prop} {V : α → α' → Prop} {W : β → β' → Prop}

private theorem mem_moves {ps : Alts S α τ} {qs : Alts S' α' τ'} (h : AltsAlike R V ps qs) :
    (∀ q, ps.Mem q → Moves q.2) ∧ ∀ q, qs.Mem q → Moves q.2 := by
  induction h with
  | last h1 h2 _ =>
    exact ⟨fun q hq => by cases hq; exact h1, fun q hq => by cases hq; exact h2⟩
  | cons h1 h2 _ _ ih =>
    refine ⟨fun q hq => ?_, fun q hq => ?_⟩
    · rcases hq with rfl | hq
      · exact h1
      · exact ih.1 q hq
    · rcases hq with rfl | hq
      · exact h2
      · exact ih.2 q hq

/-- **C54.**  `choice` of a tuple of alternatives. -/
theorem C54_choice (hS : S.Lawful) (hS' : S'.Lawful) {ps : Alts S α τ} {qs : Alts S' α' τ'} (h : AltsAlike R V ps qs) :
    Alike R V (choice ps) (choice qs) := by
  intro i j hr
  have hm := mem_moves h
  have e : (choice ps).shape i = (Ref.choice ps.answers i).shape :=
    congrArg Answer.shape (C03_choice hS hm.1 true _ (.inl rfl) i).1
  have e' : (choice qs).shape j = (Ref.choice qs.answers j).shape :=
    congrArg Answer.shape (C03_choice hS' hm.2 true _ (.inl rfl) j).1
  rw [e, e']
  clear e e' hm
  induction h with
  | @last σ τ p q _ _ h1 =>
    have h := h1 i j hr
    simp only [Alts.answers, Ref.choice]
    simp only [Parser.shape] at h
    cases h2 : p.answer i <;> cases h3 : q.answer j <;> rw [h2, h3] at h <;> first | exact h.elim | exact h
  | @cons σ τ σ' τ' p q ps qs _ _ h1 _ ih =>
    have h := h1 i j hr
    simp only [Alts.answers, Ref.choice]
    simp only [Parser.shape] at h
    cases h2 : p.answer i <;> cases h3 : q.answer j <;> rw [h2, h3] at h <;> first | exact h.elim | exact ih | exact h

private theorem alike_forget {I J : Type} {R : I → J → Prop} {a : Answer I Unit α} {b : Answer J Unit α'} {X : α → α' → Prop}
    (h : a.Alike R X b) : (a.map fun _ => ()).Alike R (fun _ _ => True) (b.map fun _ => ()) := by
  cases a <;> cases b <;> first | exact h.elim | exact h | exact ⟨h.1, trivial, h.2.2⟩

/-- **C54.**  `skip_many` and `skip_many1`. -/
theorem C54_skip_many (hS : S.Lawful) (hS' : S'.Lawful) {p : Parser S σ α} {p' : Parser S' σ' α'} (hp : Alike R V p p')
    (hm : Moves p) (hm' : Moves p') (hr : Reusable p) (hr' : Reusable p') (hc : Consuming p) (hc' : Consuming p') :
    Alike R (fun _ _ => True) (skipMany p) (skipMany p') ∧ Alike R (fun _ _ => True) (skipMany1 p) (skipMany1 p') := by
  have e : ∀ {S : Strm} {σ α : Type} {p : Parser S σ α}, S.Lawful → Moves p → Reusable p → Consuming p → ∀ i,
      (skipMany p).shape i = ((many p).shape i).map fun _ => () := by
    intro S σ α p hS hm hr hc i
    obtain ⟨a, h1, h2⟩ := C07_skip_many hS hm hr hc i
    simp only [Parser.shape]
    rw [h2, C07_unique h1 (C07_many hS hm hr hc i)]
    cases (many p).answer i <;> rfl
  have e1 : ∀ {S : Strm} {σ α : Type} {p : Parser S σ α}, S.Lawful → Moves p → Reusable p → Consuming p → ∀ i,
      (skipMany1 p).shape i = ((many1 p).shape i).map fun _ => () := by
    intro S σ α p hS hm hr hc i
    obtain ⟨a, h1, h2⟩ := C08_skip_many1 hS hm hr hc i
    have h3 := C08_many1 hS hm hr hc i
    have h4 : a = (many1 p).answer i := by
      revert h1 h3
      simp only [Ref.IsMany1]
      cases p.answer i with
      | ok c v j => exact C07_unique
      | _ => rintro h h'; rw [h, h']
    simp only [Parser.shape]
    rw [h2, h4]
    cases (many1 p).answer i <;> rfl
  refine ⟨fun i j h => ?_, fun i j h => ?_⟩
  · rw [e hS hm hr hc, e hS' hm' hr' hc']
    exact alike_forget (C54_many hS hS' hp hm hm' hr hr' hc hc' i j h)
  · rw [e1 hS hm hr hc, e1 hS' hm' hr' hc']
    exact alike_forget (C54_many1 hS hS' hp hm hm' hr hr' hc hc' i j h)

/-- **C54.**  `count`, `skip_count` and `skip_count_min_max`. -/
theorem C54_skip_count (hS : S.Lawful) (hS' : S'.Lawful) {p : Parser S σ α} {p' : Parser S' σ' α'} (hp : Alike R V p p')
    (hm : Moves p) (hm' : Moves p') (hr : Reusable p) (hr' : Reusable p') (n : Nat) :
    Alike R (Each V) (count n p) (count n p') ∧ Alike R (fun _ _ => True) (skipCount n p) (skipCount n p') ∧
    ∀ lo hi, lo ≤ hi → Alike R (fun _ _ => True) (skipCountMinMax lo hi p) (skipCountMinMax lo hi p') := by
  refine ⟨fun i j h => ?_, fun i j h => ?_, fun lo hi hl i j h => ?_⟩
  · exact alike_isCount hp h (C09_count hS hm hr n i) (C09_count hS' hm' hr' n j)
  · obtain ⟨a, h1, h2⟩ := C09_skip_count hS hm hr n i
    obtain ⟨b, h3, h4⟩ := C09_skip_count hS' hm' hr' n j
    rw [h2, h4]
    exact alike_forget (alike_isCount hp h h1 h3)
  · obtain ⟨a, h1, h2⟩ := C09_skip_count_min_max hS hm hr lo hi hl i
    obtain ⟨b, h3, h4⟩ := C09_skip_count_min_max hS' hm' hr' lo hi hl j
    rw [h2, h4]
    exact alike_forget (alike_isCount hp h h1 h3)

private theorem andThen_shape (hS : S.Lawful) {p : Parser S σ α} (hm : Moves p) (f : α → Except S.SErr β) {i : S.Input}
    (hi : S.isPartial i = false) : (andThen p f).shape i = match p.shape i with
      | .ok c v j => (match f v with
        | .ok y => .ok c y j
        | .error _ => if c then .hard () else .soft)
      | .soft => .soft
      | .hard e => .hard e
      | .abort a => .abort a := by
  have hr := hm.run true i p.init
  revert hr
  simp only [Parser.shape, Parser.answer, Out.answer, andThen, Parser.ofMode]
  generalize p.run true i p.init = o
  obtain ⟨r, j, s⟩ := o
  intro hr
  cases r with
  | commitOk v =>
    have hj : S.isPartial j = false := (hS.reads_isPartial hr.choose_spec).trans hi
    simp only [Answer.of, Answer.shape]
    cases f v <;> simp [hj]
  | peekOk v =>
    have hj : S.isPartial j = false := (hS.reads_isPartial hr.choose_spec).trans hi
    simp only [Answer.of, Answer.shape]
    cases f v <;> simp [hj]
  | commitErr e => rfl
  | peekErr e => rfl
  | abort a => rfl

/-- **C54.**  `and_then`, on complete inputs: of related values both are accepted or both rejected. -/
theorem C54_and_then (hS : S.Lawful) (hS' : S'.Lawful) {p : Parser S σ α} {p' : Parser S' σ' α'} (hp : Alike R V p p')
    (hm : Moves p) (hm' : Moves p') {f : α → Except S.SErr β} {g : α' → Except S'.SErr β'}
    (hf : ∀ v v', V v v' → BothOk W (f v) (g v'))
    (hR : ∀ i j, R i j → S.isPartial i = false ∧ S'.isPartial j = false) : Alike R W (andThen p f) (andThen p' g) := by
  intro i j hr
  rw [andThen_shape hS hm f (hR i j hr).1, andThen_shape hS' hm' g (hR i j hr).2]
  have h := hp i j hr
  cases h1 : p.shape i <;> cases h2 : p'.shape j <;> rw [h1, h2] at h <;> try exact h.elim
  · rename_i c v k c' v' k'
    obtain ⟨rfl, h3, h4⟩ := h
    have h5 := hf v v' h3
    dsimp only
    cases hx : f v <;> cases hy : g v' <;> rw [hx, hy] at h5 <;> try exact h5.elim
    · cases c <;> trivial
    · exact ⟨rfl, h5, h4⟩
  · trivial
  · trivial
  · exact h

/-- **C54.**  `iterate`: parsers chosen by a list of items. -/
theorem C54_iterate {J J' : Type} (hS : S.Lawful) (hS' : S'.Lawful) {f : J → S.Input → Parser S σ α}
    {g : J' → S'.Input → Parser S' σ' α'} (hm : ∀ x i, Moves (f x i)) (hm' : ∀ x i, Moves (g x i)) {Clean : σ → Prop}
    {Clean' : σ' → Prop} (hk : ∀ x i, ReusableIn Clean (f x i)) (hk' : ∀ x i, ReusableIn Clean' (g x i)) {init : σ}
    {init' : σ'} (hi : Clean init) (hi' : Clean' init') {Q : J → J' → Prop}
    (hfg : ∀ x y i j, Q x y → R i j → ((f x i).shape i).Alike R V ((g y j).shape j)) {xs : List J} {ys : List J'}
    (h : Each Q xs ys) : Alike R (Each V) (iterate xs f init) (iterate ys g init') := by
  intro i j hr
  rw [C45_iterate hS hm hk xs init hi, C45_iterate hS' hm' hk' ys init' hi']
  induction h generalizing i j with
  | nil => exact ⟨rfl, .nil, hr⟩
  | @cons x y xs ys h1 _ ih =>
    have h := hfg x y i j h1 hr
    simp only [Ref.iterate, Ref.bind]
    cases h2 : (f x i).shape i <;> cases h3 : (g y j).shape j <;> rw [h2, h3] at h <;> try exact h.elim
    · obtain ⟨rfl, h4, h5⟩ := h
      exact alike_after (alike_map (ih _ _ h5) fun _ _ h => .cons h4 h)
    · trivial
    · trivial
    · exact h

/-! ## Until, and escapes -/

section Until

variable {T : Type} {rd : S.Tok → T} {rd' : S'.Tok → T} {b : Bool} {X : α → α' → Prop}

/-- **C54.**  `skip_until`. -/
theorem C54_skip_until (hS : S.Lawful) (hS' : S'.Lawful) {e : Parser S τ β} {e' : Parser S' τ' β'}
    (he : Alike (Same rd rd' b) W e e') (hm : Moves e) (hm' : Moves e') (hr : Reusable e) (hr' : Reusable e') :
    Alike (Same rd rd' b) (fun _ _ => True) (skipUntil e) (skipUntil e') := fun i i' h => by
  rw [C33_skip_until, C33_skip_until]
  exact alike_forget (C54_take_until hS hS' he hm hm' hr hr' i i' h)

/-- **C54.**  `repeat_skip_until`. -/
theorem C54_repeat_skip_until (hS : S.Lawful) (hS' : S'.Lawful) {p : Parser S σ α} {p' : Parser S' σ' α'} {e : Parser S τ β}
    {e' : Parser S' τ' β'} (hp : Alike R V p p') (he : Alike R W e e') (hm : Moves p) (hm' : Moves p') (hme : Moves e)
    (hme' : Moves e') (hr : Reusable p) (hr' : Reusable p') (hre : Reusable e) (hre' : Reusable e') (hc : Consuming p)
    (hc' : Consuming p') : Alike R (fun _ _ => True) (repeatSkipUntil p e) (repeatSkipUntil p' e') := fun i i' h => by
  rw [C33_repeat_skip_until, C33_repeat_skip_until]
  exact alike_forget (C54_repeat_until hS hS' hp he hm hm' hme hme' hr hr' hre hre' hc hc' i i' h)

private theorem same_cases (hS : S.Lawful) (hS' : S'.Lawful) {i : S.Input} {i' : S'.Input} (h : Same rd rd' b i i') :
    (S.AtEnd i ∧ S'.AtEnd i') ∨ ∃ t j t' j', S.uncons i = (.ok t, j) ∧ S'.uncons i' = (.ok t', j') ∧ rd t = rd' t' ∧
      Same rd rd' b j j' := by
  obtain ⟨hp, hp', _, ⟨us, k, h1, h2, rfl⟩, ⟨us', k', h1', h2', h3⟩⟩ := h
  cases h1 with
  | nil =>
    simp only [List.map_nil, List.flatMap_nil, List.map_eq_nil_iff] at h3
    subst h3
    cases h1'
    exact .inl ⟨h2, h2'⟩
  | @cons _ j _ t ts hu hr =>
    cases us' with
    | nil => simp at h3
    | cons t' ts' =>
      simp only [List.map_cons, List.flatMap_cons, List.cons_append, List.nil_append, List.cons.injEq] at h3
      obtain ⟨j', h4, h5⟩ := Strm.reads_cons.1 h1'
      exact .inr ⟨t, j, t', j', hu, h4, h3.1.symm, (hS.isPartial hu).trans hp, (hS'.isPartial h4).trans hp',
        _, ⟨ts, k, hr, h2, rfl⟩, ⟨ts', k', h5, h2', h3.2⟩⟩

/-- Where `escaped` stops there is neither an ordinary part nor an escape sequence. -/
private def Stop {S : Strm} {α β : Type} (p : Sem S.Input Unit α) (esc : S.Tok) (q : Sem S.Input Unit β) (k : S.Input) : Prop :=
  (∀ c v j, p k ≠ .ok c v j) ∧ ∀ j, p k = .soft → S.uncons k = (.ok esc, j) → ∀ c v l, q j ≠ .ok c v l

private theorem isEscaped_stop [DecidableEq S.Tok] {p : Sem S.Input Unit α} {esc : S.Tok} {q : Sem S.Input Unit β} {i : S.Input}
    {a : Answer S.Input Unit Unit} (h : S.IsEscaped p esc q i a) :
    ∃ c k, S.Escapes p esc q i c k ∧ Stop p esc q k ∧
      ((∃ x, p k = .hard x ∧ a = .hard x) ∨ (∃ x, p k = .abort x ∧ a = .abort x) ∨
       (p k = .soft ∧ S.AtEnd k ∧ a = if S.isPartial (S.uncons k).2 then .hard () else .ok c () k) ∨
       (p k = .soft ∧ ∃ t j, S.uncons k = (.ok t, j) ∧ t ≠ esc ∧ a = .ok c () k) ∨
       (p k = .soft ∧ ∃ j, S.uncons k = (.ok esc, j) ∧
         (((q j = .soft ∨ q j = .hard ()) ∧ a = .hard ()) ∨ ∃ x, q j = .abort x ∧ a = .abort x))) := by
  obtain ⟨c, k, h1, h2⟩ := h
  refine ⟨c, k, h1, ?_⟩
  cases hp : p k with
  | ok _ _ _ => rw [hp] at h2; exact h2.elim
  | hard x =>
    rw [hp] at h2
    exact ⟨⟨fun _ _ _ h => (by rw [hp] at h; cases h), fun _ h => (by rw [hp] at h; cases h)⟩, .inl ⟨x, rfl, h2⟩⟩
  | abort x =>
    rw [hp] at h2
    exact ⟨⟨fun _ _ _ h => (by rw [hp] at h; cases h), fun _ h => (by rw [hp] at h; cases h)⟩, .inr (.inl ⟨x, rfl, h2⟩)⟩
  | soft =>
    rw [hp] at h2
    dsimp only at h2
    obtain ⟨r, j, hu⟩ : ∃ r j, S.uncons k = (r, j) := ⟨_, _, rfl⟩
    rw [hu] at h2
    cases r with
    | error e =>
      refine ⟨⟨fun _ _ _ h => (by rw [hp] at h; cases h), fun j _ h => (by rw [hu] at h; cases h)⟩,
        .inr (.inr (.inl ⟨rfl, ⟨e, by rw [hu]⟩, by rw [hu]; exact h2⟩))⟩
    | ok t =>
      dsimp only at h2
      by_cases ht : t = esc
      · rw [if_pos ht] at h2
        subst ht
        refine ⟨⟨fun _ _ _ h => (by rw [hp] at h; cases h), fun j' _ h c v l hq => ?_⟩,
          .inr (.inr (.inr (.inr ⟨rfl, j, hu, ?_⟩)))⟩
        · rw [hu] at h
          cases h
          rw [hq] at h2
          exact h2
        · cases hq : q j with
          | ok _ _ _ => rw [hq] at h2; exact h2.elim
          | soft => rw [hq] at h2; exact .inl ⟨.inl rfl, h2⟩
          | hard x => rw [hq] at h2; exact .inl ⟨.inr rfl, h2⟩
          | abort x => rw [hq] at h2; exact .inr ⟨x, rfl, h2⟩
      · rw [if_neg ht] at h2
        exact ⟨⟨fun _ _ _ h => (by rw [hp] at h; cases h), fun j _ h => (by rw [hu] at h; cases h; exact absurd rfl ht)⟩,
          .inr (.inr (.inr (.inl ⟨rfl, t, j, hu, ht, h2⟩)))⟩

private theorem escapes_alike (hS : S.Lawful) (hS' : S'.Lawful) {p : Sem S.Input Unit α} {p' : Sem S'.Input Unit α'}
    {q : Sem S.Input Unit β} {q' : Sem S'.Input Unit β'} (hp : SemAlike (Same rd rd' b) V p p')
    (hq : SemAlike (Same rd rd' b) W q q') {esc : S.Tok} {esc' : S'.Tok}
    (hesc : ∀ t t', rd t = rd' t' → (t = esc ↔ t' = esc')) {i k : S.Input} {i' k' : S'.Input} {c c' : Bool}
    (h : Same rd rd' b i i') (h1 : S.Escapes p esc q i c k) (h2 : Stop p esc q k) (h1' : S'.Escapes p' esc' q' i' c' k')
    (h2' : Stop p' esc' q' k') : c = c' ∧ Same rd rd' b k k' := by
  induction h1 generalizing i' c' with
  | nil i =>
    cases h1' with
    | nil => exact ⟨rfl, h⟩
    | plain h3 _ =>
      have h4 := hp _ _ h
      rw [h3] at h4
      cases hx : p i <;> rw [hx] at h4 <;> try exact h4.elim
      exact absurd hx (h2.1 _ _ _)
    | escape h3 h4 h5 _ =>
      have h6 := hp _ _ h
      rw [h3] at h6
      cases hx : p i <;> rw [hx] at h6 <;> try exact h6.elim
      rcases same_cases hS hS' h with ⟨_, ⟨e, he⟩⟩ | ⟨t, j, t', j', h7, h8, h9, h10⟩
      · rw [h4] at he; cases he
      · cases h4.symm.trans h8
        obtain rfl := (hesc _ _ h9).2 rfl
        have h11 := hq _ _ h10
        rw [h5] at h11
        cases hy : q j <;> rw [hy] at h11 <;> try exact h11.elim
        exact absurd hy (h2.2 j hx h7 _ _ _)
  | @plain i j k c d v h3 _ ih =>
    have h4 := hp _ _ h
    rw [h3] at h4
    cases h1' with
    | nil =>
      cases hx : p' k' <;> rw [hx] at h4 <;> try exact h4.elim
      exact absurd hx (h2'.1 _ _ _)
    | plain h5 h6 =>
      rw [h5] at h4
      obtain ⟨rfl, _, h7⟩ := h4
      obtain ⟨rfl, h8⟩ := ih h7 h2 h6
      exact ⟨rfl, h8⟩
    | escape h5 _ _ _ => rw [h5] at h4; exact h4.elim
  | @escape i j k l c d v h3 h4 h5 _ ih =>
    have h6 := hp _ _ h
    rw [h3] at h6
    rcases same_cases hS hS' h with ⟨⟨e, he⟩, _⟩ | ⟨t, j2, t', j', h7, h8, h9, h10⟩
    · rw [h4] at he; cases he
    · cases h4.symm.trans h7
      obtain rfl := (hesc _ _ h9).1 rfl
      have h11 := hq _ _ h10
      rw [h5] at h11
      cases h1' with
      | nil =>
        cases hx : p' k' <;> rw [hx] at h6 <;> try exact h6.elim
        cases hy : q' j' <;> rw [hy] at h11 <;> try exact h11.elim
        exact absurd hy (h2'.2 j' hx h8 _ _ _)
      | plain h12 _ => rw [h12] at h6; exact h6.elim
      | escape h12 h13 h14 h15 =>
        cases h8.symm.trans h13
        rw [h14] at h11
        obtain ⟨_, h16⟩ := ih h11.2.2 h2 h15
        exact ⟨rfl, h16⟩

/-- **C54.**  `escaped`: when the escape tokens correspond. -/
theorem C54_escaped [DecidableEq S.Tok] [DecidableEq S'.Tok] (hS : S.Lawful) (hS' : S'.Lawful) {p : Parser S σ α}
    {p' : Parser S' σ' α'} {q : Parser S τ β} {q' : Parser S' τ' β'} (hp : Alike (Same rd rd' b) V p p')
    (hq : Alike (Same rd rd' b) W q q') (hm : Moves p) (hm' : Moves p') (hmq : Moves q) (hmq' : Moves q') (hh : Coherent p)
    (hh' : Coherent p') (hhq : Coherent q) (hhq' : Coherent q') (hc : Consuming p) (hc' : Consuming p') (hst : Stays p)
    (hst' : Stays p') (hqc : Commits q) (hqc' : Commits q') {esc : S.Tok} {esc' : S'.Tok}
    (hesc : ∀ t t', rd t = rd' t' → (t = esc ↔ t' = esc')) :
    Alike (Same rd rd' b) (fun _ _ => True) (escaped p esc q) (escaped p' esc' q') := by
  intro i i' h
  obtain ⟨c, k, h1, h2, h3⟩ := isEscaped_stop (C42_escaped hS hm hmq hh hhq hc hst hqc esc i)
  obtain ⟨c', k', h1', h2', h3'⟩ := isEscaped_stop (C42_escaped hS' hm' hmq' hh' hhq' hc' hst' hqc' esc' i')
  obtain ⟨rfl, h4⟩ := escapes_alike hS hS' hp hq hesc h h1 h2 h1' h2'
  have nend : ∀ t' j', S.AtEnd k → S'.uncons k' = (.ok t', j') → False := by
    rintro t' j' ⟨e, he⟩ hu
    rcases same_cases hS hS' h4 with ⟨_, ⟨e', he'⟩⟩ | ⟨_, _, _, _, g1, _⟩
    · rw [hu] at he'; cases he'
    · rw [g1] at he; cases he
  have nend' : ∀ t j, S'.AtEnd k' → S.uncons k = (.ok t, j) → False := by
    rintro t j ⟨e, he⟩ hu
    rcases same_cases hS hS' h4 with ⟨⟨e', he'⟩, _⟩ | ⟨_, _, _, _, _, g1, _⟩
    · rw [hu] at he'; cases he'
    · rw [g1] at he; cases he
  have tok : ∀ {t j t' j'}, S.uncons k = (.ok t, j) → S'.uncons k' = (.ok t', j') →
      (t = esc ↔ t' = esc') ∧ Same rd rd' b j j' := by
    intro t j t' j' hu hu'
    rcases same_cases hS hS' h4 with ⟨⟨e, he⟩, _⟩ | ⟨_, _, _, _, g1, g2, g3, g4⟩
    · rw [hu] at he; cases he
    · cases hu.symm.trans g1
      cases hu'.symm.trans g2
      exact ⟨hesc _ _ g3, g4⟩
  have h5 := hp _ _ h4
  rcases h3 with ⟨x, e1, e2⟩ | ⟨x, e1, e2⟩ | ⟨e1, e3, e2⟩ | ⟨e1, t, j, e3, e4, e2⟩ | ⟨e1, j, e3, e2⟩ <;>
    rcases h3' with ⟨x', f1, f2⟩ | ⟨x', f1, f2⟩ | ⟨f1, f3, f2⟩ | ⟨f1, t', j', f3, f4, f2⟩ | ⟨f1, j', f3, f2⟩ <;>
    rw [e1, f1] at h5 <;> try exact h5.elim
  · rw [e2, f2]; trivial
  · rw [e2, f2]; exact h5
  · obtain ⟨er, he⟩ := e3
    obtain ⟨fr, hf⟩ := f3
    have he' : S.uncons k = (.error er, (S.uncons k).2) := Prod.ext he rfl
    have hf' : S'.uncons k' = (.error fr, (S'.uncons k').2) := Prod.ext hf rfl
    rw [e2, f2, hS.uncons_error he', hS'.uncons_error hf', h4.1, h4.2.1]
    cases b
    · exact ⟨rfl, trivial, h4⟩
    · trivial
  · exact (nend _ _ e3 f3).elim
  · exact (nend _ _ e3 f3).elim
  · exact (nend' _ _ f3 e3).elim
  · rw [e2, f2]; exact ⟨rfl, trivial, h4⟩
  · exact absurd ((tok e3 f3).1.2 rfl) e4
  · exact (nend' _ _ f3 e3).elim
  · exact absurd ((tok e3 f3).1.1 rfl) f4
  · have h6 := hq _ _ (tok e3 f3).2
    rcases e2 with ⟨e4 | e4, e2⟩ | ⟨x, e4, e2⟩ <;> rcases f2 with ⟨f4 | f4, f2⟩ | ⟨x', f4, f2⟩ <;>
      rw [e4, f4] at h6 <;> rw [e2, f2] <;> first | exact h6.elim | trivial | exact h6

end Until

/-! ## Examples -/

private abbrev A := sliceS Nat 1
private abbrev Q := sliceS Nat 4

private theorem one_alike (t : Nat) : Alike (S := A) (S' := Q) (Written id id (fun t => [t]) false) (fun x y => x = y)
    (token A t) (token Q t) :=
  C54_one (f := fun x => if x = t then some x else none) (g := fun x => if x = t then some x else none)
    (slice_lawful Nat 1) (slice_lawful Nat 4)
    (fun u => ⟨u, [], rfl, by by_cases h : u = t <;> simp [h, Both], fun _ => rfl⟩)
    (C53_token (slice_lawful Nat 1) t) (C53_token (slice_lawful Nat 4) t)

/-- `(1 | 2)*` skipped, over slices of tokens of different sizes. -/
example : Alike (S := A) (S' := Q) (Written id id (fun t => [t]) false) (fun _ _ => True)
    (skipMany (or (token A 1) (token A 2))) (skipMany (or (token Q 1) (token Q 2))) :=
  have hA := slice_lawful Nat 1
  have hQ := slice_lawful Nat 4
  (C54_skip_many hA hQ (C54_or hA hQ (one_alike 1) (one_alike 2) (moves_token hA 1) (moves_token hQ 1) (moves_token hA 2)
      (moves_token hQ 2)) (moves_or hA (moves_token hA 1) (moves_token hA 2)) (moves_or hQ (moves_token hQ 1) (moves_token hQ 2))
    (keeps_or (h := false) _ _).reusable (keeps_or (h := false) _ _).reusable
    (consuming_or hA (moves_token hA 1) (moves_token hA 2) (consuming_token (S := A) 1) (consuming_token (S := A) 2))
    (consuming_or hQ (moves_token hQ 1) (moves_token hQ 2) (consuming_token (S := Q) 1) (consuming_token (S := Q) 2))).1

/-- A choice whose value is checked: only `2` is taken. -/
example : Alike (S := A) (S' := Q) (Written id id (fun t => [t]) false) (fun x y => x = y)
    (andThen (choice (.cons (token A 1) (.last (token A 2)))) fun t => if t = 2 then .ok t else .error (A.E.message (.static "no")))
    (andThen (choice (.cons (token Q 1) (.last (token Q 2)))) fun t => if t = 2 then .ok t else .error (Q.E.message (.static "no"))) := by
  have hA := slice_lawful Nat 1
  have hQ := slice_lawful Nat 4
  refine C54_and_then hA hQ (C54_choice hA hQ (.cons (moves_token hA 1) (moves_token hQ 1) (one_alike 1)
    (.last (moves_token hA 2) (moves_token hQ 2) (one_alike 2)))) ?_ ?_ ?_ fun i j h => ⟨h.1, h.2.1⟩
  · refine moves_choice hA fun q hq => ?_
    rcases hq with rfl | rfl
    · exact moves_token hA 1
    · exact moves_token hA 2
  · refine moves_choice hQ fun q hq => ?_
    rcases hq with rfl | rfl
    · exact moves_token hQ 1
    · exact moves_token hQ 2
  · rintro v _ rfl
    by_cases h : v = 2 <;> simp [h, BothOk]

private abbrev RA := sliceR Nat 1
private abbrev RQ := sliceR Nat 4

private theorem any_commits (sz : Nat) : Commits (any (sliceS Nat sz)) := by
  intro i c v j h
  obtain ⟨ptr, data⟩ := i
  cases data <;> cases h
  rfl

private theorem any_alike : Alike (S := A) (S' := Q) (Same id id false) (fun x y => x = y) (any A) (any Q) :=
  C54_one (f := some) (g := some) (slice_lawful Nat 1) (slice_lawful Nat 4) (fun u => ⟨u, [], rfl, rfl, fun _ => rfl⟩)
    (C53_any (slice_lawful Nat 1)) (C53_any (slice_lawful Nat 4))

/-- Text up to `8` in which `9` escapes. -/
example : Alike (S := A) (S' := Q) (Same id id false) (fun _ _ => True)
    (escaped (takeWhile1 RA fun t => t != 9 && t != 8) 9 (any A)) (escaped (takeWhile1 RQ fun t => t != 9 && t != 8) 9 (any Q)) :=
  C54_escaped (slice_lawful _ _) (slice_lawful _ _)
    (C54_take_while1 (f := fun t => t != 9 && t != 8) (g := fun t => t != 9 && t != 8) (slice_lawful _ _) (slice_lawful _ _)
      (sliceR_lawful _ _) (sliceR_lawful _ _) (slice_endsOnly _ _) (slice_endsOnly _ _) (covers_same _))
    any_alike
    (Built.moves (R := RA) (slice_lawful _ _) (sliceR_lawful _ _) (.takeWhile1 _))
    (Built.moves (R := RQ) (slice_lawful _ _) (sliceR_lawful _ _) (.takeWhile1 _))
    (Built.moves (R := RA) (slice_lawful _ _) (sliceR_lawful _ _) .any)
    (Built.moves (R := RQ) (slice_lawful _ _) (sliceR_lawful _ _) .any)
    (Built.coherent (R := RA) (slice_lawful _ _) (sliceR_lawful _ _) (.takeWhile1 _))
    (Built.coherent (R := RQ) (slice_lawful _ _) (sliceR_lawful _ _) (.takeWhile1 _))
    (Built.coherent (R := RA) (slice_lawful _ _) (sliceR_lawful _ _) .any)
    (Built.coherent (R := RQ) (slice_lawful _ _) (sliceR_lawful _ _) .any)
    (consuming_takeWhile1 (slice_lawful _ _) (sliceR_lawful _ _) (slice_endsOnly _ _) _)
    (consuming_takeWhile1 (slice_lawful _ _) (sliceR_lawful _ _) (slice_endsOnly _ _) _)
    (stays_takeWhile1 (slice_lawful _ _) (sliceR_lawful _ _) _) (stays_takeWhile1 (slice_lawful _ _) (sliceR_lawful _ _) _)
    (any_commits 1) (any_commits 4) fun t t' (h : t = t') => by rw [h]

end Verif
