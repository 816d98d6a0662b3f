import Verif.Props.Accepts

/-!
# C63, C60: exactly which texts a parser accepts

One rule per combinator that gives both directions at once.
-/

namespace Verif

variable {S : Strm} {σ τ υ α β γ : Type} {F G H : Option S.Tok → Prop} {L : Texts S.Tok α} {M : Texts S.Tok β}

/-- On complete input a parser that is described succeeds exactly on the texts, with their values. -/
theorem C63_describes {p : Parser S σ α} (h : Describes L p) : Exactly L p := C63_exactly h.back h.only

/-- On complete input a parser fails without commitment exactly where one of `G` comes next. -/
theorem C63_fails {p : Parser S σ α} (h : FailsBy G p) (i : S.Input) (hi : S.isPartial i = false) :
    p.shape i = .soft ↔ G (S.ahead i) := ⟨h.only i, h.back i hi⟩

/-- **C63.**  The same texts, written otherwise. -/
theorem C63_is_iff {p : Parser S σ α} {L' : Texts S.Tok α} (h : Describes L p) (hL : ∀ w v o, L w v o ↔ L' w v o) : Describes L' p :=
  ⟨fun w v => C60_weaken (h.back w v) fun o => (hL w v o).2, C63_mono h.only fun w v o => (hL w v o).1⟩

/-- **C63.**  The same next tokens, written otherwise. -/
theorem C63_fails_iff {p : Parser S σ α} (h : FailsBy G p) (hG : ∀ o, G o ↔ H o) : FailsBy H p :=
  ⟨C60_weaken_decline h.back fun o => (hG o).2, C63_mono_fails h.only fun o => (hG o).1⟩

/-- **C63.**  `value`. -/
theorem C63_is_value (v : α) : Describes (fun w x _ => w = [] ∧ x = v) (value S v) :=
  ⟨by
    intro w x i k h1 h2 ⟨h3, h4⟩
    subst h3
    subst h4
    exact C60_value (F := fun _ => True) x i k h1 h2 trivial, C63_value v⟩

/-- **C63.**  A parser of one token. -/
theorem C63_is_one {p : Parser S σ α} {f : S.Tok → Option α} (h : ∀ i, S.IsOne f i (p.shape i)) :
    Describes (fun w v _ => ∃ t, w = [t] ∧ f t = some v) p := by
  refine ⟨?_, C63_one h⟩
  intro w v i k h1 h2 ⟨t, h3, h4⟩
  subst h3
  exact C60_one (F := fun _ => True) h h4 i k h1 h2 trivial

/-- **C63.**  It fails where no such token comes next. -/
theorem C63_is_one_fails {p : Parser S σ α} {f : S.Tok → Option α} (h : ∀ i, S.IsOne f i (p.shape i)) :
    FailsBy (fun o => ∀ t, o = some t → f t = none) p :=
  ⟨C60_one_declines h fun _ h => h _ rfl, C63_one_fails h⟩

/-- **C63.**  `tokens`, `string`, ... -/
theorem C63_is_tokens {C : Type} {cmp : C → S.Tok → Bool} {cs : List C} {p : Parser S σ α} {v : α}
    (h : ∀ i, S.IsTokens cmp cs v i (p.shape i)) : Describes (fun w x _ => EqualBy cmp cs w ∧ x = v) p := by
  refine ⟨?_, C63_tokens h⟩
  intro w x i k h1 h2 ⟨h3, h4⟩
  subst h4
  exact C60_tokens (F := fun _ => True) h h3 i k h1 h2 trivial

/-- **C63.**  `map`. -/
theorem C63_is_map {p : Parser S σ α} (h : Describes L p) (f : α → β) : Describes (L.map f) (map p f) := by
  refine ⟨?_, C63_map h.only f⟩
  intro w y i k h1 h2 ⟨v, h3, h4⟩
  subst h4
  exact C60_map (h.back w v) f i k h1 h2 h3

/-- **C63.**  `map`. -/
theorem C63_is_map_fails {p : Parser S σ α} (h : FailsBy G p) (f : α → β) : FailsBy G (map p f) :=
  ⟨C60_map_declines h.back f, C63_map_fails h.only f⟩

private theorem back_of {p : Parser S σ α} (h : ∀ w v o, L w v o → Recovers (fun o' => o' = o) p w v) (w : List S.Tok) (v : α) :
    Recovers (fun o => L w v o) p w v := fun i k h1 h2 h3 => h w v _ h3 i k h1 h2 rfl

private theorem back_to {p : Parser S σ α} (h : Describes L p) {w u : List S.Tok} {v : α} {o : Option S.Tok} (hv : L w v (lead u o)) :
    Recovers (Before u fun o' => o' = o) p w v := C60_weaken (h.back w v) fun o' ⟨o'', h1, h2⟩ => by rw [h2, h1]; exact hv

private theorem back_end {p : Parser S σ α} (h : Describes L p) {w : List S.Tok} {v : α} {o : Option S.Tok} (hv : L w v o) :
    Recovers (fun o' => o' = o) p w v := C60_weaken (h.back w v) fun o' h1 => by rw [h1]; exact hv

/-- **C63.**  `with`. -/
theorem C63_is_with (hS : S.Lawful) {p : Parser S σ α} {q : Parser S τ β} (hp : Describes L p) (hq : Describes M q) :
    Describes (L.bind fun _ => M) («with» p q) :=
  ⟨back_of (by
    rintro _ y o ⟨u, z, v, rfl, h1, h2⟩
    exact C60_with hS (back_to hp h1) (back_end hq h2)), C63_with hp.only hq.only⟩

/-- **C63.**  `skip`. -/
theorem C63_is_skip (hS : S.Lawful) {p : Parser S σ α} {q : Parser S τ β} (hp : Describes L p) (hq : Describes M q) :
    Describes (L.bind fun v => M.map fun _ => v) (skip p q) :=
  ⟨back_of (by
    rintro _ _ o ⟨u, z, v, rfl, h1, x, h2, rfl⟩
    exact C60_skip hS (back_to hp h1) (back_end hq h2)), C63_skip hp.only hq.only⟩

/-- **C63.**  `between`. -/
theorem C63_is_between (hS : S.Lawful) {o : Parser S σ α} {c : Parser S υ γ} {p : Parser S τ β} {N : Texts S.Tok γ}
    (ho : Describes L o) (hp : Describes M p) (hc : Describes N c) :
    Describes (L.bind fun _ => M.bind fun v => N.map fun _ => v) (between o c p) :=
  ⟨back_of (by
    rintro _ _ o ⟨u, _, x, rfl, h1, w, z, v, rfl, h2, y, h3, rfl⟩
    exact C60_between hS (back_to ho h1) (back_to hp h2) (back_end hc h3)), C63_between ho.only hp.only hc.only⟩

private theorem seq_back {ps : Seq S τ β} (h : SeqDescribes M ps) {w : List S.Tok} {v : β} {o : Option S.Tok} (hv : M w v o) :
    SeqRecovers (fun o' => o' = o) ps w v := by
  induction h generalizing w o with
  | nil => subst hv; exact .nil
  | cons hp _ ih =>
    obtain ⟨u, z, rfl, h1, h2⟩ := hv
    exact .cons (back_to hp h1) (ih h2)

private theorem seq_only {ps : Seq S τ β} (h : SeqDescribes M ps) : SeqReads M ps := by
  induction h with
  | nil => exact .nil
  | cons hp _ ih => exact .cons hp.only ih

/-- **C63.**  Tuples. -/
theorem C63_is_tuple (hS : S.Lawful) {p : Parser S σ α} {ps : Seq S τ β} (hp : Describes L p) (hs : SeqDescribes M ps) :
    Describes (L.seq M) (tuple p ps) :=
  ⟨back_of (by
    rintro _ _ o ⟨u, z, rfl, h1, h2⟩
    exact C60_tuple hS (back_to hp h1) (seq_back hs h2)), C63_tuple hp.only (seq_only hs)⟩

/-- **C63.**  A sequence whose first part never succeeds on nothing fails where that part does. -/
theorem C63_is_first_fails {p : Parser S σ α} (hp : Describes L p) (hg : FailsBy G p) (hL : ∀ v o, ¬ L [] v o) :
    (∀ {τ β : Type} (q : Parser S τ β), FailsBy G («with» p q)) ∧
    (∀ {τ β : Type} (q : Parser S τ β), FailsBy G (skip p q)) ∧
    (∀ {τ υ β γ : Type} (c : Parser S υ γ) (q : Parser S τ β), FailsBy G (between p c q)) ∧
    (∀ {τ β : Type} (ps : Seq S τ β), FailsBy G (tuple p ps)) := by
  obtain ⟨h1, h2, h3, h4⟩ := C63_first_fails hp.only hg.only hL
  exact ⟨fun q => ⟨C60_with_declines q hg.back, h1 q⟩, fun q => ⟨C60_skip_declines q hg.back, h2 q⟩,
    fun c q => ⟨C60_between_declines c q hg.back, h3 c q⟩, fun ps => ⟨C60_tuple_declines ps hg.back, h4 ps⟩⟩

/-- **C63.**  `then`. -/
theorem C63_is_then (hS : S.Lawful) {p : Parser S σ α} {f : α → Parser S τ β} {n : τ} (hn : ∀ v, (f v).init = n)
    (hc : ∀ v, Coherent (f v)) {M : α → Texts S.Tok β} (hp : Describes L p) (hf : ∀ v, Describes (M v) (f v)) :
    Describes (L.bind M) (thenP p f n) :=
  ⟨back_of (by
    rintro _ y o ⟨u, z, v, rfl, h1, h2⟩
    exact C60_then hS hn hc (back_to hp h1) (back_end (hf v) h2)), C63_then hS hn hc hp.only fun v => (hf v).only⟩

/-- **C63.**  `or`. -/
theorem C63_is_or (hS : S.Lawful) {p : Parser S σ α} {q : Parser S τ α} (hmp : Moves p) (hmq : Moves q) {M : Texts S.Tok α}
    (hp : Describes L p) (hg : FailsBy G p) (hq : Describes M q) :
    Describes (fun w v o => L w v o ∨ G (lead w o) ∧ M w v o) (or p q) :=
  ⟨back_of (by
    rintro w v o (h1 | ⟨h1, h2⟩)
    · exact C60_or_left hS hmp hmq (back_end hp h1)
    · refine C60_or_right hS hmp hmq (C60_weaken_decline hg.back ?_) (back_end hq h2)
      rintro _ ⟨_, rfl, rfl⟩
      exact h1), C63_or hS hmp hmq hp.only hg.only hq.only⟩

/-- **C63.**  `or` fails where both alternatives do. -/
theorem C63_is_or_fails (hS : S.Lawful) {p : Parser S σ α} {q : Parser S τ α} (hmp : Moves p) (hmq : Moves q)
    (hp : FailsBy G p) (hq : FailsBy H q) : FailsBy (fun o => G o ∧ H o) (or p q) :=
  ⟨C60_or_declines hS hmp hmq (C60_weaken_decline hp.back fun _ h => h.1) (C60_weaken_decline hq.back fun _ h => h.2),
    C63_or_fails hS hmp hmq hp.only hq.only⟩

private theorem alts_back {ps : Alts S α τ} (h : AltsDescribe L G ps) {w : List S.Tok} {v : α} {o : Option S.Tok} (hv : L w v o) :
    AltsRecover (fun o' => o' = o) w v ps := by
  induction h with
  | last hp _ => exact .last (back_end hp hv)
  | cons hp hg _ ih =>
    rcases hv with hv | ⟨h1, hv⟩
    · exact .here (back_end hp hv)
    · refine .there (C60_weaken_decline hg.back ?_) (ih hv)
      rintro _ ⟨_, rfl, rfl⟩
      exact h1

private theorem alts_only {ps : Alts S α τ} (h : AltsDescribe L G ps) : AltsRead L ps := by
  induction h with
  | last hp _ => exact .last hp.only
  | cons hp hg _ ih => exact .cons hp.only hg.only ih

private theorem alts_decline {ps : Alts S α τ} (h : AltsDescribe L G ps) (hF : ∀ o, F o → G o) : AltsDecline F ps := by
  induction h with
  | last _ hg => exact C60_weaken_decline hg.back hF
  | cons _ hg _ ih => exact ⟨C60_weaken_decline hg.back fun o h => (hF o h).1, ih fun o h => (hF o h).2⟩

private theorem alts_leaves {ps : Alts S α τ} (h : AltsDescribe L G ps) : Leaves G (fun i => (Ref.choice ps.answers i).shape) := by
  induction h with
  | last _ hg => exact leaves_congr answers_last hg.only
  | cons _ hg _ ih => exact leaves_congr answers_cons (leaves_or hg.only ih)

/-- **C63.**  `choice`. -/
theorem C63_is_choice (hS : S.Lawful) {ps : Alts S α τ} (hm : ∀ q, ps.Mem q → Moves q.2) (h : AltsDescribe L G ps) :
    Describes L (choice ps) :=
  ⟨back_of fun _ _ _ hv => C60_choice hS hm (alts_back h hv), C63_choice hS hm (alts_only h)⟩

/-- **C63.**  `choice` fails where all alternatives do. -/
theorem C63_is_choice_fails (hS : S.Lawful) {ps : Alts S α τ} (hm : ∀ q, ps.Mem q → Moves q.2) (h : AltsDescribe L G ps) :
    FailsBy G (choice ps) :=
  ⟨C60_choice_declines hS hm (alts_decline h fun _ h => h), leaves_congr (shape_choice hS hm) (alts_leaves h)⟩

/-- **C63.**  `optional`. -/
theorem C63_is_optional (hS : S.Lawful) {p : Parser S σ α} (hm : Moves p) (hp : Describes L p) (hg : FailsBy G p) :
    Describes (fun w v o => (∃ x, v = some x ∧ L w x o) ∨ v = none ∧ w = [] ∧ G o) (optional p) :=
  ⟨back_of (by
    rintro w v o (⟨x, rfl, h1⟩ | ⟨rfl, rfl, h1⟩)
    · exact C60_optional_some hS hm (back_end hp h1)
    · exact C60_optional_none hS hm (C60_weaken_decline hg.back fun o h => h ▸ h1)), C63_optional hS hm hp.only hg.only⟩

/-- **C63.**  `optional` never fails. -/
theorem C63_is_optional_fails (hS : S.Lawful) {p : Parser S σ α} (hm : Moves p) : FailsBy (fun _ => False) (optional p) := by
  refine ⟨fun i _ h => h.elim, leaves_congr (shape_optional hS hm) fun i hi => ?_⟩
  simp only [orSem, Ref.map, Ref.value] at hi
  revert hi
  cases p.shape i <;> intro hi <;> cases hi

/-- **C63.**  `attempt`. -/
theorem C63_is_attempt (hS : S.Lawful) {p : Parser S σ α} (hm : Moves p) (hc : Coherent p) (hp : Describes L p) :
    Describes L (attempt p) :=
  ⟨fun w v => C60_attempt hS hm hc (hp.back w v), C63_attempt hc hp.only⟩

private theorem pieces_back {p : Parser S σ α} (hp : Describes L p) {w : List S.Tok} {vs : List α} {o : Option S.Tok}
    (h : Texts.Many L w vs o) : Pieces (fun o' => o' = o) p.shape w vs := by
  induction h with
  | nil => exact .nil
  | cons h1 h2 _ ih => exact .cons h1 (back_to hp h2) ih

/-- **C63.**  `many`. -/
theorem C63_is_many (hS : S.Lawful) {p : Parser S σ α} (hm : Moves p) (hr : Reusable p) (hc : Consuming p) (hp : Describes L p)
    (hg : FailsBy G p) : Describes (fun w vs o => Texts.Many L w vs o ∧ G o) (many p) :=
  ⟨back_of fun _ _ _ h => C60_many hS hm hr hc (pieces_back hp h.1) (C60_weaken_decline hg.back fun _ e => e ▸ h.2),
    C63_many hS hm hr hc hp.only hg.only⟩

/-- **C63.**  `many` never fails without commitment. -/
theorem C63_is_many_fails (hS : S.Lawful) {p : Parser S σ α} (hm : Moves p) (hr : Reusable p) (hc : Consuming p) :
    FailsBy (fun _ => False) (many p) := ⟨fun _ _ h => h.elim, C63_many_fails hS hm hr hc⟩

/-- **C63.**  `skip_many`. -/
theorem C63_is_skip_many (hS : S.Lawful) {p : Parser S σ α} (hm : Moves p) (hr : Reusable p) (hc : Consuming p) (hp : Describes L p)
    (hg : FailsBy G p) : Describes (fun w _ o => (∃ vs, Texts.Many L w vs o) ∧ G o) (skipMany p) :=
  ⟨back_of fun _ _ _ ⟨⟨_, h1⟩, h2⟩ =>
    C60_skip_many hS hm hr hc (pieces_back hp h1) (C60_weaken_decline hg.back fun _ e => e ▸ h2),
    C63_skip_many hS hm hr hc hp.only hg.only⟩

private theorem shape_skip_many (hS : S.Lawful) {p : Parser S σ α} (hm : Moves p) (hr : Reusable p) (hc : Consuming p) (i : S.Input) :
    (skipMany p).shape i = Ref.map (many p).shape (fun _ => ()) i := by
  obtain ⟨b, h1, h2⟩ := C07_skip_many hS hm hr hc i
  have h3 := C07_many hS hm hr hc i
  simp only [Parser.shape, Ref.map, h2, C07_unique h1 h3]
  cases (many p).answer i <;> rfl

private theorem shape_skip_many1 (hS : S.Lawful) {p : Parser S σ α} (hm : Moves p) (hr : Reusable p) (hc : Consuming p) (i : S.Input) :
    (skipMany1 p).shape i = Ref.map (many1 p).shape (fun _ => ()) i := by
  obtain ⟨b, h1, h2⟩ := C08_skip_many1 hS hm hr hc i
  have h3 := C08_many1 hS hm hr hc i
  have e : (many1 p).answer i = b := by
    unfold Ref.IsMany1 at h1 h3
    cases hx : p.answer i with
    | ok d v j => rw [hx] at h1 h3; exact C07_unique h3 h1
    | soft => rw [hx] at h1 h3; exact h3.trans h1.symm
    | hard e => rw [hx] at h1 h3; exact h3.trans h1.symm
    | abort e => rw [hx] at h1 h3; exact h3.trans h1.symm
  simp only [Parser.shape, Ref.map, h2, e]
  cases b <;> rfl

/-- **C63.**  `skip_many` never fails without commitment. -/
theorem C63_is_skip_many_fails (hS : S.Lawful) {p : Parser S σ α} (hm : Moves p) (hr : Reusable p) (hc : Consuming p) :
    FailsBy (fun _ => False) (skipMany p) :=
  ⟨fun _ _ h => h.elim, leaves_congr (shape_skip_many hS hm hr hc) (leaves_map (C63_many_fails hS hm hr hc) _)⟩

/-- **C63.**  `many1`. -/
theorem C63_is_many1 (hS : S.Lawful) {p : Parser S σ α} (hm : Moves p) (hr : Reusable p) (hc : Consuming p) (hp : Describes L p)
    (hg : FailsBy G p) (hL : ∀ v o, ¬ L [] v o) : Describes (fun w vs o => Texts.Many L w vs o ∧ vs ≠ [] ∧ G o) (many1 p) :=
  ⟨back_of (by
    rintro w vs o ⟨h1, h2, h3⟩
    cases vs with
    | nil => exact (h2 rfl).elim
    | cons v vs => exact C60_many1 hS hm hr hc (pieces_back hp h1) (C60_weaken_decline hg.back fun _ e => e ▸ h3)),
    C63_many1 hS hm hr hc hp.only hg.only hL⟩

/-- **C63.**  `many1` fails where its parser does. -/
theorem C63_is_many1_fails (hS : S.Lawful) {p : Parser S σ α} (hm : Moves p) (hr : Reusable p) (hc : Consuming p)
    (hp : Describes L p) (hg : FailsBy G p) (hL : ∀ v o, ¬ L [] v o) : FailsBy G (many1 p) :=
  ⟨C60_many1_declines hS hm hr hc hg.back, C63_many1_fails hS hm hr hc hp.only hg.only hL⟩

/-- **C63.**  `skip_many1`. -/
theorem C63_is_skip_many1 (hS : S.Lawful) {p : Parser S σ α} (hm : Moves p) (hr : Reusable p) (hc : Consuming p)
    (hp : Describes L p) (hg : FailsBy G p) (hL : ∀ v o, ¬ L [] v o) :
    Describes (fun w _ o => (∃ vs, Texts.Many L w vs o ∧ vs ≠ []) ∧ G o) (skipMany1 p) := by
  have h := C63_is_many1 hS hm hr hc hp hg hL
  refine ⟨back_of ?_, takes_mono (takes_congr (shape_skip_many1 hS hm hr hc) (takes_map h.only _)) ?_⟩
  · rintro w v o ⟨⟨vs, h1, h2⟩, h3⟩
    exact readsBack_congr (shape_skip_many1 hS hm hr hc) (readsBack_map (back_end h ⟨h1, h2, h3⟩) fun _ => ())
  · rintro w _ o ⟨vs, ⟨h1, h2, h3⟩, _⟩
    exact ⟨⟨vs, h1, h2⟩, h3⟩

/-- **C63.**  `skip_many1` fails where its parser does. -/
theorem C63_is_skip_many1_fails (hS : S.Lawful) {p : Parser S σ α} (hm : Moves p) (hr : Reusable p) (hc : Consuming p)
    (hp : Describes L p) (hg : FailsBy G p) (hL : ∀ v o, ¬ L [] v o) : FailsBy G (skipMany1 p) := by
  have h := C63_is_many1_fails hS hm hr hc hp hg hL
  exact ⟨refuses_congr (shape_skip_many1 hS hm hr hc) (refuses_map h.back _),
    leaves_congr (shape_skip_many1 hS hm hr hc) (leaves_map h.only _)⟩

/-- **C63.**  `sep_by1`: an element, then separators and elements, and no separator comes next. -/
theorem C63_is_sep_by1 (hS : S.Lawful) {Cp : σ → Prop} {Cs : τ → Prop} {p : Parser S σ α} {s : Parser S τ β}
    (hmp : Moves p) (hms : Moves s) (hkp : Keeps false Cp p) (hks : Keeps false Cs s) (hc : Consuming p)
    (hp : Describes L p) (hs : Describes M s) (hg : FailsBy G s) (hM : ∀ v o, ¬ M [] v o) :
    Describes (L.bind fun v => Texts.map (fun w vs o => Texts.Many (M.bind fun _ => L) w vs o ∧ G o) (v :: ·)) (sepBy1 p s) :=
  ⟨back_of (by
    rintro _ _ o ⟨u, z, v, rfl, h1, vs, ⟨h2, h3⟩, rfl⟩
    exact C60_sep_by1 hS hmp hms hkp hks hc (back_to hp h1) (pieces_back (C63_is_with hS hs hp) h2)
      (C60_weaken_decline hg.back fun _ e => e ▸ h3)), C63_sep_by1 hS hmp hms hkp hks hc hp.only hs.only hg.only hM⟩

/-- **C63.**  `sep_by`: that, or nothing where no element comes next. -/
theorem C63_is_sep_by (hS : S.Lawful) {Cp : σ → Prop} {Cs : τ → Prop} {p : Parser S σ α} {s : Parser S τ β}
    (hmp : Moves p) (hms : Moves s) (hkp : Keeps false Cp p) (hks : Keeps false Cs s) (hc : Consuming p)
    (hp : Describes L p) (hs : Describes M s) (hg : FailsBy G s) (hM : ∀ v o, ¬ M [] v o) (hL : ∀ v o, ¬ L [] v o)
    (hf : FailsBy H p) :
    Describes (fun w vs o =>
      (L.bind fun v => Texts.map (fun w vs o => Texts.Many (M.bind fun _ => L) w vs o ∧ G o) (v :: ·)) w vs o ∨
      H o ∧ w = [] ∧ vs = []) (sepBy p s) :=
  ⟨back_of (by
    rintro _ _ o (⟨u, z, v, rfl, h1, vs, ⟨h2, h3⟩, rfl⟩ | ⟨h1, rfl, rfl⟩)
    · exact C60_sep_by hS hmp hms hkp hks hc (back_to hp h1) (pieces_back (C63_is_with hS hs hp) h2)
        (C60_weaken_decline hg.back fun _ e => e ▸ h3)
    · exact C60_sep_by_nil hS hmp hms hkp hks hc (C60_weaken_decline hf.back fun _ e => e ▸ h1)),
    C63_sep_by hS hmp hms hkp hks hc hp.only hs.only hg.only hM hL hf.only⟩

private theorem many_unit {N : Texts S.Tok β} {w : List S.Tok} {vs : List (α × β)} {o : Option S.Tok}
    (h : Texts.Many (L.seq N) w vs o) : Texts.Many (L.seq (N.seq fun w _ _ => w = [])) w (vs.map fun x => (x.1, x.2, ())) o := by
  induction h with
  | nil => exact .nil
  | cons h1 h2 _ ih =>
    refine .cons h1 ?_ ih
    obtain ⟨u, z, rfl, h3, h4⟩ := h2
    exact ⟨u, z, rfl, h3, z, [], by simp, h4, rfl⟩

/-- **C63.**  `chainl1`: operands with operators between them, whose values are combined from the left. -/
theorem C63_is_chainl1 (hS : S.Lawful) {Cp : σ → Prop} {Cs : τ → Prop} {p : Parser S σ α} {s : Parser S τ (α → α → α)}
    (hmp : Moves p) (hms : Moves s) (hkp : Keeps false Cp p) (hks : Keeps false Cs s) (hc : Consuming p) (hst : StartsAnew p)
    {M : Texts S.Tok (α → α → α)} (hp : Describes L p) (hs : Describes M s) (hg : FailsBy G s) (hM : ∀ v o, ¬ M [] v o) :
    Describes (L.bind fun v => Texts.map (fun w vs o => Texts.Many (M.seq L) w vs o ∧ G o)
      (List.foldl (fun l fx => fx.1 l fx.2) v)) (chainl1 p s) :=
  ⟨back_of (by
    rintro _ _ o ⟨u, z, v, rfl, h1, vs, ⟨h2, h3⟩, rfl⟩
    have := C60_chainl1 hS hmp hms hkp hks hc hst (back_to hp h1)
      (pieces_back (C63_is_tuple hS hs (.cons hp .nil)) (many_unit h2)) (C60_weaken_decline hg.back fun _ e => e ▸ h3)
    rw [List.foldl_map] at this
    exact this), C63_chainl1 hS hmp hms hkp hks hc hst hp.only hs.only hg.only hM⟩

/-- **C63.**  `eof`, where only the end of the input is an error. -/
theorem C63_is_eof (hS : S.Lawful) (hE : S.EndsOnly) : Describes (fun w _ o => w = [] ∧ o = none) (eof S) := by
  refine ⟨back_of ?_, C63_eof hS hE⟩
  rintro w v o ⟨rfl, rfl⟩
  exact C60_eof hS hE

/-- **C63.**  Labels and wrappers. -/
theorem C63_is_labels {p : Parser S σ α} (hp : Describes L p) (hg : FailsBy G p) (x : Info S.Tok S.Rng) :
    (Describes L (expected p x) ∧ Describes L (message p x) ∧ Describes L (silent p) ∧
    Describes L (boxed p) ∧ Describes L (opaqueP p) ∧ Describes L (parserMacro p) ∧ Describes L (parserMacroUnit p)) ∧
    FailsBy G (expected p x) ∧ FailsBy G (message p x) ∧ FailsBy G (silent p) ∧
    FailsBy G (boxed p) ∧ FailsBy G (opaqueP p) ∧ FailsBy G (parserMacro p) ∧ FailsBy G (parserMacroUnit p) := by
  have e : ∀ i, (message p x).shape i = p.shape i := by
    intro i
    simp only [Parser.shape, Parser.answer, message, Parser.ofMode]
    generalize p.run true i p.init = o
    obtain ⟨r, j, s⟩ := o
    cases r <;> rfl
  have e' : ∀ i, (silent p).shape i = p.shape i := by
    intro i
    simp only [Parser.shape, Parser.answer, silent, Parser.ofMode]
    generalize p.run true i p.init = o
    obtain ⟨r, j, s⟩ := o
    cases r <;> rfl
  obtain ⟨hb, ho⟩ := hp
  obtain ⟨hd, hl⟩ := hg
  exact ⟨⟨⟨hb, ho⟩, ⟨fun w v => readsBack_congr e (hb w v), takes_congr e ho⟩, ⟨fun w v => readsBack_congr e' (hb w v), takes_congr e' ho⟩,
    ⟨hb, ho⟩, ⟨hb, ho⟩, ⟨hb, ho⟩, ⟨hb, ho⟩⟩, ⟨hd, hl⟩, ⟨refuses_congr e hd, leaves_congr e hl⟩,
    ⟨refuses_congr e' hd, leaves_congr e' hl⟩, ⟨hd, hl⟩, ⟨hd, hl⟩, ⟨hd, hl⟩, ⟨hd, hl⟩⟩

/-! ## Tokens and ranges -/

/-- **C63.**  `many` of a parser of one token. -/
theorem C63_is_many_tokens (hS : S.Lawful) {p : Parser S σ α} (hm : Moves p) (hr : Reusable p) (hc : Consuming p)
    {f : S.Tok → Option α} (h : ∀ i, S.IsOne f i (p.shape i)) :
    Describes (fun w vs o => w.map f = vs.map some ∧ ∀ t, o = some t → f t = none) (many p) :=
  ⟨back_of fun _ _ _ h' => C60_many_tokens hS hm hr hc h h'.1 fun t e => h'.2 t e.symm, C63_many_tokens hS hm hr hc h⟩

/-- **C63.**  `many1` of a parser of one token. -/
theorem C63_is_many1_tokens (hS : S.Lawful) {p : Parser S σ α} (hm : Moves p) (hr : Reusable p) (hc : Consuming p)
    {f : S.Tok → Option α} (h : ∀ i, S.IsOne f i (p.shape i)) :
    Describes (fun w vs o => w.map f = vs.map some ∧ w ≠ [] ∧ ∀ t, o = some t → f t = none) (many1 p) := by
  refine ⟨back_of ?_, C63_many1_tokens hS hm hr hc h⟩
  rintro w vs o ⟨h1, h2, h3⟩
  exact C60_many1_tokens hS hm hr hc h h1 h2 fun t e => h3 t e.symm

section
variable {R : RangeOps S} {toks : S.Rng → List S.Tok} {wt : S.Tok → Nat}

/-- **C63.**  `take_while`. -/
theorem C63_is_take_while (hS : S.Lawful) (hR : R.Lawful toks wt) (hE : S.EndsOnly)
    (f : S.Tok → Bool) :
    Describes (fun w r o => toks r = w ∧ (∀ t ∈ w, f t = true) ∧ ∀ t, o = some t → f t = false) (takeWhile R f) := by
  refine ⟨back_of ?_, C63_take_while hS hR hE f⟩
  rintro _ r o ⟨rfl, h1, h2⟩
  exact C60_take_while hS hR hE f r h1 fun t e => h2 t e.symm

/-- **C63.**  `take_while1`. -/
theorem C63_is_take_while1 (hS : S.Lawful) (hR : R.Lawful toks wt) (hE : S.EndsOnly)
    (f : S.Tok → Bool) :
    Describes (fun w r o => toks r = w ∧ w ≠ [] ∧ (∀ t ∈ w, f t = true) ∧ ∀ t, o = some t → f t = false) (takeWhile1 R f) := by
  refine ⟨back_of ?_, C63_take_while1 hS hR hE f⟩
  rintro _ r o ⟨rfl, h0, h1, h2⟩
  exact C60_take_while1 hS hR hE f r h0 h1 fun t e => h2 t e.symm

/-- **C63.**  `take_while1` fails where no such token comes next. -/
theorem C63_is_take_while1_fails (hS : S.Lawful) (hR : R.Lawful toks wt) (hE : S.EndsOnly) (f : S.Tok → Bool) :
    FailsBy (fun o => ∀ t, o = some t → f t = false) (takeWhile1 R f) :=
  ⟨C60_take_while1_declines hS hR hE f fun _ h => h _ rfl, C63_take_while1_fails hS hR hE f⟩

/-- **C63.**  `range`. -/
theorem C63_is_range [DecidableEq S.Rng] (hR : R.Lawful toks wt) (r : S.Rng) (hr : toks r ≠ []) :
    Describes (fun w x _ => w = toks r ∧ x = r) (range R r) := by
  refine ⟨back_of ?_, C63_range hR r hr⟩
  rintro _ _ o ⟨rfl, rfl⟩
  exact C60_range hR _ hr

end

end Verif
