import Verif.Spec.Accepts
import Verif.Props.Recover
import Verif.Props.TakeWhile
import Verif.Props.RangeTokens

/-!
# C63: what was read was written

For every combinator: where it succeeds, the text it consumed is made of texts of its parts.  Together with C60 this says exactly
which texts a parser accepts.
-/

namespace Verif

variable {S : Strm} {σ τ υ α β γ : Type} {F G H : Option S.Tok → Prop} {w u : List S.Tok} {L : Texts S.Tok α} {M : Texts S.Tok β}

/-! ## On the level of answers -/

theorem takes_congr {m n : Sem S.Input Unit α} (h : ∀ i, m i = n i) (hn : Takes L n) : Takes L m :=
  fun i c v k hi => hn i c v k ((h i).symm.trans hi)

theorem leaves_congr {m n : Sem S.Input Unit α} (h : ∀ i, m i = n i) (hn : Leaves G n) : Leaves G m :=
  fun i hi => hn i ((h i).symm.trans hi)

theorem takes_mono {L' : Texts S.Tok α} {m : Sem S.Input Unit α} (h : Takes L m) (hL : ∀ w v o, L w v o → L' w v o) : Takes L' m := by
  intro i c v k hi
  obtain ⟨w, h1, h2, h3⟩ := h i c v k hi
  exact ⟨w, h1, h2, hL _ _ _ h3⟩

theorem leaves_mono {m : Sem S.Input Unit α} (h : Leaves G m) (hG : ∀ o, G o → H o) : Leaves H m :=
  fun i hi => hG _ (h i hi)

theorem takes_value (v : α) : Takes (S := S) (fun w x _ => w = [] ∧ x = v) (Ref.value v) := by
  intro i c x k h
  cases h
  exact ⟨[], .nil i, rfl, rfl, rfl⟩

theorem takes_map {m : Sem S.Input Unit α} (h : Takes L m) (f : α → β) : Takes (L.map f) (Ref.map m f) := by
  intro i c x k hi
  simp only [Ref.map] at hi
  cases hm : m i with
  | ok d v j =>
    rw [hm] at hi
    cases hi
    obtain ⟨w, h1, h2, h3⟩ := h _ _ _ _ hm
    exact ⟨w, h1, h2, v, h3, rfl⟩
  | soft => rw [hm] at hi; cases hi
  | hard e => rw [hm] at hi; cases hi
  | abort e => rw [hm] at hi; cases hi

theorem leaves_map {m : Sem S.Input Unit α} (h : Leaves G m) (f : α → β) : Leaves G (Ref.map m f) := by
  intro i hi
  refine h i ?_
  simp only [Ref.map] at hi
  revert hi
  cases m i <;> intro hi <;> cases hi
  rfl

theorem takes_bind {m : Sem S.Input Unit α} {f : α → Sem S.Input Unit β} {M : α → Texts S.Tok β} (hm : Takes L m)
    (hf : ∀ v, Takes (M v) (f v)) : Takes (L.bind M) (Ref.bind m f) := by
  intro i c x k hi
  simp only [Ref.bind] at hi
  cases hx : m i with
  | ok d v j =>
    rw [hx] at hi
    dsimp only at hi
    obtain ⟨u, h1, rfl, h3⟩ := hm i d v j hx
    cases hy : f v j with
    | ok d' y l =>
      rw [hy] at hi
      cases hi
      obtain ⟨z, g1, rfl, g3⟩ := hf _ _ _ _ _ hy
      exact ⟨u ++ z, reads_append h1 g1, isEmpty_append_not u z, u, z, v, rfl, ahead_reads g1 ▸ h3, g3⟩
    | soft => rw [hy] at hi; revert hi; cases u.isEmpty <;> intro hi <;> cases hi
    | hard e => rw [hy] at hi; cases hi
    | abort e => rw [hy] at hi; cases hi
  | soft => rw [hx] at hi; cases hi
  | hard e => rw [hx] at hi; cases hi
  | abort e => rw [hx] at hi; cases hi

/-- A sequence fails softly where its first part does, or, after that one consumed nothing, its second. -/
theorem leaves_bind {m : Sem S.Input Unit α} {f : α → Sem S.Input Unit β} {H : α → Option S.Tok → Prop} (hm : Takes L m)
    (hg : Leaves G m) (hf : ∀ v, Leaves (H v) (f v)) : Leaves (fun o => G o ∨ ∃ v, L [] v o ∧ H v o) (Ref.bind m f) := by
  intro i hi
  simp only [Ref.bind] at hi
  cases hx : m i with
  | ok d v j =>
    rw [hx] at hi
    dsimp only at hi
    obtain ⟨u, h1, rfl, h3⟩ := hm i d v j hx
    cases u with
    | nil =>
      cases Strm.reads_nil.1 h1
      refine .inr ⟨v, h3, hf v i ?_⟩
      revert hi
      cases f v i <;> intro hi <;> cases hi
      rfl
    | cons t ts => revert hi; cases f v j <;> intro hi <;> cases hi
  | soft => exact .inl (hg i hx)
  | hard e => rw [hx] at hi; cases hi
  | abort e => rw [hx] at hi; cases hi

theorem takes_or {m n : Sem S.Input Unit α} {M : Texts S.Tok α} (hm : Takes L m) (hg : Leaves G m) (hn : Takes M n) :
    Takes (fun w v o => L w v o ∨ G (lead w o) ∧ M w v o) (orSem m n) := by
  intro i c v k hi
  simp only [orSem] at hi
  cases hx : m i with
  | ok d x j =>
    rw [hx] at hi
    cases hi
    obtain ⟨w, h1, h2, h3⟩ := hm i c v k hx
    exact ⟨w, h1, h2, .inl h3⟩
  | soft =>
    rw [hx] at hi
    obtain ⟨w, h1, h2, h3⟩ := hn i c v k hi
    exact ⟨w, h1, h2, .inr ⟨ahead_reads h1 ▸ hg i hx, h3⟩⟩
  | hard e => rw [hx] at hi; cases hi
  | abort e => rw [hx] at hi; cases hi

theorem leaves_or {m n : Sem S.Input Unit α} (hm : Leaves G m) (hn : Leaves H n) : Leaves (fun o => G o ∧ H o) (orSem m n) := by
  intro i hi
  simp only [orSem] at hi
  cases hx : m i with
  | soft => rw [hx] at hi; exact ⟨hm i hx, hn i hi⟩
  | ok d x j => rw [hx] at hi; cases hi
  | hard e => rw [hx] at hi; cases hi
  | abort e => rw [hx] at hi; cases hi

theorem isMany_takes (hS : S.Lawful) {m : Sem S.Input Unit α} (hm : Takes L m) (hg : Leaves G m)
    (hc : ∀ i c v j, m i = .ok c v j → ∃ t ts, S.Reads i (t :: ts) j) {i k : S.Input} {c : Bool} {vs : List α}
    (hq : Ref.IsMany m i (.ok c vs k)) :
    ∃ w, S.Reads i w k ∧ c = (!w.isEmpty) ∧ Texts.Many L w vs (S.ahead k) ∧ G (S.ahead k) := by
  obtain ⟨ws, d, l, h1, h2⟩ := hq
  cases hl : m l with
  | ok _ _ _ => rw [hl] at h2; exact h2.elim
  | hard e => rw [hl] at h2; cases h2
  | abort e => rw [hl] at h2; cases h2
  | soft =>
    rw [hl] at h2
    cases h2
    have hG := hg k hl
    suffices h : ∃ w, S.Reads i w k ∧ (c = !w.isEmpty) ∧ Texts.Many L w vs (S.ahead k) by
      obtain ⟨w, g1, g2, g3⟩ := h
      exact ⟨w, g1, g2, g3, hG⟩
    clear hG hl
    induction h1 with
    | nil i => exact ⟨[], .nil i, rfl, .nil⟩
    | cons h3 _ ih =>
      obtain ⟨u, g1, rfl, g3⟩ := ih
      obtain ⟨w, k1, rfl, k3⟩ := hm _ _ _ _ h3
      obtain ⟨t, ts, r⟩ := hc _ _ _ _ h3
      refine ⟨w ++ u, reads_append k1 g1, isEmpty_append_not w u, .cons ?_ (ahead_reads g1 ▸ k3) g3⟩
      rintro rfl
      cases Strm.reads_nil.1 k1
      have := hS.reads_size r
      simp at this

theorem takes_many (hS : S.Lawful) {m : Sem S.Input Unit α} {q : Sem S.Input Unit (List α)} (hm : Takes L m) (hg : Leaves G m)
    (hc : ∀ i c v j, m i = .ok c v j → ∃ t ts, S.Reads i (t :: ts) j) (hq : ∀ i, Ref.IsMany m i (q i)) :
    Takes (fun w vs o => Texts.Many L w vs o ∧ G o) q :=
  fun i _ _ _ hi => isMany_takes hS hm hg hc (hi ▸ hq i)

/-- What takes no empty text consumes. -/
theorem takes_consuming {m : Sem S.Input Unit α} (hm : Takes L m) (hn : ∀ v o, ¬ L [] v o) (i : S.Input) (c : Bool) (v : α)
    (j : S.Input) (h : m i = .ok c v j) : ∃ t ts, S.Reads i (t :: ts) j := by
  obtain ⟨w, h1, _, h3⟩ := hm i c v j h
  cases w with
  | nil => exact (hn _ _ h3).elim
  | cons t ts => exact ⟨t, ts, h1⟩

/-- So does a sequence whose first part takes no empty text. -/
theorem bind_nonempty {M : α → Texts S.Tok β} (hn : ∀ v o, ¬ L [] v o) (y : β) (o : Option S.Tok) : ¬ (L.bind M) [] y o := by
  rintro ⟨u, z, v, h, h1, _⟩
  cases u with
  | nil => exact hn _ _ h1
  | cons t ts => cases h

/-- A sequence whose first part takes no empty text fails softly where that part does. -/
theorem leaves_first {m : Sem S.Input Unit α} {f : α → Sem S.Input Unit β} (hm : Takes L m) (hg : Leaves G m)
    (hL : ∀ v o, ¬ L [] v o) : Leaves G (Ref.bind m f) :=
  leaves_mono (leaves_bind hm hg (H := fun _ _ => True) fun _ _ _ => trivial) fun o h => h.elim id fun ⟨v, h, _⟩ => (hL v o h).elim

/-! ## The rules -/

/-- **C63.**  More texts. -/
theorem C63_mono {p : Parser S σ α} {L' : Texts S.Tok α} (h : OnlyReads L p) (hL : ∀ w v o, L w v o → L' w v o) : OnlyReads L' p :=
  takes_mono h hL

/-- **C63.**  More tokens. -/
theorem C63_mono_fails {p : Parser S σ α} (h : OnlyFails G p) (hG : ∀ o, G o → H o) : OnlyFails H p := leaves_mono h hG

/-- **C63.**  `value`. -/
theorem C63_value (v : α) : OnlyReads (fun w x _ => w = [] ∧ x = v) (value S v) := takes_value v

/-- **C63.**  A parser of one token: it consumes one that it takes. -/
theorem C63_one {p : Parser S σ α} {f : S.Tok → Option α} (h : ∀ i, S.IsOne f i (p.shape i)) :
    OnlyReads (fun w v _ => ∃ t, w = [t] ∧ f t = some v) p := by
  intro i c v k hi
  rcases h i with ⟨t, j, h1, h2⟩ | ⟨_, h2⟩
  · rw [hi] at h2
    cases hf : f t with
    | some x =>
      rw [hf] at h2
      cases h2
      exact ⟨[t], .cons h1 (.nil _), rfl, t, rfl, hf⟩
    | none => rw [hf] at h2; cases h2
  · rw [hi] at h2
    revert h2
    cases S.isPartial i <;> intro h2 <;> cases h2

/-- **C63.**  It fails softly where no such token comes next. -/
theorem C63_one_fails {p : Parser S σ α} {f : S.Tok → Option α} (h : ∀ i, S.IsOne f i (p.shape i)) :
    OnlyFails (fun o => ∀ t, o = some t → f t = none) p := by
  intro i hi t ht
  obtain ⟨k, hk⟩ := ahead_of_some ht
  rcases h i with ⟨t', j, h1, h2⟩ | ⟨⟨e, h1⟩, _⟩
  · rw [hk] at h1
    cases h1
    rw [hi] at h2
    cases hf : f t with
    | some x => rw [hf] at h2; cases h2
    | none => rfl
  · rw [hk] at h1; cases h1

/-- **C63.**  Several tokens, `tokens`, `string`, ... -/
theorem C63_tokens {C : Type} {cmp : C → S.Tok → Bool} {cs : List C} {p : Parser S σ α} {v : α}
    (h : ∀ i, S.IsTokens cmp cs v i (p.shape i)) : OnlyReads (fun w x _ => EqualBy cmp cs w ∧ x = v) p := by
  intro i c x k hi
  rcases h i with ⟨j, ⟨w, h1, h2⟩, h3⟩ | ⟨pre, d, post, j, _, _, h3⟩
  · rw [hi] at h3
    cases h3
    refine ⟨w, h1, ?_, h2, rfl⟩
    cases cs <;> cases w <;> first | rfl | exact h2.elim
  · rw [hi] at h3
    rcases h3 with ⟨_, _, _, _, h3⟩ | ⟨_, h3⟩ <;> revert h3 <;> split <;> intro h3 <;> cases h3

/-- **C63.**  `map`. -/
theorem C63_map {p : Parser S σ α} (h : OnlyReads L p) (f : α → β) : OnlyReads (L.map f) (map p f) :=
  takes_congr (fun i => mapShape (τ := σ) (p.run true i p.init) f) (takes_map h f)

/-- **C63.**  `map`. -/
theorem C63_map_fails {p : Parser S σ α} (h : OnlyFails G p) (f : α → β) : OnlyFails G (map p f) :=
  leaves_congr (fun i => mapShape (τ := σ) (p.run true i p.init) f) (leaves_map h f)

/-- **C63.**  `with`. -/
theorem C63_with {p : Parser S σ α} {q : Parser S τ β} (hp : OnlyReads L p) (hq : OnlyReads M q) :
    OnlyReads (L.bind fun _ => M) («with» p q) := takes_congr (C12_with p q) (takes_bind hp fun _ => hq)

/-- **C63.**  `skip`. -/
theorem C63_skip {p : Parser S σ α} {q : Parser S τ β} (hp : OnlyReads L p) (hq : OnlyReads M q) :
    OnlyReads (L.bind fun v => M.map fun _ => v) (skip p q) :=
  takes_congr (C12_skip p q) (takes_bind hp fun v => takes_map hq fun _ => v)

/-- **C63.**  `between`. -/
theorem C63_between {o : Parser S σ α} {c : Parser S υ γ} {p : Parser S τ β} {N : Texts S.Tok γ} (ho : OnlyReads L o)
    (hp : OnlyReads M p) (hc : OnlyReads N c) :
    OnlyReads (L.bind fun _ => M.bind fun v => N.map fun _ => v) (between o c p) :=
  takes_congr (C12_between o c p) (takes_bind ho fun _ => takes_bind hp fun v => takes_map hc fun _ => v)

private theorem seq_takes {ps : Seq S τ β} (h : SeqReads M ps) : Takes M (Ref.seq ps) := by
  induction h with
  | nil => exact takes_mono (takes_value ()) fun _ _ _ h => h.1
  | @cons _ _ _ _ p ps L M hp _ ih =>
    rw [Ref.seq]
    refine takes_mono (takes_bind hp fun x => takes_map ih fun y => (x, y)) ?_
    rintro w ⟨x, y⟩ o ⟨u, z, v, rfl, h1, y', h2, h3⟩
    cases h3
    exact ⟨u, z, rfl, h1, h2⟩

/-- **C63.**  Tuples. -/
theorem C63_tuple {p : Parser S σ α} {ps : Seq S τ β} (hp : OnlyReads L p) (hs : SeqReads M ps) :
    OnlyReads (L.seq M) (tuple p ps) := takes_congr (C12_tuple p ps) (seq_takes (.cons hp hs))

/-- **C63.**  A sequence whose first part never succeeds on nothing fails softly where that part does. -/
theorem C63_first_fails {p : Parser S σ α} (hp : OnlyReads L p) (hg : OnlyFails G p) (hL : ∀ v o, ¬ L [] v o) :
    (∀ {τ β : Type} (q : Parser S τ β), OnlyFails G («with» p q)) ∧
    (∀ {τ β : Type} (q : Parser S τ β), OnlyFails G (skip p q)) ∧
    (∀ {τ υ β γ : Type} (c : Parser S υ γ) (q : Parser S τ β), OnlyFails G (between p c q)) ∧
    (∀ {τ β : Type} (ps : Seq S τ β), OnlyFails G (tuple p ps)) := by
  have key : ∀ {β : Type} (f : α → Sem S.Input Unit β), Leaves G (Ref.bind p.shape f) := fun f => leaves_first hp hg hL
  exact ⟨fun q => leaves_congr (C12_with p q) (key _), fun q => leaves_congr (C12_skip p q) (key _),
    fun c q => leaves_congr (C12_between p c q) (key _),
    fun ps => leaves_congr (C12_tuple p ps) (by rw [Ref.seq]; exact key _)⟩

/-- **C63.**  `then`. -/
theorem C63_then (hS : S.Lawful) {p : Parser S σ α} {f : α → Parser S τ β} {n : τ} (hn : ∀ v, (f v).init = n)
    (hc : ∀ v, Coherent (f v)) {M : α → Texts S.Tok β} (hp : OnlyReads L p) (hf : ∀ v, OnlyReads (M v) (f v)) :
    OnlyReads (L.bind M) (thenP p f n) := takes_congr (C13_then hS p f n hn hc) (takes_bind hp hf)

/-- **C63.**  `or`: the second alternative where the first one fails. -/
theorem C63_or (hS : S.Lawful) {p : Parser S σ α} {q : Parser S τ α} (hmp : Moves p) (hmq : Moves q) {M : Texts S.Tok α}
    (hp : OnlyReads L p) (hg : OnlyFails G p) (hq : OnlyReads M q) :
    OnlyReads (fun w v o => L w v o ∨ G (lead w o) ∧ M w v o) (or p q) :=
  takes_congr (shape_or hS hmp hmq) (takes_or hp hg hq)

/-- **C63.**  `or`. -/
theorem C63_or_fails (hS : S.Lawful) {p : Parser S σ α} {q : Parser S τ α} (hmp : Moves p) (hmq : Moves q)
    (hp : OnlyFails G p) (hq : OnlyFails H q) : OnlyFails (fun o => G o ∧ H o) (or p q) :=
  leaves_congr (shape_or hS hmp hmq) (leaves_or hp hq)

/-- **C63.**  `choice`. -/
theorem C63_choice (hS : S.Lawful) {ps : Alts S α τ} (hm : ∀ q, ps.Mem q → Moves q.2) (h : AltsRead L ps) :
    OnlyReads L (choice ps) := by
  refine takes_congr (shape_choice hS hm) ?_
  clear hm
  induction h with
  | last hp => exact takes_congr answers_last hp
  | cons hp hg _ ih => exact takes_congr answers_cons (takes_or hp hg ih)

/-- **C63.**  `optional`. -/
theorem C63_optional (hS : S.Lawful) {p : Parser S σ α} (hm : Moves p) (hp : OnlyReads L p) (hg : OnlyFails G p) :
    OnlyReads (fun w v o => (∃ x, v = some x ∧ L w x o) ∨ v = none ∧ w = [] ∧ G o) (optional p) := by
  refine takes_congr (shape_optional hS hm) (takes_mono (takes_or (takes_map hp some) (leaves_map hg some) (takes_value none)) ?_)
  rintro w v o (⟨x, h1, rfl⟩ | ⟨h1, rfl, rfl⟩)
  · exact .inl ⟨x, rfl, h1⟩
  · exact .inr ⟨rfl, rfl, h1⟩

/-- **C63.**  `attempt`. -/
theorem C63_attempt {p : Parser S σ α} (hc : Coherent p) (hp : OnlyReads L p) : OnlyReads L (attempt p) := by
  intro i c v k hi
  refine hp i c v k ?_
  have h := hc.committed true i p.init
  revert hi h
  simp only [Parser.shape, Parser.answer, attempt, attemptRun, Out.answer]
  generalize p.committed true i p.init = o
  obtain ⟨r, j, s⟩ := o
  cases r with
  | commitErr e => dsimp only; split <;> intro hi <;> cases hi
  | _ => intro hi h; rw [← h]; exact hi

/-- **C63.**  `many`: texts one after the other, and the parser fails on what comes next. -/
theorem C63_many (hS : S.Lawful) {p : Parser S σ α} (hm : Moves p) (hr : Reusable p) (hc : Consuming p) (hp : OnlyReads L p)
    (hg : OnlyFails G p) : OnlyReads (fun w vs o => Texts.Many L w vs o ∧ G o) (many p) :=
  takes_many hS hp hg (fun _ _ _ _ => shape_consuming hc) fun i => isMany_shape (C07_many hS hm hr hc i)

/-- **C63.**  `skip_many`. -/
theorem C63_skip_many (hS : S.Lawful) {p : Parser S σ α} (hm : Moves p) (hr : Reusable p) (hc : Consuming p) (hp : OnlyReads L p)
    (hg : OnlyFails G p) : OnlyReads (fun w _ o => (∃ vs, Texts.Many L w vs o) ∧ G o) (skipMany p) := by
  have e : ∀ i, (skipMany p).shape i = Ref.map (many p).shape (fun _ => ()) i := by
    intro i
    obtain ⟨b, h1, h2⟩ := C07_skip_many hS hm hr hc i
    have h3 := C07_many hS hm hr hc i
    simp only [Parser.shape, Ref.map, h2, C07_unique h1 h3]
    cases (many p).answer i <;> rfl
  refine takes_congr e (takes_mono (takes_map (C63_many hS hm hr hc hp hg) _) ?_)
  rintro w _ o ⟨vs, ⟨h1, h2⟩, _⟩
  exact ⟨⟨vs, h1⟩, h2⟩

/-- **C63.**  `many` never fails without commitment. -/
theorem C63_many_fails (hS : S.Lawful) {p : Parser S σ α} (hm : Moves p) (hr : Reusable p) (hc : Consuming p) :
    OnlyFails (fun _ => False) (many p) := by
  intro i hi
  obtain ⟨vs, c, k, _, h2⟩ := isMany_shape (C07_many hS hm hr hc i)
  rw [show ((many p).answer i).shape = .soft from hi] at h2
  dsimp only at h2
  revert h2
  cases (p.answer k).shape <;> intro h2 <;> cases h2

private theorem many_of_bind {m : Texts S.Tok α} {w : List S.Tok} {vs : List α} {o : Option S.Tok}
    (h : (m.bind fun v => Texts.map (fun w vs o => Texts.Many m w vs o ∧ G o) (v :: ·)) w vs o)
    (hn : ∀ v o, ¬ m [] v o) : Texts.Many m w vs o ∧ vs ≠ [] ∧ G o := by
  obtain ⟨u, z, v, rfl, h1, ws, ⟨h2, h3⟩, rfl⟩ := h
  refine ⟨.cons ?_ h1 h2, by simp, h3⟩
  rintro rfl
  exact hn _ _ h1

/-- **C63.**  `many1`. -/
theorem C63_many1 (hS : S.Lawful) {p : Parser S σ α} (hm : Moves p) (hr : Reusable p) (hc : Consuming p) (hp : OnlyReads L p)
    (hg : OnlyFails G p) (hL : ∀ v o, ¬ L [] v o) : OnlyReads (fun w vs o => Texts.Many L w vs o ∧ vs ≠ [] ∧ G o) (many1 p) :=
  takes_congr (shape_many1 hS hm hr hc)
    (takes_mono (takes_bind hp fun v => takes_map (C63_many hS hm hr hc hp hg) (v :: ·)) fun _ _ _ h => many_of_bind h hL)

/-- **C63.**  `many1`. -/
theorem C63_many1_fails (hS : S.Lawful) {p : Parser S σ α} (hm : Moves p) (hr : Reusable p) (hc : Consuming p) (hp : OnlyReads L p)
    (hg : OnlyFails G p) (hL : ∀ v o, ¬ L [] v o) : OnlyFails G (many1 p) :=
  leaves_congr (shape_many1 hS hm hr hc) (leaves_first hp hg hL)

/-- **C63.**  `sep_by1`: an element, then separators and elements, and no separator comes next. -/
theorem C63_sep_by1 (hS : S.Lawful) {Cp : σ → Prop} {Cs : τ → Prop} {p : Parser S σ α} {s : Parser S τ β}
    (hmp : Moves p) (hms : Moves s) (hkp : Keeps false Cp p) (hks : Keeps false Cs s) (hc : Consuming p)
    (hp : OnlyReads L p) (hs : OnlyReads M s) (hg : OnlyFails G s) (hM : ∀ v o, ¬ M [] v o) :
    OnlyReads (L.bind fun v => Texts.map (fun w vs o => Texts.Many (M.bind fun _ => L) w vs o ∧ G o) (v :: ·)) (sepBy1 p s) := by
  intro i c vs k hi
  have h := C10_sep_by1 hS hmp hms hkp hks hc i
  simp only [Ref.IsSepBy1] at h
  cases hx : p.shape i with
  | ok d v j =>
    rw [hx] at h
    obtain ⟨b, h1, h2⟩ := h
    rw [hi] at h2
    cases b with
    | ok d' ws l =>
      cases h2
      obtain ⟨w, g1, rfl, g3, g4⟩ := isMany_takes hS (takes_bind hs fun _ => hp) (leaves_first hs hg hM)
        (takes_consuming (takes_bind hs fun _ => hp) (bind_nonempty hM)) h1
      obtain ⟨u, k1, rfl, k3⟩ := hp _ _ _ _ hx
      exact ⟨u ++ w, reads_append k1 g1, isEmpty_append_not u w, u, w, v, rfl, ahead_reads g1 ▸ k3, ws, ⟨g3, g4⟩, rfl⟩
    | soft => revert h2; cases d <;> intro h2 <;> cases h2
    | hard e => cases h2
    | abort e => cases h2
  | soft => rw [hx, hi] at h; cases h
  | hard e => rw [hx, hi] at h; cases h
  | abort e => rw [hx, hi] at h; cases h

/-- **C63.**  `sep_by1` fails softly where its element does. -/
theorem C63_sep_by1_fails (hS : S.Lawful) {Cp : σ → Prop} {Cs : τ → Prop} {p : Parser S σ α} {s : Parser S τ β}
    (hmp : Moves p) (hms : Moves s) (hkp : Keeps false Cp p) (hks : Keeps false Cs s) (hc : Consuming p)
    (hp : OnlyReads L p) (hL : ∀ v o, ¬ L [] v o) (hg : OnlyFails G p) : OnlyFails G (sepBy1 p s) := by
  intro i hi
  have h := C10_sep_by1 hS hmp hms hkp hks hc i
  simp only [Ref.IsSepBy1] at h
  cases hx : p.shape i with
  | ok d v j =>
    rw [hx] at h
    obtain ⟨b, _, h2⟩ := h
    rw [show (sepBy1 p s).shape i = .soft from hi] at h2
    obtain ⟨u, _, rfl, k3⟩ := hp _ _ _ _ hx
    cases u with
    | nil => exact (hL _ _ k3).elim
    | cons t ts => revert h2; cases b <;> intro h2 <;> cases h2
  | soft => exact hg i hx
  | hard e => rw [hx, show (sepBy1 p s).shape i = .soft from hi] at h; cases h
  | abort e => rw [hx, show (sepBy1 p s).shape i = .soft from hi] at h; cases h

/-- **C63.**  `sep_by`: that, or nothing where no element comes next. -/
theorem C63_sep_by (hS : S.Lawful) {Cp : σ → Prop} {Cs : τ → Prop} {p : Parser S σ α} {s : Parser S τ β}
    (hmp : Moves p) (hms : Moves s) (hkp : Keeps false Cp p) (hks : Keeps false Cs s) (hc : Consuming p)
    (hp : OnlyReads L p) (hs : OnlyReads M s) (hg : OnlyFails G s) (hM : ∀ v o, ¬ M [] v o) (hL : ∀ v o, ¬ L [] v o)
    (hf : OnlyFails H p) :
    OnlyReads (fun w vs o =>
      (L.bind fun v => Texts.map (fun w vs o => Texts.Many (M.bind fun _ => L) w vs o ∧ G o) (v :: ·)) w vs o ∨
      H o ∧ w = [] ∧ vs = []) (sepBy p s) := by
  refine takes_congr (shape_sepBy hS hmp hms hkp hks hc) (takes_mono (takes_or
    (C63_sep_by1 hS hmp hms hkp hks hc hp hs hg hM) (C63_sep_by1_fails hS hmp hms hkp hks hc hp hL hf) (takes_value [])) ?_)
  rintro w vs o (h | ⟨h1, rfl, rfl⟩)
  · exact .inl h
  · exact .inr ⟨h1, rfl, rfl⟩

/-- **C63.**  `chainl1`: operands with operators between them, whose values are combined from the left. -/
theorem C63_chainl1 (hS : S.Lawful) {Cp : σ → Prop} {Cs : τ → Prop} {p : Parser S σ α} {s : Parser S τ (α → α → α)}
    (hmp : Moves p) (hms : Moves s) (hkp : Keeps false Cp p) (hks : Keeps false Cs s) (hc : Consuming p) (hst : StartsAnew p)
    {M : Texts S.Tok (α → α → α)} (hp : OnlyReads L p) (hs : OnlyReads M s) (hg : OnlyFails G s) (hM : ∀ v o, ¬ M [] v o) :
    OnlyReads (L.bind fun v => Texts.map (fun w vs o => Texts.Many (M.seq L) w vs o ∧ G o)
      (List.foldl (fun l fx => fx.1 l fx.2) v)) (chainl1 p s) := by
  intro i c vs k hi
  have h := C11_chainl1 hS hmp hms hkp hks hc hst i
  simp only [Ref.IsChainl1] at h
  cases hx : p.shape i with
  | ok d v j =>
    rw [hx] at h
    obtain ⟨b, h1, h2⟩ := h
    rw [show (chainl1 p s).shape i = _ from hi] at h2
    cases b with
    | ok d' ws l =>
      cases h2
      have ht : Takes (M.seq L) (Ref.bind s.shape fun f => Ref.map p.shape fun x => (f, x)) := by
        refine takes_mono (takes_bind hs fun f => takes_map hp fun x => (f, x)) ?_
        rintro w ⟨f, x⟩ o ⟨u, z, f', rfl, e1, x', e2, e3⟩
        cases e3
        exact ⟨u, z, rfl, e1, e2⟩
      obtain ⟨w, g1, rfl, g3, g4⟩ := isMany_takes hS ht (leaves_first hs hg hM) (takes_consuming ht (by
        rintro ⟨f, x⟩ o ⟨u, z, e, e1, _⟩
        cases u with
        | nil => exact hM _ _ e1
        | cons t ts => cases e)) h1
      obtain ⟨u, k1, rfl, k3⟩ := hp _ _ _ _ hx
      exact ⟨u ++ w, reads_append k1 g1, isEmpty_append_not u w, u, w, v, rfl, ahead_reads g1 ▸ k3, ws, ⟨g3, g4⟩, rfl⟩
    | soft => revert h2; cases d <;> intro h2 <;> cases h2
    | hard e => cases h2
    | abort e => cases h2
  | soft => rw [hx, show (chainl1 p s).shape i = _ from hi] at h; cases h
  | hard e => rw [hx, show (chainl1 p s).shape i = _ from hi] at h; cases h
  | abort e => rw [hx, show (chainl1 p s).shape i = _ from hi] at h; cases h

/-! ## Tokens and ranges -/

private theorem many_tokens {f : S.Tok → Option α} {w : List S.Tok} {vs : List α} {o : Option S.Tok}
    (h : Texts.Many (fun w v _ => ∃ t, w = [t] ∧ f t = some v) w vs o) : w.map f = vs.map some := by
  induction h with
  | nil => rfl
  | cons _ h1 _ ih =>
    obtain ⟨t, rfl, h2⟩ := h1
    simp [h2, ih]

/-- **C63.**  `many` of a parser of one token: tokens that it takes, and no such token comes next. -/
theorem C63_many_tokens (hS : S.Lawful) {p : Parser S σ α} (hm : Moves p) (hr : Reusable p) (hc : Consuming p)
    {f : S.Tok → Option α} (h : ∀ i, S.IsOne f i (p.shape i)) :
    OnlyReads (fun w vs o => w.map f = vs.map some ∧ ∀ t, o = some t → f t = none) (many p) :=
  takes_mono (C63_many hS hm hr hc (C63_one h) (C63_one_fails h)) fun _ _ _ h => ⟨many_tokens h.1, h.2⟩

/-- **C63.**  `many1` of a parser of one token. -/
theorem C63_many1_tokens (hS : S.Lawful) {p : Parser S σ α} (hm : Moves p) (hr : Reusable p) (hc : Consuming p)
    {f : S.Tok → Option α} (h : ∀ i, S.IsOne f i (p.shape i)) :
    OnlyReads (fun w vs o => w.map f = vs.map some ∧ w ≠ [] ∧ ∀ t, o = some t → f t = none) (many1 p) := by
  refine takes_mono (C63_many1 hS hm hr hc (C63_one h) (C63_one_fails h) (by rintro v o ⟨t, h, _⟩; cases h)) ?_
  rintro w vs o ⟨h1, h2, h3⟩
  refine ⟨many_tokens h1, ?_, h3⟩
  rintro rfl
  cases vs with
  | nil => exact h2 rfl
  | cons => have := many_tokens h1; cases this

/-- **C63.**  `skip_many` of a parser of one token. -/
theorem C63_skip_tokens (hS : S.Lawful) {p : Parser S σ α} (hm : Moves p) (hr : Reusable p) (hc : Consuming p)
    {f : S.Tok → Option α} (h : ∀ i, S.IsOne f i (p.shape i)) :
    OnlyReads (fun w _ o => (∀ t ∈ w, (f t).isSome) ∧ ∀ t, o = some t → f t = none) (skipMany p) := by
  refine takes_mono (C63_skip_many hS hm hr hc (C63_one h) (C63_one_fails h)) ?_
  rintro w _ o ⟨⟨vs, h1⟩, h2⟩
  refine ⟨fun t ht => ?_, h2⟩
  have := List.mem_map_of_mem (f := f) ht
  rw [many_tokens h1] at this
  obtain ⟨v, _, h3⟩ := List.mem_map.1 this
  rw [← h3]
  rfl

/-- **C63.**  `eof`. -/
theorem C63_eof (hS : S.Lawful) (hE : S.EndsOnly) : OnlyReads (fun w _ o => w = [] ∧ o = none) (eof S) := by
  intro i c v k hi
  obtain ⟨e1, e2, e3⟩ := C44_eof hS hE true i ()
  simp only [Parser.shape, Parser.answer, Out.answer] at hi
  rw [show (eof S).init = () from rfl, e1] at hi
  by_cases h : S.AtEnd i
  · rw [e2 h] at hi
    cases hi
    refine ⟨[], .nil i, rfl, rfl, ?_⟩
    obtain ⟨e, h⟩ := h
    simp only [Strm.ahead, h]
  · obtain ⟨e, h⟩ := e3 h
    rw [h] at hi
    cases hi

section
variable {R : RangeOps S} {toks : S.Rng → List S.Tok} {wt : S.Tok → Nat}

private theorem next_of_longest {f : S.Tok → Bool} {i j : S.Input} {ts : List S.Tok} (h : S.LongestPrefix f i ts j) (t : S.Tok)
    (ht : S.ahead j = some t) : f t = false := by
  obtain ⟨k, hk⟩ := ahead_of_some ht
  obtain ⟨_, _, ⟨e, h3⟩ | ⟨t', k', h3, h4⟩⟩ := h
  · rw [hk] at h3; cases h3
  · rw [hk] at h3
    cases h3
    exact h4

/-- **C63.**  `take_while`. -/
theorem C63_take_while (hS : S.Lawful) (hR : R.Lawful toks wt) (hE : S.EndsOnly) (f : S.Tok → Bool) :
    OnlyReads (fun w r o => toks r = w ∧ (∀ t ∈ w, f t = true) ∧ ∀ t, o = some t → f t = false) (takeWhile R f) := by
  intro i c v k hi
  obtain ⟨r, j, h1, ⟨_, _, h2⟩ | ⟨_, h2⟩⟩ := C16_take_while hS hR hE f i
  · rw [hi] at h2; cases h2
  · rw [hi] at h2
    cases h2
    exact ⟨toks v, h1.1, rfl, rfl, h1.2.1, next_of_longest h1⟩

/-- **C63.**  `take_while1`. -/
theorem C63_take_while1 (hS : S.Lawful) (hR : R.Lawful toks wt) (hE : S.EndsOnly) (f : S.Tok → Bool) :
    OnlyReads (fun w r o => toks r = w ∧ w ≠ [] ∧ (∀ t ∈ w, f t = true) ∧ ∀ t, o = some t → f t = false) (takeWhile1 R f) := by
  intro i c v k hi
  obtain ⟨ts, j, h1, ⟨_, _, h2⟩ | ⟨_, ⟨_, h2⟩ | ⟨hn, r, rfl, h2⟩⟩⟩ := C16_take_while1 hS hR hE f i
  · rw [hi] at h2; cases h2
  · rw [hi] at h2; cases h2
  · rw [hi] at h2
    cases h2
    refine ⟨toks v, h1.1, ?_, rfl, hn, h1.2.1, next_of_longest h1⟩
    revert hn
    cases toks v <;> simp

/-- **C63.**  `take_while1` fails softly where no such token comes next. -/
theorem C63_take_while1_fails (hS : S.Lawful) (hR : R.Lawful toks wt) (hE : S.EndsOnly) (f : S.Tok → Bool) :
    OnlyFails (fun o => ∀ t, o = some t → f t = false) (takeWhile1 R f) := by
  intro i hi
  obtain ⟨ts, j, h1, ⟨_, _, h2⟩ | ⟨_, ⟨rfl, h2⟩ | ⟨hn, r, rfl, h2⟩⟩⟩ := C16_take_while1 hS hR hE f i
  · rw [show (takeWhile1 R f).shape i = _ from hi] at h2; cases h2
  · intro t ht
    have := h1.1
    cases Strm.reads_nil.1 this
    exact next_of_longest h1 t ht
  · rw [show (takeWhile1 R f).shape i = _ from hi] at h2; cases h2

/-- **C63.**  `range`. -/
theorem C63_range [DecidableEq S.Rng] (hR : R.Lawful toks wt) (r : S.Rng) (hr : toks r ≠ []) :
    OnlyReads (fun w x _ => w = toks r ∧ x = r) (range R r) := by
  intro i c v k hi
  rcases C40_range hR r i with ⟨l, h1, h2⟩ | ⟨_, _, h2⟩ | ⟨_, _, h2⟩
  · rw [hi] at h2
    cases h2
    refine ⟨_, h1, ?_, rfl, rfl⟩
    revert hr
    cases toks r <;> simp
  · rw [hi] at h2; cases h2
  · rw [hi] at h2; cases h2

private theorem longest_unique {f : S.Tok → Bool} {i j k : S.Input} {ts us : List S.Tok} (h : S.LongestPrefix f i ts j)
    (hr : S.Reads i us k) (hw : ∀ t ∈ us, f t = true) (hn : ∀ t, S.ahead k = some t → f t = false) : ts = us ∧ j = k := by
  rcases reads_comparable h.1 hr with ⟨cs, rfl, h1⟩ | ⟨cs, rfl, h1⟩
  · cases cs with
    | nil => exact ⟨by simp, (Strm.reads_nil.1 h1).symm⟩
    | cons t cs =>
      have := next_of_longest h t (by rw [ahead_reads h1]; rfl)
      rw [hw t (by simp)] at this
      cases this
  · cases cs with
    | nil => exact ⟨by simp, Strm.reads_nil.1 h1⟩
    | cons t cs =>
      have := hn t (by rw [ahead_reads h1]; rfl)
      rw [h.2.1 t (by simp)] at this
      cases this

/-- **C60.**  `take_while`: all the tokens, and no such token comes next. -/
theorem C60_take_while (hS : S.Lawful) (hR : R.Lawful toks wt) (hE : S.EndsOnly)
    (f : S.Tok → Bool) (r : S.Rng) (hw : ∀ t ∈ toks r, f t = true) (hF : ∀ t, F (some t) → f t = false) :
    Recovers F (takeWhile R f) (toks r) r := by
  intro i k hi hr hk
  obtain ⟨r', j, h1, ⟨h2, _⟩ | ⟨_, h2⟩⟩ := C16_take_while hS hR hE f i
  · rw [hi] at h2; cases h2
  · obtain ⟨e1, rfl⟩ := longest_unique h1 hr hw fun t ht => hF t (ht ▸ hk)
    cases hR.inj e1
    exact h2

/-- **C60.**  `take_while1`. -/
theorem C60_take_while1 (hS : S.Lawful) (hR : R.Lawful toks wt) (hE : S.EndsOnly)
    (f : S.Tok → Bool) (r : S.Rng) (hn : toks r ≠ []) (hw : ∀ t ∈ toks r, f t = true) (hF : ∀ t, F (some t) → f t = false) :
    Recovers F (takeWhile1 R f) (toks r) r := by
  intro i k hi hr hk
  obtain ⟨ts, j, h1, ⟨h2, _⟩ | ⟨_, h2⟩⟩ := C16_take_while1 hS hR hE f i
  · rw [hi] at h2; cases h2
  · obtain ⟨rfl, rfl⟩ := longest_unique h1 hr hw fun t ht => hF t (ht ▸ hk)
    rcases h2 with ⟨h2, _⟩ | ⟨_, r', e1, h2⟩
    · exact absurd h2 hn
    · cases hR.inj e1
      rw [h2]
      revert hn
      cases toks r <;> simp

/-- **C60.**  `take_while1` declines where no such token comes next. -/
theorem C60_take_while1_declines (hS : S.Lawful) (hR : R.Lawful toks wt) (hE : S.EndsOnly) (f : S.Tok → Bool)
    (hF : ∀ t, F (some t) → f t = false) : Declines F (takeWhile1 R f) := by
  intro i hi hk
  obtain ⟨ts, j, h1, ⟨h2, _⟩ | ⟨_, h2⟩⟩ := C16_take_while1 hS hR hE f i
  · rw [hi] at h2; cases h2
  · obtain ⟨rfl, rfl⟩ := longest_unique h1 (.nil i) (by simp) fun t ht => hF t (ht ▸ hk)
    rcases h2 with ⟨_, h2⟩ | ⟨h2, _⟩
    · exact h2
    · exact absurd rfl h2

/-- **C60.**  `range`. -/
theorem C60_range [DecidableEq S.Rng] (hR : R.Lawful toks wt) (r : S.Rng) (hr : toks r ≠ []) :
    Recovers F (range R r) (toks r) r := by
  intro i k hi h _
  rcases C40_range hR r i with ⟨l, h1, h2⟩ | ⟨h1, _, _⟩ | ⟨h1, _, _⟩
  · obtain rfl : l = k := by
      rcases reads_comparable h1 h with ⟨cs, e, h3⟩ | ⟨cs, e, h3⟩
      · cases List.append_right_eq_self.1 e.symm
        exact (Strm.reads_nil.1 h3).symm
      · cases List.append_right_eq_self.1 e.symm
        exact Strm.reads_nil.1 h3
    rw [h2]
    revert hr
    cases toks r <;> simp
  · exact absurd ⟨k, h⟩ h1
  · rw [hi] at h1; cases h1

/-- **C60.**  `range` declines where its first token does not come next. -/
theorem C60_range_declines [DecidableEq S.Rng] (hR : R.Lawful toks wt) (r : S.Rng) {t : S.Tok} {ts : List S.Tok}
    (hr : toks r = t :: ts) (hF : ∀ t', F (some t') → t' ≠ t) : Declines F (range R r) := by
  intro i hi hk
  rcases C40_range hR r i with ⟨l, h1, _⟩ | ⟨_, _, h2⟩ | ⟨h1, _, _⟩
  · rw [hr] at h1
    rw [ahead_reads h1] at hk
    exact absurd rfl (hF t hk)
  · exact h2
  · rw [hi] at h1; cases h1

/-- **C60.**  `take`. -/
theorem C60_take (hR : R.Lawful toks wt) (r : S.Rng) :
    Recovers F (take R (weight wt (toks r))) (toks r) r := by
  intro i k hi h _
  rcases C40_take hR (weight wt (toks r)) i with ⟨r', l, h1, h2, h3⟩ | ⟨h1, _⟩
  · have e : toks r' = toks r ∧ l = k := by
      rcases reads_comparable h1 h with ⟨cs, e, h4⟩ | ⟨cs, e, h4⟩
      · cases cs with
        | nil => exact ⟨by simpa using e.symm, (Strm.reads_nil.1 h4).symm⟩
        | cons t cs =>
          have := hR.pos t
          rw [e, weight_append, weight_cons] at h2
          omega
      · cases cs with
        | nil => exact ⟨by simpa using e, Strm.reads_nil.1 h4⟩
        | cons t cs =>
          have := hR.pos t
          rw [e, weight_append, weight_cons] at h2
          omega
    obtain ⟨e, rfl⟩ := e
    cases hR.inj e
    rw [h3]
    cases e' : toks r with
    | nil => rfl
    | cons t ts =>
      have := hR.pos t
      rw [weight_cons]
      simp only [ne_eq, Nat.add_eq_zero_iff, List.isEmpty_cons, Bool.not_false, Answer.ok.injEq, decide_eq_true_eq, and_self, and_true]
      omega
  · exact absurd rfl (h1 _ _ h)
end

/-! ## Exactly -/

/-- **C60, C63.**  Both directions. -/
theorem C63_exactly {p : Parser S σ α} (h1 : ∀ w v, Recovers (fun o => L w v o) p w v) (h2 : OnlyReads L p) : Exactly L p := by
  intro i c v k hi
  constructor
  · exact h2 i c v k
  · rintro ⟨w, g1, rfl, g3⟩
    exact h1 w v i k hi g1 g3

/-- **C63.**  Labels and wrappers. -/
theorem C63_labels {p : Parser S σ α} (hp : OnlyReads L p) (hg : OnlyFails G p) (x : Info S.Tok S.Rng) :
    (OnlyReads L (expected p x) ∧ OnlyReads L (message p x) ∧ OnlyReads L (silent p) ∧
    OnlyReads L (boxed p) ∧ OnlyReads L (opaqueP p) ∧ OnlyReads L (parserMacro p) ∧
    OnlyReads L (parserMacroUnit p)) ∧ OnlyFails G (expected p x) ∧ OnlyFails G (message p x) ∧ OnlyFails G (silent p) ∧
    OnlyFails G (boxed p) ∧ OnlyFails G (opaqueP p) ∧ OnlyFails G (parserMacro p) ∧ OnlyFails G (parserMacroUnit p) := by
  have e : ∀ i, (message p x).shape i = p.shape i := by
    intro i
    simp only [Parser.shape, Parser.answer, message, Parser.ofMode]
    generalize p.run true i p.init = o
    obtain ⟨r, j, s⟩ := o
    cases r <;> rfl
  have e' : ∀ i, (silent p).shape i = p.shape i := by
    intro i
    simp only [Parser.shape, Parser.answer, silent, Parser.ofMode]
    generalize p.run true i p.init = o
    obtain ⟨r, j, s⟩ := o
    cases r <;> rfl
  exact ⟨⟨hp, takes_congr e hp, takes_congr e' hp, hp, hp, hp, hp⟩, hg, leaves_congr e hg, leaves_congr e' hg, hg, hg, hg, hg⟩

private abbrev B := sliceS Nat 1

/-- Digits, then 12. -/
private abbrev number := skip (many1 (satisfyMap B fun t => if t < 10 then some t else none)) (token B 12)

/-- Exactly: one digit or more, and 12. -/
private theorem number_exactly :
    Exactly (S := B) (fun w vs _ => w = vs ++ [12] ∧ vs ≠ [] ∧ ∀ t ∈ vs, t < 10) number := by
  have hS := slice_lawful Nat 1
  have hd := C53_satisfy_map (S := B) hS fun t : Nat => if t < 10 then some t else none
  have ht := C53_token (S := B) hS 12
  have hm := moves_satisfyMap (S := B) hS fun t : Nat => if t < 10 then some t else none
  have hr : Reusable (satisfyMap B fun t => if t < 10 then some t else none) := (keeps_unit (h := false) _).reusable
  have hc := consuming_satisfyMap (S := B) fun t : Nat => if t < 10 then some t else none
  have key : ∀ {w vs : List Nat}, w.map (fun t => if t < 10 then some t else none) = vs.map some ↔ w = vs ∧ ∀ t ∈ vs, t < 10 := by
    intro w vs
    constructor
    · intro h
      induction w generalizing vs with
      | nil => cases vs with
        | nil => simp
        | cons => cases h
      | cons t ts ih => cases vs with
        | nil => cases h
        | cons v vs =>
          simp only [List.map_cons, List.cons.injEq] at h
          obtain ⟨rfl, h2⟩ := ih h.2
          have h1 := h.1
          split at h1
          · cases h1
            exact ⟨rfl, by simpa using ⟨by assumption, h2⟩⟩
          · cases h1
    · rintro ⟨rfl, h⟩
      exact List.map_congr_left fun t ht => by rw [if_pos (h t ht)]
  refine C63_exactly (fun w vs => ?_) (C63_mono (C63_skip (C63_many1_tokens hS hm hr hc hd) (C63_one ht)) ?_)
  · intro i k hi h1 h2
    obtain ⟨rfl, h2, h3⟩ := h2
    exact C60_skip hS (F := fun _ => True) (C60_many1_tokens hS hm hr hc hd (key.2 ⟨rfl, h3⟩) h2 (by
      intro t h
      cases before_cons h
      rfl)) (C60_one ht (v := 12) rfl) i k hi h1 trivial
  · rintro w vs o ⟨u, z, vs', rfl, ⟨h1, h2, h3⟩, x, ⟨t, rfl, h4⟩, rfl⟩
    obtain ⟨rfl, h5⟩ := key.1 h1
    have : t = 12 := by
      revert h4
      by_cases e : t = 12
      · exact fun _ => e
      · intro h4
        rw [if_neg (by simpa using e)] at h4
        cases h4
    exact ⟨by rw [this], h2, h5⟩

-- the hypotheses of the theorems are met, and their conclusion is not trivial
example : number.shape (⟨0, [1, 2, 12, 5]⟩ : B.Input) = .ok true [1, 2] ⟨3, [5]⟩ := by rfl
example (vs : List Nat) (k : B.Input) : number.shape (⟨0, [1, 2, 12, 5]⟩ : B.Input) = .ok true vs k ↔
    ∃ w, B.Reads ⟨0, [1, 2, 12, 5]⟩ w k ∧ true = !w.isEmpty ∧ w = vs ++ [12] ∧ vs ≠ [] ∧ ∀ t ∈ vs, t < 10 :=
  number_exactly ⟨0, [1, 2, 12, 5]⟩ true vs k rfl

end Verif
