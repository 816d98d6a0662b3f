import Verif.Proof.Recover
import Verif.Props.Grammar
import Verif.Props.Classes
import Verif.Props.Tokens

/-!
# C60: what was written is read back

For every combinator: the text in which a value is written down, from the texts of its parts, is read back as that value.
-/

namespace Verif

variable {S : Strm} {σ τ υ α β γ : Type} {F G : Option S.Tok → Prop} {w u : List S.Tok}

/-! ## Which parsers consume -/

theorem consuming_shape {p : Parser S σ α} (h : ∀ i c v j, p.shape i = .ok c v j → ∃ t ts, S.Reads i (t :: ts) j) :
    Consuming p := fun i c v j hi => h i c v j (by rw [Parser.shape, hi]; rfl)

theorem shape_consuming {p : Parser S σ α} (h : Consuming p) {i : S.Input} {c : Bool} {v : α} {j : S.Input}
    (hi : p.shape i = .ok c v j) : ∃ t ts, S.Reads i (t :: ts) j := by
  refine h i c v j ?_
  rw [Parser.shape] at hi
  revert hi
  cases p.answer i <;> intro hi <;> cases hi
  rfl

theorem consuming_choice (hS : S.Lawful) {ps : Alts S α τ} (hm : ∀ q, ps.Mem q → Moves q.2)
    (hc : ∀ q, ps.Mem q → Consuming q.2) : Consuming (choice ps) := by
  intro i c v j h
  rw [show (choice ps).answer i = Ref.choice ps.answers i from (C03_choice hS hm true (choice ps).init (.inl rfl) i).1] at h
  clear hm
  induction ps with
  | last p =>
    simp only [Alts.answers, Ref.choice] at h
    refine hc ⟨_, p⟩ rfl i c v j ?_
    revert h
    cases p.answer i <;> exact id
  | cons p ps ih =>
    simp only [Alts.answers, Ref.choice] at h
    have h1 := hc ⟨_, p⟩ (.inl rfl) i c v j
    dsimp only at h1
    revert h h1
    cases p.answer i with
    | soft => intro h _; exact ih (fun q hq => hc q (.inr hq)) h
    | _ => intro h h1; exact h1 h

private theorem consuming_bind {m : Sem S.Input Unit α} {f : α → Sem S.Input Unit β}
    (hm : ∀ i c v j, m i = .ok c v j → ∃ t ts, S.Reads i (t :: ts) j)
    (hf : ∀ x i c v j, f x i = .ok c v j → S.Reach i j) {i : S.Input} {c : Bool} {v : β} {j : S.Input}
    (h : Ref.bind m f i = .ok c v j) : ∃ t ts, S.Reads i (t :: ts) j := by
  simp only [Ref.bind] at h
  cases hx : m i with
  | ok d x k =>
    rw [hx] at h
    obtain ⟨t, ts, h1⟩ := hm i d x k hx
    cases hy : f x k with
    | ok d' y l =>
      dsimp only at h
      rw [hy] at h
      cases h
      obtain ⟨us, h2⟩ := hf x k d' _ _ hy
      exact ⟨t, ts ++ us, reads_append h1 h2⟩
    | soft => dsimp only at h; rw [hy] at h; cases d <;> cases h
    | hard e => dsimp only at h; rw [hy] at h; cases h
    | abort e => dsimp only at h; rw [hy] at h; cases h
  | soft => rw [hx] at h; cases h
  | hard e => rw [hx] at h; cases h
  | abort e => rw [hx] at h; cases h

theorem reach_shape {p : Parser S σ α} (hm : Moves p) {i : S.Input} {c : Bool} {v : α} {j : S.Input}
    (h : p.shape i = .ok c v j) : S.Reach i j := by
  have := hm.run true i p.init
  rw [Parser.shape, Parser.answer, Out.answer] at h
  revert h
  cases (p.run true i p.init).res <;> intro h <;> cases h <;> exact this

theorem consuming_with (hS : S.Lawful) {p : Parser S σ α} {q : Parser S τ β} (hp : Consuming p) (hq : Moves q) :
    Consuming («with» p q) := by
  have _ := hS
  refine consuming_shape fun i c v j h => ?_
  rw [C12_with] at h
  exact consuming_bind (fun _ _ _ _ => shape_consuming hp) (fun _ _ _ _ _ => reach_shape hq) h

theorem consuming_skip {p : Parser S σ α} {q : Parser S τ β} (hp : Consuming p) (hq : Moves q) : Consuming (skip p q) := by
  refine consuming_shape fun i c v j h => ?_
  rw [C12_skip] at h
  refine consuming_bind (fun _ _ _ _ => shape_consuming hp) (fun x i c v j h => ?_) h
  simp only [Ref.map] at h
  cases hx : q.shape i with
  | ok d y k =>
    rw [hx] at h
    cases h
    exact reach_shape hq hx
  | soft => rw [hx] at h; cases h
  | hard e => rw [hx] at h; cases h
  | abort e => rw [hx] at h; cases h

theorem consuming_many1 (hS : S.Lawful) {p : Parser S σ α} (hm : Moves p) (hr : Reusable p) (hc : Consuming p) :
    Consuming (many1 p) := by
  intro i c v j h
  have h1 := C08_many1 hS hm hr hc i
  simp only [Ref.IsMany1] at h1
  revert h1
  cases hx : p.answer i with
  | ok d x k =>
    rw [h]
    rintro ⟨vs, d', l, h2, h3⟩
    cases h2 with
    | nil => rw [hx] at h3; exact h3.elim
    | @cons _ j' _ c' _ v' vs' h4 h5 =>
      obtain ⟨t, ts, r1⟩ := hc _ _ _ _ h4
      have hl : j = l := by
        revert h3
        cases p.answer l <;> intro h3 <;> cases h3
        rfl
      subst hl
      have : ∀ {i : S.Input} {vs : List α} {c : Bool} {k : S.Input}, Ref.Run p.answer i vs c k → S.Reach i k := by
        intro i vs c k h
        induction h with
        | nil i => exact ⟨[], .nil i⟩
        | cons h6 _ ih =>
          obtain ⟨t, ts, r2⟩ := hc _ _ _ _ h6
          obtain ⟨us, r3⟩ := ih
          exact ⟨_, reads_append r2 r3⟩
      obtain ⟨us, r2⟩ := this h5
      exact ⟨t, ts ++ us, reads_append r1 r2⟩
  | soft => rw [h]; intro h; cases h
  | hard e => rw [h]; intro h; cases h
  | abort e => rw [h]; intro h; cases h

/-- Two repetitions of at most `n` steps that end because of this, or where nothing follows. -/
private theorem run_same {I : Type} {m : Sem I Unit α} {i : I} {vs vs' : List α} {c c' : Bool} {k k' : I}
    (h : Ref.Run m i vs c k) (h' : Ref.Run m i vs' c' k') (n : Nat) (hn : vs.length ≤ n) (hn' : vs'.length ≤ n)
    (hk : vs.length < n → ∀ c v j, m k ≠ .ok c v j) (hk' : vs'.length < n → ∀ c v j, m k' ≠ .ok c v j) :
    vs = vs' ∧ c = c' ∧ k = k' := by
  induction h generalizing n vs' c' with
  | nil i =>
    cases h' with
    | nil => exact ⟨rfl, rfl, rfl⟩
    | cons h1 _ => exact absurd h1 (hk (by simp at hn' ⊢; omega) _ _ _)
  | cons h1 _ ih =>
    cases h' with
    | nil => exact absurd h1 (hk' (by simp at hn ⊢; omega) _ _ _)
    | cons h2 h3 =>
      rw [h1] at h2
      cases h2
      simp only [List.length_cons] at hn hn' hk hk'
      obtain ⟨rfl, rfl, rfl⟩ := ih h3 (n - 1) (by omega) (by omega) (fun h => hk (by omega)) (fun h => hk' (by omega))
      exact ⟨rfl, rfl, rfl⟩

/-! ## The rules -/

/-- **C60.**  Fewer tokens may come next. -/
theorem C60_weaken {p : Parser S σ α} {v : α} (h : Recovers F p w v) (hG : ∀ o, G o → F o) : Recovers G p w v :=
  readsBack_weaken h hG

/-- **C60.**  Fewer tokens may come next. -/
theorem C60_weaken_decline {p : Parser S σ α} (h : Declines F p) (hG : ∀ o, G o → F o) : Declines G p :=
  refuses_weaken h hG

/-- **C60.**  `value`. -/
theorem C60_value (v : α) : Recovers F (value S v) [] v := readsBack_value v

/-- **C60.**  A parser of one token (`satisfy`, `token`, `any`, `one_of`, `digit`, ... by C53). -/
theorem C60_one {p : Parser S σ α} {f : S.Tok → Option α} (h : ∀ i, S.IsOne f i (p.shape i)) {t : S.Tok} {v : α}
    (ht : f t = some v) : Recovers F p [t] v := by
  intro i k _ hr _
  obtain ⟨j, h1, h2⟩ := Strm.reads_cons.1 hr
  cases Strm.reads_nil.1 h2
  rcases h i with ⟨t', j', h3, h4⟩ | ⟨⟨e, h3⟩, _⟩
  · rw [h1] at h3
    cases h3
    rw [h4, ht]
    rfl
  · rw [h1] at h3; cases h3

/-- **C60.**  It declines other tokens, and the end of the input. -/
theorem C60_one_declines {p : Parser S σ α} {f : S.Tok → Option α} (h : ∀ i, S.IsOne f i (p.shape i))
    (hF : ∀ t, F (some t) → f t = none) : Declines F p := by
  intro i hp hf
  rcases h i with ⟨t, j, h1, h2⟩ | ⟨_, h2⟩
  · rw [ahead_some h1] at hf
    rw [h2, hF t hf]
  · rw [h2, hp]; rfl

/-- **C60.**  `tokens`, `string`, `bytes`. -/
theorem C60_tokens {C : Type} {cmp : C → S.Tok → Bool} {cs : List C} {p : Parser S σ α} {v : α}
    (h : ∀ i, S.IsTokens cmp cs v i (p.shape i)) (hw : EqualBy cmp cs w) : Recovers F p w v := by
  intro i k _ hr _
  have h1 : S.IsTokens cmp cs v i (.ok (!cs.isEmpty) v k) := .inl ⟨k, ⟨w, hr, hw⟩, rfl⟩
  rw [C40_unique cmp cs v i _ _ (h i) h1]
  cases cs <;> cases w <;> first | rfl | exact hw.elim

/-- **C60.**  They decline what begins differently. -/
theorem C60_tokens_declines {C : Type} {cmp : C → S.Tok → Bool} {c : C} {cs : List C} {p : Parser S σ α} {v : α}
    (h : ∀ i, S.IsTokens cmp (c :: cs) v i (p.shape i)) (hF : ∀ t, F (some t) → cmp c t = false) : Declines F p := by
  intro i hp hf
  refine C40_unique cmp (c :: cs) v i _ _ (h i) (.inr ⟨[], c, cs, i, rfl, ⟨[], .nil i, trivial⟩, ?_⟩)
  cases ha : S.ahead i with
  | some t =>
    rw [ha] at hf
    obtain ⟨k, hk⟩ := ahead_of_some ha
    exact .inl ⟨t, k, hk, hF t hf, by simp⟩
  | none => exact .inr ⟨ahead_of_none ha, by simp [hp]⟩

/-- **C60.**  `map`. -/
theorem C60_map {p : Parser S σ α} {v : α} (h : Recovers F p w v) (f : α → β) : Recovers F (map p f) w (f v) :=
  readsBack_congr (fun i => mapShape (τ := σ) (p.run true i p.init) f) (readsBack_map h f)

/-- **C60.**  `map`. -/
theorem C60_map_declines {p : Parser S σ α} (h : Declines F p) (f : α → β) : Declines F (map p f) :=
  refuses_congr (fun i => mapShape (τ := σ) (p.run true i p.init) f) (refuses_map h f)

/-- **C60.**  `with`: the first text is lost. -/
theorem C60_with (hS : S.Lawful) {p : Parser S σ α} {q : Parser S τ β} {v : α} {x : β} (hp : Recovers (Before u F) p w v)
    (hq : Recovers F q u x) : Recovers F («with» p q) (w ++ u) x :=
  readsBack_congr (C12_with p q) (readsBack_bind hS hp hq)

/-- **C60.**  `with`. -/
theorem C60_with_declines {p : Parser S σ α} (q : Parser S τ β) (hp : Declines F p) : Declines F («with» p q) :=
  refuses_congr (C12_with p q) (refuses_bind hp)

/-- **C60.**  `skip`: the second text is lost. -/
theorem C60_skip (hS : S.Lawful) {p : Parser S σ α} {q : Parser S τ β} {v : α} {x : β} (hp : Recovers (Before u F) p w v)
    (hq : Recovers F q u x) : Recovers F (skip p q) (w ++ u) v :=
  readsBack_congr (C12_skip p q) (readsBack_bind hS hp (readsBack_map hq fun _ => v))

/-- **C60.**  `skip`. -/
theorem C60_skip_declines {p : Parser S σ α} (q : Parser S τ β) (hp : Declines F p) : Declines F (skip p q) :=
  refuses_congr (C12_skip p q) (refuses_bind hp)

/-- **C60.**  `between`. -/
theorem C60_between (hS : S.Lawful) {o : Parser S σ α} {c : Parser S υ γ} {p : Parser S τ β} {x : α} {v : β} {y : γ}
    {wo wc : List S.Tok} (ho : Recovers (Before (w ++ wc) F) o wo x) (hp : Recovers (Before wc F) p w v)
    (hc : Recovers F c wc y) : Recovers F (between o c p) (wo ++ (w ++ wc)) v :=
  readsBack_congr (C12_between o c p)
    (readsBack_bind hS ho (readsBack_bind hS hp (readsBack_map hc fun _ => v)))

/-- **C60.**  `between`. -/
theorem C60_between_declines {o : Parser S σ α} (c : Parser S υ γ) (p : Parser S τ β) (ho : Declines F o) :
    Declines F (between o c p) := refuses_congr (C12_between o c p) (refuses_bind ho)

private theorem seq_readsBack (hS : S.Lawful) {ps : Seq S τ β} {vs : β} (h : SeqRecovers F ps w vs) :
    ReadsBack F (Ref.seq ps) w vs := by
  induction h with
  | nil => exact readsBack_value ()
  | cons hp _ ih =>
    rw [Ref.seq]
    exact readsBack_bind hS hp (readsBack_map ih _)

/-- **C60.**  Tuples. -/
theorem C60_tuple (hS : S.Lawful) {p : Parser S σ α} {ps : Seq S τ β} {v : α} {vs : β} (hp : Recovers (Before u F) p w v)
    (hs : SeqRecovers F ps u vs) : Recovers F (tuple p ps) (w ++ u) (v, vs) :=
  readsBack_congr (C12_tuple p ps) (seq_readsBack hS (.cons hp hs))

/-- **C60.**  A tuple declines what its first member declines ... -/
theorem C60_tuple_declines {p : Parser S σ α} (ps : Seq S τ β) (hp : Declines F p) : Declines F (tuple p ps) :=
  refuses_congr (C12_tuple p ps) (by rw [Ref.seq]; exact refuses_bind hp)

/-- **C60.**  ... or, where that one consumes nothing, what the second one declines. -/
theorem C60_tuple_declines_next {p : Parser S σ α} {q : Parser S υ γ} (ps : Seq S τ β) {v : α} (hp : Recovers F p [] v)
    (hq : Declines F q) : Declines F (tuple p (.cons q ps)) :=
  refuses_congr (C12_tuple p (.cons q ps)) (by
    rw [Ref.seq]
    refine refuses_bind_empty hp (refuses_map ?_ _)
    rw [Ref.seq]
    exact refuses_bind hq)

/-- **C60.**  `then`: what is read next can depend on the value. -/
theorem C60_then (hS : S.Lawful) {p : Parser S σ α} {f : α → Parser S τ β} {n : τ} (hn : ∀ v, (f v).init = n)
    (hc : ∀ v, Coherent (f v)) {v : α} {x : β} (hp : Recovers (Before u F) p w v) (hf : Recovers F (f v) u x) :
    Recovers F (thenP p f n) (w ++ u) x :=
  readsBack_congr (C13_then hS p f n hn hc) (readsBack_bind hS hp hf)

theorem shape_or (hS : S.Lawful) {p : Parser S σ α} {q : Parser S τ α} (hp : Moves p) (hq : Moves q) (i : S.Input) :
    (or p q).shape i = orSem p.shape q.shape i := by
  simp only [orSem, Parser.shape, C03_or hS hp hq i]
  cases p.answer i <;> rfl

/-- **C60.**  `or`, the first alternative. -/
theorem C60_or_left (hS : S.Lawful) {p : Parser S σ α} {q : Parser S τ α} (hmp : Moves p) (hmq : Moves q) {v : α}
    (hp : Recovers F p w v) : Recovers F (or p q) w v :=
  readsBack_congr (shape_or hS hmp hmq) fun i k h1 h2 h3 => by simp only [orSem, hp i k h1 h2 h3]

/-- **C60.**  `or`, the second alternative, when the first declines. -/
theorem C60_or_right (hS : S.Lawful) {p : Parser S σ α} {q : Parser S τ α} (hmp : Moves p) (hmq : Moves q) {v : α}
    (hp : Declines (Before w F) p) (hq : Recovers F q w v) : Recovers F (or p q) w v :=
  readsBack_congr (shape_or hS hmp hmq) fun i k h1 h2 h3 => by
    simp only [orSem, hp i h1 ⟨_, h3, ahead_reads h2⟩, hq i k h1 h2 h3]

/-- **C60.**  `or` declines what both decline. -/
theorem C60_or_declines (hS : S.Lawful) {p : Parser S σ α} {q : Parser S τ α} (hmp : Moves p) (hmq : Moves q)
    (hp : Declines F p) (hq : Declines F q) : Declines F (or p q) :=
  refuses_congr (shape_or hS hmp hmq) fun i h1 h2 => by simp only [orSem, hp i h1 h2, hq i h1 h2]

theorem shape_choice (hS : S.Lawful) {ps : Alts S α τ} (hm : ∀ q, ps.Mem q → Moves q.2) (i : S.Input) :
    (choice ps).shape i = (Ref.choice ps.answers i).shape :=
  congrArg Answer.shape (C03_choice hS hm true (choice ps).init (.inl rfl) i).1

theorem answers_cons {p : Parser S σ α} {ps : Alts S α τ} (i : S.Input) :
    (Ref.choice (Alts.answers (.cons p ps)) i).shape = orSem p.shape (fun i => (Ref.choice ps.answers i).shape) i := by
  simp only [orSem, Alts.answers, Ref.choice, Parser.shape]
  cases p.answer i <;> rfl

theorem answers_last {p : Parser S σ α} (i : S.Input) :
    (Ref.choice (Alts.answers (.last p)) i).shape = p.shape i := by
  simp only [Alts.answers, Ref.choice, Parser.shape]
  cases p.answer i <;> rfl

/-- **C60.**  `choice`. -/
theorem C60_choice (hS : S.Lawful) {ps : Alts S α τ} {v : α} (hm : ∀ q, ps.Mem q → Moves q.2) (h : AltsRecover F w v ps) :
    Recovers F (choice ps) w v := by
  refine readsBack_congr (shape_choice hS hm) ?_
  clear hm
  induction h with
  | last hp => exact readsBack_congr answers_last hp
  | here hp => exact readsBack_congr answers_cons fun i k h1 h2 h3 => by simp only [orSem, hp i k h1 h2 h3]
  | there hd _ ih =>
    exact readsBack_congr answers_cons fun i k h1 h2 h3 => by
      simp only [orSem, hd i h1 ⟨_, h3, ahead_reads h2⟩, ih i k h1 h2 h3]

/-- **C60.**  `choice`. -/
theorem C60_choice_declines (hS : S.Lawful) {ps : Alts S α τ} (hm : ∀ q, ps.Mem q → Moves q.2) (h : AltsDecline F ps) :
    Declines F (choice ps) := by
  refine refuses_congr (shape_choice hS hm) ?_
  clear hm
  induction ps with
  | last p => exact refuses_congr answers_last h
  | cons p ps ih =>
    exact refuses_congr answers_cons fun i h1 h2 => by simp only [orSem, h.1 i h1 h2, ih h.2 i h1 h2]

theorem shape_optional (hS : S.Lawful) {p : Parser S σ α} (hm : Moves p) (i : S.Input) :
    (optional p).shape i = orSem (Ref.map p.shape some) (Ref.value none) i := by
  simp only [orSem, Parser.shape, C06_optional hS hm i, Ref.optional, Ref.map, Ref.value]
  cases p.answer i <;> rfl

/-- **C60.**  `optional`, when it is there. -/
theorem C60_optional_some (hS : S.Lawful) {p : Parser S σ α} (hm : Moves p) {v : α} (hp : Recovers F p w v) :
    Recovers F (optional p) w (some v) :=
  readsBack_congr (shape_optional hS hm) fun i k h1 h2 h3 => by
    simp only [orSem, Ref.map, hp i k h1 h2 h3, Answer.map]

/-- **C60.**  `optional`, when it is not there. -/
theorem C60_optional_none (hS : S.Lawful) {p : Parser S σ α} (hm : Moves p) (hp : Declines F p) :
    Recovers F (optional p) [] none :=
  readsBack_congr (shape_optional hS hm) fun i k h1 h2 h3 => by
    cases Strm.reads_nil.1 h2
    simp only [orSem, Ref.map, hp i h1 h3, Answer.map, Ref.value]
    rfl

/-- **C60.**  `attempt`. -/
theorem C60_attempt (hS : S.Lawful) {p : Parser S σ α} (hm : Moves p) (hc : Coherent p) {v : α} (hp : Recovers F p w v) :
    Recovers F (attempt p) w v := by
  intro i k h1 h2 h3
  have h := hp i k h1 h2 h3
  simp only [Parser.shape, C04_attempt hS hm hc i h1, Ref.attempt] at h ⊢
  revert h
  cases p.answer i <;> intro h <;> first | exact h | cases h

/-- **C60.**  `attempt`. -/
theorem C60_attempt_declines (hS : S.Lawful) {p : Parser S σ α} (hm : Moves p) (hc : Coherent p) (hp : Declines F p) :
    Declines F (attempt p) := by
  intro i h1 h2
  have h := hp i h1 h2
  simp only [Parser.shape, C04_attempt hS hm hc i h1, Ref.attempt] at h ⊢
  revert h
  cases p.answer i <;> intro h <;> first | exact h | cases h

/-- **C60.**  `many`: texts one after the other, each of which ends before the next one begins. -/
theorem C60_many (hS : S.Lawful) {p : Parser S σ α} (hm : Moves p) (hr : Reusable p) (hc : Consuming p) {vs : List α}
    (hp : Pieces F p.shape w vs) (hd : Declines F p) : Recovers F (many p) w vs :=
  readsBack_many hS hp hd fun i => isMany_shape (C07_many hS hm hr hc i)

/-- **C60.**  `many` of a printed list: `text x` is the text of `x`, read back as `val x`. -/
theorem C60_many_list (hS : S.Lawful) {p : Parser S σ α} (hm : Moves p) (hr : Reusable p) (hc : Consuming p) {X : Type}
    (xs : List X) (text : X → List S.Tok) (val : X → α)
    (hp : ∀ x ∈ xs, text x ≠ [] ∧ Recovers G p (text x) (val x)) (hF : ∀ o, F o → G o)
    (hh : ∀ x ∈ xs, ∀ t, (text x).head? = some t → G (some t)) (hd : Declines F p) :
    Recovers F (many p) (xs.flatMap text) (xs.map val) :=
  C60_many hS hm hr hc (pieces_of_list xs text val hp hF hh) hd

/-- **C60.**  `skip_many`. -/
theorem C60_skip_many (hS : S.Lawful) {p : Parser S σ α} (hm : Moves p) (hr : Reusable p) (hc : Consuming p) {vs : List α}
    (hp : Pieces F p.shape w vs) (hd : Declines F p) : Recovers F (skipMany p) w () := by
  have e : ∀ i, (skipMany p).shape i = Ref.map (many p).shape (fun _ => ()) i := by
    intro i
    obtain ⟨b, h1, h2⟩ := C07_skip_many hS hm hr hc i
    have h3 := C07_many hS hm hr hc i
    simp only [Parser.shape, Ref.map, h2, C07_unique h1 h3]
    cases (many p).answer i <;> rfl
  exact readsBack_congr e (readsBack_map (C60_many hS hm hr hc hp hd) _)

theorem shape_many1 (hS : S.Lawful) {p : Parser S σ α} (hm : Moves p) (hr : Reusable p) (hc : Consuming p)
    (i : S.Input) : (many1 p).shape i = Ref.bind p.shape (fun v => Ref.map (many p).shape (v :: ·)) i := by
  have h := C08_many1 hS hm hr hc i
  simp only [Ref.IsMany1] at h
  simp only [Parser.shape, Ref.bind] at h ⊢
  cases hx : p.answer i with
  | ok c v j =>
    rw [hx] at h
    exact isMany_cons (m := p.shape) (by simp only [Parser.shape, hx, Answer.shape]) (isMany_shape h)
      (isMany_shape (C07_many hS hm hr hc j))
  | soft => rw [hx] at h; rw [h]; rfl
  | hard x => rw [hx] at h; rw [h]; rfl
  | abort x => rw [hx] at h; rw [h]; rfl

/-- **C60.**  `many1`. -/
theorem C60_many1 (hS : S.Lawful) {p : Parser S σ α} (hm : Moves p) (hr : Reusable p) (hc : Consuming p) {v : α}
    {vs : List α} (hp : Pieces F p.shape w (v :: vs)) (hd : Declines F p) : Recovers F (many1 p) w (v :: vs) := by
  refine readsBack_congr (shape_many1 hS hm hr hc) ?_
  generalize hx : v :: vs = xs at hp
  cases hp with
  | nil => cases hx
  | cons _ h1 h2 =>
    cases hx
    exact readsBack_bind hS h1 (readsBack_map (C60_many hS hm hr hc h2 hd) (v :: ·))

/-- **C60.**  `many1` declines what `p` declines. -/
theorem C60_many1_declines (hS : S.Lawful) {p : Parser S σ α} (hm : Moves p) (hr : Reusable p) (hc : Consuming p)
    (hd : Declines F p) : Declines F (many1 p) :=
  refuses_congr (shape_many1 hS hm hr hc) (refuses_bind hd)

private theorem sepBy1_shape (hS : S.Lawful) {Cp : σ → Prop} {Cs : τ → Prop} {p : Parser S σ α} {s : Parser S τ β}
    (hmp : Moves p) (hms : Moves s) (hkp : Keeps false Cp p) (hks : Keeps false Cs s) (hc : Consuming p) {vs : List α}
    {v : α} (h1 : Recovers (Before u F) p w v) (h2 : Pieces F (Ref.bind s.shape fun _ => p.shape) u vs)
    (hd : Declines F s) : Recovers F (sepBy1 p s) (w ++ u) (v :: vs) := by
  intro i k hi hr hF
  obtain ⟨j, r1, r2⟩ := reads_split hr
  have hj : S.isPartial j = false := by rw [hS.reads_isPartial r1, hi]
  have h := C10_sep_by1 hS hmp hms hkp hks hc i
  simp only [Ref.IsSepBy1] at h
  rw [show p.shape i = _ from h1 i j hi r1 ⟨_, hF, ahead_reads r2⟩] at h
  obtain ⟨x, h3, h4⟩ := h
  rw [h4, C07_unique h3 (pieces_many hS h2 (refuses_bind hd) hj r2 hF)]
  simp only [Answer.map, Answer.after, isEmpty_append_not]

/-- **C60.**  `sep_by1`: an element, and then separators and elements, `u`. -/
theorem C60_sep_by1 (hS : S.Lawful) {Cp : σ → Prop} {Cs : τ → Prop} {p : Parser S σ α} {s : Parser S τ β}
    (hmp : Moves p) (hms : Moves s) (hkp : Keeps false Cp p) (hks : Keeps false Cs s) (hc : Consuming p) {vs : List α}
    {v : α} (h1 : Recovers (Before u F) p w v) (h2 : Pieces F («with» s p).shape u vs) (hd : Declines F s) :
    Recovers F (sepBy1 p s) (w ++ u) (v :: vs) := by
  rw [show («with» s p).shape = Ref.bind s.shape fun _ => p.shape from funext (C12_with s p)] at h2
  exact sepBy1_shape hS hmp hms hkp hks hc h1 h2 hd

theorem shape_sepBy (hS : S.Lawful) {Cp : σ → Prop} {Cs : τ → Prop} {p : Parser S σ α} {s : Parser S τ β}
    (hmp : Moves p) (hms : Moves s) (hkp : Keeps false Cp p) (hks : Keeps false Cs s) (hc : Consuming p) (i : S.Input) :
    (sepBy p s).shape i = orSem (sepBy1 p s).shape (Ref.value []) i := by
  obtain ⟨x, h2, h3⟩ := C10_sep_by hS hmp hms hkp hks hc i
  have h4 := C10_sep_by1 hS hmp hms hkp hks hc i
  have : x = (sepBy1 p s).shape i := by
    revert h2 h4
    simp only [Ref.IsSepBy1]
    cases p.shape i with
    | ok c v j =>
      rintro ⟨y, h5, rfl⟩ ⟨z, h6, h7⟩
      rw [h7, C07_unique h5 h6]
    | soft => rintro rfl h; exact h.symm
    | hard x => rintro rfl h; exact h.symm
    | abort x => rintro rfl h; exact h.symm
  rw [h3, this, orSem]
  cases (sepBy1 p s).shape i <;> rfl

/-- **C60.**  `sep_by`, when there is an element. -/
theorem C60_sep_by (hS : S.Lawful) {Cp : σ → Prop} {Cs : τ → Prop} {p : Parser S σ α} {s : Parser S τ β}
    (hmp : Moves p) (hms : Moves s) (hkp : Keeps false Cp p) (hks : Keeps false Cs s) (hc : Consuming p) {vs : List α}
    {v : α} (h1 : Recovers (Before u F) p w v) (h2 : Pieces F («with» s p).shape u vs) (hd : Declines F s) :
    Recovers F (sepBy p s) (w ++ u) (v :: vs) :=
  readsBack_congr (shape_sepBy hS hmp hms hkp hks hc) fun i k hi hr hF => by
    simp only [orSem, show (sepBy1 p s).shape i = _ from C60_sep_by1 hS hmp hms hkp hks hc h1 h2 hd i k hi hr hF]

/-- **C60.**  `sep_by`, when there is none. -/
theorem C60_sep_by_nil (hS : S.Lawful) {Cp : σ → Prop} {Cs : τ → Prop} {p : Parser S σ α} {s : Parser S τ β}
    (hmp : Moves p) (hms : Moves s) (hkp : Keeps false Cp p) (hks : Keeps false Cs s) (hc : Consuming p)
    (hd : Declines F p) : Recovers F (sepBy p s) [] [] :=
  readsBack_congr (shape_sepBy hS hmp hms hkp hks hc) fun i k hi hr hF => by
    cases Strm.reads_nil.1 hr
    have h4 := C10_sep_by1 hS hmp hms hkp hks hc i
    simp only [Ref.IsSepBy1] at h4
    rw [show p.shape i = _ from hd i hi hF] at h4
    simp only [orSem, h4, Ref.value]
    rfl

/-- **C60.**  `chainl1`: operands `v`, `x₁`, `x₂`, ... with operators between them give `(v f₁ x₁) f₂ x₂ ...`. -/
theorem C60_chainl1 (hS : S.Lawful) {Cp : σ → Prop} {Cs : τ → Prop} {p : Parser S σ α} {s : Parser S τ (α → α → α)}
    (hmp : Moves p) (hms : Moves s) (hkp : Keeps false Cp p) (hks : Keeps false Cs s) (hc : Consuming p)
    (hst : StartsAnew p) {v : α} {fs : List ((α → α → α) × α × Unit)} (h1 : Recovers (Before u F) p w v)
    (h2 : Pieces F (pair s p).shape u fs) (hd : Declines F s) :
    Recovers F (chainl1 p s) (w ++ u) (fs.foldl (fun l x => x.1 l x.2.1) v) := by
  have hsh : ∀ i, Ref.map (pair s p).shape (fun x => (x.1, x.2.1)) i =
      Ref.bind s.shape (fun f => Ref.map p.shape fun x => (f, x)) i := by
    intro i
    rw [Ref.map, pair, C12_tuple s (.cons p .nil) i]
    simp only [Ref.seq, Ref.bind, Ref.map, Ref.value]
    cases s.shape i with
    | ok c v j => dsimp only; cases p.shape j <;> cases c <;> simp [Answer.map, Answer.after]
    | _ => rfl
  have h2' : Pieces F (Ref.bind s.shape (fun f => Ref.map p.shape fun x => (f, x))) u (fs.map fun x => (x.1, x.2.1)) := by
    rw [← funext hsh]
    clear h1
    induction h2 with
    | nil => exact .nil
    | cons hw hv _ ih => exact .cons hw (readsBack_map hv _) ih
  intro i k hi hr hF
  obtain ⟨j, r1, r2⟩ := reads_split hr
  have hj : S.isPartial j = false := by rw [hS.reads_isPartial r1, hi]
  have h := C11_chainl1 hS hmp hms hkp hks hc hst i
  simp only [Ref.IsChainl1] at h
  rw [show p.shape i = _ from h1 i j hi r1 ⟨_, hF, ahead_reads r2⟩] at h
  obtain ⟨x, h3, h4⟩ := h
  rw [h4, C07_unique h3 (pieces_many hS h2' (refuses_bind hd) hj r2 hF)]
  simp only [Answer.map, Answer.after, isEmpty_append_not, List.foldl_map]

private theorem of_shape_soft {p : Parser S σ α} {i : S.Input} (h : p.shape i = .soft) : p.answer i = .soft := by
  revert h
  unfold Parser.shape
  cases p.answer i <;> intro h <;> cases h
  rfl

private theorem pieces_foldRight {v : α} (fs : List ((α → α → α) × α × Unit)) :
    Ref.foldRight v (fs.map fun x => (x.1, x.2.1)) = chainRight v fs := by
  induction fs generalizing v with
  | nil => rfl
  | cons x fs ih =>
    obtain ⟨f, y, _⟩ := x
    simp only [List.map_cons, Ref.foldRight, chainRight, ih]

/-- **C60.**  `chainr1`: operands `v`, `x₁`, `x₂`, ... with operators between them give `v f₁ (x₁ f₂ (x₂ ...))`. -/
theorem C60_chainr1 (hS : S.Lawful) {p : Parser S σ α} {s : Parser S τ (α → α → α)}
    (hmp : Moves p) (hms : Moves s) (hcp : Coherent p) (hcs : Coherent s) (hc : Consuming p)
    {v : α} {fs : List ((α → α → α) × α × Unit)} (h1 : Recovers (Before u F) p w v)
    (h2 : Pieces F (pair s p).shape u fs) (hd : Declines F s) :
    Recovers F (chainr1 p s) (w ++ u) (chainRight v fs) := by
  have hsh : ∀ i, Ref.map (pair s p).shape (fun x => (x.1, x.2.1)) i =
      Ref.bind s.shape (fun f => Ref.map p.shape fun x => (f, x)) i := by
    intro i
    rw [Ref.map, pair, C12_tuple s (.cons p .nil) i]
    simp only [Ref.seq, Ref.bind, Ref.map, Ref.value]
    cases s.shape i with
    | ok c v j => dsimp only; cases p.shape j <;> cases c <;> simp [Answer.map, Answer.after]
    | _ => rfl
  have h2' : Pieces F (Ref.bind s.shape (fun f => Ref.map p.shape fun x => (f, x))) u (fs.map fun x => (x.1, x.2.1)) := by
    rw [← funext hsh]
    clear h1
    induction h2 with
    | nil => exact .nil
    | cons hw hv _ ih => exact .cons hw (readsBack_map hv _) ih
  intro i k hi hr hF
  obtain ⟨j, r1, r2⟩ := reads_split hr
  have hj : S.isPartial j = false := by rw [hS.reads_isPartial r1, hi]
  have hk : S.isPartial k = false := by rw [hS.reads_isPartial r2, hj]
  have h := (C11_chainr1 hS hmp hms hcp hcs hc (of_shape_ok (h1 i j hi r1 ⟨_, hF, ahead_reads r2⟩))
    (pieces_run hS h2' hj r2 hF)).1 (of_shape_soft (hd k hk hF))
  rw [Parser.shape, h, pieces_foldRight, isEmpty_append_not]
  rfl

/-- **C60.**  `count_min_max`: as many texts as allowed, or something that `p` declines after fewer. -/
theorem C60_count_min_max (hS : S.Lawful) {p : Parser S σ α} (hm : Moves p) (hr : Reusable p) {lo hi : Nat} {vs : List α}
    (hp : Pieces F p.shape w vs) (hlo : lo ≤ vs.length) (hhi : vs.length ≤ hi) (hd : vs.length < hi → Declines F p) :
    Recovers F (countMinMax lo hi p) w vs := by
  intro i k h1 h2 h3
  have hrun := pieces_run hS hp h1 h2 h3
  obtain ⟨ws, c, l, h4, h5, h6⟩ := C09_count_min_max hS hm hr lo hi (Nat.le_trans hlo hhi) i
  obtain ⟨rfl, rfl, rfl⟩ : vs = ws ∧ (!w.isEmpty) = c ∧ k = l := by
    refine run_same hrun h4 hi hhi h5 ?_ ?_
    · intro hl
      rw [hd hl k (by rw [hS.reads_isPartial h2, h1]) h3]
      intro c v j h
      cases h
    · intro hl c v j hx
      rw [if_neg (Nat.ne_of_lt hl), hx] at h6
      exact h6
  by_cases hl : vs.length = hi
  · rw [if_pos hl] at h6
    exact h6
  · rw [if_neg hl, hd (Nat.lt_of_le_of_ne hhi hl) k (by rw [hS.reads_isPartial h2, h1]) h3] at h6
    dsimp only at h6
    rw [if_pos hlo] at h6
    exact h6

/-- **C60.**  `eof`. -/
theorem C60_eof (hS : S.Lawful) (hE : S.EndsOnly) : Recovers (fun o => o = none) (eof S) [] () := by
  intro i k _ h2 h3
  cases Strm.reads_nil.1 h2
  obtain ⟨e1, e2, _⟩ := C44_eof hS hE true i ()
  simp only [Parser.shape, Parser.answer, Out.answer]
  rw [show (eof S).init = () from rfl, e1, e2 (ahead_of_none h3)]
  rfl

/-- **C60.**  At the top: parsing the text gives the value. -/
theorem C60_parse {p : Parser S σ α} (hco : Coherent p) {v : α} (hp : Recovers F p w v) {i k : S.Input}
    (hi : S.isPartial i = false) (hr : S.Reads i w k) (hF : F (S.ahead k)) : p.parse i = .ok v k :=
  ((C41_parse p hco i).1 v k).2 ⟨_, of_shape_ok (hp i k hi hr hF)⟩

/-- **C60.**  A parser that finds itself at the end, `p.skip(eof())`: for a whole text. -/
theorem C60_whole (hS : S.Lawful) (hE : S.EndsOnly) {p : Parser S σ α} {v : α}
    (hp : Recovers (fun o => o = none) p w v) : Recovers (fun o => o = none) (skip p (eof S)) w v := by
  have := C60_skip (u := []) hS (C60_weaken hp fun o => before_nil.1) (C60_eof hS hE)
  rwa [List.append_nil] at this

/-- **C60.**  `skip_many` of a parser of one token (`spaces`, ...): all the tokens that it takes. -/
theorem C60_skip_tokens (hS : S.Lawful) {p : Parser S σ α} (hm : Moves p) (hr : Reusable p) (hc : Consuming p)
    {f : S.Tok → Option α} (h : ∀ i, S.IsOne f i (p.shape i)) (hw : ∀ t ∈ w, (f t).isSome)
    (hF : ∀ t, F (some t) → f t = none) : Recovers F (skipMany p) w () := by
  have hd : Declines F p := C60_one_declines h hF
  have hp : ∃ vs, Pieces F p.shape w vs := by
    clear hd
    induction w with
    | nil => exact ⟨[], .nil⟩
    | cons t ts ih =>
      obtain ⟨vs, hvs⟩ := ih fun x hx => hw x (by simp [hx])
      obtain ⟨v, hv⟩ := Option.isSome_iff_exists.1 (hw t (by simp))
      exact ⟨v :: vs, .cons (w := [t]) (by simp) (C60_one h hv) hvs⟩
  obtain ⟨vs, hvs⟩ := hp
  exact C60_skip_many hS hm hr hc hvs hd

/-- **C60.**  `many` of a parser of one token: all the tokens that it takes. -/
theorem C60_many_tokens (hS : S.Lawful) {p : Parser S σ α} (hm : Moves p) (hr : Reusable p) (hc : Consuming p)
    {f : S.Tok → Option α} (h : ∀ i, S.IsOne f i (p.shape i)) {vs : List α} (hw : w.map f = vs.map some)
    (hF : ∀ t, F (some t) → f t = none) : Recovers F (many p) w vs := by
  refine C60_many hS hm hr hc ?_ (C60_one_declines h hF)
  induction w generalizing vs with
  | nil => cases vs with
    | nil => exact .nil
    | cons v vs => cases hw
  | cons t ts ih => cases vs with
    | nil => cases hw
    | cons v vs =>
      simp only [List.map_cons, List.cons.injEq] at hw
      exact .cons (w := [t]) (by simp) (C60_one h hw.1) (ih hw.2)

/-- **C60.**  `many1` of a parser of one token. -/
theorem C60_many1_tokens (hS : S.Lawful) {p : Parser S σ α} (hm : Moves p) (hr : Reusable p) (hc : Consuming p)
    {f : S.Tok → Option α} (h : ∀ i, S.IsOne f i (p.shape i)) {vs : List α} (hw : w.map f = vs.map some) (hn : w ≠ [])
    (hF : ∀ t, F (some t) → f t = none) : Recovers F (many1 p) w vs := by
  cases w with
  | nil => exact absurd rfl hn
  | cons t ts => cases vs with
    | nil => cases hw
    | cons v vs =>
      simp only [List.map_cons, List.cons.injEq] at hw
      exact readsBack_congr (shape_many1 hS hm hr hc) (readsBack_bind (w := [t]) hS (C60_one h hw.1)
        (readsBack_map (C60_many_tokens hS hm hr hc h hw.2 hF) (v :: ·)))

/-- **C60.**  Labels and wrappers. -/
theorem C60_labels {p : Parser S σ α} {v : α} (hp : Recovers F p w v) (x : Info S.Tok S.Rng) :
    Recovers F (expected p x) w v ∧ Recovers F (message p x) w v ∧ Recovers F (silent p) w v ∧
    Recovers F (boxed p) w v ∧ Recovers F (opaqueP p) w v ∧ Recovers F (parserMacro p) w v ∧
    Recovers F (parserMacroUnit p) w v := by
  have e : ∀ i, (message p x).shape i = p.shape i := by
    intro i
    simp only [Parser.shape, Parser.answer, message, Parser.ofMode]
    generalize p.run true i p.init = o
    obtain ⟨r, j, s⟩ := o
    cases r <;> rfl
  have e' : ∀ i, (silent p).shape i = p.shape i := by
    intro i
    simp only [Parser.shape, Parser.answer, silent, Parser.ofMode]
    generalize p.run true i p.init = o
    obtain ⟨r, j, s⟩ := o
    cases r <;> rfl
  exact ⟨hp, readsBack_congr e hp, readsBack_congr e' hp, hp, hp, hp, hp⟩

/-- **C60.**  Labels and wrappers. -/
theorem C60_labels_declines {p : Parser S σ α} (hp : Declines F p) (x : Info S.Tok S.Rng) :
    Declines F (expected p x) ∧ Declines F (message p x) ∧ Declines F (silent p) ∧
    Declines F (boxed p) ∧ Declines F (opaqueP p) ∧ Declines F (parserMacro p) ∧ Declines F (parserMacroUnit p) := by
  have e : ∀ i, (message p x).shape i = p.shape i := by
    intro i
    simp only [Parser.shape, Parser.answer, message, Parser.ofMode]
    generalize p.run true i p.init = o
    obtain ⟨r, j, s⟩ := o
    cases r <;> rfl
  have e' : ∀ i, (silent p).shape i = p.shape i := by
    intro i
    simp only [Parser.shape, Parser.answer, silent, Parser.ofMode]
    generalize p.run true i p.init = o
    obtain ⟨r, j, s⟩ := o
    cases r <;> rfl
  exact ⟨hp, refuses_congr e hp, refuses_congr e' hp, hp, hp, hp, hp⟩

/-! ## A list that was printed -/

private abbrev B := sliceS Nat 1

/-- `[` 10, `]` 11 and `,` 12 around digits. -/
private abbrev list :=
  between (token B 10) (token B 11) (sepBy (satisfyMap B fun t => if t < 10 then some t else none) (token B 12))

/-- Every list of digits, whatever comes after it. -/
private theorem list_recovers (x : Nat) (xs : List Nat) (hx : x < 10) (hxs : ∀ y ∈ xs, y < 10) :
    Recovers (S := B) (fun _ => True) list ([10] ++ (([x] ++ xs.flatMap fun y => [12, y]) ++ [11])) (x :: xs) := by
  have hS := slice_lawful Nat 1
  have hd := C53_satisfy_map (S := B) hS fun t : Nat => if t < 10 then some t else none
  refine C60_between hS (C60_one (C53_token hS 10) (v := 10) rfl) ?_ (C60_one (C53_token hS 11) (v := 11) rfl)
  refine C60_sep_by hS (moves_satisfyMap hS _) (moves_token hS 12) (keeps_unit (h := false) _) (keeps_unit (h := false) _)
    (consuming_satisfyMap _) (C60_one hd (by simp [hx])) ?_ (C60_one_declines (C53_token hS 12) ?_)
  · have := pieces_of_list (S := B) (F := Before [11] fun _ => True) (G := fun _ => True)
      (m := («with» (token B 12) (satisfyMap B fun t => if t < 10 then some t else none)).shape) xs (fun y => [12] ++ [y]) id
      (fun y hy => ⟨by simp, C60_with hS (C60_one (C53_token hS 12) (v := 12) rfl) (C60_one hd (by simp [hxs y hy]))⟩)
      (fun _ _ => trivial) (fun _ _ _ _ => trivial)
    rwa [List.map_id] at this
  · intro t ht
    cases before_cons ht
    rfl

example : list.parse ⟨0, [10, 3, 12, 4, 11, 5]⟩ = .ok [3, 4] ⟨5, [5]⟩ :=
  C60_parse (.ofMode (slice_lawful Nat 1) (moves_between (slice_lawful Nat 1) (moves_token (slice_lawful Nat 1) 10)
    (moves_token (slice_lawful Nat 1) 11) (moves_sepBy (slice_lawful Nat 1) (moves_satisfyMap (slice_lawful Nat 1) _)
      (moves_token (slice_lawful Nat 1) 12))).run)
    (list_recovers 3 [4] (by decide) (by decide)) rfl
    (.cons rfl (.cons rfl (.cons rfl (.cons rfl (.cons rfl (.nil _)))))) trivial

end Verif
