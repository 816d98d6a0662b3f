import Verif.Proof.BlameErrors
import Verif.Props.Grammar
import Verif.Props.Places
import Verif.Proof.ErrorLemmas

/-!
# Errors blame the first token that cannot continue (C58)

A parser without `attempt` for an LL(1) grammar reports the first token after which the text read so far is no beginning of
a sentence any more, at that token's position.
-/

namespace Verif

set_option linter.unusedSectionVars false

variable {S : Strm} {Has : S.Err → S.SErr → Prop} {N σ τ υ ρ α β γ δ : Type} {rules : N → Gram N S.Tok}
  {a b c : Gram N S.Tok} {F G : S.Tok → Prop}

/-! ## One rule for each combinator -/

/-- The second error is where the first is and has its unexpected causes. -/
private def Kept (S : Strm) (Has : S.Err → S.SErr → Prop) (e' e : S.Err) : Prop :=
  S.E.position e = S.E.position e' ∧ ∀ y, (y = S.E.endOfInput ∨ ∃ x, y = S.E.unexpected x) → Has e' y → Has e y

private theorem kept_refl (e : S.Err) : Kept S Has e e := ⟨rfl, fun _ _ h => h⟩

private theorem kept_blamed {e' e : S.Err} {l : S.Input} (h : Kept S Has e' e) (hb : S.Blamed Has l e') :
    S.Blamed Has l e := ⟨h.1.trans hb.1, h.2 _ (culprit_cases l) hb.2⟩

private theorem kept_near {e' e : S.Err} {l : S.Input} (h : Kept S Has e' e) (hb : S.Near Has l e') :
    S.Near Has l e := ⟨h.1.trans hb.1, fun he => h.2 _ (.inl rfl) (hb.2 he)⟩

private theorem follows_via {p : Parser S σ α} {q : Parser S τ β} {f : α → β} (h : Follows rules a F p)
    (hsh : ∀ i, q.shape i = (p.shape i).map f) : Follows rules a F q := by
  constructor
  · intro i
    have := h.1 i
    rw [hsh]
    revert this
    cases p.shape i <;> exact id
  · intro i w k h1 h2 h3 h4
    rw [hsh]
    rcases h.2 i w k h1 h2 h3 h4 with ⟨c, v, hx⟩ | ⟨x, hx⟩ <;> rw [hx]
    · exact .inl ⟨c, f v, rfl⟩
    · exact .inr ⟨x, rfl⟩

private theorem blames_via {p : Parser S σ α} {q : Parser S τ β} {f : α → β} (h : Blames Has rules a F p)
    (hsh : ∀ i, q.shape i = (p.shape i).map f)
    (hsoft : ∀ i e, (q.run true i q.init).res = .peekErr e →
      ∃ e', (p.run true i p.init).res = .peekErr e' ∧ Kept S Has e'.error e.error)
    (hhard : ∀ i e, q.answer i = .hard e → ∃ e', p.answer i = .hard e' ∧ Kept S Has e' e)
    (hae : S.Adds Has q.addError) (hac : S.Adds Has q.addCommitted) : Blames Has rules a F q where
  toFollows := follows_via h.toFollows hsh
  useful := h.useful
  stop := by
    intro i c v j w hp hx hr
    rw [hsh] at hx
    cases hy : p.shape i with
    | ok c' v' j' => rw [hy] at hx; cases hx; exact h.stop i _ _ _ w hp hy hr
    | _ => rw [hy] at hx; cases hx
  soft := by
    intro i e hp hx
    obtain ⟨e', h1, h2⟩ := hsoft i e hx
    exact kept_near h2 (h.soft i e' hp h1)
  hard := by
    intro i e hp hx
    obtain ⟨e', h1, h2⟩ := hhard i e hx
    obtain ⟨w, l, h3, h4, h5⟩ := h.hard i e' hp h1
    exact ⟨w, l, h3, kept_blamed h2 h4, h5⟩
  addError := hae
  addCommitted := hac

/-- The same result with another value. -/
theorem blames_res {p : Parser S σ α} {q : Parser S τ β} (f : α → β) (h : Blames Has rules a F p)
    (hres : ∀ i, (q.run true i q.init).res = (p.run true i p.init).res.map f)
    (hinp : ∀ i, (q.run true i q.init).inp = (p.run true i p.init).inp)
    (hae : S.Adds Has q.addError) (hac : S.Adds Has q.addCommitted) : Blames Has rules a F q := by
  refine blames_via h (f := f) (fun i => ?_) (fun i e hx => ?_) (fun i e hx => ?_) hae hac
  · simp only [Parser.shape, Parser.answer, Out.answer, hres, hinp]
    cases (p.run true i p.init).res <;> rfl
  · rw [hres] at hx
    cases hy : (p.run true i p.init).res with
    | peekErr e' => rw [hy] at hx; cases hx; exact ⟨_, rfl, kept_refl _⟩
    | _ => rw [hy] at hx; cases hx
  · rw [answer_of_hard, hres] at hx
    cases hy : (p.run true i p.init).res with
    | commitErr e' => rw [hy] at hx; cases hx; exact ⟨_, answer_of_hard.2 hy, kept_refl _⟩
    | _ => rw [hy] at hx; cases hx

/-- **C58.**  Fewer tokens come next. -/
theorem C58_weaken {p : Parser S σ α} (h : Blames Has rules a F p) (hG : ∀ t, G t → F t) : Blames Has rules a G p :=
  { h with toFollows := C56_weaken h.toFollows hG }

/-- **C58.**  Grammars that derive the same and begin with the same. -/
theorem C58_same {p : Parser S σ α} (h : Blames Has rules a F p) (hd : ∀ w, a.Derives rules w ↔ b.Derives rules w)
    (hf : ∀ t, a.First rules t ↔ b.First rules t) (hu : b.Useful rules) : Blames Has rules b F p := by
  have hv : ∀ w, a.Viable rules w ↔ b.Viable rules w := fun w => exists_congr fun v => hd _
  refine { h with toFollows := C56_same h.toFollows hd hf, useful := hu, stop := ?_, hard := ?_ }
  · intro i c v j w hp hx hr t k ht hb
    exact h.stop i c v j w hp hx hr t k ht ((hv _).2 hb)
  · intro i e hp hx
    obtain ⟨w, l, h1, h2, h3, h4⟩ := h.hard i e hp hx
    exact ⟨w, l, h1, h2, (hv w).1 h3, fun t k ht hb => h4 t k ht ((hv _).2 hb)⟩

/-- **C58.**  `value`. -/
theorem C58_value (v : α) : Blames Has rules .empty F (value S v) where
  toFollows := C56_value v
  useful := trivial
  stop := stops_value v
  soft := fun i e _ hx => by cases hx
  hard := fun i e _ hx => by cases hx
  addError := adds_id
  addCommitted := adds_id

/-- **C58.**  Labels and wrappers. -/
theorem C58_labels (hE : S.E.Naming Has) {p : Parser S σ α} (hp : Blames Has rules a F p) (x : Info S.Tok S.Rng) :
    Blames Has rules a F (expected p x) ∧ Blames Has rules a F (message p x) ∧ Blames Has rules a F (silent p) ∧
    Blames Has rules a F (boxed p) ∧ Blames Has rules a F (opaqueP p) ∧ Blames Has rules a F (parserMacro p) ∧
    Blames Has rules a F (parserMacroUnit p) := by
  have hid : ∀ r : ParseResult α S.Err, r = r.map id := fun r => by cases r <;> rfl
  refine ⟨blames_res id hp (fun i => hid _) (fun _ => rfl) (adds_label hE hp.addError _) hp.addCommitted, ?_, ?_,
    blames_res id hp (fun i => hid _) (fun _ => rfl) hp.addError hp.addCommitted,
    blames_res id hp (fun i => hid _) (fun _ => rfl) hp.addError hp.addCommitted,
    blames_res id hp (fun i => hid _) (fun _ => rfl) hp.addError hp.addCommitted,
    blames_res id hp (fun i => hid _) (fun _ => rfl) hp.addError hp.addCommitted⟩
  · refine blames_via hp (f := id) (fun i => ?_) (fun i e hx => ?_) (fun i e hx => ?_) ?_ hp.addCommitted
    · simp only [Parser.shape, Parser.answer, message, Parser.ofMode]
      generalize p.run true i p.init = o
      obtain ⟨r, j, s⟩ := o
      cases r <;> rfl
    · simp only [message, Parser.ofMode] at hx
      revert hx
      generalize p.run true i p.init = o
      obtain ⟨r, j, s⟩ := o
      cases r <;> intro hx <;> cases hx
      exact ⟨_, rfl, kept_refl _⟩
    · rw [answer_of_hard] at hx
      have : ∃ e', (p.run true i p.init).res = .commitErr e' ∧ Kept S Has e' e := by
        simp only [message, Parser.ofMode] at hx
        revert hx
        generalize p.run true i p.init = o
        obtain ⟨r, j, s⟩ := o
        cases r <;> intro hx <;> cases hx
        exact ⟨_, rfl, hE.add _ _, fun y _ h => hE.has_keep _ _ _ h⟩
      obtain ⟨e', h1, h2⟩ := this
      exact ⟨e', answer_of_hard.2 h1, h2⟩
    · exact (adds_add hE (S.E.message x)).comp hp.addError
  · refine blames_via hp (f := id) (fun i => ?_) (fun i e hx => ?_) (fun i e hx => ?_) adds_id adds_id
    · simp only [Parser.shape, Parser.answer, silent, Parser.ofMode]
      generalize p.run true i p.init = o
      obtain ⟨r, j, s⟩ := o
      cases r <;> rfl
    · simp only [silent, Parser.ofMode] at hx
      revert hx
      generalize p.run true i p.init = o
      obtain ⟨r, j, s⟩ := o
      cases r <;> intro hx <;> cases hx
      exact ⟨_, rfl, hE.clearExpected _, fun y hy h => hE.has_clear _ _ hy h⟩
    · rw [answer_of_hard] at hx
      have : ∃ e', (p.run true i p.init).res = .commitErr e' ∧ Kept S Has e' e := by
        simp only [silent, Parser.ofMode] at hx
        revert hx
        generalize p.run true i p.init = o
        obtain ⟨r, j, s⟩ := o
        cases r <;> intro hx <;> cases hx
        exact ⟨_, rfl, hE.clearExpected _, fun y hy h => hE.has_clear _ _ hy h⟩
      obtain ⟨e', h1, h2⟩ := this
      exact ⟨e', answer_of_hard.2 h1, h2⟩

/-- **C58.**  `map`, and `ignore` inside of `with` and `skip`. -/
theorem C58_map {p : Parser S σ α} (h : Blames Has rules a F p) (f : α → β) : Blames Has rules a F (map p f) :=
  blames_res f h (fun _ => rfl) (fun _ => rfl) h.addError h.addCommitted

theorem blames_ignore {p : Parser S σ α} (h : Blames Has rules a F p) : Blames Has rules a F (ignore p) :=
  blames_res (fun _ => ()) h (fun _ => rfl) (fun _ => rfl) h.addError h.addCommitted

/-- What one-token parsers answer. -/
private theorem impl_near (hS : S.Lawful) (hE : S.E.Naming Has) (hP : S.EndsPlainly) {f : S.Tok → Option α} {i : S.Input}
    {e : Tracked S.Err} (hp : S.isPartial i = false) (h : (satisfyImpl S f i).1 = .peekErr e) : S.Near Has i e.error := by
  simp only [satisfyImpl, Strm.unconsP] at h
  cases hu : S.uncons i with
  | mk x j =>
    cases x with
    | ok t =>
      rw [hu] at h
      dsimp only at h
      cases hf : f t with
      | some v => rw [hf] at h; cases h
      | none =>
        rw [hf] at h
        cases h
        refine ⟨hE.empty _, ?_⟩
        rintro ⟨y, hy⟩
        rw [hu] at hy
        cases hy
    | error x =>
      obtain rfl := hP i x j hu
      obtain rfl := hS.uncons_error hu
      rw [hu] at h
      simp only [Strm.wrapStreamError, hp] at h
      cases h
      exact ⟨hE.fromError _ _, fun _ => hE.has_from _ _⟩

private theorem blames_one (hS : S.Lawful) (hE : S.E.Naming Has) (hP : S.EndsPlainly) {p : Parser S σ α}
    {f : S.Tok → Option α} (h : ∀ i, S.IsOne f i (p.shape i))
    (hi : ∀ i, (p.run true i p.init).res = (satisfyImpl S f i).1) (hu : ∃ t, (f t).isSome = true)
    (hae : S.Adds Has p.addError) (hac : S.Adds Has p.addCommitted) :
    Blames Has rules (.one fun t => (f t).isSome) F p where
  toFollows := C56_one h
  useful := hu
  stop := by
    rintro i c v j w hp hx hr t k ht ⟨r, hd⟩
    rcases h i with ⟨t', j', h1, h2⟩ | ⟨_, h2⟩
    · rw [h2] at hx
      cases hf : f t' with
      | none => rw [hf] at hx; cases hx
      | some v' =>
        rw [hf] at hx
        cases hx
        cases w with
        | nil =>
          have h3 := hS.reads_size (.cons h1 (.nil _))
          rw [Strm.reads_nil.1 hr] at h3
          simp only [List.length_cons, List.length_nil] at h3
          omega
        | cons t1 ts =>
          generalize hg : t1 :: ts ++ [t] ++ r = x at hd
          cases hd
          simp at hg
    · rw [h2, hp] at hx
      cases hx
  soft := fun i e hp hx => impl_near hS hE hP hp ((hi i).symm.trans hx)
  hard := by
    intro i e hp hx
    rcases h i with ⟨t', j', h1, h2⟩ | ⟨_, h2⟩
    · have h3 := shape_of_hard hx
      rw [h2] at h3
      cases hf : f t' <;> rw [hf] at h3 <;> cases h3
    · have h3 := shape_of_hard hx
      rw [h2, hp] at h3
      cases h3
  addError := hae
  addCommitted := hac

/-- **C58.**  `satisfy_map`, `satisfy`, `token` and `any`. -/
theorem C58_one (hS : S.Lawful) (hE : S.E.Naming Has) (hP : S.EndsPlainly) [DecidableEq S.Tok] (f : S.Tok → Option α)
    (hf : ∃ t, (f t).isSome = true) (g : S.Tok → Bool) (hg : ∃ t, (if g t then some t else none).isSome = true) (x : S.Tok) :
    Blames Has rules (.one fun t => (f t).isSome) F (satisfyMap S f) ∧
    Blames Has rules (.one fun t => (if g t then some t else none).isSome) F (satisfy S g) ∧
    Blames Has rules (.one fun t => (if t = x then some t else none).isSome) F (token S x) ∧
    Blames Has rules (.one fun t => (some t).isSome) F (any S) := by
  refine ⟨blames_one hS hE hP (C53_satisfy_map hS f) (fun _ => rfl) hf adds_id adds_id,
    blames_one hS hE hP (C53_satisfy hS g) (fun _ => rfl) hg adds_id adds_id,
    blames_one hS hE hP (C53_token hS x) (fun _ => rfl) ⟨x, by simp⟩ (adds_addExpected hE _) adds_id,
    blames_one hS hE hP (C53_any hS) (fun i => ?_) ⟨x, rfl⟩ adds_id adds_id⟩
  simp only [any, Parser.ofLazy, satisfyImpl, Strm.unconsP]
  cases S.uncons i with
  | mk x j =>
    cases x with
    | ok t => rfl
    | error e => simp only [Strm.wrapStreamError]; cases S.isPartial j <;> rfl

/-! ### Sequences -/

private theorem tuple_stops (hS : S.Lawful) {ps : Seq S τ β} (h : SeqBlames Has rules F a ps) :
    SeqFollows rules F a ps ∧ Predicts rules a (Ref.seq ps) ∧ Accepts rules a F (Ref.seq ps) ∧ Stops rules a (Ref.seq ps) := by
  induction h with
  | nil =>
    exact ⟨.nil, (C56_value (F := F) ()).1, (C56_value ()).2, stops_value ()⟩
  | @cons _ _ _ _ a b p ps _ hp _ ih =>
    have hf := SeqFollows.cons hp.toFollows ih.1
    have h1 := C56_tuple hS hp.toFollows ih.1
    have e : (tuple p ps).shape = Ref.seq (.cons p ps) := funext (C12_tuple p ps)
    refine ⟨hf, e ▸ h1.1, e ▸ h1.2, ?_⟩
    rw [Ref.seq]
    refine stops_bind hS hp.1.1 hp.1.2 hp.stop (fun v => ?_) fun v => stops_map ih.2.2.2 _
    intro i
    have := ih.2.1 i
    simp only [Ref.map]
    revert this
    cases Ref.seq ps i <;> exact id

/-- **C58.**  Tuples: a later member that fails softly after a token has been read makes the tuple fail with commitment, and
the error then names the token at which that member was tried. -/
theorem C58_tuple (hS : S.Lawful) (hE : S.E.Naming Has) {p : Parser S σ α} {ps : Seq S τ β} (hm : Moves p)
    (hp : Blames Has rules a (b.Then rules F) p) (hs : SeqBlames Has rules F b ps) :
    Blames Has rules (a.seq b) F (tuple p ps) := by
  have hall : SeqBlames Has rules F (a.seq b) (.cons p ps) := .cons hm hp hs
  have hst := tuple_stops hS hall
  have hparts := parts_adds hall
  have e : (tuple p ps).shape = Ref.seq (.cons p ps) := funext (C12_tuple p ps)
  -- the run
  have key : ∀ i, S.isPartial i = false →
      (∀ e, ((tuple p ps).run true i (tuple p ps).init).res = .peekErr e → S.Near Has i e.error) ∧
      (∀ e, ((tuple p ps).run true i (tuple p ps).init).res = .commitErr e →
        ∃ w l, S.Reads i w l ∧ S.Blamed Has l e ∧ (a.seq b).Viable rules w ∧ S.Beyond rules (a.seq b) w l) := by
    intro i hpart
    have hub := seq_useful hs
    have hrest : ∀ (c : Bool) (x : α), p.shape i = .ok c x (p.run true i p.init).inp → ∀ st : SeqSt σ τ α, st.tail = ps.init →
        (∀ e, (seqRest p ps true (if c then 1 else 0) (p.run true i p.init).inp st).res = .peekErr e →
          S.Near Has i e.error) ∧
        (∀ e, (seqRest p ps true (if c then 1 else 0) (p.run true i p.init).inp st).res = .commitErr e →
          ∃ w l, S.Reads i w l ∧ S.Blamed Has l e ∧ (a.seq b).Viable rules w ∧ S.Beyond rules (a.seq b) w l) := by
      intro c x hx st ht
      have hpred := hp.predicts i
      rw [hx] at hpred
      obtain ⟨u, h1, h2, h3, _⟩ := hpred
      have hstop := hp.stop i _ _ _ u hpart hx h1
      unfold seqRest
      rw [ht]
      have h4 := steps_blame hE hS hs (if c then 1 else 0) 0 st.offset (p.run true i p.init).inp
        ((hS.reads_isPartial h1).trans hpart)
      revert h4
      generalize ps.steps true (if c then 1 else 0) 0 st.offset (p.run true i p.init).inp ps.init = r
      obtain ⟨fin, f, o, j, st'⟩ := r
      rintro ⟨h5, h6⟩
      cases fin with
      | done =>
        dsimp only [seqFinish]
        constructor <;> intro e he
        · split at he
          · dsimp only at he
            split at he <;> cases he
          · cases he
        · split at he
          · dsimp only at he
            split at he <;> cases he
          · cases he
      | abort y => constructor <;> intro e he <;> cases he
      | peekErr y => exact h6.elim
      | commitErr y =>
        obtain ⟨w, l, h7, h8, h9, h10⟩ := h6
        constructor <;> intro e he <;> cases he
        exact ⟨u ++ w, l, reads_append h1 h7, h8, Gram.viable_right h2 h9,
          beyond_right hS hp.accepts hpart hx h1 h7 hstop h10⟩
      | fail y =>
        obtain ⟨w, h7, h8, h9, h10, h11⟩ := h6
        have h12 := seqAddErrors_blame (α := α × β) hE hparts y f o j h8
        constructor
        · intro e he
          obtain ⟨h13, h14⟩ := h12.2 e he
          have hw := h11 h13
          cases c with
          | true => exact absurd h13 (h5 (by simp))
          | false =>
            cases u with
            | cons t ts => cases h3
            | nil =>
              rw [Strm.reads_nil.1 h1] at h7
              rw [hw] at h7
              rw [← Strm.reads_nil.1 h7]
              exact h14
        · intro e he
          obtain ⟨h13, h14⟩ := h12.1 e he
          exact ⟨u ++ w, j, reads_append h1 h7, h14, Gram.viable_right h2 h9,
            beyond_right hS hp.accepts hpart hx h1 h7 hstop h10⟩
    simp only [tuple, Parser.ofMode, seqRun, Bool.true_or, if_true]
    cases hr : (p.run true i p.init).res with
    | commitOk x => exact hrest true x (shape_of_res.1 hr) _ rfl
    | peekOk x => exact hrest false x (shape_of_res.2 hr) _ rfl
    | commitErr y =>
      constructor <;> intro e he <;> cases he
      obtain ⟨w, l, h1, h2, h3, h4⟩ := hp.hard i _ hpart (answer_of_hard.2 hr)
      have hs := shape_of_hard (answer_of_hard.2 hr)
      exact ⟨w, l, h1, h2, Gram.viable_left h3 hub,
        beyond_left hp.accepts hpart h1 (fun c v j h => by rw [hs] at h; cases h) (fun x h => by rw [hs] at h; cases h) h4⟩
    | peekErr y =>
      constructor <;> intro e he <;> cases he
      exact hp.soft i _ hpart hr
    | abort y => constructor <;> intro e he <;> cases he
  refine ⟨C56_tuple hS hp.toFollows (tuple_stops hS hs).1, seq_useful hall, ?_, fun i e hpart hx => (key i hpart).1 e hx,
    fun i e hpart hx => (key i hpart).2 e (answer_of_hard.1 hx), ?_, ?_⟩
  · rw [e]; exact hst.2.2.2
  · intro e
    simp only [tuple, Parser.ofMode]
    have h1 := hp.addError e
    generalize p.addError e = e1 at h1
    split
    · exact h1
    · have h2 := seq_addErrors_adds hs
      split
      · exact ⟨((h2 _).1).trans h1.1, fun y hy h => (h2 _).2 y hy (h1.2 y hy h)⟩
      · exact ⟨((h2 _).1).trans h1.1, fun y hy h => (h2 _).2 y hy (h1.2 y hy h)⟩
  · exact seq_last_adds hs hp.addCommitted

/-- The two derive the same and begin with the same. -/
def Like (rules : N → Gram N S.Tok) (a b : Gram N S.Tok) : Prop :=
  (∀ w, a.Derives rules w ↔ b.Derives rules w) ∧ ∀ t, a.First rules t ↔ b.First rules t

theorem like_empty (b : Gram N S.Tok) : Like rules (b.seq .empty) b := by
  refine ⟨fun w => ⟨fun hd => ?_, fun hd => ?_⟩, fun t => ⟨fun hf => ?_, .seq⟩⟩
  · obtain ⟨u, v, rfl, h1, h2⟩ := Gram.derives_seq.1 hd
    cases h2
    simpa using h1
  · have := Gram.Derives.seq hd (.empty (rules := rules))
    simpa using this
  · rcases Gram.first_seq.1 hf with h | ⟨_, h⟩
    · exact h
    · cases h

theorem like_seq (h : Like rules b c) : Like rules (a.seq b) (a.seq c) := by
  constructor
  · intro w
    rw [Gram.derives_seq, Gram.derives_seq]
    simp only [h.1]
  · exact fun t => Gram.first_seq.trans ((or_congr Iff.rfl (and_congr Iff.rfl (h.2 t))).trans Gram.first_seq.symm)

theorem like_then (h : Like rules b c) {G : S.Tok → Prop} : Gram.Then rules b G = Gram.Then rules c G := by
  funext t
  exact propext (or_congr (h.2 t) (and_congr (h.1 []) Iff.rfl))

theorem then_empty {G : S.Tok → Prop} : Gram.Then rules (.empty) G = G := by
  funext t
  apply propext
  constructor
  · rintro (h | ⟨_, h⟩)
    · cases h
    · exact h
  · exact fun h => .inr ⟨.empty, h⟩

/-- The member list of a pair. -/
private theorem blames_last {q : Parser S τ β} (hm : Moves q) (hq : Blames Has rules b F q) :
    SeqBlames Has rules F (b.seq .empty) (.cons q .nil) := .cons hm (by rw [then_empty]; exact hq) .nil

private theorem blames_pair (hS : S.Lawful) (hE : S.E.Naming Has) {p : Parser S σ α} {q : Parser S τ β} (hmp : Moves p)
    (hmq : Moves q) (hp : Blames Has rules a (b.Then rules F) p) (hq : Blames Has rules b F q) :
    Blames Has rules (a.seq b) F (pair p q) :=
  have h := C58_tuple hS hE hmp (by rw [like_then (like_empty b)]; exact hp) (blames_last hmq hq)
  have hl := like_seq (a := a) (like_empty (rules := rules) b)
  C58_same h hl.1 hl.2 ⟨hp.useful, hq.useful⟩

/-- **C58.**  `with`. -/
theorem C58_with (hS : S.Lawful) (hE : S.E.Naming Has) {p : Parser S σ α} {q : Parser S τ β} (hmp : Moves p)
    (hmq : Moves q) (hp : Blames Has rules a (b.Then rules F) p) (hq : Blames Has rules b F q) :
    Blames Has rules (a.seq b) F («with» p q) :=
  have h := blames_pair hS hE (moves_ignore hS hmp) hmq (blames_ignore hp) hq
  blames_res (fun x => x.2.1) h (fun _ => rfl) (fun _ => rfl) h.addError h.addCommitted

/-- **C58.**  `skip`. -/
theorem C58_skip (hS : S.Lawful) (hE : S.E.Naming Has) {p : Parser S σ α} {q : Parser S τ β} (hmp : Moves p)
    (hmq : Moves q) (hp : Blames Has rules a (b.Then rules F) p) (hq : Blames Has rules b F q) :
    Blames Has rules (a.seq b) F (skip p q) :=
  have h := blames_pair hS hE hmp (moves_ignore hS hmq) hp (blames_ignore hq)
  blames_res (fun x => x.1) h (fun _ => rfl) (fun _ => rfl) h.addError h.addCommitted

/-- **C58.**  `between`. -/
theorem C58_between (hS : S.Lawful) (hE : S.E.Naming Has) {o : Parser S σ α} {cl : Parser S υ γ} {p : Parser S τ β}
    (hmo : Moves o) (hmp : Moves p) (hmc : Moves cl)
    (ho : Blames Has rules a ((b.seq c).Then rules F) o) (hp : Blames Has rules b (c.Then rules F) p)
    (hc : Blames Has rules c F cl) : Blames Has rules (a.seq (b.seq c)) F (between o cl p) :=
  have hl := like_seq (a := b) (like_empty (rules := rules) c)
  have hl' := like_seq (a := a) hl
  have h : Blames Has rules (a.seq (b.seq (c.seq .empty))) F (tuple o (.cons p (.cons cl .nil))) :=
    C58_tuple hS hE hmo (by rw [like_then hl]; exact ho)
      (.cons hmp (by rw [like_then (like_empty c)]; exact hp) (blames_last hmc hc))
  (C58_labels hE (C58_map (C58_same h hl'.1 hl'.2 ⟨ho.useful, hp.useful, hc.useful⟩) _) (.static "")).2.2.2.2.2.1

/-! ### Choice -/

private theorem mergeAll_near (hE : S.E.Naming Has) {i : S.Input} (t : Tried S) (ts : List (Tried S))
    (h : ∀ u ∈ t :: ts, S.Near Has i u.err.error) : S.Near Has i (mergeAll t ts) := by
  induction ts generalizing t with
  | nil => exact h t (.head _)
  | cons u us ih => exact near_merge hE (h t (.head _)) (ih u fun v hv => h v (.tail _ hv))

private theorem addTried_near {i : S.Input} (ts : List (Tried S)) (h : ∀ u ∈ ts, S.Adds Has u.addError) (e : Tracked S.Err)
    (he : S.Near Has i e.error) : S.Near Has i (addTried e ts).error := by
  unfold addTried
  induction ts generalizing e with
  | nil => exact he
  | cons u us ih =>
    rw [List.foldl_cons]
    refine ih (fun v hv => h v (.tail _ hv)) _ ?_
    split
    · exact (h u (.head _)).near (t := { e with offset := u.err.offset }) he
    · exact he

private theorem choiceFail_near (hE : S.E.Naming Has) {i : S.Input} (ts : List (Tried S))
    (h : ∀ u ∈ ts, S.Near Has i u.err.error ∧ S.Adds Has u.addError) :
    (∀ e, (choiceFail ts : ParseResult α S.Err) = .peekErr e → S.Near Has i e.error) ∧
    (∀ e, (choiceFail ts : ParseResult α S.Err) ≠ .commitErr e) := by
  cases ts with
  | nil => exact ⟨fun e he => (by cases he), fun e he => (by cases he)⟩
  | cons t ts =>
    refine ⟨fun e he => ?_, fun e he => by cases he⟩
    injection he with he
    subst he
    exact addTried_near _ (fun u hu => (h u hu).2) _ (mergeAll_near hE t ts fun u hu => (h u hu).1)

private theorem doChoice_blame (hS : S.Lawful) (hE : S.E.Naming Has) {ps : Alts S α τ} (h : AltsBlame Has rules F a ps)
    (i : S.Input) (hpart : S.isPartial i = false) (bp : S.Pos) (tried : List (Tried S))
    (ht : ∀ u ∈ tried, S.Near Has i u.err.error ∧ S.Adds Has u.addError) :
    (∀ e, (ps.doChoice bp (S.checkpoint i) tried i).res = .peekErr e → S.Near Has i e.error) ∧
    (∀ e, (ps.doChoice bp (S.checkpoint i) tried i).res = .commitErr e →
      ∃ w l, S.Reads i w l ∧ S.Blamed Has l e ∧ a.Viable rules w ∧ S.Beyond rules a w l) := by
  induction h generalizing tried with
  | @last σ a p hm hp =>
    unfold Alts.doChoice
    dsimp only
    have hmv := hm.run true i p.init
    cases hr : (p.run true i p.init).res with
    | commitOk x => constructor <;> intro e he <;> cases he
    | peekOk x => constructor <;> intro e he <;> cases he
    | abort x => constructor <;> intro e he <;> cases he
    | commitErr y =>
      constructor <;> intro e he <;> cases he
      exact hp.hard i _ hpart (answer_of_hard.2 hr)
    | peekErr y =>
      dsimp only
      rw [hS.reset_reach hmv]
      dsimp only
      have h1 := choiceFail_near (α := α) hE (i := i) (tried ++ [⟨p.addError, y⟩]) (by
        intro u hu
        rcases List.mem_append.1 hu with hu | hu
        · exact ht u hu
        · cases List.mem_singleton.1 hu
          exact ⟨hp.soft i y hpart hr, hp.addError⟩)
      exact ⟨h1.1, fun e he => absurd he (h1.2 e)⟩
  | @cons σ τ a b p ps hm hp hps ha hab hF ih =>
    unfold Alts.doChoice
    dsimp only
    have hmv := hm.run true i p.init
    have hpred := hp.predicts i
    cases hr : (p.run true i p.init).res with
    | commitOk x => constructor <;> intro e he <;> cases he
    | peekOk x => constructor <;> intro e he <;> cases he
    | abort x => constructor <;> intro e he <;> cases he
    | commitErr y =>
      constructor <;> intro e he <;> cases he
      obtain ⟨w, l, h1, h2, h3, h4⟩ := hp.hard i _ hpart (answer_of_hard.2 hr)
      rw [shape_of_hard (answer_of_hard.2 hr)] at hpred
      rcases hpred with ⟨t, j, h5, h6⟩ | ⟨h5, _⟩
      · exact ⟨w, l, h1, h2, Gram.viable_alt.2 (.inl h3), (beyond_alt h1 h4 (unfit_of_first h5 h6 hab)).1⟩
      · rw [hpart] at h5; cases h5
    | peekErr y =>
      dsimp only
      rw [hS.reset_reach hmv]
      dsimp only
      rw [shape_of_err hr] at hpred
      have h1 := ih (tried ++ [⟨p.addError, y⟩]) (by
        intro u hu
        rcases List.mem_append.1 hu with hu | hu
        · exact ht u hu
        · cases List.mem_singleton.1 hu
          exact ⟨hp.soft i y hpart hr, hp.addError⟩)
      refine ⟨h1.1, fun e he => ?_⟩
      obtain ⟨w, l, h2, h3, h4, h5⟩ := h1.2 e he
      exact ⟨w, l, h2, h3, Gram.viable_alt.2 (.inr h4), (beyond_alt h2 h5 hpred.1).2⟩

theorem alts_follow {ps : Alts S α τ} (h : AltsBlame Has rules F a ps) :
    AltsFollow rules F a ps ∧ a.Useful rules ∧ (∀ q, ps.Mem q → Moves q.2) ∧ S.Adds Has ps.addErrors := by
  induction h with
  | last hm hp => exact ⟨.last hp.toFollows, hp.useful, fun q hq => by cases hq; exact hm, hp.addError.offset fun _ => 1⟩
  | cons hm hp _ ha h1 h2 ih =>
    refine ⟨.cons hp.toFollows ih.1 ha h1 h2, ⟨hp.useful, ih.2.1⟩, fun q hq => ?_,
      ih.2.2.2.comp (hp.addError.offset fun _ => 1)⟩
    rcases hq with rfl | hq
    · exact hm
    · exact ih.2.2.1 _ hq

private theorem choice_stops {ps : Alts S α τ} (h : AltsBlame Has rules F a ps) :
    Predicts rules a (fun i => (Ref.choice ps.answers i).shape) ∧ Stops rules a fun i => (Ref.choice ps.answers i).shape := by
  induction h with
  | @last σ a p _ hp =>
    have e : ∀ i, (Ref.choice (Alts.answers (.last p)) i).shape = p.shape i := by
      intro i
      simp only [Alts.answers, Ref.choice, Parser.shape]
      cases p.answer i <;> rfl
    rw [show (fun i => (Ref.choice (Alts.answers (.last p)) i).shape) = p.shape from funext e]
    exact ⟨hp.predicts, hp.stop⟩
  | @cons σ τ a b p ps _ hp _ ha h1 h2 ih =>
    have e : ∀ i, (Ref.choice (Alts.answers (.cons p ps)) i).shape =
        orSem p.shape (fun i => (Ref.choice ps.answers i).shape) i := by
      intro i
      simp only [orSem, Alts.answers, Ref.choice, Parser.shape]
      cases p.answer i <;> rfl
    rw [show (fun i => (Ref.choice (Alts.answers (.cons p ps)) i).shape) = _ from funext e]
    exact ⟨predicts_or hp.predicts ih.1 ha, stops_or hp.predicts hp.stop ih.2 ha h1⟩

private theorem adds_choice {f : Tracked S.Err → Tracked S.Err} (hf : S.Adds Has f) : S.Adds Has (choiceAddError f) := by
  intro e
  unfold choiceAddError
  dsimp only
  split
  · exact hf e
  · exact ⟨rfl, fun _ _ h => h⟩

/-- **C58.**  `choice`: the errors of all alternatives are at the same place. -/
theorem C58_choice (hS : S.Lawful) (hE : S.E.Naming Has) {ps : Alts S α τ} (h : AltsBlame Has rules F a ps) :
    Blames Has rules a F (choice ps) := by
  have hf := alts_follow h
  have e : (choice ps).shape = fun i => (Ref.choice ps.answers i).shape := funext fun i =>
    congrArg Answer.shape (C03_choice hS hf.2.2.1 true (choice ps).init (.inl rfl) i).1
  have key := fun i hpart => doChoice_blame hS hE h i hpart (S.position i) [] (fun u hu => nomatch hu)
  exact ⟨C56_choice hS hf.2.2.1 hf.1, hf.2.1, e ▸ (choice_stops h).2, fun i e hpart hx => (key i hpart).1 e hx,
    fun i e hpart hx => (key i hpart).2 e (answer_of_hard.1 hx), adds_choice hf.2.2.2, adds_id⟩

/-- **C58.**  `or`. -/
theorem C58_or (hS : S.Lawful) (hE : S.E.Naming Has) {p : Parser S σ α} {q : Parser S τ α} (hmp : Moves p) (hmq : Moves q)
    (hp : Blames Has rules a F p) (hq : Blames Has rules b F q) (ha : ¬ a.Null rules)
    (h1 : Gram.Apart (a.First rules) (b.First rules)) (h2 : b.Null rules → Gram.Apart (a.First rules) F) :
    Blames Has rules (a.alt b) F (or p q) := by
  have h := C58_choice hS hE (.cons hmp hp (.last hmq hq) ha h1 h2)
  refine blames_res id h (fun i => ?_) (fun _ => rfl) ?_ adds_id
  · exact (fun r : ParseResult α S.Err => show r = r.map id by cases r <;> rfl) _
  · exact adds_ite (c := fun e => e.offset ≠ 0) h.addError adds_id

/-- **C58.**  `optional`. -/
theorem C58_optional (hS : S.Lawful) {p : Parser S σ α} (hm : Moves p) (hp : Blames Has rules a F p) (ha : ¬ a.Null rules)
    (hF : Gram.Apart (a.First rules) F) : Blames Has rules a.opt F (optional p) := by
  have e : (optional p).shape = orSem (Ref.map p.shape some) (Ref.value none) := by
    funext i
    simp only [orSem, Parser.shape, C06_optional hS hm i, Ref.optional, Ref.map, Ref.value]
    cases p.answer i <;> rfl
  have hun : ∀ i, S.Unfit rules .empty i := fun i t j _ h => by cases h
  refine ⟨C56_optional hS hm hp.toFollows ha hF, ⟨hp.useful, trivial⟩, ?_, fun i e hpart hx => ?_, fun i e hpart hx => ?_,
    hp.addError, adds_id⟩
  · rw [e]
    refine stops_or (fun i => ?_) (stops_map hp.stop some) (stops_value none) ha (fun t _ h => by cases h)
    have := hp.predicts i
    simp only [Ref.map]
    revert this
    cases p.shape i <;> exact id
  · simp only [optional, Parser.ofMode] at hx
    have hmv := hm.run true i p.init
    cases hr : (p.run true i p.init).res with
    | peekErr y => rw [hr] at hx; dsimp only at hx; rw [hS.tryReset_eq hmv] at hx; cases hx
    | _ => rw [hr] at hx; cases hx
  · rw [C06_optional hS hm i] at hx
    simp only [Ref.optional] at hx
    cases hy : p.answer i with
    | hard y =>
      rw [hy] at hx
      cases hx
      obtain ⟨w, l, h1, h2, h3, h4⟩ := hp.hard i _ hpart hy
      exact ⟨w, l, h1, h2, Gram.viable_alt.2 (.inl h3), (beyond_alt h1 h4 (hun i)).1⟩
    | _ => rw [hy] at hx; cases hx

/-! ### Repetition -/

theorem star_append {u w : List S.Tok} {g : Gram N S.Tok} (h : g.Derives rules u) (hg : g = a.star)
    (hw : a.star.Viable rules w) : a.star.Viable rules (u ++ w) := by
  induction h with
  | stop => exact hw
  | more h1 _ _ ih =>
    cases hg
    rw [List.append_assoc]
    exact Gram.viable_more h1 (ih rfl)
  | _ => cases hg

/-- A repetition whose last round fails with commitment. -/
private theorem rounds_blame (hS : S.Lawful) {p : Parser S σ α} (hp : Blames Has rules a (fun t => a.First rules t ∨ F t) p)
    {i k : S.Input} {vs : List α} {c : Bool} (hr : Ref.Run p.answer i vs c k) {e : S.Err} (hk : p.answer k = .hard e)
    (hpart : S.isPartial i = false) :
    ∃ w l, S.Reads i w l ∧ S.Blamed Has l e ∧ a.star.Viable rules w ∧ S.Beyond rules a.star w l := by
  have hr' : Ref.Run p.shape i vs c k := run_shape hr
  obtain ⟨u0, h0, _⟩ := predicts_run hp.predicts hr'
  have hpk := (hS.reads_isPartial h0).trans hpart
  obtain ⟨w, l, h1, h2, h3, h4⟩ := hp.hard k e hpk hk
  have hs := shape_of_hard hk
  have hacc : Accepts rules a (a.star.Then rules F) p.shape :=
    (C56_weaken hp.toFollows (fun _ h => h.imp Gram.first_star.1 (·.2))).2
  have h5 : S.Beyond rules a.star w l := beyond_star (beyond_left hacc hpk h1
    (fun c v j h => by rw [hs] at h; cases h) (fun x h => by rw [hs] at h; cases h) h4)
  obtain ⟨u, h6, h7, h8⟩ := beyond_run hS hp.predicts hp.accepts hp.stop hr' hpart h1 h5
  exact ⟨u ++ w, l, reads_append h6 h1, h2, star_append h7 rfl (Gram.viable_star h3), h8⟩

theorem isMany_fails {m : Sem S.Input S.Err α} {i : S.Input} {x : Answer S.Input S.Err (List α)}
    (h : Ref.IsMany m i x) : x ≠ .soft ∧ ∀ e, x = .hard e → ∃ vs c k, Ref.Run m i vs c k ∧ m k = .hard e := by
  obtain ⟨vs, c, k, h1, h2⟩ := h
  cases hk : m k with
  | ok c v j => rw [hk] at h2; exact h2.elim
  | soft => rw [hk] at h2; subst h2; exact ⟨by simp, fun e he => by cases he⟩
  | hard y => rw [hk] at h2; subst h2; exact ⟨by simp, fun e he => by cases he; exact ⟨vs, c, k, h1, hk⟩⟩
  | abort y => rw [hk] at h2; subst h2; exact ⟨by simp, fun e he => by cases he⟩

theorem answer_of_soft {p : Parser S σ α} {i : S.Input} {e : Tracked S.Err} (h : (p.run true i p.init).res = .peekErr e) :
    p.answer i = .soft := by
  simp only [Parser.answer, Out.answer, h]; rfl

/-- **C58.**  `many`. -/
theorem C58_many (hS : S.Lawful) {p : Parser S σ α} (hm : Moves p) (hr : Reusable p)
    (hp : Blames Has rules a (fun t => a.First rules t ∨ F t) p) (ha : ¬ a.Null rules) (hF : Gram.Apart (a.First rules) F) :
    Blames Has rules a.star F (many p) := by
  have h := fun i => C07_many hS hm hr (follows_consuming hp.1.1 ha) i
  refine ⟨C56_many hS hm hr hp.toFollows ha hF, hp.useful, ?_, fun i e hpart hx => ?_, fun i e hpart hx => ?_, hp.addError,
    hp.addError⟩
  · exact stops_many hS hp.predicts hp.accepts hp.stop fun i => isMany_shape (h i)
  · exact absurd (answer_of_soft hx) (isMany_fails (h i)).1
  · obtain ⟨vs, c, k, h1, h2⟩ := (isMany_fails (h i)).2 e hx
    exact rounds_blame hS hp h1 h2 hpart

/-- **C58.**  `skip_many`. -/
theorem C58_skip_many (hS : S.Lawful) (hE : S.E.Naming Has) {p : Parser S σ α} (hm : Moves p) (hr : Reusable p)
    (hp : Blames Has rules a (fun t => a.First rules t ∨ F t) p) (ha : ¬ a.Null rules) (hF : Gram.Apart (a.First rules) F) :
    Blames Has rules a.star F (skipMany p) :=
  (C58_labels hE (blames_ignore (C58_many hS (moves_ignore hS hm) (reusable_ignore hr) (blames_ignore hp) ha hF))
    (.static "")).2.2.2.2.2.1

/-- One round, and then a repetition. -/
theorem blame_then_rounds (hS : S.Lawful) {p : Parser S σ α} {q : Parser S τ β} {g : Gram N S.Tok}
    (hp : Blames Has rules a (fun t => g.First rules t ∨ F t) p) (hq : Blames Has rules g (fun t => g.First rules t ∨ F t) q)
    {i j k : S.Input} {vs : List β} {b c : Bool} {v : α} (hi : p.answer i = .ok b v j) (hr : Ref.Run q.answer j vs c k)
    {e : S.Err} (hk : q.answer k = .hard e) (hpart : S.isPartial i = false) :
    ∃ w l, S.Reads i w l ∧ S.Blamed Has l e ∧ (a.seq g.star).Viable rules w ∧ S.Beyond rules (a.seq g.star) w l := by
  have hx : p.shape i = .ok b v j := by simp only [Parser.shape, hi, Answer.shape]
  have hpred := hp.predicts i
  rw [hx] at hpred
  obtain ⟨u, h1, h2, _⟩ := hpred
  have hacc : Accepts rules a (g.star.Then rules F) p.shape :=
    (C56_weaken hp.toFollows (fun _ h => h.imp Gram.first_star.1 (·.2))).2
  obtain ⟨w, l, h3, h4, h5, h6⟩ := rounds_blame hS hq hr hk ((hS.reads_isPartial h1).trans hpart)
  exact ⟨u ++ w, l, reads_append h1 h3, h4, Gram.viable_right h2 h5,
    beyond_right hS hacc hpart hx h1 h3 (hp.stop i _ _ _ u hpart hx h1) h6⟩

/-- The first round fails. -/
theorem blame_first {p : Parser S σ α} {g : Gram N S.Tok}
    (hp : Blames Has rules a (fun t => g.First rules t ∨ F t) p) (hg : g.Useful rules)
    {i : S.Input} {e : S.Err} (hk : p.answer i = .hard e) (hpart : S.isPartial i = false) :
    ∃ w l, S.Reads i w l ∧ S.Blamed Has l e ∧ (a.seq g.star).Viable rules w ∧ S.Beyond rules (a.seq g.star) w l := by
  obtain ⟨w, l, h1, h2, h3, h4⟩ := hp.hard i e hpart hk
  have hs := shape_of_hard hk
  have hacc : Accepts rules a (g.star.Then rules F) p.shape :=
    (C56_weaken hp.toFollows (fun _ h => h.imp Gram.first_star.1 (·.2))).2
  exact ⟨w, l, h1, h2, Gram.viable_left h3 hg, beyond_left hacc hpart h1
    (fun c v j h => by rw [hs] at h; cases h) (fun x h => by rw [hs] at h; cases h) h4⟩

private theorem predicts_map' {m : Sem S.Input Unit α} (h : Predicts rules a m) (f : α → β) :
    Predicts rules a (Ref.map m f) := by
  intro i
  have := h i
  simp only [Ref.map]
  revert this
  cases m i <;> exact id

/-- Where `p` and then rounds of `q` stop. -/
theorem blame_stops (hS : S.Lawful) {p : Parser S σ α} {q : Parser S τ β} {g : Gram N S.Tok}
    (hp : Blames Has rules a (fun t => g.First rules t ∨ F t) p) (hq : Blames Has rules g.star F q) (f : α → β → γ) :
    Stops rules (a.seq g.star) (Ref.bind p.shape fun v => Ref.map q.shape (f v)) :=
  have hacc : Accepts rules a (g.star.Then rules F) p.shape :=
    (C56_weaken hp.toFollows (fun _ h => h.imp Gram.first_star.1 (·.2))).2
  stops_bind hS hp.predicts hacc hp.stop (fun v => predicts_map' hq.predicts (f v)) fun v => stops_map hq.stop (f v)

/-- **C58.**  `many1`. -/
theorem C58_many1 (hS : S.Lawful) {p : Parser S σ α} (hm : Moves p) (hr : Reusable p)
    (hp : Blames Has rules a (fun t => a.First rules t ∨ F t) p) (ha : ¬ a.Null rules) (hF : Gram.Apart (a.First rules) F) :
    Blames Has rules a.plus F (many1 p) := by
  have hc := follows_consuming hp.1.1 ha
  have hs := C58_many hS hm hr hp ha hF
  have h := fun i => C08_many1 hS hm hr hc i
  have e : (many1 p).shape = Ref.bind p.shape (fun v => Ref.map (many p).shape (v :: ·)) := by
    funext i
    have h := h i
    simp only [Ref.IsMany1] at h
    simp only [Parser.shape, Ref.bind] at h ⊢
    cases hx : p.answer i with
    | ok c v j =>
      rw [hx] at h
      exact isMany_cons (m := p.shape) (by simp only [Parser.shape, hx, Answer.shape]) (isMany_shape h)
        (isMany_shape (C07_many hS hm hr hc j))
    | soft => rw [hx] at h; rw [h]; rfl
    | hard x => rw [hx] at h; rw [h]; rfl
    | abort x => rw [hx] at h; rw [h]; rfl
  refine ⟨C56_many1 hS hm hr hp.toFollows ha hF, ⟨hp.useful, hp.useful⟩, ?_, fun i e hpart hx => ?_, fun i e hpart hx => ?_,
    hp.addError, hp.addError⟩
  · rw [e]
    exact blame_stops hS hp hs fun v vs => v :: vs
  · have hi := h i
    rw [answer_of_soft hx] at hi
    unfold Ref.IsMany1 at hi
    cases hy : (p.run true i p.init).res with
    | peekErr y =>
      simp only [many1, Parser.ofMode, Bool.true_or, if_true, hy] at hx
      cases hx
      exact hp.soft i _ hpart hy
    | commitErr y => rw [answer_of_hard.2 hy] at hi; cases hi
    | abort y =>
      rw [show p.answer i = .abort y by simp only [Parser.answer, Out.answer, hy]; rfl] at hi
      cases hi
    | commitOk y =>
      rw [show p.answer i = .ok true y (p.run true i p.init).inp by simp only [Parser.answer, Out.answer, hy]; rfl] at hi
      exact absurd rfl (isMany_fails hi).1
    | peekOk y =>
      rw [show p.answer i = .ok false y (p.run true i p.init).inp by simp only [Parser.answer, Out.answer, hy]; rfl] at hi
      exact absurd rfl (isMany_fails hi).1
  · have hi := h i
    rw [hx] at hi
    unfold Ref.IsMany1 at hi
    cases hy : p.answer i with
    | soft => rw [hy] at hi; cases hi
    | abort y => rw [hy] at hi; cases hi
    | hard y => rw [hy] at hi; cases hi; exact blame_first hp hp.useful hy hpart
    | ok b v j =>
      rw [hy] at hi
      obtain ⟨vs, c, k, h1, h2⟩ := (isMany_fails hi).2 e rfl
      cases h1 with
      | nil => rw [hy] at h2; cases h2
      | cons h3 h4 => exact blame_then_rounds hS hp hp h3 h4 h2 hpart

theorem sepBy1_fails (hS : S.Lawful) {Cp : σ → Prop} {Cs : τ → Prop} {p : Parser S σ α} {s : Parser S τ β}
    (hmp : Moves p) (hms : Moves s) (hkp : Keeps false Cp p) (hks : Keeps false Cs s) (hc : Consuming («with» (boxed s) (boxed p)))
    (i : S.Input) :
    (∀ e, ((sepBy1 p s).run true i (sepBy1 p s).init).res = .peekErr e → (p.run true i p.init).res = .peekErr e) ∧
    ∀ e, ((sepBy1 p s).run true i (sepBy1 p s).init).res = .commitErr e → (p.run true i p.init).res = .commitErr e ∨ ∃ b v j vs c k, p.answer i = .ok b v j ∧
      Ref.Run («with» (boxed s) (boxed p)).answer j vs c k ∧ («with» (boxed s) (boxed p)).answer k = .hard e := by
  have hw := keeps_with (keeps_boxed hks) (keeps_boxed hkp)
  have hwm := moves_with hS (moves_boxed hS hms) (moves_boxed hS hmp)
  have hok := hkp.keep p.init hkp.init i
  have key : ∀ (b : Commit Unit) (v : α) (j : S.Input) (st : σ), Cp st →
      (∀ e, (ParseResult.combineCommit b fun _ => (iterExtend («with» (boxed s) (boxed p)) some (S.size j + 2) none [v]
            (IterS.new true j (SepSt.setB («with» (boxed s) (boxed p)).init st))).2.intoResultFast
          (iterExtend («with» (boxed s) (boxed p)) some (S.size j + 2) none [v]
            (IterS.new true j (SepSt.setB («with» (boxed s) (boxed p)).init st))).1 |>.1) ≠ .peekErr e) ∧
      ∀ e, (ParseResult.combineCommit b fun _ => (iterExtend («with» (boxed s) (boxed p)) some (S.size j + 2) none [v]
            (IterS.new true j (SepSt.setB («with» (boxed s) (boxed p)).init st))).2.intoResultFast
          (iterExtend («with» (boxed s) (boxed p)) some (S.size j + 2) none [v]
            (IterS.new true j (SepSt.setB («with» (boxed s) (boxed p)).init st))).1 |>.1) = .commitErr e →
        ∃ vs c k, Ref.Run («with» (boxed s) (boxed p)).answer j vs c k ∧ («with» (boxed s) (boxed p)).answer k = .hard e := by
    intro b v j st hst
    obtain ⟨vs, c, k, h1, h2, h3⟩ := many_run hS hwm.run hw.reusableIn hc j
      (SepSt.setB («with» (boxed s) (boxed p)).init st) ⟨hks.init, hst, trivial⟩ [v] false
    have hnew : IterS.new true j (SepSt.setB («with» (boxed s) (boxed p)).init st) =
      ⟨j, false, .ok, SepSt.setB («with» (boxed s) (boxed p)).init st, true⟩ := rfl
    rw [hnew]
    revert h2 h3
    generalize iterExtend («with» (boxed s) (boxed p)) some (S.size j + 2) none [v]
      ⟨j, false, .ok, SepSt.setB («with» (boxed s) (boxed p)).init st, true⟩ = r
    obtain ⟨els, it⟩ := r
    intro h2 h3
    cases hk : («with» (boxed s) (boxed p)).answer k with
    | ok c v j => rw [hk] at h3; exact h3.elim
    | soft =>
      rw [hk] at h3
      obtain ⟨e, s', _, h3⟩ := h3
      dsimp only at h3
      subst h3
      cases b <;> cases c <;> exact ⟨fun e he => (by cases he), fun e he => (by cases he)⟩
    | hard y =>
      rw [hk] at h3
      dsimp only at h3
      simp only [IterS.intoResultFast, h3]
      cases b <;> exact ⟨fun e he => (by cases he), fun e he => (by cases he; exact ⟨vs, c, k, h1, hk⟩)⟩
    | abort y =>
      rw [hk] at h3
      dsimp only at h3
      simp only [IterS.intoResultFast, h3]
      cases b <;> exact ⟨fun e he => (by cases he), fun e he => (by cases he)⟩
  revert hok key
  simp only [Parser.answer, sepBy1, Parser.ofMode]
  have e : («with» (boxed s) (boxed p)).init.tail.1.2 = p.init := rfl
  rw [e]
  generalize p.run true i p.init = o
  obtain ⟨r, j, st⟩ := o
  intro hok key
  cases r with
  | commitOk v =>
    have h := key (.commit ()) v j st (hok rfl)
    refine ⟨fun e he => absurd he (h.1 e), fun e he => .inr ?_⟩
    obtain ⟨vs, c, k, h1, h2⟩ := h.2 e he
    exact ⟨true, v, j, vs, c, k, rfl, h1, h2⟩
  | peekOk v =>
    have h := key (.peek ()) v j st (hok rfl)
    refine ⟨fun e he => absurd he (h.1 e), fun e he => .inr ?_⟩
    obtain ⟨vs, c, k, h1, h2⟩ := h.2 e he
    exact ⟨false, v, j, vs, c, k, rfl, h1, h2⟩
  | commitErr e => exact ⟨fun e he => (by cases he), fun e he => .inl (by cases he; rfl)⟩
  | peekErr e => exact ⟨fun e he => (by cases he; rfl), fun e he => .inl (by cases he)⟩
  | abort a => exact ⟨fun e he => (by cases he), fun e he => .inl (by cases he)⟩

/-- **C58.**  `sep_by1`. -/
theorem C58_sep_by1 (hS : S.Lawful) (hE : S.E.Naming Has) {Cp : σ → Prop} {Cs : τ → Prop} {p : Parser S σ α}
    {s : Parser S τ β} (hmp : Moves p) (hms : Moves s) (hkp : Keeps false Cp p) (hks : Keeps false Cs s)
    (hp : Blames Has rules a (fun t => (b.seq a).First rules t ∨ F t) p)
    (hs : Blames Has rules b (fun t => a.First rules t) s) (ha : ¬ a.Null rules)
    (hF : Gram.Apart ((b.seq a).First rules) F) : Blames Has rules (a.sepBy1 b) F (sepBy1 p s) := by
  have hn : ¬ (b.seq a).Null rules := fun h => ha (Gram.null_seq.1 h).2
  have hw : Blames Has rules (b.seq a) (fun t => (b.seq a).First rules t ∨ F t) («with» (boxed s) (boxed p)) :=
    C58_with hS hE (moves_boxed hS hms) (moves_boxed hS hmp)
      (C58_labels hE (C58_weaken hs fun t h => h.elim id fun h => absurd h.1 ha) (.static "")).2.2.2.1
      (C58_labels hE hp (.static "")).2.2.2.1
  have hc := follows_consuming hw.1.1 hn
  have hkw := (keeps_with (keeps_boxed hks) (keeps_boxed hkp)).reusable
  have hmw := moves_with hS (moves_boxed hS hms) (moves_boxed hS hmp)
  have hmany := C58_many hS hmw hkw hw hn hF
  have hfail := sepBy1_fails hS hmp hms hkp hks hc
  have e : (sepBy1 p s).shape = Ref.bind p.shape (fun v => Ref.map (many («with» (boxed s) (boxed p))).shape (v :: ·)) := by
    funext i
    have h := C10_sep_by1 hS hmp hms hkp hks (follows_consuming hp.1.1 ha) i
    simp only [Ref.IsSepBy1] at h
    simp only [Ref.bind]
    cases hx : p.shape i with
    | ok c v j =>
      rw [hx] at h
      obtain ⟨x, h1, h2⟩ := h
      have h3 := isMany_shape (C07_many hS hmw hkw hc j)
      rw [show (fun i => (Parser.answer («with» (boxed s) (boxed p)) i).shape) = Ref.bind s.shape fun _ => p.shape from
        funext (C12_with (boxed s) (boxed p))] at h3
      rw [h2, C07_unique h1 h3]
      rfl
    | soft => rw [hx] at h; exact h
    | hard x => rw [hx] at h; exact h
    | abort x => rw [hx] at h; exact h
  refine ⟨C56_sep_by1 hS hmp hms hkp hks hp.toFollows hs.toFollows ha hF, ⟨hp.useful, hs.useful, hp.useful⟩, ?_,
    fun i e hpart hx => hp.soft i e hpart ((hfail i).1 e hx), fun i e hpart hx => ?_, hp.addError, hs.addError⟩
  · rw [e]
    exact blame_stops hS hp hmany fun v vs => v :: vs
  · rcases (hfail i).2 e (answer_of_hard.1 hx) with h | ⟨b', v, j, vs, c, k, h1, h2, h3⟩
    · exact blame_first hp hw.useful (answer_of_hard.2 h) hpart
    · exact blame_then_rounds hS hp hw h1 h2 h3 hpart

theorem blames_emptyList : Blames Has rules .empty F (emptyList S α) :=
  blames_res id (C58_value ([] : List α)) (fun _ => rfl) (fun _ => rfl) adds_id adds_id

/-- **C58.**  `sep_by`. -/
theorem C58_sep_by (hS : S.Lawful) (hE : S.E.Naming Has) {Cp : σ → Prop} {Cs : τ → Prop} {p : Parser S σ α}
    {s : Parser S τ β} (hmp : Moves p) (hms : Moves s) (hkp : Keeps false Cp p) (hks : Keeps false Cs s)
    (hp : Blames Has rules a (fun t => (b.seq a).First rules t ∨ F t) p)
    (hs : Blames Has rules b (fun t => a.First rules t) s) (ha : ¬ a.Null rules)
    (hF : Gram.Apart ((b.seq a).First rules) F) (hF' : Gram.Apart (a.First rules) F) :
    Blames Has rules (a.sepBy1 b).opt F (sepBy p s) := by
  have h1 := C58_sep_by1 hS hE (moves_boxed hS hmp) (moves_boxed hS hms) (keeps_boxed hkp) (keeps_boxed hks)
    (C58_labels hE hp (.static "")).2.2.2.1 (C58_labels hE hs (.static "")).2.2.2.1 ha hF
  have hn : ¬ (a.sepBy1 b).Null rules := fun h => ha (Gram.null_seq.1 h).1
  have h2 := C58_or hS hE (moves_sepBy1 hS (moves_boxed hS hmp) (moves_boxed hS hms)) (moves_emptyList hS) h1
    (blames_emptyList (α := α)) hn (fun t _ h => by cases h) (fun _ t h => by
      rcases Gram.first_seq.1 h with h | h
      · exact hF' t h
      · exact absurd h.1 ha)
  exact blames_res id h2 (fun i => (fun r : ParseResult (List α) S.Err => show r = r.map id by cases r <;> rfl) _)
    (fun _ => rfl) hp.addError hs.addError

/-- **C58.**  A recursive grammar: the parser of a nonterminal is made from itself. -/
theorem C58_recur {n : N} {H : Parser S σ α → Prop} {f : Parser S σ α → Parser S σ α} {init : σ} (h0 : H (recur f init 0))
    (hs : ∀ q, H q → H (f q)) (hn : ∃ w, (rules n).Derives rules w)
    (hf : ∀ q, H q → Blames Has rules (.ref n) F q → Blames Has rules (rules n) F (f q)) (d : Nat) :
    Blames Has rules (.ref n) F (recur f init d) := by
  have hH : ∀ d, H (recur f init d) := fun d => by
    induction d with
    | zero => exact h0
    | succ d ih => exact hs _ ih
  induction d with
  | zero =>
    exact ⟨⟨fun _ => trivial, fun _ _ _ _ _ _ _ => .inr ⟨_, rfl⟩⟩, hn, fun _ _ _ _ _ _ hx => (by cases hx),
      fun _ _ _ hx => (by cases hx), fun _ _ _ hx => (by cases hx), adds_id, adds_id⟩
  | succ d ih =>
    exact C58_same (hf _ (hH d) ih) (fun w => Gram.derives_ref.symm) (fun t => Gram.first_ref.symm) hn

/-! ## The parser of a grammar -/

section Whole

variable {follow : N → S.Tok → Prop} {rank : N → Nat} {R : Nat}

/-- **C58.**  The parser of a right-hand side. -/
theorem C58_side (hS : S.Lawful) (hE : S.E.Naming Has) (hP : S.EndsPlainly) {call : N → Parser S Unit Unit}
    (hm : ∀ n, Moves (call n)) (hc : ∀ n, Blames Has rules (.ref n) (follow n) (call n)) (g : Gram N S.Tok)
    (F : S.Tok → Prop) (h : g.LL1 rules follow F) (hu : g.Useful rules) : Blames Has rules g F (g.parser S call) := by
  induction g generalizing F with
  | empty => exact C58_value ()
  | one f =>
    have hu' : ∃ t, (if f t then some t else none).isSome = true := by
      obtain ⟨t, ht⟩ := hu
      exact ⟨t, by simp [ht]⟩
    have h1 := blames_ignore (blames_one (rules := rules) (F := F) hS hE hP (C53_satisfy hS f) (fun _ => rfl) hu' adds_id adds_id)
    rw [show (fun t => ((if f t then some t else none : Option S.Tok)).isSome) = f from
      funext fun t => by cases f t <;> rfl] at h1
    exact h1
  | seq a b iha ihb =>
    exact (C58_labels hE (C58_with hS hE (gram_moves hS hm a) (gram_moves hS hm b) (iha _ h.1 hu.1) (ihb _ h.2 hu.2))
      (.static "")).2.2.2.2.2.2
  | alt a b iha ihb =>
    exact (C58_labels hE (C58_or hS hE (gram_moves hS hm a) (gram_moves hS hm b) (iha _ h.1 hu.1) (ihb _ h.2.1 hu.2) h.2.2.1
      h.2.2.2.1 h.2.2.2.2) (.static "")).2.2.2.2.2.2
  | star a ih =>
    exact (C58_labels hE (C58_skip_many hS hE (gram_moves hS hm a) (keeps_unit (h := false) _).reusable (ih _ h.1 hu) h.2.1
      h.2.2) (.static "")).2.2.2.2.2.2
  | ref n => exact C58_weaken (hc n) h

/-- **C58.**  The parsers of the nonterminals, however deep their calls nest. -/
theorem C58_nonterminal (hS : S.Lawful) (hE : S.E.Naming Has) (hP : S.EndsPlainly)
    (h : ∀ n, (rules n).LL1 rules follow (follow n)) (hu : ∀ n, (rules n).Useful rules) (d : Nat) (n : N) :
    Blames Has rules (.ref n) (follow n) (Grammar.parser S rules d n) := by
  have hn : ∀ n, ∃ w, (rules n).Derives rules w := fun n => Gram.useful_derives (hu n)
  induction d generalizing n with
  | zero =>
    exact ⟨⟨fun _ => trivial, fun _ _ _ _ _ _ _ => .inr ⟨_, rfl⟩⟩, hn n, fun _ _ _ _ _ _ hx => (by cases hx),
      fun _ _ _ hx => (by cases hx), fun _ _ _ hx => (by cases hx), adds_id, adds_id⟩
  | succ d ih =>
    have h1 := C58_side hS hE hP (grammar_moves hS d) ih (rules n) (follow n) (h n) (hu n)
    exact C58_same (C58_labels hE h1 (.static "")).2.2.2.2.2.2 (fun w => Gram.derives_ref.symm)
      (fun t => Gram.first_ref.symm) (hn n)

end Whole

/-! ## What `parse` reports -/

theorem mistake_of {i l : S.Input} {w : List S.Tok} (h1 : S.Reads i w l) (h2 : a.Viable rules w)
    (h3 : S.Beyond rules a w l) (h4 : S.AtEnd l → ¬ a.Derives rules w) : S.Mistake rules a i w l := by
  refine ⟨h1, h2, ?_⟩
  cases hu : S.uncons l with
  | mk r k =>
    cases r with
    | ok t => exact h3 t k hu
    | error x => exact h4 ⟨x, by rw [hu]⟩

/-- **C58.**  A text goes wrong in at most one place. -/
theorem C58_unique {i l l' : S.Input} {w w' : List S.Tok} (h : S.Mistake rules a i w l) (h' : S.Mistake rules a i w' l') :
    w = w' ∧ l = l' := by
  have key : ∀ {l l' : S.Input} {w w' : List S.Tok}, S.Mistake rules a i w l → S.Mistake rules a i w' l' →
      ∀ cs, w' = w ++ cs → S.Reads l cs l' → w = w' ∧ l = l' := by
    intro l l' w w' h h' cs hw hr
    cases cs with
    | nil => exact ⟨by simp [hw], (Strm.reads_nil.1 hr).symm⟩
    | cons t ts =>
      obtain ⟨k, hk⟩ := reads_head hr
      have h3 := h.2.2
      rw [hk] at h3
      obtain ⟨v, hv⟩ := h'.2.1
      exact absurd ⟨ts ++ v, by rw [hw] at hv; simpa using hv⟩ h3
  rcases reads_comparable h.1 h'.1 with ⟨cs, h1, h2⟩ | ⟨cs, h1, h2⟩
  · exact key h h' cs h1 h2
  · obtain ⟨h3, h4⟩ := key h' h cs h1 h2
    exact ⟨h3.symm, h4.symm⟩

theorem accepts_end {m : Sem S.Input Unit α} (hm : Accepts rules a F m) {i l : S.Input} {w : List S.Tok}
    (hp : S.isPartial i = false) (hr : S.Reads i w l) (hok : ∀ c v j, m i ≠ .ok c v j) (hab : ∀ x, m i ≠ .abort x)
    (hl : S.AtEnd l) : ¬ a.Derives rules w := by
  intro hd
  rcases hm i w l hp hr hd (fun t k hu => by obtain ⟨x, hx⟩ := hl; rw [hu] at hx; cases hx) with ⟨c, v, h⟩ | ⟨x, h⟩
  · exact hok _ _ _ h
  · exact hab _ h

/-- What is reported for a parser whose failures are known. -/
private theorem parse_of (hS : S.Lawful) (hE : S.E.Naming Has) {p : Parser S σ α} (hm : Moves p) (hd : p.Plain)
    (hae : S.Adds Has p.addError) {i : S.Input} {P : S.Input → Prop}
    (hsoft : ∀ e, (p.run true i p.init).res = .peekErr e → S.Near Has i e.error ∧ P i)
    (hhard : ∀ e, (p.run true i p.init).res = .commitErr e → ∃ l, S.Blamed Has l e ∧ P l) {e : S.Err}
    (h : p.parse i = .err e) : ∃ l, S.Blamed Has l e ∧ P l := by
  unfold Parser.parse at h
  rw [hd i] at h
  unfold Strm.describing at h
  have hmv := hm.run true i p.init
  revert hsoft hhard h hmv
  generalize p.run true i p.init = o
  obtain ⟨r, j, st⟩ := o
  intro hsoft hhard h hmv
  cases r with
  | commitOk v => cases h
  | peekOk v => cases h
  | abort x => cases h
  | commitErr y => cases h; exact hhard _ rfl
  | peekErr y =>
    obtain ⟨h1, h2⟩ := hsoft y rfl
    dsimp only [Strm.describe] at h
    rw [hS.tryReset_eq hmv] at h
    cases hu : S.uncons i with
    | mk r k =>
      cases r with
      | ok t =>
        rw [hu] at h
        dsimp only at h
        rw [hS.tryReset_eq ⟨[t], .cons hu (.nil k)⟩] at h
        cases h
        exact ⟨i, hae.blamed (t := { y with error := S.E.add y.error (S.E.unexpected (.token t)) }) (near_tok hE hu h1), h2⟩
      | error x =>
        rw [hu] at h
        cases h
        refine ⟨i, hae.blamed (t := { y with error := S.E.add y.error S.E.endOfInput }) ?_, h2⟩
        exact ⟨(hE.add _ _).trans h1.1, by rw [culprit_end hu]; exact hE.has_add _ _⟩

/-- **C58.**  The error of a parse is at the place where the text goes wrong, and names the token there or the end of the
input. -/
theorem C58_parse (hS : S.Lawful) (hE : S.E.Naming Has) {p : Parser S σ α} (hm : Moves p) (hd : p.Plain)
    (hp : Blames Has rules a F p) {i : S.Input} (hpart : S.isPartial i = false) {e : S.Err} (h : p.parse i = .err e) :
    ∃ w l, S.Mistake rules a i w l ∧ S.Blamed Has l e := by
  obtain ⟨l, h1, w, h2⟩ := parse_of hS hE (P := fun l => ∃ w, S.Mistake rules a i w l) hm hd hp.addError
    (fun e he => by
      have hs := shape_of_err he
      have hpred := hp.predicts i
      rw [hs] at hpred
      exact ⟨hp.soft i e hpart he, [], mistake_of (.nil i) (Gram.viable_nil hp.useful) (beyond_nil hpred.1)
        fun _ => hpred.2⟩)
    (fun e he => by
      have ha := answer_of_hard.2 he
      have hs := shape_of_hard ha
      obtain ⟨w, l, h1, h2, h3, h4⟩ := hp.hard i e hpart ha
      exact ⟨l, h2, w, mistake_of h1 h3 h4 (accepts_end hp.accepts hpart h1
        (fun c v j h => by rw [hs] at h; cases h) (fun x h => by rw [hs] at h; cases h))⟩) h
  exact ⟨w, l, h2, h1⟩

theorem eof_run (hS : S.Lawful) (hO : S.EndsOnly) (j : S.Input) :
    (S.AtEnd j ∧ ∃ k, (ignore (eof S)).run true j () = ⟨.peekOk (), k, ()⟩) ∨
    (¬ S.AtEnd j ∧ (ignore (eof S)).run true j () = ⟨.peekErr (Tracked.of (S.E.empty (S.position j))), j, ()⟩) := by
  simp only [ignore, Parser.ofMode, Out.mapRes, eof, Parser.ofLazy]
  cases hu : S.uncons j with
  | mk r k =>
    cases r with
    | error y =>
      refine .inl ⟨⟨y, by rw [hu]⟩, k, ?_⟩
      dsimp only
      rw [if_pos (hO j y k hu)]
      rfl
    | ok t =>
      refine .inr ⟨fun ⟨y, hy⟩ => (by rw [hu] at hy; cases hy), ?_⟩
      dsimp only
      rw [hS.reset_reach ⟨[t], .cons hu (.nil k)⟩]
      rfl

theorem steps_eof (hS : S.Lawful) (hO : S.EndsOnly) (fe cur off : Nat) (j : S.Input) :
    (∃ k st, (Seq.cons (ignore (eof S)) .nil).steps true fe cur off j ((none, ()), ()) = ⟨.done, fe, satAdd off 1, k, st⟩) ∨
    (¬ S.AtEnd j ∧ (Seq.cons (ignore (eof S)) .nil).steps true fe cur off j ((none, ()), ()) =
      ⟨.fail (Tracked.of (S.E.empty (S.position j))), fe, off, j, ((none, ()), ())⟩) := by
  simp only [Seq.steps]
  rcases eof_run hS hO j with ⟨_, k, h⟩ | ⟨h1, h⟩
  · rw [h]
    exact .inl ⟨k, _, rfl⟩
  · rw [h]
    dsimp only
    rw [hS.reset_reach ⟨[], .nil j⟩]
    exact .inr ⟨h1, rfl⟩

/-- **C58.**  Followed by `eof`: everything has to be derived. -/
theorem C58_parse_all (hS : S.Lawful) (hE : S.E.Naming Has) (hO : S.EndsOnly) {p : Parser S σ α} (hm : Moves p)
    (hp : Blames Has rules a F p) {i : S.Input} (hpart : S.isPartial i = false) {e : S.Err}
    (h : (skip p (eof S)).parse i = .err e) : ∃ w l, S.Mistake rules a i w l ∧ S.Blamed Has l e := by
  have hao : S.Adds Has (eof S).addError := adds_addExpected hE _
  have hparts : ∀ q ∈ p.part :: Seq.parts (.cons (ignore (eof S)) .nil), S.Adds Has q.addError ∧ S.Adds Has q.addCommitted := by
    intro q hq
    cases hq with
    | head => exact ⟨hp.addError, hp.addCommitted⟩
    | tail _ hq =>
      cases hq with
      | head => exact ⟨hao, adds_id⟩
      | tail _ hq => cases hq
  have hae : S.Adds Has (skip p (eof S)).addError := by
    intro e
    simp only [skip, pair, tuple, Parser.ofMode]
    have h1 := hp.addError e
    generalize p.addError e = e1 at h1
    split
    · exact h1
    · have key : ∀ t : Tracked S.Err, S.E.position t.error = S.E.position e.error →
          (∀ y, (y = S.E.endOfInput ∨ ∃ x, y = S.E.unexpected x) → Has e.error y → Has t.error y) →
          S.E.position (Seq.addErrors (.cons (ignore (eof S)) .nil) t).error = S.E.position e.error ∧
          ∀ y, (y = S.E.endOfInput ∨ ∃ x, y = S.E.unexpected x) → Has e.error y →
            Has (Seq.addErrors (.cons (ignore (eof S)) .nil) t).error y := by
        intro t h2 h3
        unfold Seq.addErrors
        dsimp only
        have h4 := hao t
        split
        · exact ⟨h4.1.trans h2, fun y hy h => h4.2 y hy (h3 y hy h)⟩
        · exact ⟨h4.1.trans h2, fun y hy h => h4.2 y hy (h3 y hy h)⟩
      split
      · exact key _ h1.1 h1.2
      · exact key _ h1.1 h1.2
  have hrest : ∀ (c : Bool) (x : α), p.shape i = .ok c x (p.run true i p.init).inp → ∀ st : SeqSt σ ((Option Unit × Unit) × Unit) α,
      st.tail = ((none, ()), ()) →
      (∀ e, (seqRest p (.cons (ignore (eof S)) .nil) true (if c then 1 else 0) (p.run true i p.init).inp st).res = .peekErr e →
        S.Near Has i e.error ∧ ∃ w, S.Mistake rules a i w i) ∧
      (∀ e, (seqRest p (.cons (ignore (eof S)) .nil) true (if c then 1 else 0) (p.run true i p.init).inp st).res = .commitErr e →
        ∃ l, S.Blamed Has l e ∧ ∃ w, S.Mistake rules a i w l) := by
    intro c x hx st ht
    have hpred := hp.predicts i
    rw [hx] at hpred
    obtain ⟨u, h1, h2, h3, _⟩ := hpred
    have hstop := hp.stop i _ _ _ u hpart hx h1
    generalize (p.run true i p.init).inp = j at hx h1 hstop
    unfold seqRest
    rw [ht]
    rcases steps_eof hS hO (if c then 1 else 0) 0 st.offset j with ⟨k, st', h4⟩ | ⟨hn, h4⟩
    · rw [h4]
      dsimp only [seqFinish]
      constructor <;> intro e he
      · split at he
        · dsimp only at he
          split at he <;> cases he
        · cases he
      · split at he
        · dsimp only at he
          split at he <;> cases he
        · cases he
    · rw [h4]
      have hmis : S.Mistake rules a i u j := mistake_of h1 (Gram.viable_of_derives h2) hstop fun h => absurd h hn
      have hnear : S.Near Has j (Tracked.of (S.E.empty (S.position j))).error := ⟨hE.empty _, fun h => absurd h hn⟩
      have h12 := seqAddErrors_blame (α := α × Unit × Unit) hE hparts (Tracked.of (S.E.empty (S.position j)))
        (if c then 1 else 0) st.offset j hnear
      refine ⟨fun e he => ?_, fun e he => ⟨j, (h12.1 e he).2, u, hmis⟩⟩
      obtain ⟨h13, h14⟩ := h12.2 e he
      cases c with
      | true => cases h13
      | false =>
        cases u with
        | cons t ts => cases h3
        | nil =>
          rw [Strm.reads_nil.1 h1] at h14 hmis
          exact ⟨h14, [], hmis⟩
  have hrun : (∀ e, ((pair p (ignore (eof S))).run true i (pair p (ignore (eof S))).init).res = .peekErr e →
        S.Near Has i e.error ∧ ∃ w, S.Mistake rules a i w i) ∧
      (∀ e, ((pair p (ignore (eof S))).run true i (pair p (ignore (eof S))).init).res = .commitErr e →
        ∃ l, S.Blamed Has l e ∧ ∃ w, S.Mistake rules a i w l) := by
    simp only [pair, tuple, Parser.ofMode, seqRun, Bool.true_or, if_true]
    cases hr : (p.run true i p.init).res with
    | commitOk x => exact hrest true x (shape_of_res.1 hr) _ rfl
    | peekOk x => exact hrest false x (shape_of_res.2 hr) _ rfl
    | commitErr y =>
      constructor <;> intro e he <;> cases he
      obtain ⟨w, l, h1, h2, h3, h4⟩ := hp.hard i _ hpart (answer_of_hard.2 hr)
      have hs := shape_of_hard (answer_of_hard.2 hr)
      exact ⟨l, h2, w, mistake_of h1 h3 h4 (accepts_end hp.accepts hpart h1
        (fun c v j h => by rw [hs] at h; cases h) (fun x h => by rw [hs] at h; cases h))⟩
    | peekErr y =>
      constructor <;> intro e he <;> cases he
      have hpred := hp.predicts i
      rw [shape_of_err hr] at hpred
      exact ⟨hp.soft i _ hpart hr, [], mistake_of (.nil i) (Gram.viable_nil hp.useful) (beyond_nil hpred.1) fun _ => hpred.2⟩
    | abort y => constructor <;> intro e he <;> cases he
  obtain ⟨l, h1, w, h2⟩ := parse_of hS hE (P := fun l => ∃ w, S.Mistake rules a i w l) (moves_skip hS hm (moves_eof hS))
    (fun _ => rfl) hae (fun e he => hrun.1 e (by
      revert he
      show (((pair p (ignore (eof S))).run true i (pair p (ignore (eof S))).init).res.map _ = _) → _
      cases ((pair p (ignore (eof S))).run true i (pair p (ignore (eof S))).init).res <;> intro he <;> cases he
      rfl)) (fun e he => hrun.2 e (by
      revert he
      show (((pair p (ignore (eof S))).run true i (pair p (ignore (eof S))).init).res.map _ = _) → _
      cases ((pair p (ignore (eof S))).run true i (pair p (ignore (eof S))).init).res <;> intro he <;> cases he
      rfl)) h
  exact ⟨w, l, h2, h1⟩

/-! ## Easy errors -/

namespace Easy

variable {T R P : Type}

private theorem unexpected_of {y : Error T R} (h : y = Error.endOfInput ∨ ∃ x, y = Error.unexpected x) :
    ∃ x, y = .unexpected x := by
  rcases h with h | h
  · exact ⟨_, h⟩
  · exact h

private theorem listed_kept {es es' : List (Error T R)} {y : Error T R} (hy : ∃ x, y = .unexpected x)
    (h : ∀ x ∈ es, x.isExpected = false → x ∈ es') (hl : Listed es y) : Listed es' y := by
  obtain ⟨z, rfl⟩ := hy
  rcases hl with hl | ⟨x, hx, hs⟩
  · exact .inl (h _ hl rfl)
  · cases hs with
    | unexpected hs => exact .inr ⟨_, h _ hx rfl, .unexpected hs⟩

variable [DecidableEq T] [DecidableEq R]

private theorem listed_add (s : Errors T R P) (x y : Error T R) (h : Listed s.errors y) : Listed (s.addError x).errors y := by
  rcases addError_cases s x with ⟨_, h'⟩ | ⟨_, h'⟩ <;> rw [h']
  · exact h
  · rcases h with h | ⟨z, hz, hs⟩
    · exact .inl (List.mem_append_left _ h)
    · exact .inr ⟨z, List.mem_append_left _ hz, hs⟩

/-- Easy errors keep what they name. -/
theorem naming (cmp : P → P → Ordering) (hc : ∀ q, cmp q q = .eq) :
    (Errors.ops T R P cmp).Naming fun e y => Listed (Errors.errors e) y where
  toPlacing := easy_placing cmp
  has_from := fun _ _ => .inl (List.mem_singleton.2 rfl)
  has_add := fun e x => by
    show Listed (Errors.addError e x).errors x
    rcases addError_cases e x with ⟨h, h'⟩ | ⟨_, h'⟩ <;> rw [h']
    · exact .inr h
    · exact .inl (List.mem_append_right _ (List.mem_singleton.2 rfl))
  has_keep := fun e x y h => listed_add e x y h
  has_merge := fun a b y hq h => by
    show Listed (Errors.merge cmp a b).errors y
    unfold Errors.merge
    have hq' : a.position = b.position := hq
    rw [hq', hc]
    dsimp only
    clear hq hq'
    generalize b.errors = es
    revert a
    induction es with
    | nil => exact fun a h => h
    | cons x es ih => exact fun a h => ih _ (listed_add a x y h)
  has_clear := fun e y hy h => listed_kept (unexpected_of hy)
    (fun x hx hn => List.mem_filter.2 ⟨hx, by simp [hn]⟩) h
  has_label := fun t x f y hy h => by
    show Listed (Errors.addError _ x).errors y
    refine listed_add _ x y (listed_kept (unexpected_of hy) (fun z hz hn => ?_) h)
    rw [← List.take_append_drop t.error.errors.length (f t).error.errors] at hz
    rcases List.mem_append.1 hz with hz | hz
    · exact List.mem_append_left _ hz
    · exact List.mem_append_right _ (List.mem_filter.2 ⟨hz, by simp [hn]⟩)

theorem listed_token {es : List (Error T R)} {t : T} : Listed es (.unexpected (.token t)) ↔ .unexpected (.token t) ∈ es := by
  refine ⟨fun h => ?_, .inl⟩
  rcases h with h | ⟨x, hx, hs⟩
  · exact h
  · generalize hy : Error.unexpected (Info.token t) = y at hs
    cases hs with
    | @unexpected i j hs =>
      cases hy
      cases i <;> cases hs
      exact hx
    | expected => cases hy
    | message => cases hy

end Easy

/-- The error says that the end of the input is unexpected. -/
def Easy.SaysEnd {T R P : Type} (e : Easy.Errors T R P) : Prop :=
  ∃ i, .unexpected i ∈ e.errors ∧ Easy.contentOf i = .text "end of input"

/-- Where a text goes wrong, in terms of the text. -/
theorem source_at (isNl : Char → Bool) (cmp : SourcePosition → SourcePosition → Ordering) {rules : N → Gram N Char}
    {a : Gram N Char} {text : List Char} {ptr : Nat} {e : Easy.Errors Char (List Char) SourcePosition} {w : List Char}
    {l : (easySource isNl cmp).Input} (hm : (easySource isNl cmp).Mistake rules a (⟨ptr, text⟩, SourcePosition.start) w l)
    (hb : (easySource isNl cmp).Blamed (fun e y => Easy.Listed (Easy.Errors.errors e) y) l e) :
    ∃ rest, text = w ++ rest ∧ a.Viable rules w ∧ e.position = textPosition isNl w ∧
      match rest with
      | t :: _ => ¬ a.Viable rules (w ++ [t]) ∧ .unexpected (.token t) ∈ e.errors
      | [] => ¬ a.Derives rules w ∧ Easy.SaysEnd e := by
  obtain ⟨⟨p, rest⟩, q⟩ := l
  obtain ⟨hr, hv, hm⟩ := hm
  obtain ⟨hb, hc⟩ := hb
  obtain ⟨h1, h2⟩ := position_reads.1 (convert_reads.1 hr)
  have h3 : text = w ++ rest := (str_reads.1 h1).1
  refine ⟨rest, h3, hv, hb.trans (h2.trans (source_foldl isNl w)), ?_⟩
  cases rest with
  | cons t ts => exact ⟨hm, Easy.listed_token.1 hc⟩
  | nil =>
    refine ⟨hm, ?_⟩
    rcases hc with hc | ⟨x, hx, hs⟩
    · exact ⟨_, hc, rfl⟩
    · generalize hy : (easySource isNl cmp).culprit (⟨p, []⟩, q) = y at hs
      cases hs with
      | unexpected hs => cases hy; exact ⟨_, hx, hs⟩
      | expected => cases hy
      | message => cases hy

theorem source_of (isNl : Char → Bool) (cmp : SourcePosition → SourcePosition → Ordering) {rules : N → Gram N Char}
    {a : Gram N Char} {text : List Char} {ptr : Nat} {e : Easy.Errors Char (List Char) SourcePosition}
    (h : ∃ w l, (easySource isNl cmp).Mistake rules a (⟨ptr, text⟩, SourcePosition.start) w l ∧
      (easySource isNl cmp).Blamed (fun e y => Easy.Listed (Easy.Errors.errors e) y) l e) :
    ∃ good rest, text = good ++ rest ∧ a.Viable rules good ∧ e.position = textPosition isNl good ∧
      match rest with
      | t :: _ => ¬ a.Viable rules (good ++ [t]) ∧ .unexpected (.token t) ∈ e.errors
      | [] => ¬ a.Derives rules good ∧ Easy.SaysEnd e := by
  obtain ⟨w, l, hm, hb⟩ := h
  exact ⟨w, source_at isNl cmp hm hb⟩

theorem source_lawful (isNl : Char → Bool) (cmp : SourcePosition → SourcePosition → Ordering) :
    (easySource isNl cmp).Lawful := convert_lawful (position_lawful str_lawful (fun _ _ => rfl))

theorem source_plain (isNl : Char → Bool) (cmp : SourcePosition → SourcePosition → Ordering) :
    (easySource isNl cmp).EndsPlainly := by
  intro ⟨⟨p, text⟩, q⟩ x j h
  cases text with
  | nil => cases h; rfl
  | cons t ts => cases h

theorem source_ends (isNl : Char → Bool) (cmp : SourcePosition → SourcePosition → Ordering) :
    (easySource isNl cmp).EndsOnly := by
  intro i x j h
  rw [source_plain isNl cmp i x j h]
  rfl

/-- **C58** on texts: when a parser for an LL(1) grammar, followed by `eof`, rejects a text, then the text consists of the
beginning of a sentence and something else.  The line and column reported are those of the end of that beginning.  If a
token comes there, no sentence begins with the beginning and this token, and the error says that it is
unexpected; otherwise the text is no sentence, and the error says that the end of the input is unexpected. -/
theorem C58_source (isNl : Char → Bool) (cmp : SourcePosition → SourcePosition → Ordering) (hc : ∀ q, cmp q q = .eq)
    {rules : N → Gram N Char} {a : Gram N Char} {F : Char → Prop} {p : Parser (easySource isNl cmp) σ α} (hm : Moves p)
    (hp : Blames (fun e y => Easy.Listed (Easy.Errors.errors e) y) rules a F p) (text : List Char) (ptr : Nat)
    {e : Easy.Errors Char (List Char) SourcePosition}
    (he : (skip p (eof _)).parse (⟨ptr, text⟩, SourcePosition.start) = .err e) :
    ∃ good rest, text = good ++ rest ∧ a.Viable rules good ∧ e.position = textPosition isNl good ∧
      match rest with
      | t :: _ => ¬ a.Viable rules (good ++ [t]) ∧ .unexpected (.token t) ∈ e.errors
      | [] => ¬ a.Derives rules good ∧ Easy.SaysEnd e :=
  source_of isNl cmp (C58_parse_all (source_lawful isNl cmp) (Easy.naming cmp hc) (source_ends isNl cmp) hm hp rfl he)

/-- **C58** for whole grammars on texts. -/
theorem C58_grammar (isNl : Char → Bool) (cmp : SourcePosition → SourcePosition → Ordering) (hc : ∀ q, cmp q q = .eq)
    {rules : N → Gram N Char} {follow : N → Char → Prop} (h : ∀ n, (rules n).LL1 rules follow (follow n))
    (hu : ∀ n, (rules n).Useful rules) (d : Nat) (n : N) (text : List Char) (ptr : Nat)
    {e : Easy.Errors Char (List Char) SourcePosition}
    (he : (skip (Grammar.parser (easySource isNl cmp) rules d n) (eof _)).parse (⟨ptr, text⟩, SourcePosition.start) = .err e) :
    ∃ good rest, text = good ++ rest ∧ (Gram.ref n).Viable rules good ∧ e.position = textPosition isNl good ∧
      match rest with
      | t :: _ => ¬ (Gram.ref n).Viable rules (good ++ [t]) ∧ .unexpected (.token t) ∈ e.errors
      | [] => ¬ (Gram.ref n).Derives rules good ∧ Easy.SaysEnd e :=
  C58_source isNl cmp hc (grammar_moves (source_lawful isNl cmp) d n)
    (C58_nonterminal (source_lawful isNl cmp) (Easy.naming cmp hc) (source_plain isNl cmp) h hu d n) text ptr he

/-! ## Examples -/

section Examples

private abbrev cmpSource : SourcePosition → SourcePosition → Ordering :=
  fun a b => (compare a.line b.line).then (compare a.column b.column)

private abbrev Y := easySource (· = '\n') cmpSource

private theorem cmpSource_self (q : SourcePosition) : cmpSource q q = .eq := by
  simp [cmpSource]

/-- Sums in brackets: `sum → item ('+' item)*` and `item → 'x' | '(' sum ')'`. -/
private abbrev sums : Bool → Gram Bool Char
  | true => .seq (.ref false) (.star (.seq (.one (· == '+')) (.ref false)))
  | false => .alt (.one (· == 'x')) (.seq (.one (· == '(')) (.seq (.ref true) (.one (· == ')'))))

private def sumsFollow : Bool → Char → Prop
  | true, t => t = ')'
  | false, t => t = '+' ∨ t = ')'

private theorem sums_ll1 (n : Bool) : (sums n).LL1 sums sumsFollow (sumsFollow n) := by
  cases n <;>
    simp [Gram.LL1, sumsFollow, Gram.Then, Gram.Apart, Gram.first_one, Gram.first_seq, Gram.first_star, Gram.null_one,
      Gram.null_seq, Gram.null_star]

private theorem sums_useful (n : Bool) : (sums n).Useful sums := by
  have h : (sums false).Derives sums ['x'] := .left (.one rfl)
  have h' : (sums true).Derives sums ['x'] := .seq (u := ['x']) (v := []) (.ref h) .stop
  cases n
  · exact ⟨⟨'x', rfl⟩, ⟨'(', rfl⟩, ⟨_, h'⟩, ⟨')', rfl⟩⟩
  · exact ⟨⟨_, h⟩, ⟨'+', rfl⟩, ⟨_, h⟩⟩

/-- Every rejected text. -/
example (d : Nat) (text : List Char) (e : Easy.Errors Char (List Char) SourcePosition)
    (he : (skip (Grammar.parser Y sums d true) (eof Y)).parse (⟨0, text⟩, SourcePosition.start) = .err e) :
    ∃ good rest, text = good ++ rest ∧ (Gram.ref true).Viable sums good ∧ e.position = textPosition (· = '\n') good ∧
      match rest with
      | t :: _ => ¬ (Gram.ref true).Viable sums (good ++ [t]) ∧ .unexpected (.token t) ∈ e.errors
      | [] => ¬ (Gram.ref true).Derives sums good ∧ Easy.SaysEnd e :=
  C58_grammar _ cmpSource cmpSource_self sums_ll1 sums_useful d true text 0 he

/-- In `(x+)x` the closing bracket, in `(x))` the second one, in `(x+` the end. -/
private def report (text : List Char) : Option (Int × Int × List (Easy.Error Char (List Char))) :=
  match (skip (Grammar.parser Y sums 16 true) (eof Y)).parse (⟨0, text⟩, SourcePosition.start) with
  | .err e => some (e.position.line, e.position.column, e.errors)
  | _ => none

example : report ['(', 'x', '+', ')', 'x'] = some (1, 4, [.unexpected (.token ')')]) := by decide +kernel
example : report ['(', 'x', ')', ')'] = some (1, 4, [.unexpected (.token ')'), .expected (.static "end of input")]) := by
  decide +kernel
example : report ['(', 'x', '+'] = some (1, 4, [.unexpected (.static "end of input")]) := by decide +kernel
example : report [] = some (1, 1, [.unexpected (.static "end of input")]) := by decide +kernel
example : report ['(', 'x', ')'] = none := by decide +kernel

end Examples

end Verif
