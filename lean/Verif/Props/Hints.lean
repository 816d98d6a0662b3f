import Verif.Proof.Hints
import Verif.Props.Blame

/-!
# What an error lists as expected (C59)

An error that lists something as expected promises that it can come next.
-/

namespace Verif

set_option linter.unusedSectionVars false
set_option linter.unusedVariables false

variable {S : Strm} {Has : S.Err → S.SErr → Prop} {H : S.E.Hints} {M : Info S.Tok S.Rng → S.Tok → Prop}
  {N σ τ υ ρ α β γ δ : Type} {rules : N → Gram N S.Tok} {a b c : Gram N S.Tok} {F G : S.Tok → Prop}

/-! ## One rule for each combinator -/

/-- The same failures with fewer expectations. -/
private theorem tells_via {p : Parser S σ α} {q : Parser S τ β} (h : Tells Has H M rules a F p) (hb : Blames Has rules a F q)
    (hsoft : ∀ i e, (q.run true i q.init).res = .peekErr e →
      ∃ e', (p.run true i p.init).res = .peekErr e' ∧ e.offset = e'.offset ∧ ∀ x, H.Lists e.error x → H.Lists e'.error x)
    (hhard : ∀ i e, q.answer i = .hard e → ∃ e', p.answer i = .hard e' ∧ ∀ x, H.Lists e x → H.Lists e' x)
    (hext : ∀ t, S.Notes H (fun _ => True) t (q.addError t))
    (hfirst : ∀ t, t.offset ≤ 1 → S.Notes H (a.Awaits rules M []) t (q.addError t))
    (hsoftly : ∀ i e, S.isPartial i = false → (p.run true i p.init).res = .peekErr e → ∀ t, t.offset ≤ max 1 e.offset →
      S.Notes H (a.Awaits rules M []) t (q.addError t) ∧ (q.addError t).offset ≤ 1)
    (hc : q.addCommitted = p.addCommitted) : Tells Has H M rules a F q where
  toBlames := hb
  extends_ := fun t => ⟨hext t, hc ▸ (h.extends_ t).2⟩
  first := hfirst
  softly := by
    intro i e hp hx
    obtain ⟨e', h1, h2, h3⟩ := hsoft i e hx
    exact ⟨fun x hx => (h.softly i e' hp h1).1 x (h3 x hx), fun t ht => hsoftly i e' hp h1 t (h2 ▸ ht)⟩
  hardly := by
    intro i e hp hx
    obtain ⟨e', h1, h2⟩ := hhard i e hx
    obtain ⟨w, l, h3, h4, h5, h6⟩ := h.hardly i e' hp h1
    exact ⟨w, l, h3, h4, h5, fun x hx => h6 x (h2 x hx)⟩
  comm := hc ▸ h.comm

/-- The same result with another value, and the same additions to errors. -/
private theorem tells_res {p : Parser S σ α} {q : Parser S τ β} (f : α → β) (h : Tells Has H M rules a F p)
    (hb : Blames Has rules a F q) (hres : ∀ i, (q.run true i q.init).res = (p.run true i p.init).res.map f)
    (ha : q.addError = p.addError) (hc : q.addCommitted = p.addCommitted) : Tells Has H M rules a F q := by
  refine tells_via h hb (fun i e hx => ?_) (fun i e hx => ?_) (ha ▸ fun t => (h.extends_ t).1) (ha ▸ h.first)
    (ha ▸ fun i e hp hx => (h.softly i e hp hx).2) hc
  · rw [hres] at hx
    cases hy : (p.run true i p.init).res with
    | peekErr e' => rw [hy] at hx; cases hx; exact ⟨_, rfl, rfl, fun _ h => h⟩
    | _ => rw [hy] at hx; cases hx
  · rw [answer_of_hard, hres] at hx
    cases hy : (p.run true i p.init).res with
    | commitErr e' => rw [hy] at hx; cases hx; exact ⟨_, answer_of_hard.2 hy, fun _ h => h⟩
    | _ => rw [hy] at hx; cases hx

/-- **C59.**  Fewer tokens come next. -/
theorem C59_weaken {p : Parser S σ α} (h : Tells Has H M rules a F p) (hG : ∀ t, G t → F t) : Tells Has H M rules a G p :=
  { h with toBlames := C58_weaken h.toBlames hG }

private theorem awaits_same (hd : ∀ w, a.Derives rules w ↔ b.Derives rules w) {w : List S.Tok} {x : Info S.Tok S.Rng}
    (h : a.Awaits rules M w x) : b.Awaits rules M w x := by
  obtain ⟨t, h1, v, h2⟩ := h
  exact ⟨t, h1, v, (hd _).1 h2⟩

/-- **C59.**  Grammars that derive the same and begin with the same. -/
theorem C59_same {p : Parser S σ α} (h : Tells Has H M rules a F p) (hd : ∀ w, a.Derives rules w ↔ b.Derives rules w)
    (hf : ∀ t, a.First rules t ↔ b.First rules t) (hu : b.Useful rules) : Tells Has H M rules b F p := by
  have hv : ∀ w, a.Viable rules w ↔ b.Viable rules w := fun w => exists_congr fun v => hd _
  refine ⟨C58_same h.toBlames hd hf hu, h.extends_, ?_, ?_, ?_, ?_⟩
  · exact fun t ht => notes_mono (h.first t ht) fun x => awaits_same hd
  · intro i e hp hx
    obtain ⟨h1, h2⟩ := h.softly i e hp hx
    exact ⟨fun x hx => awaits_same hd (h1 x hx), fun t ht => ⟨notes_mono (h2 t ht).1 fun x => awaits_same hd, (h2 t ht).2⟩⟩
  · intro i e hp hx
    obtain ⟨w, l, h1, h3, h4, h5⟩ := h.hardly i e hp hx
    exact ⟨w, l, h1, (hv w).1 h3, fun t k ht hb => h4 t k ht ((hv _).2 hb), fun x hx => awaits_same hd (h5 x hx)⟩
  · exact fun t w hw hne => notes_mono (h.comm t w ((hd w).2 hw) hne) fun x => awaits_same hd

/-- **C59.**  `value`. -/
theorem C59_value (v : α) : Tells Has H M rules .empty F (value S v) where
  toBlames := C58_value v
  extends_ := fun t => ⟨notes_refl t, notes_refl t⟩
  first := fun t _ => notes_refl t
  softly := fun i e _ hx => by cases hx
  hardly := fun i e _ hx => by cases hx
  comm := fun t _ _ _ => notes_refl t

/-- **C59.**  `map`, and `ignore` inside of `with` and `skip`. -/
theorem C59_map {p : Parser S σ α} (h : Tells Has H M rules a F p) (f : α → β) : Tells Has H M rules a F (map p f) :=
  tells_res f h (C58_map h.toBlames f) (fun _ => rfl) rfl rfl

theorem tells_ignore {p : Parser S σ α} (h : Tells Has H M rules a F p) : Tells Has H M rules a F (ignore p) :=
  tells_res (fun _ => ()) h (blames_ignore h.toBlames) (fun _ => rfl) rfl rfl

/-- **C59.**  Wrappers. -/
theorem C59_wrappers (hE : S.E.Naming Has) {p : Parser S σ α} (hp : Tells Has H M rules a F p) :
    Tells Has H M rules a F (boxed p) ∧ Tells Has H M rules a F (opaqueP p) ∧ Tells Has H M rules a F (parserMacro p) ∧
    Tells Has H M rules a F (parserMacroUnit p) := by
  have hid : ∀ r : ParseResult α S.Err, r = r.map id := fun r => by cases r <;> rfl
  have h := C58_labels hE hp.toBlames (.static "")
  exact ⟨tells_res id hp h.2.2.2.1 (fun i => hid _) rfl rfl, tells_res id hp h.2.2.2.2.1 (fun i => hid _) rfl rfl,
    tells_res id hp h.2.2.2.2.2.1 (fun i => hid _) rfl rfl, tells_res id hp h.2.2.2.2.2.2 (fun i => hid _) rfl rfl⟩

/-- **C59.**  `expected`: the label has to fit a token with which the parser can begin. -/
theorem C59_expected (hE : S.E.Naming Has) {p : Parser S σ α} (hp : Tells Has H M rules a F p) {x : Info S.Tok S.Rng}
    (hx : a.Awaits rules M [] x) : Tells Has H M rules a F (expected p x) := by
  have hid : ∀ r : ParseResult α S.Err, r = r.map id := fun r => by cases r <;> rfl
  have key : ∀ t, S.Notes H (a.Awaits rules M []) t ((expected p x).addError t) := by
    intro t
    have h1 := (hp.extends_ t).1
    refine ⟨H.ext_label _ _ _ h1.1, ?_, fun y hy => ?_⟩
    · show (S.E.setExpected t (S.E.expected x) p.addError).offset ≤ _
      rw [H.label_offset]
      exact h1.2.1
    · rcases H.label _ _ _ _ h1.1 hy with h | h
      · exact .inl h
      · rw [h]; exact .inr hx
  refine tells_via hp (C58_labels hE hp.toBlames x).1 (fun i e he => ⟨e, he, rfl, fun _ h => h⟩)
    (fun i e he => ⟨e, he, fun _ h => h⟩) (fun t => notes_mono (key t) fun _ _ => trivial) (fun t _ => key t)
    (fun i e hpart he t ht => ⟨key t, ?_⟩) rfl
  show (S.E.setExpected t (S.E.expected x) p.addError).offset ≤ _
  rw [H.label_offset]
  exact ((hp.softly i e hpart he).2 t ht).2

/-- **C59.**  `message`. -/
theorem C59_message (hE : S.E.Naming Has) {p : Parser S σ α} (hp : Tells Has H M rules a F p) (x : Info S.Tok S.Rng) :
    Tells Has H M rules a F (message p x) := by
  have key : ∀ {P : Info S.Tok S.Rng → Prop} t, S.Notes H P t (p.addError t) →
      S.Notes H P t ((message p x).addError t) := fun t h =>
    ⟨H.ext_trans h.1 (H.ext_add _ _), h.2.1, fun y hy => h.2.2 y (H.add_other _ _ y (.inr ⟨x, .inr rfl⟩) hy)⟩
  refine tells_via hp (C58_labels hE hp.toBlames x).2.1 (fun i e hx => ?_) (fun i e hx => ?_)
    (fun t => key t (hp.extends_ t).1) (fun t ht => key t (hp.first t ht))
    (fun i e hpart he t ht => ⟨key t ((hp.softly i e hpart he).2 t ht).1, ((hp.softly i e hpart he).2 t ht).2⟩) rfl
  · simp only [message, Parser.ofMode] at hx
    revert hx
    generalize p.run true i p.init = o
    obtain ⟨r, j, s⟩ := o
    cases r <;> intro hx <;> cases hx
    exact ⟨_, rfl, rfl, fun _ h => h⟩
  · rw [answer_of_hard] at hx
    have : ∃ e', (p.run true i p.init).res = .commitErr e' ∧ ∀ y, H.Lists e y → H.Lists e' y := by
      simp only [message, Parser.ofMode] at hx
      revert hx
      generalize p.run true i p.init = o
      obtain ⟨r, j, s⟩ := o
      cases r <;> intro hx <;> cases hx
      exact ⟨_, rfl, fun y h => H.add_other _ _ y (.inr ⟨x, .inr rfl⟩) h⟩
    obtain ⟨e', h1, h2⟩ := this
    exact ⟨e', answer_of_hard.2 h1, h2⟩

/-- What one-token parsers answer. -/
private theorem impl_lists {f : S.Tok → Option α} (hS : S.Lawful) (hP : S.EndsPlainly) {i : S.Input}
    {e : Tracked S.Err} (hp : S.isPartial i = false) (h : (satisfyImpl S f i).1 = .peekErr e) :
    e.offset = 1 ∧ ∀ x, ¬ H.Lists e.error x := by
  simp only [satisfyImpl, Strm.unconsP] at h
  cases hu : S.uncons i with
  | mk x j =>
    cases x with
    | ok t =>
      rw [hu] at h
      dsimp only at h
      cases hf : f t with
      | some v => rw [hf] at h; cases h
      | none =>
        rw [hf] at h
        cases h
        exact ⟨rfl, H.empty _⟩
    | error x =>
      obtain rfl := hP i x j hu
      obtain rfl := hS.uncons_error hu
      rw [hu] at h
      simp only [Strm.wrapStreamError, hp] at h
      cases h
      exact ⟨rfl, fun x => H.fromError _ _ x (.inl rfl)⟩

private theorem tells_one (hS : S.Lawful) (hP : S.EndsPlainly) {p : Parser S σ α} {f : S.Tok → Option α}
    (hb : Blames Has rules (.one fun t => (f t).isSome) F p) (h : ∀ i, S.IsOne f i (p.shape i))
    (hi : ∀ i, (p.run true i p.init).res = (satisfyImpl S f i).1)
    (hae : ∀ t, S.Notes H (Gram.Awaits rules M (.one fun t => (f t).isSome) []) t (p.addError t)) (hac : p.addCommitted = id) :
    Tells Has H M rules (.one fun t => (f t).isSome) F p where
  toBlames := hb
  extends_ := fun t => ⟨notes_mono (hae t) fun _ _ => trivial, hac ▸ notes_refl t⟩
  first := fun t _ => hae t
  softly := by
    intro i e hp hx
    obtain ⟨h1, h2⟩ := impl_lists (H := H) hS hP hp ((hi i).symm.trans hx)
    refine ⟨fun x hx => absurd hx (h2 x), fun t ht => ⟨hae t, Nat.le_trans (hae t).2.1 ?_⟩⟩
    omega
  hardly := by
    intro i e hp hx
    rcases h i with ⟨t', j', h1, h2⟩ | ⟨_, h2⟩
    · have h3 := shape_of_hard hx
      rw [h2] at h3
      cases hf : f t' <;> rw [hf] at h3 <;> cases h3
    · have h3 := shape_of_hard hx
      rw [h2, hp] at h3
      cases h3
  comm := fun t _ _ _ => hac ▸ notes_refl t

/-- What `token` adds. -/
theorem notes_token {x : S.Tok} [DecidableEq S.Tok] (hM : M (.token x) x) (t : Tracked S.Err) :
    S.Notes H (Gram.Awaits rules M (.one fun t => (if t = x then some t else none).isSome) []) t ((token S x).addError t) :=
  ⟨H.ext_add _ _, Nat.le_refl _, fun y hy => by
    rcases H.add_expected _ _ _ hy with h | h
    · exact .inl h
    · exact .inr ⟨x, h ▸ hM, [], .one (by simp)⟩⟩

/-- **C59.**  `satisfy_map`, `satisfy`, `token` and `any`. -/
theorem C59_one (hS : S.Lawful) (hE : S.E.Naming Has) (hP : S.EndsPlainly) [DecidableEq S.Tok] (f : S.Tok → Option α)
    (hf : ∃ t, (f t).isSome = true) (g : S.Tok → Bool) (hg : ∃ t, (if g t then some t else none).isSome = true) (x : S.Tok)
    (hM : M (.token x) x) :
    Tells Has H M rules (.one fun t => (f t).isSome) F (satisfyMap S f) ∧
    Tells Has H M rules (.one fun t => (if g t then some t else none).isSome) F (satisfy S g) ∧
    Tells Has H M rules (.one fun t => (if t = x then some t else none).isSome) F (token S x) ∧
    Tells Has H M rules (.one fun t => (some t).isSome) F (any S) := by
  have h := C58_one (Has := Has) (rules := rules) (F := F) hS hE hP f hf g hg x
  refine ⟨tells_one hS hP h.1 (C53_satisfy_map hS f) (fun _ => rfl) (fun t => notes_refl t) rfl,
    tells_one hS hP h.2.1 (C53_satisfy hS g) (fun _ => rfl) (fun t => notes_refl t) rfl,
    tells_one hS hP h.2.2.1 (C53_token hS x) (fun _ => rfl) (notes_token hM) rfl,
    tells_one hS hP h.2.2.2 (C53_any hS) (fun i => ?_) (fun t => notes_refl t) rfl⟩
  simp only [any, Parser.ofLazy, satisfyImpl, Strm.unconsP]
  cases S.uncons i with
  | mk x j =>
    cases x with
    | ok t => rfl
    | error e => simp only [Strm.wrapStreamError]; cases S.isPartial j <;> rfl

/-! ### Sequences -/

/-- What the description of a committed failure of a tuple lists. -/
private theorem seqAddErrors_lists {parts : List (ErrPart S)} {e : Tracked S.Err} {fe off : Nat} {l : S.Input}
    {P : Info S.Tok S.Rng → Prop} (he : ∀ x, H.Lists e.error x → P x)
    (h : ∀ t, t.offset = off → ∀ x, H.Lists (addSequenceErrors fe e.offset 0 t parts).error x → H.Lists t.error x ∨ P x) :
    (∀ e', (seqAddErrors (α := α) parts e fe off l).1 = .commitErr e' → fe ≠ 0 ∧ ∀ x, H.Lists e' x → P x) ∧
    (∀ e', (seqAddErrors (α := α) parts e fe off l).1 = .peekErr e' → fe = 0 ∧ e' = { e with offset := off }) := by
  unfold seqAddErrors
  dsimp only
  split
  · rename_i hfe
    cases hu : S.uncons l with
    | mk r k =>
      cases r with
      | ok t =>
        dsimp only
        refine ⟨fun e' h' => ?_, fun e' h' => by cases h'⟩
        injection h' with h'
        subst h'
        refine ⟨hfe, fun x hx => ?_⟩
        rcases h _ rfl x hx with h1 | h1
        · exact he x (H.add_other _ _ x (.inr ⟨_, .inl rfl⟩) h1)
        · exact h1
      | error x =>
        dsimp only
        refine ⟨fun e' h' => ?_, fun e' h' => by cases h'⟩
        injection h' with h'
        subst h'
        exact ⟨hfe, fun x hx => (h _ rfl x hx).elim (he x) id⟩
  · rename_i hfe
    refine ⟨fun e' h' => (by cases h'), fun e' h' => ?_⟩
    injection h' with h'
    exact ⟨Decidable.not_not.1 hfe, h'.symm⟩

/-- **C59.**  Tuples. -/
theorem C59_tuple (hS : S.Lawful) (hE : S.E.Naming Has) {p : Parser S σ α} {ps : Seq S τ β} (hm : Moves p)
    (hp : Tells Has H M rules a (b.Then rules F) p) (hn : Leads H M rules a p)
    (hs : SeqTells Has H M rules F b ps) : Tells Has H M rules (a.seq b) F (tuple p ps) := by
  have hub := seq_useful (seqTells_blames hs)
  have hlow : ∀ {P : Info S.Tok S.Rng → Prop} t, S.Notes H P t (p.addError t) → (p.addError t).offset ≤ 1 →
      S.Notes H P t ((tuple p ps).addError t) ∧ ((tuple p ps).addError t).offset ≤ 1 := by
    intro P t h1 h2
    simp only [tuple, Parser.ofMode]
    rw [if_pos h2]
    exact ⟨notes_lower h1 (Nat.sub_le _ _), Nat.le_trans (Nat.sub_le _ _) h2⟩
  have key : ∀ i, S.isPartial i = false →
      (∀ e, ((tuple p ps).run true i (tuple p ps).init).res = .peekErr e →
        (∀ x, H.Lists e.error x → (a.seq b).Awaits rules M [] x) ∧
        ∀ t, t.offset ≤ max 1 e.offset →
          S.Notes H ((a.seq b).Awaits rules M []) t ((tuple p ps).addError t) ∧ ((tuple p ps).addError t).offset ≤ 1) ∧
      (∀ e, ((tuple p ps).run true i (tuple p ps).init).res = .commitErr e →
        ∃ w l, S.Reads i w l ∧ (a.seq b).Viable rules w ∧ S.Beyond rules (a.seq b) w l ∧
          ∀ x, H.Lists e x → (a.seq b).Awaits rules M w x) := by
    intro i hpart
    have hrest : ∀ (c : Bool) (x : α), p.shape i = .ok c x (p.run true i p.init).inp → ∀ st : SeqSt σ τ α, st.tail = ps.init →
        st.offset = satAdd p.count 1 →
        (∀ e, (seqRest p ps true (if c then 1 else 0) (p.run true i p.init).inp st).res = .peekErr e →
          (∀ x, H.Lists e.error x → (a.seq b).Awaits rules M [] x) ∧
          ∀ t, t.offset ≤ max 1 e.offset →
            S.Notes H ((a.seq b).Awaits rules M []) t ((tuple p ps).addError t) ∧ ((tuple p ps).addError t).offset ≤ 1) ∧
        (∀ e, (seqRest p ps true (if c then 1 else 0) (p.run true i p.init).inp st).res = .commitErr e →
          ∃ w l, S.Reads i w l ∧ (a.seq b).Viable rules w ∧ S.Beyond rules (a.seq b) w l ∧
            ∀ x, H.Lists e x → (a.seq b).Awaits rules M w x) := by
      intro c x hx st ht ho
      have hpred := hp.predicts i
      rw [hx] at hpred
      obtain ⟨u, h1, h2, h3, _⟩ := hpred
      have hstop := hp.stop i _ _ _ u hpart hx h1
      unfold seqRest
      rw [ht, ho]
      have h4 := steps_tell hS hs (if c then 1 else 0) 0 (satAdd p.count 1) (by split <;> omega) (p.run true i p.init).inp
        ((hS.reads_isPartial h1).trans hpart)
      revert h4
      generalize ps.steps true (if c then 1 else 0) 0 (satAdd p.count 1) (p.run true i p.init).inp ps.init = r
      obtain ⟨fin, f, o, j, st'⟩ := r
      rintro ⟨h5, h6⟩
      dsimp only at h5 h6
      cases fin with
      | done =>
        dsimp only [seqFinish]
        constructor <;> intro e he
        · split at he
          · dsimp only at he
            split at he <;> cases he
          · cases he
        · split at he
          · dsimp only at he
            split at he <;> cases he
          · cases he
      | abort y => constructor <;> intro e he <;> cases he
      | peekErr y => exact h6.elim
      | commitErr y =>
        obtain ⟨w, l, h7, h9, h10, h11⟩ := h6
        constructor <;> intro e he <;> cases he
        exact ⟨u ++ w, l, reads_append h1 h7, Gram.viable_right h2 h9,
          beyond_right hS hp.accepts hpart hx h1 h7 hstop h10, fun x hx => awaits_right h2 (h11 x hx)⟩
      | fail y =>
        obtain ⟨w, n, h7, h9, h10, h11, h12, h13, h14⟩ := h6
        have hsat := satAdd_le p.count 1
        have hlist : ∀ t : Tracked S.Err, t.offset = o → f ≠ 0 → ∀ x,
            H.Lists (addSequenceErrors f y.offset 0 t (p.part :: ps.parts)).error x →
            H.Lists t.error x ∨ (a.seq b).Awaits rules M (u ++ w) x := by
          intro t hto hf x hl
          rcases Nat.lt_or_ge 1 f with hf1 | hf1
          · rw [addSequence_cons.2.1 hf1] at hl
            exact (h14 _ (by dsimp only; omega) x hl).imp_right fun h => awaits_right h2 h
          · obtain ⟨h15, rfl, _⟩ := h13 (by omega)
            cases c with
            | false => exact absurd h15 (by simpa using hf)
            | true =>
              have hne : u ≠ [] := by rintro rfl; cases h3
              rw [addSequence_cons.1 (by simp only [if_true] at h15; omega)] at hl
              have hc := hp.comm t u h2 hne
              have hle := hc.2.1
              rcases h14 _ (by dsimp only; omega) x hl with h | h
              · rcases hc.2.2 x h with h | h
                · exact .inl h
                · rw [List.append_nil]; exact .inr (awaits_left h hub)
              · exact .inr (awaits_right h2 h)
        by_cases hf : f = 0
        · subst hf
          dsimp only
          simp only [seqAddErrors, ne_eq, not_true_eq_false, if_false]
          refine ⟨fun e he => ?_, fun e he => by cases he⟩
          cases he
          obtain ⟨h15, rfl, h16⟩ := h13 (by omega)
          have hc : c = false := by
            cases c with
            | false => rfl
            | true => cases h15
          subst hc
          have hu : u = [] := by
            cases u with
            | nil => rfl
            | cons t ts => cases h3
          subst hu
          obtain ⟨hcount, hmod⟩ := hn h2
          refine ⟨fun x hx => awaits_right h2 (h11 x hx), fun t ht => ?_⟩
          dsimp only at ht
          have hm1 := hmod t
          have hm2 := hm1.2.1
          have hm3 := notes_mono hm1 (fun x hx => awaits_left (b := b) hx hub)
          by_cases hle : (p.addError t).offset ≤ 1
          · exact hlow t hm3 hle
          · simp only [tuple, Parser.ofMode]
            rw [if_neg hle]
            split
            · obtain ⟨h17, h18⟩ := h16 { p.addError t with offset := (p.addError t).offset - p.count } (by dsimp only; omega)
              exact ⟨notes_trans (notes_lower hm3 (Nat.sub_le _ _)) (notes_mono h17 fun x hx => awaits_right h2 hx), h18⟩
            · obtain ⟨h17, h18⟩ := h16 (p.addError t) (by omega)
              exact ⟨notes_trans hm3 (notes_mono h17 fun x hx => awaits_right h2 hx), h18⟩
        · have h15 := seqAddErrors_lists (α := α × β) (H := H) (parts := p.part :: ps.parts) (e := y) (fe := f) (off := o)
            (l := j) (P := (a.seq b).Awaits rules M (u ++ w)) (fun x hx => awaits_right h2 (h11 x hx))
            (fun t ht x hx => hlist t ht hf x hx)
          refine ⟨fun e he => absurd (h15.2 e he).1 hf, fun e he => ?_⟩
          exact ⟨u ++ w, j, reads_append h1 h7, Gram.viable_right h2 h9,
            beyond_right hS hp.accepts hpart hx h1 h7 hstop h10, (h15.1 e he).2⟩
    simp only [tuple, Parser.ofMode, seqRun, Bool.true_or, if_true] at hrest ⊢
    cases hr : (p.run true i p.init).res with
    | commitOk x => exact hrest true x (shape_of_res.1 hr) _ rfl rfl
    | peekOk x => exact hrest false x (shape_of_res.2 hr) _ rfl rfl
    | commitErr y =>
      constructor <;> intro e he <;> cases he
      obtain ⟨w, l, h1, h3, h4, h5⟩ := hp.hardly i _ hpart (answer_of_hard.2 hr)
      have hs := shape_of_hard (answer_of_hard.2 hr)
      exact ⟨w, l, h1, Gram.viable_left h3 hub,
        beyond_left hp.accepts hpart h1 (fun c v j h => by rw [hs] at h; cases h) (fun x h => by rw [hs] at h; cases h) h4,
        fun x hx => awaits_left (h5 x hx) hub⟩
    | peekErr y =>
      constructor <;> intro e he <;> cases he
      obtain ⟨h1, h2⟩ := hp.softly i _ hpart hr
      exact ⟨fun x hx => awaits_left (h1 x hx) hub,
        fun t ht => hlow t (notes_mono (h2 t ht).1 fun x hx => awaits_left hx hub) (h2 t ht).2⟩
    | abort y => constructor <;> intro e he <;> cases he
  refine ⟨C58_tuple hS hE hm hp.toBlames (seqTells_blames hs), fun t => ⟨?_, seqTells_last_any hs _ t⟩, fun t ht => ?_,
    fun i e hpart hx => (key i hpart).1 e hx, fun i e hpart hx => (key i hpart).2 e (answer_of_hard.1 hx),
    fun t w hw _ => ?_⟩
  · have h1 := (hp.extends_ t).1
    by_cases hle : (p.addError t).offset ≤ 1
    · exact (hlow t h1 hle).1
    · simp only [tuple, Parser.ofMode]
      rw [if_neg hle]
      split
      · exact notes_trans (notes_lower h1 (Nat.sub_le _ _)) (seqTells_extend hs _)
      · exact notes_trans h1 (seqTells_extend hs _)
  · have h1 := hp.first t ht
    exact (hlow t (notes_mono h1 fun x hx => awaits_left hx hub) (Nat.le_trans h1.2.1 ht)).1
  · obtain ⟨u, v, rfl, h1, h2⟩ := Gram.derives_seq.1 hw
    exact notes_mono (seqTells_last hs _ t h2) fun x hx => awaits_right h1 hx

/-- A pair. -/
theorem tells_pair (hS : S.Lawful) (hE : S.E.Naming Has) {p : Parser S σ α} {q : Parser S τ β} (hmp : Moves p)
    (hmq : Moves q) (hp : Tells Has H M rules a (b.Then rules F) p) (hn : Leads H M rules a p) (hq : Tells Has H M rules b F q)
    (hl : Closes H M rules b q) : Tells Has H M rules (a.seq b) F (pair p q) :=
  have h := C59_tuple hS hE hmp (by rw [like_then (like_empty b)]; exact hp) hn (.last hmq hq hl)
  have hl := like_seq (a := a) (like_empty (rules := rules) b)
  C59_same h hl.1 hl.2 ⟨hp.useful, hq.useful⟩

/-- **C59.**  `with`. -/
theorem C59_with (hS : S.Lawful) (hE : S.E.Naming Has) {p : Parser S σ α} {q : Parser S τ β} (hmp : Moves p)
    (hmq : Moves q) (hp : Tells Has H M rules a (b.Then rules F) p) (hn : Leads H M rules a p) (hq : Tells Has H M rules b F q)
    (hl : Closes H M rules b q) : Tells Has H M rules (a.seq b) F («with» p q) :=
  have h := tells_pair hS hE (moves_ignore hS hmp) hmq (tells_ignore hp) hn hq hl
  tells_res (fun x => x.2.1) h (C58_with hS hE hmp hmq hp.toBlames hq.toBlames) (fun _ => rfl) rfl rfl

/-- **C59.**  `skip`. -/
theorem C59_skip (hS : S.Lawful) (hE : S.E.Naming Has) {p : Parser S σ α} {q : Parser S τ β} (hmp : Moves p)
    (hmq : Moves q) (hp : Tells Has H M rules a (b.Then rules F) p) (hn : Leads H M rules a p) (hq : Tells Has H M rules b F q)
    (hl : Closes H M rules b q) : Tells Has H M rules (a.seq b) F (skip p q) :=
  have h := tells_pair hS hE hmp (moves_ignore hS hmq) hp hn (tells_ignore hq) hl
  tells_res (fun x => x.1) h (C58_skip hS hE hmp hmq hp.toBlames hq.toBlames) (fun _ => rfl) rfl rfl

/-- **C59.**  `between`. -/
theorem C59_between (hS : S.Lawful) (hE : S.E.Naming Has) {o : Parser S σ α} {cl : Parser S υ γ} {p : Parser S τ β}
    (hmo : Moves o) (hmp : Moves p) (hmc : Moves cl)
    (ho : Tells Has H M rules a ((b.seq c).Then rules F) o) (hno : Leads H M rules a o)
    (hp : Tells Has H M rules b (c.Then rules F) p) (hnp : Leads H M rules b p)
    (hc : Tells Has H M rules c F cl) (hl : Closes H M rules c cl) :
    Tells Has H M rules (a.seq (b.seq c)) F (between o cl p) :=
  have hl1 := like_seq (a := b) (like_empty (rules := rules) c)
  have hl' := like_seq (a := a) hl1
  have h : Tells Has H M rules (a.seq (b.seq (c.seq .empty))) F (tuple o (.cons p (.cons cl .nil))) :=
    C59_tuple hS hE hmo (by rw [like_then hl1]; exact ho) hno
      (.cons hmp (by rw [like_then (like_empty c)]; exact hp) hnp (.last hmc hc hl))
  (C59_wrappers hE (C59_map (C59_same h hl'.1 hl'.2 ⟨ho.useful, hp.useful, hc.useful⟩) _)).2.2.1

/-! ### Choice -/

private theorem mergeAll_lists {P : Info S.Tok S.Rng → Prop} (t : Tried S) (ts : List (Tried S))
    (h : ∀ u ∈ t :: ts, ∀ x, H.Lists u.err.error x → P x) : ∀ x, H.Lists (mergeAll t ts) x → P x := by
  induction ts generalizing t with
  | nil => exact h t (.head _)
  | cons u us ih =>
    exact fun x hx => (H.merge _ _ _ hx).elim (h t (.head _) x) (ih u (fun v hv => h v (.tail _ hv)) x)

/-- The failures of the alternatives tried so far, and what these add. -/
private def TriedOk (H : S.E.Hints) (P : Info S.Tok S.Rng → Prop) (u : Tried S) : Prop :=
  (∀ x, H.Lists u.err.error x → P x) ∧
    ∀ t, t.offset ≤ max 1 u.err.offset → ∀ x, H.Lists (u.addError t).error x → H.Lists t.error x ∨ P x

private theorem addTried_lists {P : Info S.Tok S.Rng → Prop} (ts : List (Tried S)) (h : ∀ u ∈ ts, TriedOk H P u)
    (e : Tracked S.Err) (he : ∀ x, H.Lists e.error x → P x) (hle : e.offset ≤ 1) :
    (∀ x, H.Lists (addTried e ts).error x → P x) ∧ (addTried e ts).offset ≤ 1 := by
  unfold addTried
  induction ts generalizing e with
  | nil => exact ⟨he, hle⟩
  | cons u us ih =>
    rw [List.foldl_cons]
    split
    · refine ih (fun v hv => h v (.tail _ hv)) _ (fun x hx => ?_) (by dsimp only; omega)
      rcases (h u (.head _)).2 { e with offset := u.err.offset } (by dsimp only; omega) x hx with h1 | h1
      · exact he x h1
      · exact h1
    · exact ih (fun v hv => h v (.tail _ hv)) _ he hle

private theorem choiceFail_lists {P : Info S.Tok S.Rng → Prop} (ts : List (Tried S)) (h : ∀ u ∈ ts, TriedOk H P u) :
    (∀ e, (choiceFail ts : ParseResult α S.Err) = .peekErr e → (∀ x, H.Lists e.error x → P x) ∧ e.offset ≤ 1) ∧
    (∀ e, (choiceFail ts : ParseResult α S.Err) ≠ .commitErr e) := by
  cases ts with
  | nil => exact ⟨fun e he => (by cases he), fun e he => (by cases he)⟩
  | cons t ts =>
    refine ⟨fun e he => ?_, fun e he => by cases he⟩
    injection he with he
    subst he
    exact addTried_lists _ h _ (mergeAll_lists t ts fun u hu => (h u hu).1) (Nat.le_refl 1)

private theorem altsTell_blame {ps : Alts S α τ} (h : AltsTell Has H M rules F a ps) : AltsBlame Has rules F a ps := by
  induction h with
  | last hm hp => exact .last hm hp.toBlames
  | cons hm hp _ ha h1 h2 ih => exact .cons hm hp.toBlames ih ha h1 h2

private theorem doChoice_lists (hS : S.Lawful) {ps : Alts S α τ} (h : AltsTell Has H M rules F a ps)
    (i : S.Input) (hpart : S.isPartial i = false) (bp : S.Pos) (P : Info S.Tok S.Rng → Prop)
    (hP : ∀ x, a.Awaits rules M [] x → P x) (tried : List (Tried S)) (ht : ∀ u ∈ tried, TriedOk H P u) :
    (∀ e, (ps.doChoice bp (S.checkpoint i) tried i).res = .peekErr e → (∀ x, H.Lists e.error x → P x) ∧ e.offset ≤ 1) ∧
    (∀ e, (ps.doChoice bp (S.checkpoint i) tried i).res = .commitErr e →
      ∃ w l, S.Reads i w l ∧ a.Viable rules w ∧ S.Beyond rules a w l ∧ ∀ x, H.Lists e x → a.Awaits rules M w x) := by
  induction h generalizing tried with
  | @last σ a p hm hp =>
    unfold Alts.doChoice
    dsimp only
    have hmv := hm.run true i p.init
    cases hr : (p.run true i p.init).res with
    | commitOk x => constructor <;> intro e he <;> cases he
    | peekOk x => constructor <;> intro e he <;> cases he
    | abort x => constructor <;> intro e he <;> cases he
    | commitErr y =>
      constructor <;> intro e he <;> cases he
      exact hp.hardly i _ hpart (answer_of_hard.2 hr)
    | peekErr y =>
      dsimp only
      rw [hS.reset_reach hmv]
      dsimp only
      have h1 := choiceFail_lists (α := α) (H := H) (P := P) (tried ++ [⟨p.addError, y⟩]) (by
        intro u hu
        rcases List.mem_append.1 hu with hu | hu
        · exact ht u hu
        · cases List.mem_singleton.1 hu
          obtain ⟨h2, h3⟩ := hp.softly i y hpart hr
          exact ⟨fun x hx => hP x (h2 x hx), fun t ht x hx => ((h3 t ht).1.2.2 x hx).imp_right (hP x)⟩)
      exact ⟨h1.1, fun e he => absurd he (h1.2 e)⟩
  | @cons σ τ a b p ps hm hp hps ha hab hF ih =>
    unfold Alts.doChoice
    dsimp only
    have hmv := hm.run true i p.init
    have hpred := hp.predicts i
    cases hr : (p.run true i p.init).res with
    | commitOk x => constructor <;> intro e he <;> cases he
    | peekOk x => constructor <;> intro e he <;> cases he
    | abort x => constructor <;> intro e he <;> cases he
    | commitErr y =>
      constructor <;> intro e he <;> cases he
      obtain ⟨w, l, h1, h3, h4, h7⟩ := hp.hardly i _ hpart (answer_of_hard.2 hr)
      rw [shape_of_hard (answer_of_hard.2 hr)] at hpred
      rcases hpred with ⟨t, j, h5, h6⟩ | ⟨h5, _⟩
      · exact ⟨w, l, h1, Gram.viable_alt.2 (.inl h3), (beyond_alt h1 h4 (unfit_of_first h5 h6 hab)).1,
          fun x hx => awaits_alt_left (h7 x hx)⟩
      · rw [hpart] at h5; cases h5
    | peekErr y =>
      dsimp only
      rw [hS.reset_reach hmv]
      dsimp only
      rw [shape_of_err hr] at hpred
      have h1 := ih (fun x hx => hP x (awaits_alt_right hx)) (tried ++ [⟨p.addError, y⟩]) (by
        intro u hu
        rcases List.mem_append.1 hu with hu | hu
        · exact ht u hu
        · cases List.mem_singleton.1 hu
          obtain ⟨h2, h3⟩ := hp.softly i y hpart hr
          exact ⟨fun x hx => hP x (awaits_alt_left (h2 x hx)),
            fun t ht x hx => ((h3 t ht).1.2.2 x hx).imp_right fun h => hP x (awaits_alt_left h)⟩)
      refine ⟨h1.1, fun e he => ?_⟩
      obtain ⟨w, l, h2, h4, h5, h6⟩ := h1.2 e he
      exact ⟨w, l, h2, Gram.viable_alt.2 (.inr h4), (beyond_alt h2 h5 hpred.1).2, fun x hx => awaits_alt_right (h6 x hx)⟩

private theorem alts_notes {ps : Alts S α τ} (h : AltsTell Has H M rules F a ps) (t : Tracked S.Err) :
    H.Ext t.error (ps.addErrors t).error ∧
      ∀ x, H.Lists (ps.addErrors t).error x → H.Lists t.error x ∨ a.Awaits rules M [] x := by
  induction h generalizing t with
  | @last σ a p hm hp =>
    have h1 := hp.first { t with offset := 1 } (Nat.le_refl _)
    exact ⟨h1.1, h1.2.2⟩
  | @cons σ τ a b p ps hm hp _ _ _ _ ih =>
    have h1 := hp.first { t with offset := 1 } (Nat.le_refl _)
    have h2 := ih (p.addError { t with offset := 1 })
    refine ⟨H.ext_trans h1.1 h2.1, fun x hx => ?_⟩
    rcases h2.2 x hx with h3 | h3
    · exact (h1.2.2 x h3).imp_right awaits_alt_left
    · exact .inr (awaits_alt_right h3)

/-- `choice` is modest. -/
theorem modest_choice {ps : Alts S α τ} (h : AltsTell Has H M rules F a ps) : Modest H M rules a (choice ps) := by
  intro t
  show S.Notes H _ t (choiceAddError ps.addErrors t)
  unfold choiceAddError
  dsimp only
  split
  · have h1 := alts_notes h t
    exact ⟨h1.1, Nat.sub_le _ _, h1.2⟩
  · exact ⟨H.ext_refl _, Nat.sub_le _ _, fun x hx => .inl hx⟩

/-- **C59.**  `choice`. -/
theorem C59_choice (hS : S.Lawful) (hE : S.E.Naming Has) {ps : Alts S α τ} (h : AltsTell Has H M rules F a ps) :
    Tells Has H M rules a F (choice ps) := by
  have hmod := modest_choice h
  have key := fun i hpart => doChoice_lists hS h i hpart (S.position i) _ (fun x hx => hx) [] (fun u hu => nomatch hu)
  refine ⟨C58_choice hS hE (altsTell_blame h), fun t => ⟨notes_mono (hmod t) fun _ _ => trivial, notes_refl t⟩,
    fun t _ => hmod t, fun i e hpart hx => ?_, fun i e hpart hx => (key i hpart).2 e (answer_of_hard.1 hx),
    fun t _ _ _ => notes_refl t⟩
  obtain ⟨h1, h2⟩ := (key i hpart).1 e hx
  refine ⟨h1, fun t ht => ⟨hmod t, Nat.le_trans (hmod t).2.1 ?_⟩⟩
  omega

theorem or_alts {p : Parser S σ α} {q : Parser S τ α} (hmp : Moves p) (hmq : Moves q)
    (hp : Tells Has H M rules a F p) (hq : Tells Has H M rules b F q) (ha : ¬ a.Null rules)
    (h1 : Gram.Apart (a.First rules) (b.First rules)) (h2 : b.Null rules → Gram.Apart (a.First rules) F) :
    AltsTell Has H M rules F (a.alt b) (.cons p (.last q)) := .cons hmp hp (.last hmq hq) ha h1 h2

/-- `or` is modest. -/
theorem modest_or {p : Parser S σ α} {q : Parser S τ α} (h : AltsTell Has H M rules F a (.cons p (.last q))) :
    Modest H M rules a (or p q) := by
  intro t
  show S.Notes H _ t (if t.offset ≠ 0 then (choice (.cons p (.last q))).addError t else t)
  split
  · exact modest_choice h t
  · exact notes_refl t

/-- **C59.**  `or`. -/
theorem C59_or (hS : S.Lawful) (hE : S.E.Naming Has) {p : Parser S σ α} {q : Parser S τ α} (hmp : Moves p) (hmq : Moves q)
    (hp : Tells Has H M rules a F p) (hq : Tells Has H M rules b F q) (ha : ¬ a.Null rules)
    (h1 : Gram.Apart (a.First rules) (b.First rules)) (h2 : b.Null rules → Gram.Apart (a.First rules) F) :
    Tells Has H M rules (a.alt b) F (or p q) := by
  have hal := or_alts hmp hmq hp hq ha h1 h2
  have hmod := modest_or hal
  have key := fun i hpart => doChoice_lists hS hal i hpart (S.position i) _ (fun x hx => hx) [] (fun u hu => nomatch hu)
  refine ⟨C58_or hS hE hmp hmq hp.toBlames hq.toBlames ha h1 h2,
    fun t => ⟨notes_mono (hmod t) fun _ _ => trivial, notes_refl t⟩,
    fun t _ => hmod t, fun i e hpart hx => ?_, fun i e hpart hx => (key i hpart).2 e (answer_of_hard.1 hx),
    fun t _ _ _ => notes_refl t⟩
  obtain ⟨h1, h2⟩ := (key i hpart).1 e hx
  refine ⟨h1, fun t ht => ⟨hmod t, Nat.le_trans (hmod t).2.1 ?_⟩⟩
  omega

/-- **C59.**  `optional`. -/
theorem C59_optional (hS : S.Lawful) {p : Parser S σ α} (hm : Moves p) (hp : Tells Has H M rules a F p) (ha : ¬ a.Null rules)
    (hF : Gram.Apart (a.First rules) F) : Tells Has H M rules a.opt F (optional p) := by
  have hun : ∀ i, S.Unfit rules .empty i := fun i t j _ h => by cases h
  refine ⟨C58_optional hS hm hp.toBlames ha hF, fun t => ⟨(hp.extends_ t).1, notes_refl t⟩,
    fun t ht => notes_mono (hp.first t ht) fun x => awaits_alt_left, fun i e hpart hx => ?_, fun i e hpart hx => ?_,
    fun t _ _ _ => notes_refl t⟩
  · simp only [optional, Parser.ofMode] at hx
    have hmv := hm.run true i p.init
    cases hr : (p.run true i p.init).res with
    | peekErr y => rw [hr] at hx; dsimp only at hx; rw [hS.tryReset_eq hmv] at hx; cases hx
    | _ => rw [hr] at hx; cases hx
  · rw [C06_optional hS hm i] at hx
    simp only [Ref.optional] at hx
    cases hy : p.answer i with
    | hard y =>
      rw [hy] at hx
      cases hx
      obtain ⟨w, l, h1, h3, h4, h5⟩ := hp.hardly i _ hpart hy
      exact ⟨w, l, h1, Gram.viable_alt.2 (.inl h3), (beyond_alt h1 h4 (hun i)).1, fun x hx => awaits_alt_left (h5 x hx)⟩
    | _ => rw [hy] at hx; cases hx

/-- `optional` of a modest parser is modest. -/
theorem modest_optional {p : Parser S σ α} (h : Modest H M rules a p) : Modest H M rules a.opt (optional p) :=
  fun t => notes_mono (h t) fun _ => awaits_alt_left

/-- `optional` says nothing after a success. -/
theorem closes_optional {p : Parser S σ α} : Closes H M rules a.opt (optional p) := fun _ t => notes_refl t

/-- A labelled parser is modest. -/
theorem modest_expected {p : Parser S σ α} (hp : Tells Has H M rules a F p) {x : Info S.Tok S.Rng}
    (hx : a.Awaits rules M [] x) : Modest H M rules a (expected p x) := by
  intro t
  have h1 := (hp.extends_ t).1
  refine ⟨H.ext_label _ _ _ h1.1, ?_, fun y hy => ?_⟩
  · show (S.E.setExpected t (S.E.expected x) p.addError).offset ≤ _
    rw [H.label_offset]
    exact h1.2.1
  · rcases H.label _ _ _ _ h1.1 hy with h | h
    · exact .inl h
    · rw [h]; exact .inr hx

/-! ### Repetition -/

private theorem rounds_tell (hS : S.Lawful) {p : Parser S σ α} (hp : Tells Has H M rules a (fun t => a.First rules t ∨ F t) p)
    {i k : S.Input} {vs : List α} {c : Bool} (hr : Ref.Run p.answer i vs c k) {e : S.Err} (hk : p.answer k = .hard e)
    (hpart : S.isPartial i = false) :
    ∃ w l, S.Reads i w l ∧ a.star.Viable rules w ∧ S.Beyond rules a.star w l ∧
      ∀ x, H.Lists e x → a.star.Awaits rules M w x := by
  have hr' : Ref.Run p.shape i vs c k := run_shape hr
  obtain ⟨u0, h0, _⟩ := predicts_run hp.predicts hr'
  have hpk := (hS.reads_isPartial h0).trans hpart
  obtain ⟨w, l, h1, h3, h4, h9⟩ := hp.hardly k e hpk hk
  have hs := shape_of_hard hk
  have hacc : Accepts rules a (a.star.Then rules F) p.shape :=
    (C56_weaken hp.toFollows (fun _ h => h.imp Gram.first_star.1 (·.2))).2
  have h5 : S.Beyond rules a.star w l := beyond_star (beyond_left hacc hpk h1
    (fun c v j h => by rw [hs] at h; cases h) (fun x h => by rw [hs] at h; cases h) h4)
  obtain ⟨u, h6, h7, h8⟩ := beyond_run hS hp.predicts hp.accepts hp.stop hr' hpart h1 h5
  refine ⟨u ++ w, l, reads_append h6 h1, star_append h7 rfl (Gram.viable_star h3), h8, fun x hx => ?_⟩
  obtain ⟨t, h10, h11⟩ := h9 x hx
  exact ⟨t, h10, by rw [List.append_assoc]; exact star_append h7 rfl (Gram.viable_star h11)⟩

private theorem awaits_again {w : List S.Tok} {x : Info S.Tok S.Rng} (hw : a.star.Derives rules w)
    (h : a.Awaits rules M [] x) : a.star.Awaits rules M w x := by
  obtain ⟨t, h1, h2⟩ := h
  exact ⟨t, h1, star_append hw rfl (Gram.viable_star h2)⟩

/-- **C59.**  `many`: what is repeated has to be modest. -/
theorem C59_many (hS : S.Lawful) {p : Parser S σ α} (hm : Moves p) (hr : Reusable p)
    (hp : Tells Has H M rules a (fun t => a.First rules t ∨ F t) p) (hmod : Modest H M rules a p) (ha : ¬ a.Null rules)
    (hF : Gram.Apart (a.First rules) F) : Tells Has H M rules a.star F (many p) := by
  have h := fun i => C07_many hS hm hr (follows_consuming hp.1.1.1 ha) i
  refine ⟨C58_many hS hm hr hp.toBlames ha hF, fun t => ⟨(hp.extends_ t).1, (hp.extends_ t).1⟩,
    fun t _ => notes_mono (hmod t) fun _ => awaits_star, fun i e hpart hx => ?_, fun i e hpart hx => ?_,
    fun t w hw _ => notes_mono (hmod t) fun _ => awaits_again hw⟩
  · exact absurd (answer_of_soft hx) (isMany_fails (h i)).1
  · obtain ⟨vs, c, k, h1, h2⟩ := (isMany_fails (h i)).2 e hx
    exact rounds_tell hS hp h1 h2 hpart

/-- `many` of a modest parser is modest, and may be the last member of a tuple. -/
theorem modest_many {p : Parser S σ α} (h : Modest H M rules a p) :
    Modest H M rules a.star (many p) ∧ Closes H M rules a.star (many p) :=
  ⟨fun t => notes_mono (h t) fun _ => awaits_star, fun _ t => notes_mono (h t) fun _ => awaits_star⟩

/-- **C59.**  `skip_many`. -/
theorem C59_skip_many (hS : S.Lawful) (hE : S.E.Naming Has) {p : Parser S σ α} (hm : Moves p) (hr : Reusable p)
    (hp : Tells Has H M rules a (fun t => a.First rules t ∨ F t) p) (hmod : Modest H M rules a p) (ha : ¬ a.Null rules)
    (hF : Gram.Apart (a.First rules) F) : Tells Has H M rules a.star F (skipMany p) :=
  (C59_wrappers hE (tells_ignore (C59_many hS (moves_ignore hS hm) (reusable_ignore hr) (tells_ignore hp) hmod ha hF))).2.2.1

theorem modest_skip_many {p : Parser S σ α} (h : Modest H M rules a p) :
    Modest H M rules a.star (skipMany p) ∧ Closes H M rules a.star (skipMany p) :=
  ⟨fun t => notes_mono (h t) fun _ => awaits_star, fun _ t => notes_mono (h t) fun _ => awaits_star⟩

/-- One round, and then a repetition that fails. -/
theorem tell_then_rounds (hS : S.Lawful) {p : Parser S σ α} {q : Parser S τ β} {g : Gram N S.Tok}
    (hp : Tells Has H M rules a (fun t => g.First rules t ∨ F t) p) (hq : Tells Has H M rules g (fun t => g.First rules t ∨ F t) q)
    {i j k : S.Input} {vs : List β} {b c : Bool} {v : α} (hi : p.answer i = .ok b v j) (hr : Ref.Run q.answer j vs c k)
    {e : S.Err} (hk : q.answer k = .hard e) (hpart : S.isPartial i = false) :
    ∃ w l, S.Reads i w l ∧ (a.seq g.star).Viable rules w ∧ S.Beyond rules (a.seq g.star) w l ∧
      ∀ x, H.Lists e x → (a.seq g.star).Awaits rules M w x := by
  have hx : p.shape i = .ok b v j := by simp only [Parser.shape, hi, Answer.shape]
  have hpred := hp.predicts i
  rw [hx] at hpred
  obtain ⟨u, h1, h2, _⟩ := hpred
  have hacc : Accepts rules a (g.star.Then rules F) p.shape :=
    (C56_weaken hp.toFollows (fun _ h => h.imp Gram.first_star.1 (·.2))).2
  obtain ⟨w, l, h3, h5, h6, h7⟩ := rounds_tell hS hq hr hk ((hS.reads_isPartial h1).trans hpart)
  exact ⟨u ++ w, l, reads_append h1 h3, Gram.viable_right h2 h5,
    beyond_right hS hacc hpart hx h1 h3 (hp.stop i _ _ _ u hpart hx h1) h6, fun x hx => awaits_right h2 (h7 x hx)⟩

/-- The first round fails. -/
theorem tell_first {p : Parser S σ α} {g : Gram N S.Tok}
    (hp : Tells Has H M rules a (fun t => g.First rules t ∨ F t) p) (hg : g.Useful rules)
    {i : S.Input} {e : S.Err} (hk : p.answer i = .hard e) (hpart : S.isPartial i = false) :
    ∃ w l, S.Reads i w l ∧ (a.seq g.star).Viable rules w ∧ S.Beyond rules (a.seq g.star) w l ∧
      ∀ x, H.Lists e x → (a.seq g.star).Awaits rules M w x := by
  obtain ⟨w, l, h1, h3, h4, h5⟩ := hp.hardly i e hpart hk
  have hs := shape_of_hard hk
  have hacc : Accepts rules a (g.star.Then rules F) p.shape :=
    (C56_weaken hp.toFollows (fun _ h => h.imp Gram.first_star.1 (·.2))).2
  have hg' : g.star.Useful rules := hg
  exact ⟨w, l, h1, Gram.viable_left h3 hg', beyond_left hacc hpart h1
    (fun c v j h => by rw [hs] at h; cases h) (fun x h => by rw [hs] at h; cases h) h4,
    fun x hx => awaits_left (h5 x hx) hg'⟩

/-- After some rounds, another one can begin. -/
private theorem awaits_round {g : Gram N S.Tok} {w : List S.Tok} {x : Info S.Tok S.Rng} (hw : (a.seq g.star).Derives rules w)
    (h : g.Awaits rules M [] x) : (a.seq g.star).Awaits rules M w x := by
  obtain ⟨u, v, rfl, h1, h2⟩ := Gram.derives_seq.1 hw
  exact awaits_right h1 (awaits_again h2 h)

/-- What can come first in the first round can come first. -/
theorem awaits_start {g : Gram N S.Tok} (hg : g.Useful rules) {x : Info S.Tok S.Rng} (h : a.Awaits rules M [] x) :
    (a.seq g.star).Awaits rules M [] x := awaits_left h (show g.star.Useful rules from hg)

/-- **C59.**  `many1`. -/
theorem C59_many1 (hS : S.Lawful) {p : Parser S σ α} (hm : Moves p) (hr : Reusable p)
    (hp : Tells Has H M rules a (fun t => a.First rules t ∨ F t) p) (hmod : Modest H M rules a p) (ha : ¬ a.Null rules)
    (hF : Gram.Apart (a.First rules) F) : Tells Has H M rules a.plus F (many1 p) := by
  have hc := follows_consuming hp.1.1.1 ha
  have h := fun i => C08_many1 hS hm hr hc i
  refine ⟨C58_many1 hS hm hr hp.toBlames ha hF, fun t => ⟨(hp.extends_ t).1, (hp.extends_ t).1⟩,
    fun t _ => notes_mono (hmod t) fun _ => awaits_start hp.useful, fun i e hpart hx => ?_, fun i e hpart hx => ?_,
    fun t w hw _ => notes_mono (hmod t) fun _ => awaits_round hw⟩
  · have hi := h i
    rw [answer_of_soft hx] at hi
    unfold Ref.IsMany1 at hi
    cases hy : (p.run true i p.init).res with
    | peekErr y =>
      simp only [many1, Parser.ofMode, Bool.true_or, if_true, hy] at hx
      cases hx
      obtain ⟨h1, h2⟩ := hp.softly i _ hpart hy
      exact ⟨fun x hx => awaits_start hp.useful (h1 x hx),
        fun t ht => ⟨notes_mono (h2 t ht).1 fun _ => awaits_start hp.useful, (h2 t ht).2⟩⟩
    | commitErr y => rw [answer_of_hard.2 hy] at hi; cases hi
    | abort y =>
      rw [show p.answer i = .abort y by simp only [Parser.answer, Out.answer, hy]; rfl] at hi
      cases hi
    | commitOk y =>
      rw [show p.answer i = .ok true y (p.run true i p.init).inp by simp only [Parser.answer, Out.answer, hy]; rfl] at hi
      exact absurd rfl (isMany_fails hi).1
    | peekOk y =>
      rw [show p.answer i = .ok false y (p.run true i p.init).inp by simp only [Parser.answer, Out.answer, hy]; rfl] at hi
      exact absurd rfl (isMany_fails hi).1
  · have hi := h i
    rw [hx] at hi
    unfold Ref.IsMany1 at hi
    cases hy : p.answer i with
    | soft => rw [hy] at hi; cases hi
    | abort y => rw [hy] at hi; cases hi
    | hard y => rw [hy] at hi; cases hi; exact tell_first hp hp.useful hy hpart
    | ok b v j =>
      rw [hy] at hi
      obtain ⟨vs, c, k, h1, h2⟩ := (isMany_fails hi).2 e rfl
      cases h1 with
      | nil => rw [hy] at h2; cases h2
      | cons h3 h4 => exact tell_then_rounds hS hp hp h3 h4 h2 hpart

/-- **C59.**  `sep_by1`: the separator has to be modest. -/
theorem C59_sep_by1 (hS : S.Lawful) (hE : S.E.Naming Has) {Cp : σ → Prop} {Cs : τ → Prop} {p : Parser S σ α}
    {s : Parser S τ β} (hmp : Moves p) (hms : Moves s) (hkp : Keeps false Cp p) (hks : Keeps false Cs s)
    (hp : Tells Has H M rules a (fun t => (b.seq a).First rules t ∨ F t) p)
    (hs : Tells Has H M rules b (fun t => a.First rules t) s) (hmod : Modest H M rules b s) (hcount : b.Null rules → s.count ≤ 1)
    (ha : ¬ a.Null rules) (hF : Gram.Apart ((b.seq a).First rules) F) : Tells Has H M rules (a.sepBy1 b) F (sepBy1 p s) := by
  have hn : ¬ (b.seq a).Null rules := fun h => ha (Gram.null_seq.1 h).2
  have hw : Tells Has H M rules (b.seq a) (fun t => (b.seq a).First rules t ∨ F t) («with» (boxed s) (boxed p)) :=
    C59_with hS hE (moves_boxed hS hms) (moves_boxed hS hmp)
      (C59_wrappers hE (C59_weaken hs fun t h => h.elim id fun h => absurd h.1 ha)).1 (fun h => ⟨hcount h, hmod⟩)
      (C59_wrappers hE hp).1 (fun h => absurd h ha)
  have hc := follows_consuming hw.1.1.1 hn
  have hfail := sepBy1_fails hS hmp hms hkp hks hc
  have hub : (b.seq a).Useful rules := ⟨hs.useful, hp.useful⟩
  refine ⟨C58_sep_by1 hS hE hmp hms hkp hks hp.toBlames hs.toBlames ha hF,
    fun t => ⟨(hp.extends_ t).1, (hs.extends_ t).1⟩, fun t ht => notes_mono (hp.first t ht) fun _ => awaits_start hub,
    fun i e hpart hx => ?_, fun i e hpart hx => ?_,
    fun t w hw _ => notes_mono (hmod t) fun _ h => awaits_round hw (awaits_left h hp.useful)⟩
  · obtain ⟨h1, h2⟩ := hp.softly i e hpart ((hfail i).1 e hx)
    exact ⟨fun x hx => awaits_start hub (h1 x hx),
      fun t ht => ⟨notes_mono (h2 t ht).1 fun _ => awaits_start hub, (h2 t ht).2⟩⟩
  · rcases (hfail i).2 e (answer_of_hard.1 hx) with h | ⟨b', v, j, vs, c, k, h1, h2, h3⟩
    · exact tell_first hp hub (answer_of_hard.2 h) hpart
    · exact tell_then_rounds hS hp hw h1 h2 h3 hpart

/-- The parser of an empty list lists nothing as expected. -/
theorem tells_emptyList : Tells Has H M rules .empty F (emptyList S α) :=
  tells_res id (C59_value ([] : List α)) blames_emptyList (fun _ => rfl) rfl rfl

/-- **C59.**  `sep_by`. -/
theorem C59_sep_by (hS : S.Lawful) (hE : S.E.Naming Has) {Cp : σ → Prop} {Cs : τ → Prop} {p : Parser S σ α}
    {s : Parser S τ β} (hmp : Moves p) (hms : Moves s) (hkp : Keeps false Cp p) (hks : Keeps false Cs s)
    (hp : Tells Has H M rules a (fun t => (b.seq a).First rules t ∨ F t) p)
    (hs : Tells Has H M rules b (fun t => a.First rules t) s) (hmod : Modest H M rules b s) (hcount : b.Null rules → s.count ≤ 1)
    (ha : ¬ a.Null rules) (hF : Gram.Apart ((b.seq a).First rules) F) (hF' : Gram.Apart (a.First rules) F) :
    Tells Has H M rules (a.sepBy1 b).opt F (sepBy p s) := by
  have h1 := C59_sep_by1 hS hE (moves_boxed hS hmp) (moves_boxed hS hms) (keeps_boxed hkp) (keeps_boxed hks)
    (C59_wrappers hE hp).1 (C59_wrappers hE hs).1 hmod hcount ha hF
  have hn : ¬ (a.sepBy1 b).Null rules := fun h => ha (Gram.null_seq.1 h).1
  have h2 := C59_or hS hE (moves_sepBy1 hS (moves_boxed hS hmp) (moves_boxed hS hms)) (moves_emptyList hS) h1
    (tells_emptyList (α := α)) hn (fun t _ h => by cases h) (fun _ t h => by
      rcases Gram.first_seq.1 h with h | h
      · exact hF' t h
      · exact absurd h.1 ha)
  have hub : (b.seq a).Useful rules := ⟨hs.useful, hp.useful⟩
  refine ⟨C58_sep_by hS hE hmp hms hkp hks hp.toBlames hs.toBlames ha hF hF',
    fun t => ⟨(hp.extends_ t).1, (hs.extends_ t).1⟩,
    fun t ht => notes_mono (hp.first t ht) fun _ h => awaits_alt_left (awaits_start hub h),
    fun i e hpart hx => ?_, fun i e hpart hx => h2.hardly i e hpart hx, fun t w hw hne => ?_⟩
  · have h3 := h2.predicts i
    have h4 : (or (sepBy1 (boxed p) (boxed s)) (emptyList S α)).shape i = .soft := shape_of_err hx
    rw [h4] at h3
    exact absurd (Gram.derives_alt.2 (.inr .empty)) h3.2
  · rcases Gram.derives_alt.1 hw with h | h
    · exact notes_mono (hmod t) fun _ hx => awaits_alt_left (awaits_round h (awaits_left hx hp.useful))
    · cases h; exact absurd rfl hne

/-- `sep_by` of a modest parser is modest. -/
theorem modest_sep_by {p : Parser S σ α} {s : Parser S τ β} (hp : Modest H M rules a p) (ha : a.Useful rules)
    (hb : b.Useful rules) : Modest H M rules (a.sepBy1 b).opt (sepBy p s) :=
  fun t => notes_mono (hp t) fun _ h => awaits_alt_left (awaits_start (g := b.seq a) ⟨hb, ha⟩ h)

/-- **C59.**  A recursive grammar: the parser of a nonterminal is made from itself. -/
theorem C59_recur {n : N} {K : Parser S σ α → Prop} {f : Parser S σ α → Parser S σ α} {init : σ} (h0 : K (recur f init 0))
    (hs : ∀ q, K q → Tells Has H M rules (.ref n) F q → K (f q)) (hn : ∃ w, (rules n).Derives rules w)
    (hf : ∀ q, K q → Tells Has H M rules (.ref n) F q → Tells Has H M rules (rules n) F (f q)) (d : Nat) :
    K (recur f init d) ∧ Tells Has H M rules (.ref n) F (recur f init d) := by
  induction d with
  | zero =>
    refine ⟨h0, ⟨⟨fun _ => trivial, fun _ _ _ _ _ _ _ => .inr ⟨_, rfl⟩⟩, hn, fun _ _ _ _ _ _ hx => (by cases hx),
      fun _ _ _ hx => (by cases hx), fun _ _ _ hx => (by cases hx), adds_id, adds_id⟩,
      fun t => ⟨notes_refl t, notes_refl t⟩, fun t _ => notes_refl t, fun _ _ _ hx => (by cases hx),
      fun _ _ _ hx => (by cases hx), fun t _ _ _ => notes_refl t⟩
  | succ d ih =>
    refine ⟨hs _ ih.1 ih.2, C59_same (hf _ ih.1 ih.2) (fun w => Gram.derives_ref.symm) (fun t => Gram.first_ref.symm) hn⟩

/-! ## What `parse` reports -/

/-- Two places where a text stops being the beginning of a sentence are the same. -/
private theorem stuck_unique {i l l' : S.Input} {w w' : List S.Tok} (h1 : S.Reads i w l) (h2 : a.Viable rules w)
    (h3 : S.Beyond rules a w l) (h1' : S.Reads i w' l') (h2' : a.Viable rules w') (h3' : S.Beyond rules a w' l') : w = w' := by
  have key : ∀ {l l' : S.Input} {w w' : List S.Tok}, S.Beyond rules a w l → a.Viable rules w' →
      ∀ cs, w' = w ++ cs → S.Reads l cs l' → w = w' := by
    intro l l' w w' hb hv cs hw hr
    cases cs with
    | nil => simp [hw]
    | cons t ts =>
      obtain ⟨k, hk⟩ := reads_head hr
      obtain ⟨v, hv⟩ := hv
      exact absurd ⟨ts ++ v, by rw [hw] at hv; simpa using hv⟩ (hb t k hk)
  rcases reads_comparable h1 h1' with ⟨cs, h4, h5⟩ | ⟨cs, h4, h5⟩
  · exact key h3 h2' cs h4 h5
  · exact (key h3' h2 cs h4 h5).symm

private theorem beyond_of_mistake {i l : S.Input} {w : List S.Tok} (h : S.Mistake rules a i w l) : S.Beyond rules a w l := by
  intro t k hu
  have := h.2.2
  rw [hu] at this
  exact this

/-- What is listed by the error of a parser whose failures are known. -/
private theorem parse_lists (hS : S.Lawful) {p : Parser S σ α} (hm : Moves p) (hd : p.Plain) {i : S.Input}
    {P : Info S.Tok S.Rng → Prop}
    (hsoft : ∀ e, (p.run true i p.init).res = .peekErr e → (∀ x, H.Lists e.error x → P x) ∧
      ∀ t, t.offset = e.offset → ∀ x, H.Lists (p.addError t).error x → H.Lists t.error x ∨ P x)
    (hhard : ∀ e, (p.run true i p.init).res = .commitErr e → ∀ x, H.Lists e x → P x) {e : S.Err}
    (h : p.parse i = .err e) : ∀ x, H.Lists e x → P x := by
  unfold Parser.parse at h
  rw [hd i] at h
  unfold Strm.describing at h
  have hmv := hm.run true i p.init
  revert hsoft hhard h hmv
  generalize p.run true i p.init = o
  obtain ⟨r, j, st⟩ := o
  intro hsoft hhard h hmv
  cases r with
  | commitOk v => cases h
  | peekOk v => cases h
  | abort x => cases h
  | commitErr y => cases h; exact hhard _ rfl
  | peekErr y =>
    obtain ⟨h1, h2⟩ := hsoft y rfl
    dsimp only [Strm.describe] at h
    rw [hS.tryReset_eq hmv] at h
    cases hu : S.uncons i with
    | mk r k =>
      cases r with
      | ok t =>
        rw [hu] at h
        dsimp only at h
        rw [hS.tryReset_eq ⟨[t], .cons hu (.nil k)⟩] at h
        cases h
        exact fun x hx => (h2 { y with error := S.E.add y.error (S.E.unexpected (.token t)) } rfl x hx).elim
          (fun h => h1 x (H.add_other _ _ x (.inr ⟨_, .inl rfl⟩) h)) id
      | error x =>
        rw [hu] at h
        cases h
        exact fun x hx => (h2 { y with error := S.E.add y.error S.E.endOfInput } rfl x hx).elim (fun h => h1 x (H.add_other _ _ x (.inl rfl) h)) id

/-- **C59** (partial: for parsers built by the rules above).  What the error of a parse lists as expected can come where the
error is. -/
theorem C59_parse_partial (hS : S.Lawful) (hE : S.E.Naming Has) {p : Parser S σ α} (hm : Moves p) (hd : p.Plain)
    (hp : Tells Has H M rules a F p) {i : S.Input} (hpart : S.isPartial i = false) {e : S.Err} (h : p.parse i = .err e) :
    ∃ w l, S.Mistake rules a i w l ∧ S.Blamed Has l e ∧ ∀ x, H.Lists e x → a.Awaits rules M w x := by
  obtain ⟨w, l, h1, h2⟩ := C58_parse hS hE hm hd hp.toBlames hpart h
  refine ⟨w, l, h1, h2, parse_lists hS hm hd (fun e he => ?_) (fun e he => ?_) h⟩
  · have hpred := hp.predicts i
    rw [shape_of_err he] at hpred
    have hw := stuck_unique h1.1 h1.2.1 (beyond_of_mistake h1) (.nil i) (Gram.viable_nil hp.useful) (beyond_nil hpred.1)
    obtain ⟨h3, h4⟩ := hp.softly i e hpart he
    rw [hw]
    exact ⟨h3, fun t ht => (h4 t (by omega)).1.2.2⟩
  · obtain ⟨w', l', h3, h4, h5, h6⟩ := hp.hardly i e hpart (answer_of_hard.2 he)
    rw [stuck_unique h1.1 h1.2.1 (beyond_of_mistake h1) h3 h4 h5]
    exact h6

/-- What `eof` expects. -/
private def Done (rules : N → Gram N S.Tok) (M : Info S.Tok S.Rng → S.Tok → Prop) (a : Gram N S.Tok) (w : List S.Tok)
    (x : Info S.Tok S.Rng) : Prop :=
  a.Awaits rules M w x ∨ x = .static "end of input" ∧ a.Derives rules w

private theorem eof_notes (t : Tracked S.Err) :
    ∀ x, H.Lists ((ignore (eof S)).addError t).error x → H.Lists t.error x ∨ x = .static "end of input" :=
  fun x hx => H.add_expected _ _ _ hx

/-- **C59** (partial, as above), followed by `eof`: the end of the input is listed as expected only if the text so far is a
sentence. -/
theorem C59_parse_all_partial (hS : S.Lawful) (hE : S.E.Naming Has) (hO : S.EndsOnly) {p : Parser S σ α} (hm : Moves p)
    (hp : Tells Has H M rules a F p) (hmod : a.Null rules → Modest H M rules a p) {i : S.Input}
    (hpart : S.isPartial i = false) {e : S.Err} (h : (skip p (eof S)).parse i = .err e) :
    ∃ w l, S.Mistake rules a i w l ∧ S.Blamed Has l e ∧
      ∀ x, H.Lists e x → a.Awaits rules M w x ∨ x = .static "end of input" ∧ a.Derives rules w := by
  obtain ⟨w, l, h1, h2⟩ := C58_parse_all hS hE hO hm hp.toBlames hpart h
  have hbey := beyond_of_mistake h1
  refine ⟨w, l, h1, h2, ?_⟩
  have hlow : ∀ t, (p.addError t).offset ≤ 1 → ((skip p (eof S)).addError t).error = (p.addError t).error := by
    intro t ht
    simp only [skip, pair, tuple, Parser.ofMode]
    rw [if_pos ht]
  have hrest : ∀ (c : Bool) (x : α), p.shape i = .ok c x (p.run true i p.init).inp → ∀ st : SeqSt σ ((Option Unit × Unit) × Unit) α,
      st.tail = ((none, ()), ()) →
      (∀ e, (seqRest p (.cons (ignore (eof S)) .nil) true (if c then 1 else 0) (p.run true i p.init).inp st).res = .peekErr e →
        (∀ x, H.Lists e.error x → Done rules M a w x) ∧
        ∀ t, ∀ x, H.Lists ((skip p (eof S)).addError t).error x → H.Lists t.error x ∨ Done rules M a w x) ∧
      (∀ e, (seqRest p (.cons (ignore (eof S)) .nil) true (if c then 1 else 0) (p.run true i p.init).inp st).res = .commitErr e →
        ∀ x, H.Lists e x → Done rules M a w x) := by
    intro c _ hx st ht
    have hpred := hp.predicts i
    rw [hx] at hpred
    obtain ⟨u, h3, h4, h5, _⟩ := hpred
    have hstop := hp.stop i _ _ _ u hpart hx h3
    have hw := stuck_unique h1.1 h1.2.1 hbey h3 (Gram.viable_of_derives h4) hstop
    rw [hw]
    generalize (p.run true i p.init).inp = j at hx h3 hstop
    unfold seqRest
    rw [ht]
    rcases steps_eof hS hO (if c then 1 else 0) 0 st.offset j with ⟨k, st', h6⟩ | ⟨hn, h6⟩
    · rw [h6]
      dsimp only [seqFinish]
      constructor <;> intro e he
      · split at he
        · dsimp only at he
          split at he <;> cases he
        · cases he
      · split at he
        · dsimp only at he
          split at he <;> cases he
        · cases he
    · rw [h6]
      have h7 := seqAddErrors_lists (α := α × Unit × Unit) (H := H) (parts := p.part :: Seq.parts (.cons (ignore (eof S)) .nil))
        (e := Tracked.of (S.E.empty (S.position j))) (fe := if c then 1 else 0) (off := st.offset) (l := j)
        (P := if c then Done rules M a u else fun _ => True) (fun x hx => absurd hx (H.empty _ x)) (by
          intro t _ x hx
          cases c with
          | false => exact .inr trivial
          | true =>
            have hne : u ≠ [] := by rintro rfl; cases h5
            rw [if_pos rfl, addSequence_cons.1 (by simp)] at hx
            have hc := hp.comm t u h4 hne
            obtain ⟨t', h8, _, h10⟩ := (addSequence_cons (fe := 1) (inner := (Tracked.of (S.E.empty (S.position j))).offset)
              (k := 0 + 1) (t := { p.addCommitted t with offset := (p.addCommitted t).offset - p.count })
              (p := ignore (eof S)) (ps := [])).2.2 (by omega)
            have h11 : ∀ x, H.Lists ((ignore (eof S)).addError t').error x → H.Lists t.error x ∨ Done rules M a u x := by
              intro x hx
              rcases eof_notes t' x hx with h12 | h12
              · rw [h8] at h12
                exact (hc.2.2 x h12).imp_right .inl
              · exact .inr (.inr ⟨h12, h4⟩)
            rw [if_pos rfl]
            rw [show Seq.parts (.cons (ignore (eof S)) .nil) = [(ignore (eof S)).part] from rfl, h10] at hx
            split at hx
            · exact h11 x hx
            · rw [addSequenceErrors] at hx
              exact h11 x hx)
      cases c with
      | true =>
        simp only [if_true] at h7
        exact ⟨fun e he => absurd (h7.2 e he).1 (by simp), fun e he => (h7.1 e he).2⟩
      | false =>
        have hu : u = [] := by
          cases u with
          | nil => rfl
          | cons t ts => cases h5
        subst hu
        refine ⟨fun e he => ?_, fun e he => absurd rfl (h7.1 e he).1⟩
        rw [(h7.2 e he).2]
        refine ⟨fun x hx => absurd hx (H.empty _ x), fun t x hx => ?_⟩
        have hm1 := hmod h4 t
        have hm2 : ∀ x, H.Lists (p.addError t).error x → H.Lists t.error x ∨ Done rules M a [] x :=
          fun x hx => (hm1.2.2 x hx).imp_right .inl
        by_cases hle : (p.addError t).offset ≤ 1
        · rw [hlow t hle] at hx
          exact hm2 x hx
        · have h8 : ∀ t' : Tracked S.Err, t'.error = (p.addError t).error →
              H.Lists (Seq.addErrors (.cons (ignore (eof S)) .nil) t').error x →
              H.Lists t.error x ∨ Done rules M a [] x := by
            intro t' ht' hx
            have h9 : H.Lists ((ignore (eof S)).addError t').error x := by
              unfold Seq.addErrors at hx
              dsimp only at hx
              split at hx <;> exact hx
            rcases eof_notes t' x h9 with h10 | h10
            · rw [ht'] at h10; exact hm2 x h10
            · exact .inr (.inr ⟨h10, h4⟩)
          simp only [skip, pair, tuple, Parser.ofMode] at hx
          rw [if_neg hle] at hx
          split at hx
          · exact h8 { p.addError t with offset := (p.addError t).offset - p.count } rfl hx
          · exact h8 _ rfl hx
  have hrun : (∀ e, ((pair p (ignore (eof S))).run true i (pair p (ignore (eof S))).init).res = .peekErr e →
        (∀ x, H.Lists e.error x → Done rules M a w x) ∧
        ∀ t, t.offset = e.offset → ∀ x, H.Lists ((skip p (eof S)).addError t).error x →
          H.Lists t.error x ∨ Done rules M a w x) ∧
      (∀ e, ((pair p (ignore (eof S))).run true i (pair p (ignore (eof S))).init).res = .commitErr e →
        ∀ x, H.Lists e x → Done rules M a w x) := by
    rw [show (pair p (ignore (eof S))).run true i (pair p (ignore (eof S))).init =
      seqRun p (.cons (ignore (eof S)) .nil) true i ⟨none, p.init, ((none, ()), ()), 0⟩ from rfl]
    simp only [seqRun, Bool.true_or, if_true]
    cases hr : (p.run true i p.init).res with
    | commitOk x =>
      have h3 := hrest true x (shape_of_res.1 hr) ⟨some x, (p.run true i p.init).st, ((none, ()), ()), satAdd p.count 1⟩ rfl
      exact ⟨fun e he => ⟨(h3.1 e he).1, fun t _ => (h3.1 e he).2 t⟩, h3.2⟩
    | peekOk x =>
      have h3 := hrest false x (shape_of_res.2 hr) ⟨some x, (p.run true i p.init).st, ((none, ()), ()), satAdd p.count 1⟩ rfl
      exact ⟨fun e he => ⟨(h3.1 e he).1, fun t _ => (h3.1 e he).2 t⟩, h3.2⟩
    | commitErr y =>
      constructor <;> intro e he <;> cases he
      obtain ⟨w', l', h3, h4, h5, h6⟩ := hp.hardly i _ hpart (answer_of_hard.2 hr)
      rw [stuck_unique h1.1 h1.2.1 hbey h3 h4 h5]
      exact fun x hx => .inl (h6 x hx)
    | peekErr y =>
      constructor <;> intro e he <;> cases he
      have hpred := hp.predicts i
      rw [shape_of_err hr] at hpred
      rw [stuck_unique h1.1 h1.2.1 hbey (.nil i) (Gram.viable_nil hp.useful) (beyond_nil hpred.1)]
      obtain ⟨h3, h4⟩ := hp.softly i _ hpart hr
      refine ⟨fun x hx => .inl (h3 x hx), fun t ht x hx => ?_⟩
      obtain ⟨h5, h6⟩ := h4 t (by omega)
      rw [hlow t h6] at hx
      exact (h5.2.2 x hx).imp_right .inl
    | abort y => constructor <;> intro e he <;> cases he
  exact parse_lists hS (P := Done rules M a w) (moves_skip hS hm (moves_eof hS)) (fun _ => rfl) (fun e he => hrun.1 e (by
      revert he
      show (((pair p (ignore (eof S))).run true i (pair p (ignore (eof S))).init).res.map _ = _) → _
      cases ((pair p (ignore (eof S))).run true i (pair p (ignore (eof S))).init).res <;> intro he <;> cases he
      rfl)) (fun e he => hrun.2 e (by
      revert he
      show (((pair p (ignore (eof S))).run true i (pair p (ignore (eof S))).init).res.map _ = _) → _
      cases ((pair p (ignore (eof S))).run true i (pair p (ignore (eof S))).init).res <;> intro he <;> cases he
      rfl)) h

/-! ## Easy errors -/

namespace Easy

variable {T R P : Type} [DecidableEq T] [DecidableEq R]

private theorem add_expects (s : Errors T R P) (y : Error T R) (x : Info T R) (h : .expected x ∈ (s.addError y).errors) :
    .expected x ∈ s.errors ∨ y = .expected x := by
  rcases addError_cases s y with ⟨_, h'⟩ | ⟨_, h'⟩ <;> rw [h'] at h
  · exact .inl h
  · rcases List.mem_append.1 h with h | h
    · exact .inl h
    · exact .inr (List.mem_singleton.1 h).symm

/-- What easy errors list as expected. -/
def hints (cmp : P → P → Ordering) : (Errors.ops T R P cmp).Hints where
  Lists := fun e x => .expected x ∈ Errors.errors e
  Ext := fun e e' => ∃ more, Errors.errors e' = Errors.errors e ++ more
  ext_refl := fun e => ⟨[], by simp⟩
  ext_trans := by
    rintro e₁ e₂ e₃ ⟨m, h⟩ ⟨m', h'⟩
    exact ⟨m ++ m', by rw [h', h, List.append_assoc]⟩
  ext_add := fun e s => by
    show ∃ more, (Errors.addError e s).errors = _
    rcases addError_cases e s with ⟨_, h⟩ | ⟨_, h⟩ <;> rw [h]
    · exact ⟨[], by simp⟩
    · exact ⟨[s], rfl⟩
  ext_label := by
    rintro t s f ⟨more, h⟩
    have h1 : ((f t).error.errors.take t.error.errors.length) = t.error.errors := by rw [h]; simp
    show ∃ more, (Errors.addError { (f t).error with errors := _ } s).errors = _
    rw [h1]
    rcases addError_cases (P := P) { (f t).error with errors := t.error.errors ++
      ((f t).error.errors.drop t.error.errors.length).filter (!·.isExpected) } s with ⟨_, h⟩ | ⟨_, h⟩ <;> rw [h]
    · exact ⟨_, rfl⟩
    · exact ⟨_, List.append_assoc _ _ _⟩
  empty := fun q x h => nomatch h
  fromError := fun q s x hs h => by
    have h := List.mem_singleton.1 h
    rcases hs with hs | ⟨y, hs⟩ <;> rw [hs] at h <;> cases h
  add_expected := fun e y x h => (add_expects e _ x h).imp_right fun h => by cases h; rfl
  add_other := fun e s x hs h => by
    rcases add_expects e _ x h with h | h
    · exact h
    · rcases hs with hs | ⟨y, hs | hs⟩ <;> rw [hs] at h <;> cases h
  merge := fun e e' x h => by
    change .expected x ∈ (Errors.merge cmp e e').errors at h
    unfold Errors.merge at h
    split at h
    · exact .inr h
    · exact .inl h
    · have key : ∀ (es : List (Error T R)) (s : Errors T R P), .expected x ∈ (es.foldl Errors.addError s).errors →
          .expected x ∈ s.errors ∨ .expected x ∈ es := by
        intro es
        induction es with
        | nil => exact fun s h => .inl h
        | cons y es ih =>
          intro s h
          rcases ih _ h with h | h
          · rcases add_expects s y x h with h | h
            · exact .inl h
            · exact .inr (h ▸ .head _)
          · exact .inr (.tail _ h)
      exact key _ _ h
  clear := fun e x h => (List.mem_filter.1 h).1
  label := by
    rintro t y f x ⟨more, h⟩ hx
    have h1 : ((f t).error.errors.take t.error.errors.length) = t.error.errors := by rw [h]; simp
    change .expected x ∈ (Errors.addError { (f t).error with errors := _ } (.expected y)).errors at hx
    rw [h1] at hx
    rcases add_expects _ _ x hx with hx | hx
    · rcases List.mem_append.1 hx with hx | hx
      · exact .inl hx
      · have := (List.mem_filter.1 hx).2
        simp [Error.isExpected] at this
    · cases hx; exact .inr rfl
  label_offset := fun t s f => rfl

end Easy

/-- **C59** (partial, as above) on texts: when a parser for a grammar, followed by `eof`, rejects a text, then the text
consists of the beginning of a sentence and something else, and the error is reported between the two; what it lists as
expected can come there: it fits a token that continues the beginning, or it is the end of the input and the beginning
is a sentence. -/
theorem C59_source_partial (isNl : Char → Bool) (cmp : SourcePosition → SourcePosition → Ordering) (hc : ∀ q, cmp q q = .eq)
    {M : Info Char (List Char) → Char → Prop} {rules : N → Gram N Char} {a : Gram N Char} {F : Char → Prop}
    {p : Parser (easySource isNl cmp) σ α} (hm : Moves p)
    (hp : Tells (fun e y => Easy.Listed (Easy.Errors.errors e) y) (Easy.hints cmp) M rules a F p)
    (hmod : a.Null rules → Modest (Easy.hints cmp) M rules a p) (text : List Char) (ptr : Nat)
    {e : Easy.Errors Char (List Char) SourcePosition}
    (he : (skip p (eof _)).parse (⟨ptr, text⟩, SourcePosition.start) = .err e) :
    ∃ good rest, text = good ++ rest ∧ a.Viable rules good ∧ e.position = textPosition isNl good ∧
      ∀ x, .expected x ∈ e.errors →
        (∃ t, M x t ∧ a.Viable rules (good ++ [t])) ∨ x = .static "end of input" ∧ a.Derives rules good := by
  obtain ⟨w, l, h1, h2, h3⟩ := C59_parse_all_partial (source_lawful isNl cmp) (Easy.naming cmp hc) (source_ends isNl cmp) hm hp
    hmod rfl he
  obtain ⟨rest, h4, h5, h6, _⟩ := source_at isNl cmp h1 h2
  exact ⟨w, rest, h4, h5, h6, h3⟩

/-! ## Examples -/

namespace Hint

/-- Lines first, then columns (as derived for `SourcePosition`). -/
abbrev cmpSource : SourcePosition → SourcePosition → Ordering :=
  fun a b => (compare a.line b.line).then (compare a.column b.column)

/-- Texts with easy errors. -/
abbrev Y := easySource (· = '\n') cmpSource

theorem cmpSource_self (q : SourcePosition) : cmpSource q q = .eq := by
  simp [cmpSource]

/-- Tokens are described by themselves. -/
abbrev named : Info Char (List Char) → Char → Prop := fun x t => x = .token t

/-- One character. -/
abbrev ch (x : Char) : Gram Unit Char := .one fun t => (if t = x then some t else none).isSome

/-- Lists in brackets: `item → 'x' | '(' [item (',' item)*] ')'`. -/
abbrev lists : Unit → Gram Unit Char :=
  fun _ => (ch 'x').alt ((ch '(').seq ((((Gram.ref ()).sepBy1 (ch ',')).opt).seq (ch ')')))

abbrev SaysE : Y.Err → Y.SErr → Prop := fun e y => Easy.Listed (Easy.Errors.errors e) y

private abbrev listsF : Char → Prop := fun t => t = ',' ∨ t = ')'

/-- A parser of such lists, made from itself. -/
abbrev listP (q : Parser Y Unit Unit) : Parser Y Unit Unit :=
  parserMacroUnit (or (ignore (token Y 'x')) (ignore (between (token Y '(') (token Y ')') (sepBy q (token Y ',')))))

private theorem hS : Y.Lawful := source_lawful _ _

private theorem hE : Y.E.Naming SaysE := Easy.naming cmpSource cmpSource_self

private theorem tells_ch (F : Char → Prop) (x : Char) :
    Tells SaysE (Easy.hints cmpSource) named lists (ch x) F (token Y x) :=
  (C59_one (S := Y) hS hE (source_plain _ _) (fun t => some t) ⟨'a', rfl⟩ (fun _ => true) ⟨'a', rfl⟩ x rfl).2.2.1

private theorem lists_first (t : Char) : (lists ()).First lists t ↔ t = 'x' ∨ t = '(' := by
  simp [lists, Gram.first_one, Gram.first_alt, Gram.first_seq, Gram.null_one]

private theorem lists_null : ¬ (lists ()).Null lists := by
  simp [lists, Gram.null_alt, Gram.null_seq, Gram.null_one]

private theorem list_moves {q : Parser Y Unit Unit} (hq : Moves q) : Moves (listP q) :=
  moves_parserMacroUnit hS (moves_or hS (moves_ignore hS (moves_token hS _)) (moves_ignore hS
    (moves_between hS (moves_token hS _) (moves_token hS _) (moves_sepBy hS hq (moves_token hS _)))))

private theorem lists_useful : ∃ w, (lists ()).Derives lists w := ⟨['x'], .left (.one rfl)⟩

private theorem ref_first (t : Char) : (Gram.ref () : Gram Unit Char).First lists t ↔ t = 'x' ∨ t = '(' := by
  rw [Gram.first_ref]; exact lists_first t

private theorem ref_null : ¬ (Gram.ref () : Gram Unit Char).Null lists := by
  rw [Gram.null_ref]; exact lists_null

private theorem nullable_ch (x : Char) : ¬ (ch x).Null lists := by simp [Gram.null_one]

private def Fine (q : Parser Y Unit Unit) : Prop :=
  Moves q ∧ q.count ≤ 1 ∧ Modest (Easy.hints cmpSource) named lists (.ref ()) q

private theorem list_tells (q : Parser Y Unit Unit) (hm : Fine q)
    (hq : Tells SaysE (Easy.hints cmpSource) named lists (.ref ()) listsF q) :
    Tells SaysE (Easy.hints cmpSource) named lists (lists ()) listsF (listP q) ∧ Fine (listP q) := by
  obtain ⟨hm, hcount, hmod⟩ := hm
  have h1 : Tells SaysE (Easy.hints cmpSource) named lists ((Gram.ref ()).sepBy1 (ch ',')).opt (fun t => t = ')')
      (sepBy q (token Y ',')) := by
    refine C59_sep_by (Cp := fun _ => True) (Cs := fun _ => True) hS hE hm (moves_token hS _) (keeps_unit _) (keeps_unit _)
      (C59_weaken hq ?_) (tells_ch _ _) (fun t => notes_token rfl t) (fun h => absurd h (nullable_ch _)) ref_null ?_ ?_
    · intro t ht
      simpa [Gram.first_seq, Gram.first_one, Gram.null_one] using ht
    · intro t h1 h2
      subst h2
      simp [Gram.first_seq, Gram.first_one, Gram.null_one] at h1
    · intro t h1 h2
      subst h2
      simp [ref_first] at h1
  have h2 := C59_between hS hE (moves_token hS '(') (moves_sepBy hS hm (moves_token hS ',')) (moves_token hS ')')
    (tells_ch _ '(') (fun h => absurd h (nullable_ch _))
    (C59_weaken h1 (G := (ch ')').Then lists listsF) fun t ht => by
      simpa [Gram.Then, Gram.first_one, Gram.null_one] using ht)
    (fun _ => ⟨hcount, modest_sep_by hmod hq.useful (tells_ch listsF ',').useful⟩) (tells_ch listsF ')')
    (fun h => absurd h (nullable_ch _))
  have h3 : Gram.Apart ((ch 'x').First lists)
      (((ch '(').seq ((((Gram.ref ()).sepBy1 (ch ',')).opt).seq (ch ')'))).First lists) := by
    intro t h3 h4
    simp [Gram.first_one, Gram.first_seq, Gram.null_one] at h3 h4
    subst h3
    cases h4
  have hmo := moves_ignore hS (moves_between hS (moves_token hS '(') (moves_token hS ')') (moves_sepBy hS hm
    (moves_token hS ',')))
  have hmx := moves_ignore hS (moves_token hS 'x')
  have h4 : ((ch '(').seq ((((Gram.ref ()).sepBy1 (ch ',')).opt).seq (ch ')'))).Null lists →
      Gram.Apart ((ch 'x').First lists) listsF := by
    simp [Gram.null_seq, Gram.null_one]
  have hx := tells_ignore (tells_ch listsF 'x')
  refine ⟨(C59_wrappers hE (C59_or hS hE hmx hmo hx (tells_ignore h2) (nullable_ch _) h3 h4)).2.2.2, list_moves hm,
    Nat.le_refl 1, fun t => ?_⟩
  have h5 := modest_or (or_alts hmx hmo hx (tells_ignore h2) (nullable_ch _) h3 h4) t
  exact notes_mono h5 fun x ⟨t, h6, v, h7⟩ => ⟨t, h6, v, .ref h7⟩

/-- The parser, nested `d` times, satisfies the hypotheses of C59. -/
private theorem recur_tells (d : Nat) : Fine (recur listP () d) ∧
    Tells SaysE (Easy.hints cmpSource) named lists (.ref ()) listsF (recur listP () d) :=
  C59_recur (K := Fine) ⟨.ofMode hS fun _ i _ => .refl i, Nat.le_refl 1, fun t => notes_refl t⟩
    (fun q h1 h2 => (list_tells q h1 h2).2) lists_useful (fun q h1 h2 => (list_tells q h1 h2).1) d

/-- Every rejected text. -/
example (d : Nat) (text : List Char) (e : Easy.Errors Char (List Char) SourcePosition)
    (he : (skip (recur listP () d) (eof Y)).parse (⟨0, text⟩, SourcePosition.start) = .err e) :
    ∃ good rest, text = good ++ rest ∧ (Gram.ref ()).Viable lists good ∧ e.position = textPosition (· = '\n') good ∧
      ∀ x, .expected x ∈ e.errors → (∃ t, x = .token t ∧ (Gram.ref ()).Viable lists (good ++ [t])) ∨
        x = .static "end of input" ∧ (Gram.ref ()).Derives lists good :=
  C59_source_partial _ cmpSource cmpSource_self (recur_tells d).1.1 (recur_tells d).2 (fun _ => (recur_tells d).1.2.2) text 0 he

/-- What a parser reports about a text. -/
def report {σ α : Type} (p : Parser Y σ α) (text : List Char) : Option (Int × Int × List (Easy.Error Char (List Char))) :=
  match p.parse (⟨0, text⟩, SourcePosition.start) with
  | .err e => some (e.position.line, e.position.column, e.errors)
  | _ => none

example : report (skip (recur listP () 8) (eof Y)) ['(', 'x', ',', ')'] = some (1, 4, [.unexpected (.token ')'),
    .expected (.token 'x'), .expected (.token '(')]) := by decide +kernel
example : report (skip (recur listP () 8) (eof Y)) ['(', 'x', 'x'] = some (1, 3, [.unexpected (.token 'x'),
    .expected (.token ','), .expected (.token ')')]) := by decide +kernel
example : report (skip (recur listP () 8) (eof Y)) ['(', 'y'] = some (1, 2, [.unexpected (.token 'y'),
    .expected (.token 'x'), .expected (.token '(')]) := by decide +kernel
example : report (skip (recur listP () 8) (eof Y)) ['x', 'x'] = some (1, 2, [.unexpected (.token 'x'),
    .expected (.static "end of input")]) := by decide +kernel

/-! ## Where it goes wrong -/

private theorem blames_ch (F : Char → Prop) (x : Char) : Blames SaysE lists (ch x) F (token Y x) := (tells_ch F x).toBlames

private theorem apart_ch {x y : Char} (h : x ≠ y) : Gram.Apart ((ch x).First lists) fun t => t = y := by
  intro t h1 h2
  simp [Gram.first_one] at h1
  exact h (h1.symm.trans h2)

private theorem second {x t : Char} {b c : Gram Unit Char} (h : (((ch x).seq b).seq c).Viable lists [x, t]) :
    (b.seq c).First lists t := by
  obtain ⟨v, h⟩ := h
  obtain ⟨w1, w2, h1, h2, h3⟩ := Gram.derives_seq.1 h
  obtain ⟨w3, w4, h4, h5, h6⟩ := Gram.derives_seq.1 h2
  cases h5
  rw [h4] at h1
  simp only [List.cons_append, List.nil_append, List.cons.injEq] at h1
  exact Gram.viable_first (ts := v) ⟨[], by rw [List.append_nil, h1.2]; exact .seq h6 h3⟩

/-- **C59 is violated**: `optional (with '-' '1')`, then `'x'`.  About `z`, the error lists `1` as expected, although no
sentence begins with `1`: `add_errors` goes through all members of the inner sequence, because the error has offset 2. -/
theorem C59_optional_pair :
    let g := (((ch '-').seq (ch '1')).opt).seq (ch 'x')
    let p := «with» (optional («with» (token Y '-') (token Y '1'))) (token Y 'x')
    Blames SaysE lists g (fun _ => False) p ∧
    report p ['z'] = some (1, 1, [.unexpected (.token 'z'), .expected (.token '-'), .expected (.token '1'),
      .expected (.token 'x')]) ∧ ¬ g.Viable lists ['1'] := by
  refine ⟨?_, by decide +kernel, fun h => ?_⟩
  · have hm := moves_with hS (moves_token hS '-') (moves_token hS '1')
    refine C58_with hS hE (moves_optional hS hm) (moves_token hS _) (C58_optional hS hm
      (C58_with hS hE (moves_token hS _) (moves_token hS _) (blames_ch _ _) (blames_ch _ _)) ?_ ?_) (blames_ch _ _)
    · simp [Gram.null_seq, Gram.null_one]
    · intro t h1 h2
      simp [Gram.first_one, Gram.first_seq, Gram.null_one, Gram.Then] at h1 h2
      subst h1; cases h2
  · simpa [Gram.first_one, Gram.first_seq, Gram.first_alt, Gram.null_one, Gram.not_first_empty] using Gram.viable_first h

/-- **C59 is violated**: `sep_by` at the end of a sequence.  About `(z`, the error lists `,` as expected, although no
sentence begins with `(,`; it does not list `x`. -/
theorem C59_sep_by_last :
    let g := ((ch '(').seq ((ch 'x').sepBy1 (ch ',')).opt).seq (ch ')')
    let p := skip («with» (token Y '(') (sepBy (token Y 'x') (token Y ','))) (token Y ')')
    Blames SaysE lists g (fun _ => False) p ∧
    report p ['(', 'z'] = some (1, 2, [.unexpected (.token 'z'), .expected (.token ','), .expected (.token ')')]) ∧
    ¬ g.Viable lists ['(', ','] ∧ g.Viable lists ['(', 'x'] := by
  have hm := moves_sepBy hS (moves_token hS 'x') (moves_token hS ',')
  have h1 : Blames SaysE lists ((ch 'x').sepBy1 (ch ',')).opt (fun t => t = ')') (sepBy (token Y 'x') (token Y ',')) := by
    refine C58_sep_by (Cp := fun _ => True) (Cs := fun _ => True) hS hE (moves_token hS _) (moves_token hS _) (keeps_unit _)
      (keeps_unit _) (blames_ch _ _) (blames_ch _ _) (nullable_ch _) ?_ (apart_ch (by decide))
    intro t h1 h2
    simp [Gram.first_one, Gram.first_seq, Gram.null_one] at h1
    subst h2; cases h1
  refine ⟨?_, by decide +kernel, ?_, ?_⟩
  · refine C58_skip hS hE (moves_with hS (moves_token hS _) hm) (moves_token hS _)
      (C58_with hS hE (moves_token hS _) hm (blames_ch _ _) (C58_weaken h1 ?_)) (blames_ch _ _)
    intro t h1
    simpa [Gram.first_one, Gram.null_one, Gram.Then] using h1
  · intro h
    simpa [Gram.first_one, Gram.first_seq, Gram.first_alt, Gram.null_one, Gram.not_first_empty] using second h
  · exact ⟨[')'], .seq (u := ['(', 'x']) (v := [')']) (.seq (u := ['(']) (v := ['x']) (.one rfl)
      (.left (.seq (u := ['x']) (v := []) (.one rfl) .stop))) (.one rfl)⟩

/-- **C59 is violated**: a pair inside a pair inside a pair.  About `z`, the error lists `r` as expected, although every
sentence has a `q` before it. -/
theorem C59_nested_pairs :
    let g := (((ch 'a').opt.seq (ch 'b').opt).seq (ch 'q')).seq (ch 'r')
    let p := skip (skip («with» (optional (token Y 'a')) (optional (token Y 'b'))) (token Y 'q')) (token Y 'r')
    Blames SaysE lists g (fun _ => False) p ∧
    report p ['z'] = some (1, 1, [.unexpected (.token 'z'), .expected (.token 'a'), .expected (.token 'b'),
      .expected (.token 'q'), .expected (.token 'r')]) ∧ ¬ g.Viable lists ['r'] := by
  have ma := moves_optional hS (moves_token hS 'a')
  have mb := moves_optional hS (moves_token hS 'b')
  have mab := moves_with hS ma mb
  refine ⟨C58_skip hS hE (moves_skip hS mab (moves_token hS _)) (moves_token hS _)
    (C58_skip hS hE mab (moves_token hS _) (C58_with hS hE ma mb (C58_optional hS (moves_token hS _) (blames_ch _ _)
      (nullable_ch _) ?_) (C58_optional hS (moves_token hS _) (blames_ch _ _) (nullable_ch _) ?_)) (blames_ch _ _))
      (blames_ch _ _), by decide +kernel, fun h => ?_⟩
  · intro t h1 h2
    simp [Gram.first_one, Gram.first_alt, Gram.not_first_empty, Gram.null_alt, Gram.null_one, Gram.null_empty,
      Gram.Then] at h1 h2
    subst h1
    simp at h2
  · intro t h1 h2
    simp [Gram.first_one, Gram.null_one, Gram.Then] at h1 h2
    subst h1
    simp at h2
  · simpa [Gram.first_one, Gram.first_seq, Gram.first_alt, Gram.null_one, Gram.not_first_empty, Gram.null_seq, Gram.null_alt]
      using Gram.viable_first h

/-- The error does not list everything that can come next: about `z`, `b` and `c` are missing, although sentences begin
with them. -/
theorem C59_missing :
    let g := (ch 'x').opt.seq ((ch 'a').opt.seq ((ch 'b').opt.seq (ch 'c')))
    let p := «with» (optional (token Y 'x')) («with» (optional (token Y 'a')) («with» (optional (token Y 'b')) (token Y 'c')))
    Blames SaysE lists g (fun _ => False) p ∧
    report p ['z'] = some (1, 1, [.unexpected (.token 'z'), .expected (.token 'x'), .expected (.token 'a')]) ∧
    g.Viable lists ['b'] ∧ g.Viable lists ['c'] := by
  have mx := moves_optional hS (moves_token hS 'x')
  have ma := moves_optional hS (moves_token hS 'a')
  have mb := moves_optional hS (moves_token hS 'b')
  have mbc := moves_with hS mb (moves_token hS 'c')
  refine ⟨C58_with hS hE mx (moves_with hS ma mbc) (C58_optional hS (moves_token hS _) (blames_ch _ _) (nullable_ch _) ?_)
    (C58_with hS hE ma mbc (C58_optional hS (moves_token hS _) (blames_ch _ _) (nullable_ch _) ?_)
      (C58_with hS hE mb (moves_token hS _) (C58_optional hS (moves_token hS _) (blames_ch _ _) (nullable_ch _) ?_)
        (blames_ch _ _))), by decide +kernel, ⟨['c'], ?_⟩, ⟨[], ?_⟩⟩
  · intro t h1 h2
    simp [Gram.first_one, Gram.first_alt, Gram.first_seq, Gram.not_first_empty, Gram.null_alt, Gram.null_one, Gram.null_empty,
      Gram.null_seq, Gram.Then] at h1 h2
    subst h1
    simp at h2
  · intro t h1 h2
    simp [Gram.first_one, Gram.first_alt, Gram.first_seq, Gram.not_first_empty, Gram.null_alt, Gram.null_one, Gram.null_empty,
      Gram.null_seq, Gram.Then] at h1 h2
    subst h1
    simp at h2
  · intro t h1 h2
    simp [Gram.first_one, Gram.null_one, Gram.Then] at h1 h2
    subst h1
    simp at h2
  · exact .seq (u := []) (.right .empty) (.seq (u := []) (.right .empty) (.seq (u := ['b']) (.left (.one rfl)) (.one rfl)))
  · exact .seq (u := []) (.right .empty) (.seq (u := []) (.right .empty) (.seq (u := []) (.right .empty) (.one rfl)))

/-- **C59 is violated**: a repetition of a sequence.  About `az`, the error lists `x` as expected, although no sentence
begins with `ax`. -/
theorem C59_many_pair :
    let g := ((ch 'a').seq ((ch ',').seq (ch 'x')).star).seq (ch ')')
    let p := skip («with» (token Y 'a') (many («with» (token Y ',') (token Y 'x')))) (token Y ')')
    Blames SaysE lists g (fun _ => False) p ∧
    report p ['a', 'z'] = some (1, 2, [.unexpected (.token 'z'), .expected (.token ','), .expected (.token 'x'),
      .expected (.token ')')]) ∧ ¬ g.Viable lists ['a', 'x'] := by
  have h := moves_with hS (moves_token hS ',') (moves_token hS 'x')
  refine ⟨C58_skip hS hE (moves_with hS (moves_token hS _) (moves_many hS h)) (moves_token hS _) (C58_with hS hE
    (moves_token hS _) (moves_many hS h) (blames_ch _ _) (C58_many hS h ?_ (C58_with hS hE (moves_token hS _)
      (moves_token hS _) (blames_ch _ _) (blames_ch _ _)) ?_ ?_)) (blames_ch _ _), by decide +kernel, ?_⟩
  · exact (keeps_with (keeps_unit (h := false) _) (keeps_unit _)).reusable
  · simp [Gram.null_seq, Gram.null_one]
  · intro t h1 h2
    simp [Gram.first_one, Gram.first_seq, Gram.null_one, Gram.Then] at h1 h2
    subst h1; cases h2
  · intro h
    simpa [Gram.first_one, Gram.first_seq, Gram.first_star, Gram.null_one] using second h

/-- **C59 is violated**: a failing `attempt` in a choice.  About `az`, the error, at the second token, says that `a` is
unexpected and lists `a` and `c` as expected: it mixes what it says about two places. -/
theorem C59_attempt :
    let g := ((ch 'a').seq (ch 'b')).alt (ch 'c')
    let p := or (attempt («with» (token Y 'a') (token Y 'b'))) (token Y 'c')
    report p ['a', 'z'] = some (1, 2, [.unexpected (.token 'z'), .expected (.token 'b'), .unexpected (.token 'a'),
      .expected (.token 'a'), .expected (.token 'c')]) ∧
    ¬ g.Viable lists ['a', 'a'] ∧ ¬ g.Viable lists ['a', 'c'] := by
  have key : ∀ t, (((ch 'a').seq (ch 'b')).alt (ch 'c')).Viable lists ['a', t] → t = 'b' := by
    rintro t ⟨v, h⟩
    rcases Gram.derives_alt.1 h with h | h
    · obtain ⟨w1, w2, h1, h2, h3⟩ := Gram.derives_seq.1 h
      cases h2; cases h3
      simp only [List.cons_append, List.nil_append, List.cons.injEq] at h1
      rename_i h4
      rw [← h1.2.1] at h4
      simpa using h4
    · generalize hw : ['a', t] ++ v = w at h
      cases h
      cases hw
  exact ⟨by decide +kernel, fun h => absurd (key _ h) (by decide), fun h => absurd (key _ h) (by decide)⟩

end Hint

end Verif
