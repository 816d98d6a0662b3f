import Verif.Proof.TwinRules

/-!
# Sequences and choices of parsers that do the same except for the errors
-/

namespace Verif

variable {S : Strm} {E : ErrOps S.Tok S.Rng S.Pos} {convS : S.SErr → E.SErr} {conv : S.Err → E.Err}
variable {σ τ υ α β γ : Type} {p : Parser S σ α} {q : Parser (S.withErrors E convS conv) σ α}
variable {p' : Parser S τ β} {q' : Parser (S.withErrors E convS conv) τ β}

/-- The members of two sequences, one by one. -/
inductive SeqTwin : {τ β : Type} → Seq S τ β → Seq (S.withErrors E convS conv) τ β → Prop where
  | nil : SeqTwin .nil .nil
  | cons {σ τ α β : Type} {p : Parser S σ α} {q} {ps : Seq S τ β} {qs} : TwinP p q → SeqTwin ps qs → SeqTwin (.cons p ps) (.cons q qs)

/-- Equal ends of the member steps. -/
inductive EndTwin {F G : Type} : SeqEnd F → SeqEnd G → Prop where
  | done : EndTwin .done .done
  | fail (e : Tracked F) (e' : Tracked G) : EndTwin (.fail e) (.fail e')
  | commitErr (e : F) (e' : G) : EndTwin (.commitErr e) (.commitErr e')
  | peekErr (e : Tracked F) (e' : Tracked G) : EndTwin (.peekErr e) (.peekErr e')
  | abort (a : Abort) : EndTwin (.abort a) (.abort a)

namespace SeqTwin

theorem init {ps : Seq S τ β} {qs : Seq (S.withErrors E convS conv) τ β} (h : SeqTwin ps qs) : ps.init = qs.init := by
  induction h with
  | nil => rfl
  | cons h _ ih => unfold Seq.init; rw [h.init, ih]

theorem counts {ps : Seq S τ β} {qs : Seq (S.withErrors E convS conv) τ β} (h : SeqTwin ps qs) : ps.counts = qs.counts := by
  induction h with
  | nil => rfl
  | cons h _ ih => unfold Seq.counts; rw [h.count, ih]

theorem take {ps : Seq S τ β} {qs : Seq (S.withErrors E convS conv) τ β} (h : SeqTwin ps qs) : ∀ st, ps.take st = qs.take st := by
  induction h with
  | nil => exact fun _ => rfl
  | cons h _ ih => intro st; unfold Seq.take; rw [ih]

theorem steps {ps : Seq S τ β} {qs : Seq (S.withErrors E convS conv) τ β} (h : SeqTwin ps qs) : ∀ (m : Bool) (fe cur off : Nat) (i : S.Input) (st : τ),
    EndTwin (ps.steps m fe cur off i st).fin (qs.steps m fe cur off i st).fin ∧
    (ps.steps m fe cur off i st).firstEmpty = (qs.steps m fe cur off i st).firstEmpty ∧
    (ps.steps m fe cur off i st).offset = (qs.steps m fe cur off i st).offset ∧
    (ps.steps m fe cur off i st).inp = (qs.steps m fe cur off i st).inp ∧
    (ps.steps m fe cur off i st).st = (qs.steps m fe cur off i st).st := by
  induction h with
  | nil => exact fun m fe cur off i st => ⟨.done, rfl, rfl, rfl, rfl⟩
  | @cons σ τ α β p q ps qs h _ ih =>
    intro m fe cur off i ⟨⟨v, s⟩, t⟩
    unfold Seq.steps
    dsimp only
    split
    · rw [← h.count]
      twin h.run m i s : p.run m i s, q.run m i s
      case commitOk => exact have := ih _ _ _ _ _ _; ⟨this.1, this.2.1, this.2.2.1, this.2.2.2.1, by rw [this.2.2.2.2]⟩
      case peekOk => exact have := ih _ _ _ _ _ _; ⟨this.1, this.2.1, this.2.2.1, this.2.2.2.1, by rw [this.2.2.2.2]⟩
      case peekErr =>
        generalize S.reset (S.checkpoint i) _ = x
        obtain ⟨_ | e, k⟩ := x
        · exact ⟨.fail _ _, rfl, rfl, rfl, rfl⟩
        · dsimp only [Option.map]
          split
          · exact ⟨.commitErr _ _, rfl, rfl, rfl, rfl⟩
          · exact ⟨.peekErr _ _, rfl, rfl, rfl, rfl⟩
      all_goals exact ⟨by constructor, rfl, rfl, rfl, rfl⟩
    · exact have := ih m fe cur off i t; ⟨this.1, this.2.1, this.2.2.1, this.2.2.2.1, by rw [this.2.2.2.2]⟩

end SeqTwin

namespace TwinP

theorem rest {ps : Seq S τ β} {qs : Seq (S.withErrors E convS conv) τ β} (h : SeqTwin ps qs) (m : Bool) (fe : Nat) (i : S.Input)
    (st : SeqSt σ τ α) : OutTwin (seqRest p ps m fe i st) (seqRest q qs m fe i st) := by
  unfold seqRest
  dsimp only
  have hx := h.steps m fe 0 st.offset i st.tail
  generalize ps.steps m fe 0 st.offset i st.tail = x at hx ⊢
  generalize qs.steps m fe 0 st.offset i st.tail = y at hx ⊢
  obtain ⟨fin, a, b, c, d⟩ := x
  obtain ⟨fin', a', b', c', d'⟩ := y
  obtain ⟨hx, h1, h2, h3, h4⟩ := hx
  dsimp only at hx h1 h2 h3 h4
  subst h1 h2 h3 h4
  cases hx <;> dsimp only
  case done =>
    unfold seqFinish
    dsimp only
    rw [h.take]
    split
    · split <;> twins
    · twins
  case fail =>
    unfold seqAddErrors
    dsimp only
    split
    · generalize S.uncons _ = x
      obtain ⟨_ | t, l⟩ := x <;> twins
    · twins
  all_goals twins

theorem tuple {ps : Seq S τ β} {qs : Seq (S.withErrors E convS conv) τ β} (h : TwinP p q) (hs : SeqTwin ps qs) :
    TwinP (tuple p ps) (tuple q qs) :=
  .ofMode (by rw [h.init, hs.init]) (by rw [h.count, hs.counts]) fun m i st => by
    unfold seqRun
    dsimp only
    rw [← h.count]
    split
    · twin h.run m i st.head : p.run m i st.head, q.run m i st.head
      case commitOk => exact rest hs _ _ _ _
      case peekOk => exact rest hs _ _ _ _
      all_goals twins
    · exact rest hs _ _ _ _

theorem pair (h : TwinP p q) (h' : TwinP p' q') : TwinP (pair p p') (pair q q') := h.tuple (.cons h' .nil)

theorem «with» (h : TwinP p q) (h' : TwinP p' q') : TwinP («with» p p') («with» q q') :=
  have ht := h.ignore.pair h'
  have hm := ht.map fun (x : Unit × β × Unit) => x.2.1
  { init := hm.init, count := hm.count, run := hm.run, lazy := fun i => ⟨Twin.map _ (ht.lazy i).1, (ht.lazy i).2⟩
    committed := hm.committed, stream := hm.stream }

theorem skip (h : TwinP p q) (h' : TwinP p' q') : TwinP (skip p p') (skip q q') := (h.pair h'.ignore).map fun (x : α × Unit × Unit) => x.1

theorem between {c : Parser S υ γ} {c' : Parser (S.withErrors E convS conv) υ γ} (h : TwinP p q) (hc : TwinP c c') (h' : TwinP p' q') :
    TwinP (between p c p') (between q c' q') := ((h.tuple (.cons h' (.cons hc .nil))).map _).parserMacro

theorem thenP {f : α → Parser S τ β} {g : α → Parser (S.withErrors E convS conv) τ β} (n : τ) (h : TwinP p q)
    (hf : ∀ a, TwinP (f a) (g a)) : TwinP (thenP p f n) (thenP q g n) := by
  refine .ofMode (by rw [h.init]) rfl fun m i s => ?_
  dsimp only
  generalize (if m = true then none else s.2.1) = x
  cases x with
  | some c =>
    dsimp only
    obtain ⟨b, a⟩ := c
    dsimp only
    twin (hf a).committed m i s.2.2 : (f a).committed m i s.2.2, (g a).committed m i s.2.2
    all_goals (cases b <;> twins)
  | none =>
    dsimp only
    twin h.run m i s.1 : p.run m i s.1, q.run m i s.1
    case commitOk a =>
      rename_i j t
      twin (hf a).committed true j s.2.2 : (f a).committed true j s.2.2, (g a).committed true j s.2.2
      all_goals twins
    case peekOk a =>
      rename_i j t
      twin (hf a).committed true j s.2.2 : (f a).committed true j s.2.2, (g a).committed true j s.2.2
      all_goals twins
    all_goals twins

theorem thenPartial {f : α → Parser S τ β × α} {g : α → Parser (S.withErrors E convS conv) τ β × α} (n : τ) (h : TwinP p q)
    (hf : ∀ a, TwinP (f a).1 (g a).1) (h2 : ∀ a, (f a).2 = (g a).2) : TwinP (thenPartial p f n) (thenPartial q g n) := by
  refine .ofMode (by rw [h.init]) rfl fun m i s => ?_
  dsimp only
  generalize (if m = true then none else s.2.1) = x
  cases x with
  | some c =>
    dsimp only
    simp only [h2]
    obtain ⟨b, a⟩ := c
    dsimp only
    twin (hf a).committed m i s.2.2 : (f a).1.committed m i s.2.2, (g a).1.committed m i s.2.2
    all_goals (cases b <;> twins)
  | none =>
    dsimp only
    twin h.run m i s.1 : p.run m i s.1, q.run m i s.1
    case commitOk a =>
      simp only [h2]
      rename_i j t
      twin (hf a).committed true j s.2.2 : (f a).1.committed true j s.2.2, (g a).1.committed true j s.2.2
      all_goals twins
    case peekOk a =>
      simp only [h2]
      rename_i j t
      twin (hf a).committed true j s.2.2 : (f a).1.committed true j s.2.2, (g a).1.committed true j s.2.2
      all_goals twins
    all_goals twins

theorem thenRef {f : α → Parser S τ β} {g : α → Parser (S.withErrors E convS conv) τ β} (n : τ) (h : TwinP p q)
    (hf : ∀ a, TwinP (f a) (g a)) : TwinP (thenRef p f n) (thenRef q g n) := by
  refine .ofMode (by rw [h.init]) rfl fun m i s => ?_
  dsimp only
  generalize (if m = true then none else s.2.1) = x
  cases x with
  | some c =>
    dsimp only
    obtain ⟨b, a⟩ := c
    dsimp only
    twin (hf a).committed m i s.2.2 : (f a).committed m i s.2.2, (g a).committed m i s.2.2
    all_goals (cases b <;> twins)
  | none =>
    dsimp only
    twin h.run m i s.1 : p.run m i s.1, q.run m i s.1
    case commitOk a =>
      rename_i j t
      twin (hf a).committed true j s.2.2 : (f a).committed true j s.2.2, (g a).committed true j s.2.2
      all_goals twins
    case peekOk a =>
      rename_i j t
      twin (hf a).committed true j s.2.2 : (f a).committed true j s.2.2, (g a).committed true j s.2.2
      all_goals twins
    all_goals twins

end TwinP

/-! ## Choices -/

/-- The alternatives of two choices, one by one. -/
inductive AltsTwin : {α σ : Type} → Alts S α σ → Alts (S.withErrors E convS conv) α σ → Prop where
  | last {σ α : Type} {p : Parser S σ α} {q} : TwinP p q → AltsTwin (.last p) (.last q)
  | cons {σ τ α : Type} {p : Parser S σ α} {q} {ps : Alts S α τ} {qs} : TwinP p q → AltsTwin ps qs → AltsTwin (.cons p ps) (.cons q qs)

namespace AltsTwin

variable {ps : Alts S α σ} {qs : Alts (S.withErrors E convS conv) α σ}

theorem fail (ts : List (Tried S)) (t : Tried S) (us : List (Tried (S.withErrors E convS conv))) (u : Tried (S.withErrors E convS conv)) :
    (choiceFail (α := α) (ts ++ [t])).Twin (choiceFail (α := α) (us ++ [u])) := by
  cases ts <;> cases us <;> exact .peekErr _ _

theorem doChoice (h : AltsTwin ps qs) : ∀ (bp : S.Pos) (b : S.Ckpt) (ts : List (Tried S)) (us : List (Tried (S.withErrors E convS conv))) (i : S.Input),
    (ps.doChoice bp b ts i).res.Twin (qs.doChoice bp b us i).res ∧ (ps.doChoice bp b ts i).inp = (qs.doChoice bp b us i).inp ∧
    (ps.doChoice bp b ts i).st = (qs.doChoice bp b us i).st := by
  induction h with
  | @last σ α p q h =>
    intro bp b ts us i
    unfold Alts.doChoice
    dsimp only
    rw [← h.init]
    twin h.run true i p.init : p.run true i p.init, q.run true i p.init
    case peekErr =>
      generalize S.reset b _ = x
      obtain ⟨_ | e, k⟩ := x
      · exact ⟨fail _ _ _ _, rfl, rfl⟩
      · twins
    all_goals twins
  | @cons σ τ α p q ps qs h _ ih =>
    intro bp b ts us i
    unfold Alts.doChoice
    dsimp only
    rw [← h.init]
    twin h.run true i p.init : p.run true i p.init, q.run true i p.init
    case peekErr e e' =>
      generalize S.reset b _ = x
      obtain ⟨_ | _, k⟩ := x
      · have := ih bp b (ts ++ [⟨p.addError, e⟩]) (us ++ [⟨q.addError, e'⟩]) k
        exact ⟨this.1, this.2.1, congrArg (Option.map Sum.inr) this.2.2⟩
      · twins
    all_goals twins

theorem resume (h : AltsTwin ps qs) : ∀ (m : Bool) (i : S.Input) (s : σ), OutTwin (ps.resume m i s) (qs.resume m i s) := by
  induction h with
  | last h => exact h.run
  | cons h _ ih =>
    intro m i s
    cases s with
    | inl s => exact (h.run m i s).mapSt _
    | inr s => exact (ih m i s).mapSt _

theorem initArm (h : AltsTwin ps qs) : ∀ k, ps.initArm k = qs.initArm k := by
  induction h with
  | last h => exact fun _ => h.init
  | cons h _ ih =>
    intro k
    cases k with
    | zero => exact congrArg _ h.init
    | succ k => exact congrArg _ (ih k)

theorem isArm (h : AltsTwin ps qs) : ∀ k s, ps.isArm k s = qs.isArm k s := by
  induction h with
  | last h => exact fun _ _ => rfl
  | cons h _ ih =>
    intro k s
    cases k with
    | zero => rfl
    | succ k =>
      cases s with
      | inl s => rfl
      | inr s => exact ih k s

end AltsTwin

namespace TwinP

variable {ps : Alts S α σ} {qs : Alts (S.withErrors E convS conv) α σ}

theorem choice (h : AltsTwin ps qs) : TwinP (choice ps) (choice qs) :=
  .ofMode rfl rfl fun m i st => by
    unfold choiceRun
    dsimp only
    generalize (if m = true then none else st) = x
    cases x with
    | some s =>
      dsimp only
      twin h.resume m i s : ps.resume m i s, qs.resume m i s
      all_goals twins
    | none =>
      dsimp only
      have := h.doChoice (S.position i) (S.checkpoint i) [] [] i
      refine ⟨this.1, this.2.1, ?_⟩
      dsimp only [id]
      rw [this.2.2]

theorem or {p : Parser S σ α} {q} {p' : Parser S τ α} {q' : Parser (S.withErrors E convS conv) τ α} (h : TwinP p q) (h' : TwinP p' q') :
    TwinP (or p p') (or q q') := .ofMode rfl rfl (choice (.cons h (.last h'))).run

theorem dispatch (k : Nat) (h : AltsTwin ps qs) : TwinP (dispatch ps k) (dispatch qs k) :=
  .ofMode rfl rfl fun m i st => by
    dsimp only
    rw [h.initArm]
    cases st with
    | none => exact (h.resume m i _).mapSt _
    | some s => dsimp only; rw [h.isArm]; exact (h.resume m i _).mapSt _

/-- The elements of two slices, one by one. -/
inductive Elems : List (Parser S σ α) → List (Parser (S.withErrors E convS conv) σ α) → Prop where
  | nil : Elems [] []
  | cons {p : Parser S σ α} {q ps qs} : TwinP p q → Elems ps qs → Elems (p :: ps) (q :: qs)

theorem slice_nil {S : Strm} {all : List (Parser S σ α)} (m : Bool) (b : S.Ckpt) (k l : Nat) (e : Option (Tracked S.Err)) (i : S.Input)
    (st : Nat × σ) : ∃ x, sliceLoop all m b [] k l e i st = ⟨.peekErr x, i, st⟩ := by
  unfold sliceLoop
  cases e with
  | none => exact ⟨_, rfl⟩
  | some e => dsimp only; split <;> exact ⟨_, rfl⟩

theorem slice_soft {S : Strm} {all : List (Parser S σ α)} (m : Bool) {b : S.Ckpt} (k l : Nat) (e : Option (Tracked S.Err)) {i j j' : S.Input}
    {st : Nat × σ} {p : Parser S σ α} (ps : List (Parser S σ α)) {x : Tracked S.Err} {s : σ} (hr : S.reset b i = (none, j))
    (ho : p.run m j st.2 = ⟨.peekErr x, j', s⟩) :
    ∃ l2 e2, sliceLoop all m b (p :: ps) k l e i st = sliceLoop all m b ps (k + 1) l2 e2 j' (st.1, s) := by
  simp only [sliceLoop, hr, ho]
  cases e with
  | none => exact ⟨_, _, rfl⟩
  | some e => dsimp only; split <;> exact ⟨_, _, rfl⟩

theorem slice {all : List (Parser S σ α)} {all' : List (Parser (S.withErrors E convS conv) σ α)} (m : Bool) (b : S.Ckpt) {ps qs}
    (h : Elems (convS := convS) (conv := conv) ps qs) :
    ∀ (k l l' : Nat) (e : Option (Tracked S.Err)) (e' : Option (Tracked E.Err)) (i : S.Input) (st : Nat × σ),
    OutTwin (sliceLoop all m b ps k l e i st) (sliceLoop (S := S.withErrors E convS conv) all' m b qs k l' e' i st) := by
  induction h with
  | nil =>
    intro k l l' e e' i st
    obtain ⟨x, hx⟩ := slice_nil (all := all) m b k l e i st
    obtain ⟨y, hy⟩ := slice_nil (S := S.withErrors E convS conv) (all := all') m b k l' e' i st
    rw [hx, hy]
    twins
  | @cons p q ps qs h _ ih =>
    intro k l l' e e' i st
    rcases hr : S.reset b i with ⟨_ | x, j⟩
    · have hr' : (S.withErrors E convS conv).reset b i = (none, j) := by
        show ((S.reset b i).1.map conv, (S.reset b i).2) = _; rw [hr]; rfl
      have hx := h.run m j st.2
      rcases ho : p.run m j st.2 with ⟨r, j1, s1⟩
      rcases ho' : q.run m j st.2 with ⟨r', j2, s2⟩
      rw [ho, ho'] at hx
      obtain ⟨hx, h1, h2⟩ := hx
      dsimp only at hx h1 h2
      subst h1 h2
      cases hx
      case peekErr =>
        obtain ⟨_, _, ha⟩ := slice_soft (all := all) m k l e ps hr ho
        obtain ⟨_, _, hb⟩ := slice_soft (S := S.withErrors E convS conv) (all := all') m k l' e' qs hr' ho'
        rw [ha, hb]
        exact ih _ _ _ _ _ _ _
      all_goals
        simp only [sliceLoop, hr, Option.map_none, ho, ho']
        twins
    · have hr' : (S.withErrors E convS conv).reset b i = (some (conv x), j) := by
        show ((S.reset b i).1.map conv, (S.reset b i).2) = _; rw [hr]; rfl
      simp only [sliceLoop, hr, Option.map_some]
      twins

theorem elems_get {ps : List (Parser S σ α)} {qs : List (Parser (S.withErrors E convS conv) σ α)} (h : Elems ps qs) :
    ∀ k : Nat, (ps[k]? = none ∧ qs[k]? = none) ∨ ∃ p q, ps[k]? = some p ∧ qs[k]? = some q ∧ TwinP p q := by
  induction h with
  | nil => exact fun _ => .inl ⟨rfl, rfl⟩
  | @cons p q ps qs h _ ih =>
    intro k
    cases k with
    | zero => exact .inr ⟨p, q, rfl, rfl, h⟩
    | succ k => exact ih k

theorem sliceChoice {ps : List (Parser S σ α)} {qs : List (Parser (S.withErrors E convS conv) σ α)} (s : σ) (h : Elems ps qs) :
    TwinP (sliceChoice ps s) (sliceChoice qs s) :=
  .ofMode rfl rfl fun m i st => by
    unfold sliceRun
    dsimp only
    split
    · obtain ⟨h1, h2⟩ | ⟨p, q, h1, h2, hpq⟩ := elems_get h (st.1 - 1)
      · rw [h1, h2]; twins
      · rw [h1, h2]
        dsimp only
        twin hpq.run false i st.2 : p.run false i st.2, q.run false i st.2
        all_goals twins
    · exact slice m _ h _ _ _ _ _ _ _

end TwinP

end Verif
