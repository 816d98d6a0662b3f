import Verif.Proof.Honest

/-! # The commit status tells the truth: sequences and choices -/

namespace Verif

set_option linter.unusedSectionVars false
set_option linter.unusedVariables false

variable {S : Strm} {σ τ υ α β γ : Type} {h : Bool} {Q : σ → Prop} {C : τ → Prop}

theorem HonestIn.congr {Q' : σ → Prop} {p : Parser S σ α} (hp : HonestIn h Q p) (hq : ∀ s, Q s ↔ Q' s) :
    HonestIn h Q' p := by
  have : Q = Q' := funext fun s => propext (hq s)
  exact this ▸ hp

theorem HonestIn.low {p : Parser S σ α} (hp : HonestIn h Q p) : HonestIn false Q p := by
  cases h
  · exact hp
  · exact hp.weaken

/-! ## Tuples -/

/-- Every member tells the truth from its stored state. -/
def Seq.Tell {τ β : Type} : Seq S τ β → τ → Prop
  | .nil, _ => True
  | .cons p ps, t => (∀ i, S.Tells i (p.run true i t.1.2).res (p.run true i t.1.2).inp) ∧ ps.Tell t.2

theorem steps_since {τ β : Type} (ps : Seq S τ β) : ∀ (fe cur off : Nat) (i0 i : S.Input) (t : τ), ps.Tell t →
    S.Since (decide (fe ≠ 0)) i0 i → (ps.steps true fe cur off i t).fin = .done →
    S.Since (decide ((ps.steps true fe cur off i t).firstEmpty ≠ 0)) i0 (ps.steps true fe cur off i t).inp := by
  induction ps with
  | nil => exact fun fe cur off i0 i t _ hs _ => hs
  | cons p ps ih =>
    rintro fe cur off i0 i ⟨⟨v, s⟩, t⟩ ⟨hp, hps⟩ hs
    have hp := hp i
    revert hp
    simp only [Seq.steps, Bool.true_or, if_true]
    generalize p.run true i s = o
    obtain ⟨r, j, s'⟩ := o
    intro hp
    cases r with
    | commitOk x =>
      refine ih (cur + 1 + 1) (cur + 1) _ i0 j t hps ?_
      have : decide (cur + 1 + 1 ≠ 0) = true := by simp
      rw [this]
      exact hs.step hp
    | peekOk x =>
      cases hp
      exact ih fe (cur + 1) _ i0 j t hps hs
    | peekErr e =>
      simp only
      rcases S.reset (S.checkpoint i) j with ⟨a | e', k⟩
      · exact fun x => by cases x
      · by_cases hf : fe ≠ 0
        · simp only [if_pos hf]; exact fun x => by cases x
        · simp only [if_neg hf]; exact fun x => by cases x
    | commitErr e => exact fun x => by cases x
    | abort e => exact fun x => by cases x

/-- Does the end of the members keep their states in order? -/
def SeqEnd.holds {E : Type} (h : Bool) : SeqEnd E → Bool
  | .commitErr _ => h
  | .abort _ => false
  | _ => true

structure HonestSeq (h : Bool) (D : τ → Prop) (ps : Seq S τ β) : Prop where
  init : D ps.init
  tell : ∀ t, D t → ps.Tell t
  keep : ∀ fe cur off i t, D t → (ps.steps true fe cur off i t).fin.holds h = true →
    D (ps.steps true fe cur off i t).st
  take : ∀ t, D t → D (ps.take t).2

theorem honestSeq_nil : HonestSeq h (fun _ => True) (Seq.nil (S := S)) :=
  ⟨trivial, fun _ _ => trivial, fun _ _ _ _ _ _ _ => trivial, fun _ _ => trivial⟩

theorem honestSeq_cons {D : τ → Prop} {p : Parser S σ α} {ps : Seq S τ β} (hp : HonestIn h Q p)
    (hps : HonestSeq h D ps) : HonestSeq h (fun t => Q t.1.2 ∧ D t.2) (.cons p ps) := by
  refine ⟨⟨hp.init, hps.init⟩, fun t ht => ⟨fun i => hp.run i _ ht.1, hps.tell _ ht.2⟩, ?_, ?_⟩
  · rintro fe cur off i ⟨⟨v, s⟩, t⟩ ⟨hq, hd⟩
    have hk := hp.keep i s hq
    revert hk
    simp only [Seq.steps, Bool.true_or, if_true]
    generalize p.run true i s = o
    obtain ⟨r, j, s'⟩ := o
    intro hk
    cases r with
    | commitOk x => exact fun k => ⟨hk rfl, hps.keep _ _ _ _ _ hd k⟩
    | peekOk x => exact fun k => ⟨hk rfl, hps.keep _ _ _ _ _ hd k⟩
    | peekErr e =>
      simp only
      split
      · split <;> exact fun _ => ⟨hk rfl, hd⟩
      · exact fun _ => ⟨hk rfl, hd⟩
    | commitErr e => exact fun k => ⟨hk k, hd⟩
    | abort e => exact fun k => by cases k
  · rintro ⟨⟨v, s⟩, t⟩ ⟨hq, hd⟩
    exact ⟨hq, hps.take _ hd⟩

theorem seqAddErrors_tells (parts : List (ErrPart S)) (e : Tracked S.Err) (fe off : Nat) (i0 i : S.Input) :
    S.Tells i0 (seqAddErrors (α := α) parts e fe off i).1 (seqAddErrors (α := α) parts e fe off i).2 := by
  unfold seqAddErrors
  simp only
  split
  · split <;> trivial
  · trivial

theorem seqRest_tells (p : Parser S σ α) (ps : Seq S τ β) (fe : Nat) (i0 i : S.Input) (st : SeqSt σ τ α)
    (ht : ps.Tell st.tail) (hs : S.Since (decide (fe ≠ 0)) i0 i) :
    S.Tells i0 (seqRest p ps true fe i st).res (seqRest p ps true fe i st).inp := by
  have := steps_since ps fe 0 st.offset i0 i st.tail ht hs
  unfold seqRest
  revert this
  simp only
  generalize ps.steps true fe 0 st.offset i st.tail = r
  obtain ⟨fin, fe', off', j, t'⟩ := r
  intro this
  cases fin with
  | done =>
    have this := this rfl
    simp only [seqFinish] at this ⊢
    split
    · by_cases hf : fe' ≠ 0
      · simp only [if_pos hf, decide_eq_true hf] at this ⊢; exact this
      · simp only [if_neg hf, decide_eq_false hf] at this ⊢; exact this
    · trivial
  | fail e => exact seqAddErrors_tells _ _ _ _ _ _
  | _ => trivial

theorem seqRun_tells {p : Parser S σ α} {ps : Seq S τ β} {i : S.Input} {st : SeqSt σ τ α}
    (hp : S.Tells i (p.run true i st.head).res (p.run true i st.head).inp) (ht : ps.Tell st.tail) :
    S.Tells i (seqRun p ps true i st).res (seqRun p ps true i st).inp := by
  unfold seqRun
  simp only [Bool.true_or, if_true]
  revert hp
  generalize p.run true i st.head = o
  obtain ⟨r, j, s'⟩ := o
  intro hp
  cases r with
  | commitOk x => exact seqRest_tells p ps 1 i j _ ht hp
  | peekOk x => exact seqRest_tells p ps 0 i j _ ht hp
  | _ => trivial

theorem honest_tuple {D : τ → Prop} {p : Parser S σ α} {ps : Seq S τ β} (hp : HonestIn h Q p)
    (hps : HonestSeq h D ps) : HonestIn h (fun s => Q s.head ∧ D s.tail) (tuple p ps) := by
  refine .ofMode ⟨hp.init, hps.init⟩ (fun i s q => seqRun_tells (hp.run i _ q.1) (hps.tell _ q.2)) ?_
  rintro i s ⟨q, d⟩
  have hk := hp.keep i s.head q
  revert hk
  unfold seqRun
  simp only [Bool.true_or, if_true]
  generalize p.run true i s.head = o
  obtain ⟨r, j, s'⟩ := o
  intro hk
  have rest : ∀ fe (st : SeqSt σ τ α), Q st.head → D st.tail → (seqRest p ps true fe j st).res.kept h = true →
      Q (seqRest p ps true fe j st).st.head ∧ D (seqRest p ps true fe j st).st.tail := by
    intro fe st q d
    have := hps.keep fe 0 st.offset j st.tail d
    unfold seqRest
    revert this
    simp only
    generalize ps.steps true fe 0 st.offset j st.tail = r
    obtain ⟨fin, fe', off', j', t'⟩ := r
    intro this
    cases fin with
    | done =>
      simp only [seqFinish]
      have := hps.take _ (this rfl)
      split
      · exact fun _ => ⟨q, this⟩
      · exact fun k => by cases k
    | fail e => exact fun _ => ⟨q, this rfl⟩
    | commitErr e => exact fun k => ⟨q, this k⟩
    | peekErr e => exact fun _ => ⟨q, this rfl⟩
    | abort e => exact fun k => by cases k
  cases r with
  | commitOk x => exact rest 1 _ (hk rfl) d
  | peekOk x => exact rest 0 _ (hk rfl) d
  | commitErr e => exact fun k => ⟨hk k, d⟩
  | peekErr e => exact fun k => ⟨hk rfl, d⟩
  | abort e => exact fun k => by cases k

theorem fresh_tuple {p : Parser S σ α} {ps : Seq S τ β} (hp : HonestFresh p) (hps : ps.Tell ps.init) :
    HonestFresh (tuple p ps) := .ofMode fun i => seqRun_tells (hp.run i) hps

theorem honest_with {p : Parser S σ α} {q : Parser S τ β} (hp : HonestIn h Q p) (hq : HonestIn h C q) :
    HonestIn h (fun s => Q s.head ∧ C s.tail.1.2) («with» p q) := by
  have ht : HonestIn h (fun s => Q s.head ∧ C s.tail.1.2) (pair (ignore p) q) :=
    (honest_tuple (honest_ignore hp) (honestSeq_cons hq honestSeq_nil)).congr fun s =>
      ⟨fun x => ⟨x.1, x.2.1⟩, fun x => ⟨x.1, x.2, trivial⟩⟩
  have v := honest_map ht (fun x => x.2.1)
  exact ⟨v.init, v.run, v.keep, fun i => tells_map (E' := S.Err) (ht.lazy i) _, v.committed, v.keepC⟩

theorem honest_skip {p : Parser S σ α} {q : Parser S τ β} (hp : HonestIn h Q p) (hq : HonestIn h C q) :
    HonestIn h (fun s => Q s.head ∧ C s.tail.1.2) (skip p q) := by
  have ht : HonestIn h (fun s => Q s.head ∧ C s.tail.1.2) (pair p (ignore q)) :=
    (honest_tuple hp (honestSeq_cons (honest_ignore hq) honestSeq_nil)).congr fun s =>
      ⟨fun x => ⟨x.1, x.2.1⟩, fun x => ⟨x.1, x.2, trivial⟩⟩
  have v := honest_map ht (fun x => x.1)
  exact v

theorem honest_between {D : υ → Prop} {o : Parser S σ α} {c : Parser S υ γ} {p : Parser S τ β}
    (ho : HonestIn h Q o) (hc : HonestIn h D c) (hp : HonestIn h C p) :
    HonestIn h (fun s => Q s.head ∧ C s.tail.1.2 ∧ D s.tail.2.1.2) (between o c p) :=
  (honest_parserMacro (honest_map (honest_tuple ho (honestSeq_cons hp (honestSeq_cons hc honestSeq_nil)))
    _)).congr fun s => ⟨fun x => ⟨x.1, x.2.1, x.2.2.1⟩, fun x => ⟨x.1, x.2.1, x.2.2, trivial⟩⟩

/-! ## `then` -/

theorem thenMerge_tells {c : Bool} {i j k : S.Input} {r : ParseResult α S.Err} (hc : S.Since c i j)
    (hr : S.Tells j r k) : S.Tells i (thenMerge (S := S) c r) k := by
  cases r with
  | commitOk v => exact hc.step hr
  | peekOk v =>
    cases c with
    | false => exact (hr : k = j).trans hc
    | true => cases hr; exact hc
  | peekErr e => cases c <;> trivial
  | _ => trivial

theorem thenMerge_holds {c : Bool} {r : ParseResult α S.Err} (hk : (thenMerge (S := S) c r).kept h = true) :
    r.kept h = true := by
  cases r <;> first | rfl | exact hk

theorem honest_thenP {p : Parser S σ α} {f : α → Parser S τ β} (n : τ) (hn : C n) (hp : HonestIn h Q p)
    (hf : ∀ a, HonestIn h C (f a)) : HonestIn h (fun s => Q s.1 ∧ C s.2.2) (thenP p f n) := by
  refine .ofMode ⟨hp.init, hn⟩ (fun i s q => ?_) (fun i s q => ?_)
  · have hr := hp.run i s.1 q.1
    revert hr
    simp only [if_true]
    generalize p.run true i s.1 = o
    obtain ⟨r, j, s'⟩ := o
    intro hr
    cases r with
    | commitOk v => exact thenMerge_tells (c := true) hr ((hf v).committed j s.2.2 q.2)
    | peekOk v => exact thenMerge_tells (c := false) hr ((hf v).committed j s.2.2 q.2)
    | _ => trivial
  · have hr := hp.keep i s.1 q.1
    revert hr
    simp only [if_true]
    generalize p.run true i s.1 = o
    obtain ⟨r, j, s'⟩ := o
    intro hr
    cases r with
    | commitOk v => exact fun k => ⟨hr rfl, (hf v).keepC j s.2.2 q.2 (thenMerge_holds k)⟩
    | peekOk v => exact fun k => ⟨hr rfl, (hf v).keepC j s.2.2 q.2 (thenMerge_holds k)⟩
    | _ => exact fun k => ⟨hr k, q.2⟩

theorem honest_thenPartial {p : Parser S σ α} {f : α → Parser S τ β × α} (n : τ) (hn : C n)
    (hp : HonestIn h Q p) (hf : ∀ a, HonestIn h C (f a).1) :
    HonestIn h (fun s => Q s.1 ∧ C s.2.2) (thenPartial p f n) := by
  refine .ofMode ⟨hp.init, hn⟩ (fun i s q => ?_) (fun i s q => ?_)
  · have hr := hp.run i s.1 q.1
    revert hr
    simp only [if_true]
    generalize p.run true i s.1 = o
    obtain ⟨r, j, s'⟩ := o
    intro hr
    cases r with
    | commitOk v => exact thenMerge_tells (c := true) hr ((hf v).committed j s.2.2 q.2)
    | peekOk v => exact thenMerge_tells (c := false) hr ((hf v).committed j s.2.2 q.2)
    | _ => trivial
  · have hr := hp.keep i s.1 q.1
    revert hr
    simp only [if_true]
    generalize p.run true i s.1 = o
    obtain ⟨r, j, s'⟩ := o
    intro hr
    cases r with
    | commitOk v => exact fun k => ⟨hr rfl, (hf v).keepC j s.2.2 q.2 (thenMerge_holds k)⟩
    | peekOk v => exact fun k => ⟨hr rfl, (hf v).keepC j s.2.2 q.2 (thenMerge_holds k)⟩
    | _ => exact fun k => ⟨hr k, q.2⟩

theorem honest_thenRef {p : Parser S σ α} {f : α → Parser S τ β} (n : τ) (hn : C n) (hp : HonestIn h Q p)
    (hf : ∀ a, HonestIn h C (f a)) : HonestIn h (fun s => Q s.1 ∧ C s.2.2) (thenRef p f n) := by
  refine .ofMode ⟨hp.init, hn⟩ (fun i s q => ?_) (fun i s q => ?_)
  · have hr := hp.run i s.1 q.1
    revert hr
    simp only [if_true]
    generalize p.run true i s.1 = o
    obtain ⟨r, j, s'⟩ := o
    intro hr
    cases r with
    | commitOk v =>
      exact tells_map (E' := S.Err) (thenMerge_tells (c := true) hr ((hf v).committed j s.2.2 q.2)) _
    | peekOk v =>
      exact tells_map (E' := S.Err) (thenMerge_tells (c := false) hr ((hf v).committed j s.2.2 q.2)) _
    | _ => trivial
  · have hr := hp.keep i s.1 q.1
    revert hr
    simp only [if_true]
    generalize p.run true i s.1 = o
    obtain ⟨r, j, s'⟩ := o
    intro hr
    cases r with
    | commitOk v =>
      simp only [kept_map]
      exact fun k => ⟨hr rfl, (hf v).keepC j s.2.2 q.2 (thenMerge_holds k)⟩
    | peekOk v =>
      simp only [kept_map]
      exact fun k => ⟨hr rfl, (hf v).keepC j s.2.2 q.2 (thenMerge_holds k)⟩
    | _ => exact fun k => ⟨hr k, q.2⟩

/-! ## Choices -/

theorem tells_optional (hS : S.Lawful) {p : Parser S σ α} (hm : Moves p) {i : S.Input} {s : σ}
    (hp : S.Tells i (p.run true i s).res (p.run true i s).inp) :
    S.Tells i ((optional p).run true i s).res ((optional p).run true i s).inp := by
  have hr := hm.run true i s
  revert hr hp
  simp only [optional, Parser.ofMode]
  generalize p.run true i s = o
  obtain ⟨r, j, t⟩ := o
  intro hp hr
  cases r with
  | peekErr e => simp only [hS.tryReset_eq hr]; rfl
  | _ => exact hp

theorem honest_optional (hS : S.Lawful) {p : Parser S σ α} (hm : Moves p) (hp : HonestIn h Q p) :
    HonestIn h Q (optional p) := by
  refine .ofMode hp.init (fun i s q => tells_optional hS hm (hp.run i s q)) (fun i s q => ?_)
  have hr := hm.run true i s
  have hk := hp.keep i s q
  revert hr hk
  simp only
  generalize p.run true i s = o
  obtain ⟨r, j, t⟩ := o
  intro hr hk
  cases r with
  | peekErr e => simp only [hS.tryReset_eq hr]; exact fun _ => hk rfl
  | _ => exact hk

theorem fresh_optional (hS : S.Lawful) {p : Parser S σ α} (hm : Moves p) (hp : HonestFresh p) :
    HonestFresh (optional p) := .ofMode fun i => tells_optional hS hm (hp.run i)

/-- Every alternative is honest when started afresh. -/
def Alts.Fresh {τ : Type} : Alts S α τ → Prop
  | .last p => Moves p ∧ HonestFresh p
  | .cons p ps => Moves p ∧ HonestFresh p ∧ ps.Fresh

theorem choiceFail_tells (ts : List (Tried S)) (i j : S.Input) :
    S.Tells i (choiceFail (α := α) ts) j := by cases ts <;> trivial

theorem doChoice_tells (hS : S.Lawful) {τ : Type} (ps : Alts S α τ) (hps : ps.Fresh) (bp : S.Pos) (i : S.Input)
    (tried : List (Tried S)) :
    S.Tells i (ps.doChoice bp (S.checkpoint i) tried i).res (ps.doChoice bp (S.checkpoint i) tried i).inp := by
  induction ps generalizing tried with
  | last p =>
    have hr := hps.1.run true i p.init
    have ht := hps.2.run i
    revert hr ht
    simp only [Alts.doChoice]
    generalize p.run true i p.init = o
    obtain ⟨r, j, t⟩ := o
    intro hr ht
    cases r with
    | peekErr e => simp only [hS.reset_reach hr]; exact choiceFail_tells _ _ _
    | _ => exact ht
  | cons p ps ih =>
    have hr := hps.1.run true i p.init
    have ht := hps.2.1.run i
    revert hr ht
    simp only [Alts.doChoice]
    generalize p.run true i p.init = o
    obtain ⟨r, j, t⟩ := o
    intro hr ht
    cases r with
    | peekErr e => simp only [hS.reset_reach hr]; exact ih hps.2.2 _
    | _ => exact ht

theorem honest_choice (hS : S.Lawful) {τ : Type} {ps : Alts S α τ} (hps : ps.Fresh) :
    HonestIn h (fun _ => True) (choice ps) :=
  .ofMode trivial (fun i s _ => doChoice_tells hS ps hps _ i []) (fun _ _ _ _ => trivial)

theorem honest_or (hS : S.Lawful) {p : Parser S σ α} {q : Parser S τ α} (hmp : Moves p) (hp : HonestFresh p)
    (hmq : Moves q) (hq : HonestFresh q) : HonestIn h (fun _ => True) (or p q) :=
  .ofMode trivial (fun i s _ => doChoice_tells hS (.cons p (.last q)) ⟨hmp, hp, hmq, hq⟩ _ i [])
    (fun _ _ _ _ => trivial)

theorem sliceLoop_honest (hS : S.Lawful) (all : List (Parser S σ α)) (i0 : S.Input) :
    ∀ (ps : List (Parser S σ α)) (k l : Nat) (prev : Option (Tracked S.Err)) (i : S.Input) (st : Nat × σ),
    (∀ q ∈ ps, Moves q ∧ HonestIn h Q q) → S.Reach i0 i → Q st.2 →
    S.Tells i0 (sliceLoop all true (S.checkpoint i0) ps k l prev i st).res
      (sliceLoop all true (S.checkpoint i0) ps k l prev i st).inp ∧
    ((sliceLoop all true (S.checkpoint i0) ps k l prev i st).res.kept h = true →
      Q (sliceLoop all true (S.checkpoint i0) ps k l prev i st).st.2)
  | [], k, l, prev, i, st, _, hr, q => by
    unfold sliceLoop
    split
    · exact ⟨trivial, fun _ => q⟩
    · split <;> exact ⟨trivial, fun _ => q⟩
  | p :: ps, k, l, prev, i, st, hps, hr, q => by
    have hp := hps p (List.mem_cons_self ..)
    have hps' : ∀ q ∈ ps, Moves q ∧ HonestIn h Q q := fun q hq => hps q (List.mem_cons_of_mem _ hq)
    have h1 := hp.1.run true i0 st.2
    have h2 := hp.2.run i0 st.2 q
    have h3 := hp.2.keep i0 st.2 q
    revert h1 h2 h3
    simp only [sliceLoop, hS.reset_reach hr]
    generalize p.run true i0 st.2 = o
    obtain ⟨r, j, t⟩ := o
    intro h1 h2 h3
    cases r with
    | commitOk x => exact ⟨h2, fun _ => h3 rfl⟩
    | peekOk x => exact ⟨h2, fun _ => h3 rfl⟩
    | commitErr e => exact ⟨trivial, fun k => h3 k⟩
    | abort a => exact ⟨trivial, fun k => by cases k⟩
    | peekErr e =>
      simp only
      split
      · exact sliceLoop_honest hS all i0 ps _ _ _ j _ hps' h1 (h3 rfl)
      · split
        · exact sliceLoop_honest hS all i0 ps _ _ _ j _ hps' h1 (h3 rfl)
        · exact sliceLoop_honest hS all i0 ps _ _ _ j _ hps' h1 (h3 rfl)

theorem honest_sliceChoice (hS : S.Lawful) (all : List (Parser S σ α)) (init : σ) (hi : Q init)
    (hps : ∀ q ∈ all, Moves q ∧ HonestIn h Q q) :
    HonestIn h (fun s => Q s.2) (sliceChoice all init) := by
  have key := fun i s q => sliceLoop_honest (h := h) (Q := Q) hS all i all 0 0 none i s hps (.refl i) q
  exact .ofMode hi (fun i s q => by
      simp only [sliceRun, Bool.not_true, Bool.false_and, Bool.false_eq_true, if_false]
      exact (key i s q).1)
    (fun i s q k => by
      simp only [sliceRun, Bool.not_true, Bool.false_and, Bool.false_eq_true, if_false] at k ⊢
      exact (key i s q).2 k)

structure HonestAlts (h : Bool) (D : τ → Prop) (ps : Alts S α τ) : Prop where
  init : ∀ k, D (ps.initArm k)
  tell : ∀ i s, D s → S.Tells i (ps.resume true i s).res (ps.resume true i s).inp
  keep : ∀ i s, D s → (ps.resume true i s).res.kept h = true → D (ps.resume true i s).st

theorem honestAlts_last {p : Parser S σ α} (hp : HonestIn h Q p) : HonestAlts h Q (.last p) :=
  ⟨fun _ => hp.init, hp.run, hp.keep⟩

theorem honestAlts_cons {D : τ → Prop} {p : Parser S σ α} {ps : Alts S α τ} (hp : HonestIn h Q p)
    (hps : HonestAlts h D ps) : HonestAlts h (Sum.elim Q D) (.cons p ps) := by
  refine ⟨fun k => ?_, fun i s q => ?_, fun i s q => ?_⟩
  · cases k with
    | zero => exact hp.init
    | succ k => exact hps.init k
  · cases s with
    | inl s => exact hp.run i s q
    | inr s => exact hps.tell i s q
  · cases s with
    | inl s => exact hp.keep i s q
    | inr s => exact hps.keep i s q

theorem honest_dispatch {D : τ → Prop} {ps : Alts S α τ} (k : Nat) (hps : HonestAlts h D ps) :
    HonestIn h (fun s => ∀ x, s = some x → D x) (dispatch ps k) := by
  have hd : ∀ st : Option τ, (∀ x, st = some x → D x) →
      D (match st with
        | some s => if ps.isArm k s then s else ps.initArm k
        | none => ps.initArm k) := by
    intro st hst
    cases st with
    | none => exact hps.init k
    | some s =>
      simp only
      split
      · exact hst s rfl
      · exact hps.init k
  refine .ofMode (fun x hx => by cases hx) (fun i s q => hps.tell i _ (hd s q)) (fun i s q k' x hx => ?_)
  have := hps.keep i _ (hd s q) k'
  cases hx
  exact this

end Verif
