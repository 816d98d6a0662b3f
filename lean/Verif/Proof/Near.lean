import Verif.Model.Byte
import Verif.Proof.Moves

/-!
# Parsers that never go back further than one token
-/

namespace Verif

/-- Arithmetic on the inputs of records. -/
local macro "near" : tactic => `(tactic| ((try dsimp only at *); omega))

variable {X : Strm} {σ τ υ α β γ : Type}

/-- A stream that can go back by one token: `head` is where it is, `far` how much of it was ever read. -/
structure Leash (X : Strm) where
  head : X.Input → Nat
  far : X.Input → Nat
  Good : X.Input → Prop
  ok : ∀ {i j t}, Good i → far i ≤ head i + 1 → X.uncons i = (.ok t, j) → Good j ∧ far j ≤ head i + 1 ∧ far j ≤ head j + 1
  error : ∀ {i j e}, Good i → far i ≤ head i + 1 → X.uncons i = (.error e, j) → Good j ∧ far j ≤ head i + 1 ∧ head j = head i
  reset : ∀ {i j}, Good j → far j ≤ head i + 1 → ∃ k, X.reset (X.checkpoint i) j = (none, k) ∧ Good k ∧ head k = head i ∧ far k = far j

namespace Leash

variable (W : Leash X)

/-- No more than one token ahead was read. -/
def Tame (i : X.Input) : Prop := W.Good i ∧ W.far i ≤ W.head i + 1

/-- What is known of the input after a parser that started at `i`. -/
def After (i : X.Input) (r : ParseResult α X.Err) (j : X.Input) : Prop :=
  W.Good j ∧ match r with
  | .commitOk _ => W.far j ≤ W.head j + 1
  | .peekOk _ => W.head j = W.head i ∧ W.far j ≤ W.head i + 1
  | .peekErr _ => W.far j ≤ W.head i + 1
  | .commitErr _ | .abort _ => True

/-- A parser that goes back by at most one token. -/
structure Near (p : Parser X σ α) : Prop where
  run : ∀ m i s, W.Tame i → W.After i (p.run m i s).res (p.run m i s).inp
  committed : ∀ m i s, W.Tame i → W.After i (p.committed m i s).res (p.committed m i s).inp
  stream : ∀ i, W.Tame i → W.After i (p.stream i).1 (p.stream i).2

variable {W}

theorem After.map {i j : X.Input} {r : ParseResult α X.Err} (h : W.After i r j) (f : α → β) : W.After i (r.map f) j := by
  cases r <;> exact h

theorem After.mapErr {i j : X.Input} {r : ParseResult α X.Err} (h : W.After i r j) (f : X.Err → X.Err) : W.After i (r.mapErr f) j := by
  cases r <;> exact h

/-- After a result without consumption one is where one was. -/
theorem After.tame_peek {i j : X.Input} {v : α} (h : W.After i (.peekOk v) j) : W.Tame j := ⟨h.1, by have := h.2; near⟩

theorem After.tame_commit {i j : X.Input} {v : α} (h : W.After i (.commitOk v) j) : W.Tame j := h

theorem tryReset_eq {i j : X.Input} (hg : W.Good j) (hf : W.far j ≤ W.head i + 1) (s : σ) (k : X.Input → Out X σ α) :
    ∃ l, X.tryReset (X.checkpoint i) j s k = k l ∧ W.Good l ∧ W.head l = W.head i ∧ W.far l = W.far j := by
  obtain ⟨l, h1, h2⟩ := W.reset hg hf
  exact ⟨l, by rw [Strm.tryReset, h1], h2⟩

theorem describing {run : X.Input → σ → Out X σ α} {i : X.Input} {s : σ} (h : W.After i (run i s).res (run i s).inp)
    (ae : Tracked X.Err → Tracked X.Err) :
    W.After i (Strm.describing ae run i s).res (Strm.describing ae run i s).inp := by
  unfold Strm.describing
  revert h
  generalize run i s = o
  obtain ⟨r, j, s'⟩ := o
  intro h
  cases r with
  | peekErr e =>
    dsimp only
    unfold Strm.describe
    have hg : W.Good j := h.1
    have hf : W.far j ≤ W.head i + 1 := h.2
    obtain ⟨l, h1, h2, h3, h4⟩ := W.reset hg hf
    simp only [Strm.tryReset, h1]
    rcases hu : X.uncons l with ⟨e' | t, k⟩
    · obtain ⟨h5, h6, h7⟩ := W.error h2 (by near) hu
      exact ⟨h5, by near⟩
    · obtain ⟨h5, h6, h7⟩ := W.ok h2 (by near) hu
      obtain ⟨l', h8, h9, h10, h11⟩ := W.reset (i := i) h5 (by near)
      simp only [h8]
      exact ⟨h9, by near⟩
  | _ => exact h

theorem ofMode {init : σ} {run : Bool → X.Input → σ → Out X σ α} {ae ac : Tracked X.Err → Tracked X.Err} {c : Nat}
    (h : ∀ m i s, W.Tame i → W.After i (run m i s).res (run m i s).inp) : W.Near (Parser.ofMode init run ae ac c) where
  run := h
  committed := fun _ _ _ ht => describing (h _ _ _ ht) ae
  stream := fun _ ht => describing (h _ _ _ ht) ae

theorem ofLazy {init : σ} {lazy : X.Input → ParseResult α X.Err × X.Input} {ae ac : Tracked X.Err → Tracked X.Err} {c : Nat}
    (h : ∀ i, W.Tame i → W.After i (lazy i).1 (lazy i).2) : W.Near (Parser.ofLazy init lazy ae ac c) where
  run := fun _ i _ ht => h i ht
  committed := fun _ i s ht => describing (s := s) (run := fun i s => ⟨(lazy i).1, (lazy i).2, s⟩) (h i ht) ae
  stream := fun i ht => describing (s := init) (run := fun i s => ⟨(lazy i).1, (lazy i).2, s⟩) (h i ht) ae

/-! ## Token parsers -/

theorem unconsP {i : X.Input} (ht : W.Tame i) :
    W.After i (X.unconsP i).1 (X.unconsP i).2 ∧ W.far (X.unconsP i).2 ≤ W.head i + 1 ∧ ∀ v, (X.unconsP i).1 ≠ .peekOk v := by
  unfold Strm.unconsP
  rcases hu : X.uncons i with ⟨e | t, k⟩
  · obtain ⟨h5, h6, h7⟩ := W.error ht.1 ht.2 hu
    unfold Strm.wrapStreamError
    dsimp only
    split
    · exact ⟨⟨h5, trivial⟩, h6, fun v h => nomatch h⟩
    · exact ⟨⟨h5, h6⟩, h6, fun v h => nomatch h⟩
  · obtain ⟨h5, h6, h7⟩ := W.ok ht.1 ht.2 hu
    exact ⟨⟨h5, h7⟩, h6, fun v h => nomatch h⟩

theorem satisfyImpl (f : X.Tok → Option α) {i : X.Input} (ht : W.Tame i) :
    W.After i (Verif.satisfyImpl X f i).1 (Verif.satisfyImpl X f i).2 := by
  have h := W.unconsP ht
  unfold Verif.satisfyImpl
  revert h
  generalize X.unconsP i = x
  obtain ⟨r, j⟩ := x
  intro h
  cases r with
  | commitOk c =>
    dsimp only
    cases f c with
    | some v => exact h.1
    | none => exact ⟨h.1.1, h.2.1⟩
  | peekOk c => exact (h.2.2 c rfl).elim
  | _ => exact h.1

theorem any : W.Near (Verif.any X) := ofLazy fun _ ht => (unconsP ht).1
theorem satisfy (f : X.Tok → Bool) : W.Near (Verif.satisfy X f) := ofLazy fun _ ht => satisfyImpl _ ht
theorem satisfyMap (f : X.Tok → Option α) : W.Near (Verif.satisfyMap X f) := ofLazy fun _ ht => satisfyImpl _ ht
theorem token [DecidableEq X.Tok] (c : X.Tok) : W.Near (Verif.token X c) := ofLazy fun _ ht => satisfyImpl _ ht
theorem oneOf [DecidableEq X.Tok] (ts : List X.Tok) : W.Near (Verif.oneOf X ts) := ofLazy fun _ ht => satisfyImpl _ ht
theorem noneOf [DecidableEq X.Tok] (ts : List X.Tok) : W.Near (Verif.noneOf X ts) := ofLazy fun _ ht => satisfyImpl _ ht
theorem value (v : α) : W.Near (Verif.value X v) := ofLazy fun _ ht => ⟨ht.1, rfl, ht.2⟩
theorem produce (f : Unit → α) : W.Near (Verif.produce X f) := ofLazy fun _ ht => ⟨ht.1, rfl, ht.2⟩
theorem position : W.Near (Verif.position X) := ofLazy fun _ ht => ⟨ht.1, rfl, ht.2⟩
theorem unexpected (x : Info X.Tok X.Rng) : W.Near (Verif.unexpected X α x) := ofLazy fun _ ht => ht

theorem tokensLoop (cmp : τ → X.Tok → Bool) (start : X.Pos) (bad : X.Tok → X.Err) (ts : List τ) (b : Bool) {i₀ i : X.Input}
    (ht : W.Tame i) (hb : b = false → i = i₀) :
    W.After i₀ (Verif.tokensLoop X cmp start bad ts b i).1 (Verif.tokensLoop X cmp start bad ts b i).2 := by
  induction ts generalizing b i with
  | nil =>
    unfold Verif.tokensLoop
    cases b
    · cases hb rfl; exact ⟨ht.1, rfl, ht.2⟩
    · exact ht
  | cons t ts ih =>
    have h := W.unconsP ht
    unfold Verif.tokensLoop
    revert h
    generalize X.unconsP i = x
    obtain ⟨r, j⟩ := x
    intro h
    cases r with
    | commitOk c =>
      dsimp only
      split
      · exact ih _ h.1 (fun h => nomatch h)
      · cases b
        · cases hb rfl; exact ⟨h.1.1, h.2.1⟩
        · exact ⟨h.1.1, trivial⟩
    | peekOk c => exact (h.2.2 c rfl).elim
    | peekErr e =>
      dsimp only
      cases b
      · cases hb rfl; exact ⟨h.1.1, h.2.1⟩
      · exact ⟨h.1.1, trivial⟩
    | commitErr e => exact ⟨h.1.1, trivial⟩
    | abort e => exact ⟨h.1.1, trivial⟩

theorem tokens (cmp : τ → X.Tok → Bool) (x : Info X.Tok X.Rng) (ts : List τ) : W.Near (Verif.tokens X cmp x ts) :=
  ofLazy fun _ ht => (tokensLoop cmp _ _ ts false ht fun _ => rfl).map _

theorem tokensCmp (ts : List τ) (cmp : τ → X.Tok → Bool) : W.Near (Verif.tokensCmp X ts cmp) :=
  ofLazy fun _ ht => (tokensLoop cmp _ _ ts false ht fun _ => rfl).map _

theorem eof : W.Near (Verif.eof X) := by
  refine ofLazy fun i ht => ?_
  dsimp only
  have key : ∀ j, W.Good j → W.far j ≤ W.head i + 1 → W.After (α := Unit) i
      (match X.reset (X.checkpoint i) j with
        | (some e', k) => ((.commitErr e', k) : ParseResult Unit X.Err × X.Input)
        | (none, k) => (.peekErr (Tracked.of (X.E.empty (X.position k))), k)).1
      (match X.reset (X.checkpoint i) j with
        | (some e', k) => ((.commitErr e', k) : ParseResult Unit X.Err × X.Input)
        | (none, k) => (.peekErr (Tracked.of (X.E.empty (X.position k))), k)).2 := by
    intro j h1 h2
    obtain ⟨k, h3, h4, h5, h6⟩ := W.reset h1 h2
    rw [h3]
    exact ⟨h4, by near⟩
  rcases hu : X.uncons i with ⟨e | t, k⟩
  · obtain ⟨h5, h6, h7⟩ := W.error ht.1 ht.2 hu
    dsimp only
    split
    · exact ⟨h5, h7, h6⟩
    · exact key k h5 h6
  · obtain ⟨h5, h6, h7⟩ := W.ok ht.1 ht.2 hu
    exact key k h5 h6

/-! ## Wrappers -/

theorem map {p : Parser X σ α} (h : W.Near p) (f : α → β) : W.Near (Verif.map p f) := ofMode fun m i s ht => (h.run m i s ht).map f

theorem ignore {p : Parser X σ α} (h : W.Near p) : W.Near (Verif.ignore p) where
  run := fun m i s ht => (h.run m i s ht).map _
  committed := fun m i s ht => describing (run := fun i s => (p.run m i s).mapRes (·.map fun _ => ())) ((h.run m i s ht).map _) _
  stream := fun i ht => describing (run := fun i s => (p.run true i s).mapRes (·.map fun _ => ())) ((h.run true i _ ht).map _) _

theorem boxed {p : Parser X σ α} (h : W.Near p) : W.Near (Verif.boxed p) := ofMode h.run
theorem parserMacro {p : Parser X σ α} (h : W.Near p) : W.Near (Verif.parserMacro p) := ofMode h.run
theorem parserMacroUnit {p : Parser X σ α} (h : W.Near p) : W.Near (Verif.parserMacroUnit p) := ofMode fun m i _ ht => h.run m i p.init ht
theorem expected {p : Parser X σ α} (h : W.Near p) (x : Info X.Tok X.Rng) : W.Near (Verif.expected p x) := ofMode h.run
theorem opaqueP {p : Parser X σ α} (h : W.Near p) : W.Near (Verif.opaqueP p) where
  run := h.run
  committed := fun _ _ _ ht => describing (h.run _ _ _ ht) _
  stream := h.stream
theorem lazyP {f : Unit → Parser X σ α} (h : W.Near (f ())) : W.Near (Verif.lazyP f) := ⟨h.run, h.run, h.stream⟩
theorem anyPartialState {p : Parser X σ α} (h : W.Near p) : W.Near (Verif.anyPartialState p) := by
  have h1 := ofMode (W := W) (init := none) (run := (Verif.anyPartialState p).run) (ae := p.addError) (ac := p.addCommitted) (c := p.count) ?_
  · exact ⟨h1.run, h1.committed, h1.stream⟩
  intro m i s ht
  unfold Verif.anyPartialState
  dsimp only [Parser.ofMode]
  cases s with
  | some c => exact h.run m i c ht
  | none =>
    have h1 := h.run m i p.init ht
    revert h1
    generalize p.run m i p.init = o
    obtain ⟨r, j, s'⟩ := o
    intro h1
    cases r <;> exact h1
theorem spanned {Q : Type} [DecidableEq Q] (f : X.Pos → Span Q) (g : Span Q → X.Pos) {p : Parser X σ α} (h : W.Near p) :
    W.Near (Verif.spanned f g p) := ofMode fun m i s ht => (h.run m i s ht).mapErr _
theorem silent {p : Parser X σ α} (h : W.Near p) : W.Near (Verif.silent p) := ofMode fun m i s ht => (h.run m i s ht).mapErr _

theorem message {p : Parser X σ α} (h : W.Near p) (x : Info X.Tok X.Rng) : W.Near (Verif.message p x) := by
  refine ofMode fun m i s ht => ?_
  have h1 := h.run m i s ht
  dsimp only
  revert h1
  generalize p.run m i s = o
  obtain ⟨r, j, s'⟩ := o
  intro h1
  cases r <;> exact h1

theorem flatMap {p : Parser X σ α} (h : W.Near p) (f : α → Except X.Err β) : W.Near (Verif.flatMap p f) := by
  refine ofMode fun m i s ht => ?_
  have h1 := h.run m i s ht
  dsimp only [Out.mapRes]
  revert h1
  generalize p.run m i s = o
  obtain ⟨r, j, s'⟩ := o
  intro h1
  cases r with
  | peekOk x =>
    dsimp only
    cases f x with
    | ok y => exact h1
    | error e => exact ⟨h1.1, h1.2.2⟩
  | commitOk x =>
    dsimp only
    cases f x with
    | ok y => exact h1
    | error e => exact ⟨h1.1, trivial⟩
  | _ => exact h1

theorem bottom (F : Parser X σ α → Parser X σ α) (init : σ) : W.Near (recur F init 0) :=
  ofMode fun _ _ _ ht => ⟨ht.1, trivial⟩

/-! ## Sequences -/

/-- The members of a sequence. -/
def NearSeq (W : Leash X) (ps : Seq X τ β) : Prop := ∀ q, ps.Mem q → W.Near q.2.2

theorem steps {ps : Seq X τ β} (h : NearSeq W ps) (i₀ : X.Input) (m : Bool) (fe cur off : Nat) (i : X.Input) (st : τ) (ht : W.Tame i)
    (h0 : fe = 0 → W.head i = W.head i₀) :
    W.Good (ps.steps m fe cur off i st).inp ∧
    match (ps.steps m fe cur off i st).fin with
    | .done | .fail _ => W.Tame (ps.steps m fe cur off i st).inp ∧
        ((ps.steps m fe cur off i st).firstEmpty = 0 → W.head (ps.steps m fe cur off i st).inp = W.head i₀)
    | .peekErr _ => False
    | .commitErr _ | .abort _ => True := by
  induction ps generalizing m fe cur off i with
  | nil => exact ⟨ht.1, ht, h0⟩
  | cons p ps ih =>
    obtain ⟨⟨v, s⟩, t⟩ := st
    have h1 := (h ⟨_, _, p⟩ (.inl rfl)).run m i s ht
    have ih := ih (fun q hq => h q (.inr hq))
    unfold Seq.steps
    split
    · revert h1
      generalize p.run m i s = o
      obtain ⟨r, j, s'⟩ := o
      intro h1
      dsimp only
      cases r with
      | commitOk x => exact ih _ _ _ _ _ _ h1 (fun h => nomatch h)
      | peekOk x => exact ih _ _ _ _ _ _ h1.tame_peek (fun h => h1.2.1.trans (h0 h))
      | peekErr e =>
        obtain ⟨k, h3, h4, h5, h6⟩ := W.reset h1.1 h1.2
        dsimp only
        rw [h3]
        have hf : W.far j ≤ W.head i + 1 := h1.2
        exact ⟨h4, ⟨h4, by near⟩, fun h => h5.trans (h0 h)⟩
      | commitErr e => exact ⟨h1.1, trivial⟩
      | abort a => exact ⟨h1.1, trivial⟩
    · exact ih _ _ _ _ _ _ ht h0

theorem seqRest {p : Parser X σ α} {ps : Seq X τ β} (h : NearSeq W ps) {i₀ : X.Input} (m : Bool) (fe : Nat) {i : X.Input}
    (st : SeqSt σ τ α) (ht : W.Tame i) (h0 : fe = 0 → W.head i = W.head i₀) :
    W.After i₀ (seqRest p ps m fe i st).res (seqRest p ps m fe i st).inp := by
  have h1 := steps h i₀ m fe 0 st.offset i st.tail ht h0
  unfold Verif.seqRest
  revert h1
  generalize ps.steps m fe 0 st.offset i st.tail = o
  obtain ⟨f, fe', off, j, s'⟩ := o
  intro h1
  dsimp only
  cases f with
  | done =>
    dsimp only
    unfold seqFinish
    dsimp only
    split
    · obtain ⟨h2, h3, h4⟩ := h1
      dsimp only at h3 h4
      by_cases hz : fe' = 0
      · have := h4 hz
        have := h3.2
        rw [if_neg (not_not_intro hz)]
        exact ⟨h2, h4 hz, by near⟩
      · rw [if_pos hz]; exact h3
    · exact ⟨h1.1, trivial⟩
  | fail e =>
    obtain ⟨h2, h3, h4⟩ := h1
    dsimp only at h3 h4
    dsimp only
    unfold seqAddErrors
    dsimp only
    by_cases hz : fe' = 0
    · have := h4 hz
      have := h3.2
      rw [if_neg (not_not_intro hz)]
      exact ⟨h2, by near⟩
    · rw [if_pos hz]
      rcases hu : X.uncons j with ⟨e | t, k⟩
      · exact ⟨(W.error h3.1 h3.2 hu).1, trivial⟩
      · exact ⟨(W.ok h3.1 h3.2 hu).1, trivial⟩
  | peekErr e => exact h1.2.elim
  | commitErr e => exact ⟨h1.1, trivial⟩
  | abort e => exact ⟨h1.1, trivial⟩

theorem tuple {p : Parser X σ α} {ps : Seq X τ β} (hp : W.Near p) (h : NearSeq W ps) : W.Near (Verif.tuple p ps) := by
  refine ofMode fun m i st ht => ?_
  have h1 := hp.run m i st.head ht
  unfold seqRun
  split
  · revert h1
    generalize p.run m i st.head = o
    obtain ⟨r, j, s'⟩ := o
    intro h1
    dsimp only
    cases r with
    | commitOk x => exact seqRest h _ _ _ h1 (fun h => nomatch h)
    | peekOk x => exact seqRest h _ _ _ h1.tame_peek (fun _ => h1.2.1)
    | _ => exact h1
  · exact seqRest h _ _ _ ht (fun _ => rfl)

theorem pair {p : Parser X σ α} {q : Parser X τ β} (hp : W.Near p) (hq : W.Near q) : W.Near (Verif.pair p q) := by
  refine tuple hp fun r hr => ?_
  rcases hr with rfl | hr
  · exact hq
  · cases hr

theorem «with» {p : Parser X σ α} {q : Parser X τ β} (hp : W.Near p) (hq : W.Near q) : W.Near (Verif.with p q) := by
  have h := pair (ignore hp) hq
  exact ⟨fun m i s ht => (h.run m i s ht).map _,
    fun m i s ht => describing (run := fun i s => ((Verif.pair (Verif.ignore p) q).run m i s).mapRes (·.map fun x => x.2.1))
      ((h.run m i s ht).map _) _,
    fun i ht => describing (run := fun i s => ((Verif.pair (Verif.ignore p) q).run true i s).mapRes (·.map fun x => x.2.1))
      ((h.run true i _ ht).map _) _⟩

theorem skip {p : Parser X σ α} {q : Parser X τ β} (hp : W.Near p) (hq : W.Near q) : W.Near (Verif.skip p q) :=
  ofMode fun m i s ht => ((pair hp (ignore hq)).run m i s ht).map _

theorem between {o : Parser X σ α} {c : Parser X υ γ} {p : Parser X τ β} (ho : W.Near o) (hc : W.Near c) (hp : W.Near p) :
    W.Near (Verif.between o c p) := by
  refine parserMacro (map (tuple ho fun r hr => ?_) _)
  rcases hr with rfl | rfl | hr
  · exact hp
  · exact hc
  · cases hr

theorem After.merge {i j k : X.Input} {b : Bool} {r : ParseResult β X.Err} (h0 : b = false → W.head j = W.head i) (h : W.After j r k) :
    W.After i (thenMerge b r) k := by
  cases r with
  | peekOk x =>
    cases b
    · have := h0 rfl
      have := h.2
      exact ⟨h.1, by near, show W.far k ≤ W.head i + 1 by near⟩
    · exact h.tame_peek
  | commitOk x => exact h
  | peekErr e =>
    cases b
    · have := h0 rfl
      have := h.2
      exact ⟨h.1, show W.far k ≤ W.head i + 1 by near⟩
    · exact ⟨h.1, trivial⟩
  | commitErr e => exact h
  | abort a => exact h

theorem thenP {p : Parser X σ α} {f : α → Parser X τ β} (hp : W.Near p) (hf : ∀ a, W.Near (f a)) (n : τ) : W.Near (Verif.thenP p f n) := by
  refine ofMode fun m i s ht => ?_
  have h1 := hp.run m i s.1 ht
  dsimp only
  split
  · rename_i c _
    cases m
    · obtain ⟨b, c⟩ := c
      cases b
      · exact ((hf c).committed false i s.2.2 ht).merge (fun _ => rfl)
      · exact ((hf c).committed false i s.2.2 ht).merge (fun h => nomatch h)
    · contradiction
  · revert h1
    generalize p.run m i s.1 = o
    obtain ⟨r, j, s'⟩ := o
    intro h1
    dsimp only
    cases r with
    | commitOk x => exact ((hf x).committed true j s.2.2 h1).merge (fun h => nomatch h)
    | peekOk x => exact ((hf x).committed true j s.2.2 h1.tame_peek).merge (fun _ => h1.2.1)
    | _ => exact h1

/-! ## Choices -/

/-- The alternatives of a choice. -/
def NearAlts (W : Leash X) (ps : Alts X α σ) : Prop := ∀ q, ps.Mem q → W.Near q.2

theorem doChoice {ps : Alts X α σ} (h : NearAlts W ps) (bp : X.Pos) (i₀ : X.Input) (tried : List (Tried X)) (i : X.Input)
    (ht : W.Tame i) (h0 : W.head i = W.head i₀) :
    W.After i₀ (ps.doChoice bp (X.checkpoint i₀) tried i).res (ps.doChoice bp (X.checkpoint i₀) tried i).inp := by
  have far : ∀ {i : X.Input}, W.head i = W.head i₀ → ∀ {r : ParseResult α X.Err} {j : X.Input}, W.After i r j → W.After i₀ r j := by
    intro i h0 r j h
    cases r with
    | peekOk x => exact ⟨h.1, by have := h.2; near⟩
    | peekErr e => exact ⟨h.1, by have := h.2; near⟩
    | _ => exact h
  induction ps generalizing tried i with
  | last p =>
    have h1 := far h0 ((h ⟨_, p⟩ rfl).run true i p.init ht)
    unfold Alts.doChoice
    revert h1
    generalize p.run true i p.init = o
    obtain ⟨r, j, s'⟩ := o
    intro h1
    dsimp only
    cases r with
    | peekErr e =>
      obtain ⟨k, h3, h4, h5, h6⟩ := W.reset h1.1 h1.2
      dsimp only
      rw [h3]
      have hf : W.far j ≤ W.head i₀ + 1 := h1.2
      refine ⟨h4, ?_⟩
      dsimp only
      generalize tried ++ [⟨p.addError, e⟩] = ts
      cases ts
      · trivial
      · dsimp only [choiceFail]; near
    | _ => exact h1
  | cons p ps ih =>
    have h1 := far h0 ((h ⟨_, p⟩ (.inl rfl)).run true i p.init ht)
    unfold Alts.doChoice
    revert h1
    generalize p.run true i p.init = o
    obtain ⟨r, j, s'⟩ := o
    intro h1
    dsimp only
    cases r with
    | peekErr e =>
      obtain ⟨k, h3, h4, h5, h6⟩ := W.reset h1.1 h1.2
      dsimp only
      rw [h3]
      have hf : W.far j ≤ W.head i₀ + 1 := h1.2
      exact ih (fun q hq => h q (.inr hq)) _ k ⟨h4, by near⟩ h5
    | _ => exact h1

theorem resume {ps : Alts X α σ} (h : NearAlts W ps) (m : Bool) (i : X.Input) (s : σ) (ht : W.Tame i) :
    W.After i (ps.resume m i s).res (ps.resume m i s).inp := by
  induction ps with
  | last p => exact (h ⟨_, p⟩ rfl).run m i s ht
  | cons p ps ih =>
    cases s with
    | inl s => exact (h ⟨_, p⟩ (.inl rfl)).run m i s ht
    | inr s => exact ih (fun q hq => h q (.inr hq)) s

theorem choiceRun {ps : Alts X α σ} (h : NearAlts W ps) (m : Bool) (i : X.Input) (s : Option σ) (ht : W.Tame i) :
    W.After i (Verif.choiceRun ps m i s).res (Verif.choiceRun ps m i s).inp := by
  unfold Verif.choiceRun
  split
  · exact resume h m i _ ht
  · exact doChoice h _ i _ i ht rfl

theorem choice {ps : Alts X α σ} (h : NearAlts W ps) : W.Near (Verif.choice ps) := ofMode (choiceRun h)

theorem or {p : Parser X σ α} {q : Parser X τ α} (hp : W.Near p) (hq : W.Near q) : W.Near (Verif.or p q) := by
  refine ofMode (choiceRun fun r hr => ?_)
  rcases hr with rfl | rfl
  · exact hp
  · exact hq

theorem optional {p : Parser X σ α} (h : W.Near p) : W.Near (Verif.optional p) := by
  refine ofMode fun m i s ht => ?_
  have h1 := h.run m i s ht
  dsimp only
  revert h1
  generalize p.run m i s = o
  obtain ⟨r, j, s'⟩ := o
  intro h1
  dsimp only
  cases r with
  | peekErr e =>
    obtain ⟨l, h2, h3, h4, h5⟩ := tryReset_eq (W := W) h1.1 h1.2 s' (fun j => (⟨.peekOk none, j, s'⟩ : Out X σ (Option α)))
    dsimp only
    rw [h2]
    have hf : W.far j ≤ W.head i + 1 := h1.2
    exact ⟨h3, h4, by near⟩
  | _ => exact h1

/-! ## Repetition -/

/-- The state of a repetition that began at `i₀`. -/
def Going (W : Leash X) (i₀ : X.Input) (it : IterS X σ) : Prop :=
  W.Good it.inp ∧ match it.state with
  | .ok | .peekErr _ => W.Tame it.inp ∧ (it.committed = false → W.head it.inp = W.head i₀)
  | .commitErr _ | .abort _ => True

theorem iterNext {p : Parser X σ α} (h : W.Near p) {i₀ : X.Input} {it : IterS X σ} (ht : W.Tame it.inp)
    (h0 : it.committed = false → W.head it.inp = W.head i₀) (hs : it.state = .ok) :
    Going W i₀ (Verif.iterNext p it).2 ∧ ∀ v, (Verif.iterNext p it).1 = some v → (Verif.iterNext p it).2.state = .ok := by
  have h1 := h.run it.first it.inp it.st ht
  unfold Verif.iterNext
  revert h1
  generalize p.run it.first it.inp it.st = o
  obtain ⟨r, j, s'⟩ := o
  intro h1
  dsimp only
  cases r with
  | commitOk v =>
    refine ⟨⟨h1.1, ?_⟩, fun _ _ => hs⟩
    dsimp only
    rw [hs]
    exact ⟨h1, fun h => nomatch h⟩
  | peekOk v =>
    refine ⟨⟨h1.1, ?_⟩, fun _ _ => hs⟩
    dsimp only
    rw [hs]
    exact ⟨h1.tame_peek, fun h => h1.2.1.trans (h0 h)⟩
  | peekErr e =>
    obtain ⟨k, h3, h4, h5, h6⟩ := W.reset h1.1 h1.2
    dsimp only
    rw [h3]
    have hf : W.far j ≤ W.head it.inp + 1 := h1.2
    exact ⟨⟨h4, ⟨h4, by near⟩, fun h => h5.trans (h0 h)⟩, fun v h => nomatch h⟩
  | commitErr e => exact ⟨⟨h1.1, trivial⟩, fun v h => nomatch h⟩
  | abort a => exact ⟨⟨h1.1, trivial⟩, fun v h => nomatch h⟩

theorem iterExtend {p : Parser X σ α} (h : W.Near p) (f : α → Option β) (n : Nat) {i₀ : X.Input} (lim : Option Nat) (els : List β)
    (it : IterS X σ) (ht : W.Tame it.inp) (h0 : it.committed = false → W.head it.inp = W.head i₀) (hs : it.state = .ok) :
    Going W i₀ (Verif.iterExtend p f n lim els it).2 := by
  have here : Going W i₀ it := ⟨ht.1, by rw [hs]; exact ⟨ht, h0⟩⟩
  induction n generalizing lim els it with
  | zero =>
    by_cases hl : lim = some 0
    · subst hl; rw [iterExtend_lim]; exact here
    · rw [iterExtend_fuel _ _ hl]; exact ⟨ht.1, trivial⟩
  | succ n ih =>
    by_cases hl : lim = some 0
    · subst hl; rw [iterExtend_lim]; exact here
    · rw [iterExtend_succ _ _ _ hl]
      have h1 := iterNext h ht h0 hs
      revert h1
      generalize Verif.iterNext p it = x
      obtain ⟨o, it2⟩ := x
      intro h1
      cases o with
      | none => exact h1.1
      | some v =>
        have h2 := h1.2 v rfl
        have h3 := h1.1.2
        dsimp only at h2 h3
        rw [h2] at h3
        dsimp only
        split
        · exact ih _ _ _ h3.1 h3.2 h2 h1.1
        · exact h1.1

theorem Going.fast {i₀ : X.Input} {it : IterS X σ} (h : Going W i₀ it) (v : List α) : W.After i₀ (it.intoResultFast v).1 it.inp := by
  have key : W.Tame it.inp ∧ (it.committed = false → W.head it.inp = W.head i₀) →
      W.After i₀ (if it.committed then .commitOk v else .peekOk v : ParseResult (List α) X.Err) it.inp := by
    intro ⟨h1, h2⟩
    cases hc : it.committed
    · have := h2 hc
      have := h1.2
      exact ⟨h1.1, h2 hc, by near⟩
    · exact h1
  obtain ⟨hg, h⟩ := h
  unfold IterS.intoResultFast
  cases hs : it.state with
  | ok => rw [hs] at h; exact key h
  | peekErr e => rw [hs] at h; exact key h
  | commitErr e => exact ⟨hg, trivial⟩
  | abort a => exact ⟨hg, trivial⟩

theorem Going.fail {i₀ : X.Input} {it : IterS X σ} (h : Going W i₀ it) (err : X.SErr) :
    W.After i₀ (it.fail err : ParseResult α X.Err) it.inp := by
  have key : ∀ e : X.Err, W.Tame it.inp ∧ (it.committed = false → W.head it.inp = W.head i₀) →
      W.After i₀ (if it.committed then .commitErr e else .peekErr (Tracked.of e) : ParseResult α X.Err) it.inp := by
    intro e ⟨h1, h2⟩
    cases hc : it.committed
    · have := h2 hc
      have := h1.2
      exact ⟨h1.1, show W.far it.inp ≤ W.head i₀ + 1 by near⟩
    · exact ⟨h1.1, trivial⟩
  obtain ⟨hg, h⟩ := h
  unfold IterS.fail
  cases hs : it.state with
  | ok => rw [hs] at h; exact key _ h
  | peekErr e => rw [hs] at h; exact key _ h
  | commitErr e => exact ⟨hg, trivial⟩
  | abort a => exact ⟨hg, trivial⟩

theorem many {p : Parser X σ α} (h : W.Near p) : W.Near (Verif.many p) :=
  ofMode fun m i s ht => (iterExtend h some _ none s.1 (IterS.new m i s.2) ht (fun _ => rfl) rfl).fast _

theorem many1Rest {p : Parser X σ α} (h : W.Near p) {i₀ : X.Input} (m : Bool) (i : X.Input) (s : Many1St σ α) (ht : W.Tame i)
    (h0 : s.committed = false → W.head i = W.head i₀) :
    W.After i₀ (Verif.many1Rest p m i s).res (Verif.many1Rest p m i s).inp :=
  (iterExtend h some _ none s.elements ⟨i, s.committed, .ok, s.child, m⟩ ht h0 rfl).fast _

theorem many1 {p : Parser X σ α} (h : W.Near p) : W.Near (Verif.many1 p) := by
  refine ofMode fun m i s ht => ?_
  have h1 := h.run m i s.child ht
  dsimp only
  split
  · revert h1
    generalize p.run m i s.child = o
    obtain ⟨r, j, s'⟩ := o
    intro h1
    dsimp only
    cases r with
    | commitOk x => exact many1Rest h _ _ _ h1 (fun h => nomatch h)
    | peekOk x => exact many1Rest h _ _ _ h1.tame_peek (fun _ => h1.2.1)
    | _ => exact h1
  · exact many1Rest h _ _ _ ht (fun _ => rfl)

theorem countMinMax (lo hi : Nat) {p : Parser X σ α} (h : W.Near p) : W.Near (Verif.countMinMax lo hi p) := by
  refine ofMode fun m i s ht => ?_
  have h1 := iterExtend (i₀ := i) h some (hi - s.count + 1) (some (hi - s.count)) s.elements (IterS.new m i s.child) ht (fun _ => rfl) rfl
  dsimp only
  split
  · exact ⟨ht.1, trivial⟩
  · split
    · exact h1.fail _
    · exact h1.fast _

theorem count (n : Nat) {p : Parser X σ α} (h : W.Near p) : W.Near (Verif.count n p) := parserMacroUnit (countMinMax 0 n h)
theorem skipMany {p : Parser X σ α} (h : W.Near p) : W.Near (Verif.skipMany p) := parserMacro (ignore (many (ignore h)))
theorem skipMany1 {p : Parser X σ α} (h : W.Near p) : W.Near (Verif.skipMany1 p) := parserMacro (ignore (many1 (ignore h)))

theorem After.combine {i j k : X.Input} {c : Commit Unit} {r : ParseResult α X.Err} (h0 : c = .peek () → W.head j = W.head i)
    (h : W.After j r k) : W.After i (ParseResult.combineCommit c fun _ => r) k := by
  cases c with
  | peek u =>
    have := h0 rfl
    cases r with
    | peekOk x => exact ⟨h.1, h.2.1.trans this, show W.far k ≤ W.head i + 1 from this ▸ h.2.2⟩
    | peekErr e => exact ⟨h.1, show W.far k ≤ W.head i + 1 from this ▸ h.2⟩
    | _ => exact h
  | commit u =>
    cases r with
    | peekOk x => exact h.tame_peek
    | peekErr e => exact ⟨h.1, trivial⟩
    | _ => exact h

theorem sepBy1 {p : Parser X σ α} {sep : Parser X τ β} (hp : W.Near p) (hs : W.Near sep) : W.Near (Verif.sepBy1 p sep) := by
  have hr := «with» (boxed hs) (boxed hp)
  refine ofMode fun m i s ht => ?_
  have h1 := hp.run m i s.2.2.tail.1.2 ht
  dsimp only
  split
  · rename_i c _
    exact ((iterExtend (i₀ := i) hr some _ none _ (IterS.new m i _) ht (fun _ => rfl) rfl).fast _).combine fun _ => rfl
  · revert h1
    generalize p.run m i s.2.2.tail.1.2 = o
    obtain ⟨r, j, s'⟩ := o
    intro h1
    dsimp only
    cases r with
    | commitOk x =>
      exact ((iterExtend (i₀ := j) hr some _ none _ (IterS.new m j _) h1 (fun _ => rfl) rfl).fast _).combine (c := .commit ()) fun h => nomatch h
    | peekOk x =>
      exact ((iterExtend (i₀ := j) hr some _ none _ (IterS.new m j _) h1.tame_peek (fun _ => rfl) rfl).fast _).combine (c := .peek ()) fun _ => h1.2.1
    | _ => exact h1

theorem emptyList : W.Near (Verif.emptyList X α) := ofLazy fun _ ht => ⟨ht.1, rfl, ht.2⟩

theorem sepBy {p : Parser X σ α} {sep : Parser X τ β} (hp : W.Near p) (hs : W.Near sep) : W.Near (Verif.sepBy p sep) :=
  ofMode (or (sepBy1 (boxed hp) (boxed hs)) emptyList).run

theorem sepEndBy1 {p : Parser X σ α} {sep : Parser X τ β} (hp : W.Near p) (hs : W.Near sep) : W.Near (Verif.sepEndBy1 p sep) := by
  have hr := «with» (boxed hs) (optional (boxed hp))
  refine ofMode fun m i s ht => ?_
  have h1 := hp.run m i s.2.2.tail.1.2 ht
  dsimp only
  split
  · rename_i c _
    exact ((iterExtend (i₀ := i) hr id _ none _ (IterS.new m i _) ht (fun _ => rfl) rfl).fast _).combine fun _ => rfl
  · revert h1
    generalize p.run m i s.2.2.tail.1.2 = o
    obtain ⟨r, j, s'⟩ := o
    intro h1
    dsimp only
    cases r with
    | commitOk x =>
      exact ((iterExtend (i₀ := j) hr id _ none _ (IterS.new m j _) h1 (fun _ => rfl) rfl).fast _).combine (c := .commit ()) fun h => nomatch h
    | peekOk x =>
      exact ((iterExtend (i₀ := j) hr id _ none _ (IterS.new m j _) h1.tame_peek (fun _ => rfl) rfl).fast _).combine (c := .peek ()) fun _ => h1.2.1
    | _ => exact h1

theorem sepEndBy {p : Parser X σ α} {sep : Parser X τ β} (hp : W.Near p) (hs : W.Near sep) : W.Near (Verif.sepEndBy p sep) :=
  ofMode (or (sepEndBy1 (boxed hp) (boxed hs)) emptyList).run

theorem chainl1Loop {t : Parser X τ ((α → α → α) × α × Unit)} (h : W.Near t) {i₀ : X.Input} (n : Nat) (m : Bool) (l : α) (c : Commit Unit)
    (i : X.Input) (s : τ) (ht : W.Tame i) (h0 : c = .peek () → W.head i = W.head i₀) :
    W.After i₀ (Verif.chainl1Loop t n m l c i s).res (Verif.chainl1Loop t n m l c i s).inp := by
  induction n generalizing m l c i s with
  | zero => exact ⟨ht.1, trivial⟩
  | succ n ih =>
    have h1 := h.run m i s ht
    unfold Verif.chainl1Loop
    revert h1
    generalize t.run m i s = o
    obtain ⟨r, j, s'⟩ := o
    intro h1
    cases r with
    | commitOk x => exact ih _ _ _ _ _ h1 (by cases c <;> intro h <;> nomatch h)
    | peekOk x => exact ih _ _ _ _ _ h1.tame_peek (by
        cases c with
        | peek u => intro _; exact h1.2.1.trans (h0 rfl)
        | commit u => intro h; nomatch h)
    | peekErr e =>
      obtain ⟨k, h3, h4, h5, h6⟩ := W.reset h1.1 h1.2
      have hf : W.far j ≤ W.head i + 1 := h1.2
      dsimp only [ParseResult.toStd]
      rw [Strm.tryReset, h3]
      cases c with
      | peek u =>
        have := h0 rfl
        exact ⟨h4, by dsimp only [ParseResult.ofStd]; near, by near⟩
      | commit u => exact ⟨h4, by dsimp only [ParseResult.ofStd]; near⟩
    | commitErr e => exact ⟨h1.1, trivial⟩
    | abort a => exact ⟨h1.1, trivial⟩

theorem chainl1 {p : Parser X σ α} {op : Parser X τ (α → α → α)} (hp : W.Near p) (ho : W.Near op) : W.Near (Verif.chainl1 p op) := by
  have hq := pair (boxed ho) (boxed hp)
  refine ofMode fun m i s ht => ?_
  have h1 := hp.run false i s.2.tail.1.2 ht
  dsimp only
  split
  · exact chainl1Loop hq _ _ _ _ _ _ ht fun _ => rfl
  · revert h1
    generalize p.run false i s.2.tail.1.2 = o
    obtain ⟨r, j, s'⟩ := o
    intro h1
    dsimp only
    cases r with
    | commitOk x => exact chainl1Loop hq _ _ _ _ _ _ h1 fun h => nomatch h
    | peekOk x => exact chainl1Loop hq _ _ _ _ _ _ h1.tame_peek fun _ => h1.2.1
    | _ => exact h1

theorem satisfyNamed (f : X.Tok → Bool) (name : String) : W.Near (Verif.satisfyNamed X f name) := parserMacro (expected (satisfy f) _)
theorem spaces (f : X.Tok → Bool) (name : String) : W.Near (Verif.spaces X f name) := parserMacro (expected (skipMany (satisfyNamed f _)) _)

end Leash

end Verif
