import Verif.Spec.Places
import Verif.Proof.BuiltMoves

/-! # Where errors are positioned: one lemma per combinator -/

namespace Verif

set_option linter.unusedSectionVars false
set_option linter.unusedVariables false

variable {S : Strm} {Own : S.Pos → Prop} {σ τ υ α β γ : Type}

/-! ## Spots -/

theorem Strm.Spot.here (i : S.Input) : S.Spot Own i (S.position i) := .inr ⟨[], i, .nil _, rfl⟩

theorem Strm.Spot.at {i j : S.Input} (h : S.Reach i j) : S.Spot Own i (S.position j) :=
  let ⟨ts, h⟩ := h; .inr ⟨ts, j, h, rfl⟩

theorem Strm.Spot.back {i j : S.Input} {q : S.Pos} (h : S.Reach i j) (hq : S.Spot Own j q) : S.Spot Own i q := by
  rcases hq with hq | ⟨ts, k, hk, rfl⟩
  · exact .inl hq
  · exact .at (h.trans ⟨ts, hk⟩)

theorem Strm.Located.back {i j : S.Input} {r : ParseResult α S.Err} (h : S.Reach i j) (hr : S.Located Own j r) :
    S.Located Own i r := by
  cases r with
  | commitErr e => exact Strm.Spot.back h hr
  | peekErr e => exact Strm.Spot.back h hr
  | _ => trivial

theorem Strm.Located.map {i : S.Input} {r : ParseResult α S.Err} (f : α → β) (hr : S.Located Own i r) :
    S.Located Own i (r.map f) := by
  cases r <;> exact hr

theorem Strm.Located.mapErr {i : S.Input} {r : ParseResult α S.Err} {f : S.Err → S.Err} (hr : S.Located Own i r)
    (hf : ∀ e, S.Spot Own i (S.E.position e) → S.Spot Own i (S.E.position (f e))) :
    S.Located Own i (r.mapErr f) := by
  cases r with
  | commitErr e => exact hf _ hr
  | peekErr e => exact hf _ hr
  | _ => trivial

/-- A function on errors that leaves the position alone. -/
def KeepsPosition (S : Strm) (f : Tracked S.Err → Tracked S.Err) : Prop :=
  ∀ t, S.E.position (f t).error = S.E.position t.error

/-- `Placed`, semantically. -/
structure Places (Own : S.Pos → Prop) (p : Parser S σ α) : Prop where
  moves : Moves p
  run : ∀ m i s, S.Located Own i (p.run m i s).res
  lazy : ∀ i, S.Located Own i (p.lazy i).1
  committed : ∀ m i s, S.Located Own i (p.committed m i s).res
  stream : ∀ i, S.Located Own i (p.stream i).1
  addError : KeepsPosition S p.addError
  addCommitted : KeepsPosition S p.addCommitted

section
variable (hS : S.Lawful) (hE : S.E.Placing)
include hS hE

theorem describe_located {i j : S.Input} (h : S.Reach i j) {ae : Tracked S.Err → Tracked S.Err}
    (ha : KeepsPosition S ae) (e : Tracked S.Err) (he : S.Spot Own i (S.E.position e.error)) (s : σ) :
    S.Located Own i (Strm.describe (α := α) (S.checkpoint i) ae e j s).res := by
  unfold Strm.describe
  rw [hS.tryReset_eq h]
  cases hu : S.uncons i with
  | mk r k =>
    cases r with
    | ok t =>
      simp only
      rw [hS.tryReset_eq ⟨[t], .cons hu (.nil _)⟩]
      change S.Spot Own i _
      rw [ha, hE.add]
      exact he
    | error x =>
      change S.Spot Own i _
      rw [ha, hE.add]
      exact he

theorem describing_located {ae : Tracked S.Err → Tracked S.Err} (ha : KeepsPosition S ae)
    {run : S.Input → σ → Out S σ α} {i : S.Input} {s : σ} (h : S.Reach i (run i s).inp)
    (hl : S.Located Own i (run i s).res) : S.Located Own i (Strm.describing ae run i s).res := by
  unfold Strm.describing
  simp only
  split
  · rename_i e he
    rw [he] at hl
    exact describe_located hS hE h ha e hl _
  · exact hl

theorem defaultLazy_located {init : σ} {run : Bool → S.Input → σ → Out S σ α}
    (h : ∀ m i s, S.Reach i (run m i s).inp) (hl : ∀ m i s, S.Located Own i (run m i s).res) (i : S.Input) :
    S.Located Own i (Strm.defaultLazy init run i).1 := by
  unfold Strm.defaultLazy
  have := hl true i init
  split
  · simp only
    split
    · rename_i e he
      rw [hS.reset_reach (h _ _ _)]
      rw [he] at this
      exact this
    · exact this
  · exact this

theorem keeps_id : KeepsPosition S id := fun _ => rfl

theorem Places.ofMode {init : σ} {run : Bool → S.Input → σ → Out S σ α}
    {ae ac : Tracked S.Err → Tracked S.Err} {c : Nat} (hm : ∀ m i s, S.Reach i (run m i s).inp)
    (h : ∀ m i s, S.Located Own i (run m i s).res) (ha : KeepsPosition S ae) (hc : KeepsPosition S ac) :
    Places Own (Parser.ofMode init run ae ac c) where
  moves := .ofMode hS hm
  run := h
  lazy := defaultLazy_located hS hE hm h
  committed := fun _ _ _ => describing_located hS hE ha (hm _ _ _) (h _ _ _)
  stream := fun _ => describing_located hS hE ha (hm _ _ _) (h _ _ _)
  addError := ha
  addCommitted := hc

theorem Places.ofLazy {init : σ} {lazy : S.Input → ParseResult α S.Err × S.Input}
    {ae ac : Tracked S.Err → Tracked S.Err} {c : Nat} (hm : ∀ i, S.Reach i (lazy i).2)
    (h : ∀ i, S.Located Own i (lazy i).1) (ha : KeepsPosition S ae) (hc : KeepsPosition S ac) :
    Places Own (Parser.ofLazy init lazy ae ac c) where
  moves := .ofLazy hS hm
  run := fun _ i _ => h i
  lazy := h
  committed := fun _ i _ => describing_located hS hE ha (hm i) (h i)
  stream := fun i => describing_located hS hE (σ := σ) ha (hm i) (h i)
  addError := ha
  addCommitted := hc

theorem keeps_addExpected (x : Info S.Tok S.Rng) : KeepsPosition S (addExpected S x) := fun _ => hE.add _ _

theorem spot_fromError (i : S.Input) (x : S.SErr) :
    S.Spot Own i (S.E.position (S.E.fromError (S.position i) x)) := by
  rw [hE.fromError]; exact .here i

theorem spot_empty (i : S.Input) : S.Spot Own i (S.E.position (S.E.empty (S.position i))) := by
  rw [hE.empty]; exact .here i

theorem spot_fromError_at {i j : S.Input} (h : S.Reach i j) (x : S.SErr) :
    S.Spot Own i (S.E.position (S.E.fromError (S.position j) x)) := .back h (spot_fromError hS hE j x)

theorem spot_empty_at {i j : S.Input} (h : S.Reach i j) :
    S.Spot Own i (S.E.position (S.E.empty (S.position j))) := .back h (spot_empty hS hE j)

theorem wrapStreamError_located (i : S.Input) (x : S.SErr) :
    S.Located Own i (S.wrapStreamError (α := α) i x) := by
  unfold Strm.wrapStreamError
  simp only
  split <;> exact spot_fromError hS hE i x

/-! ## Token parsers -/

theorem unconsP_located (i : S.Input) : S.Located Own i (S.unconsP i).1 := by
  unfold Strm.unconsP
  have h := hS.uncons_reach i
  revert h
  generalize S.uncons i = x
  obtain ⟨r, j⟩ := x
  intro h
  cases r with
  | ok t => trivial
  | error e => exact .back h (wrapStreamError_located hS hE j e)

theorem places_any : Places Own (any S) :=
  .ofLazy hS hE (unconsP_reach hS) (unconsP_located hS hE) (keeps_id hS hE) (keeps_id hS hE)

theorem satisfyImpl_located (f : S.Tok → Option α) (i : S.Input) :
    S.Located Own i (satisfyImpl S f i).1 := by
  unfold satisfyImpl
  have h := unconsP_located hS hE (Own := Own) i
  revert h
  generalize S.unconsP i = x
  obtain ⟨r, j⟩ := x
  intro h
  cases r with
  | commitOk c => simp only; split <;> first | trivial | exact spot_empty hS hE i
  | peekOk c => simp only; split <;> first | trivial | exact spot_empty hS hE i
  | _ => exact h

theorem places_satisfy (f : S.Tok → Bool) : Places Own (satisfy S f) :=
  .ofLazy hS hE (satisfyImpl_reach hS _) (satisfyImpl_located hS hE _) (keeps_id hS hE) (keeps_id hS hE)

theorem places_satisfyMap (f : S.Tok → Option α) : Places Own (satisfyMap S f) :=
  .ofLazy hS hE (satisfyImpl_reach hS _) (satisfyImpl_located hS hE _) (keeps_id hS hE) (keeps_id hS hE)

theorem places_token [DecidableEq S.Tok] (c : S.Tok) : Places Own (token S c) :=
  .ofLazy hS hE (satisfyImpl_reach hS _) (satisfyImpl_located hS hE _) (keeps_addExpected hS hE _) (keeps_id hS hE)

omit hS in
/-- The errors of `tokens` are positioned where it started. -/
theorem tokensLoop_located (cmp : β → S.Tok → Bool) (start : S.Pos) (bad : S.Tok → S.Err)
    (hb : ∀ t, S.E.position (bad t) = start) (ts : List β) (c : Bool) (i : S.Input) :
    S.ErrorAt start (tokensLoop S cmp start bad ts c i).1 := by
  induction ts generalizing c i with
  | nil => cases c <;> trivial
  | cons t ts ih =>
    unfold tokensLoop
    generalize S.unconsP i = x
    obtain ⟨r, j⟩ := x
    have hbad : ∀ o, S.ErrorAt start ((if c = true then .commitErr (bad o)
        else .peekErr (Tracked.of (S.E.empty start)) : ParseResult Unit S.Err)) := by
      intro o
      cases c
      · exact hE.empty _
      · exact hb o
    cases r with
    | commitOk o =>
      simp only
      split
      · exact ih _ _
      · exact hbad o
    | peekOk o =>
      simp only
      split
      · exact ih _ _
      · exact hbad o
    | commitErr e => exact hE.setPosition _ _
    | peekErr e => cases c <;> exact hE.setPosition _ _
    | abort a => trivial

theorem tokensLoop_located' (cmp : β → S.Tok → Bool) (bad : S.Tok → S.Err) (ts : List β) (c : Bool) (i : S.Input)
    (hb : ∀ t, S.E.position (bad t) = S.position i) :
    S.Located Own i (tokensLoop S cmp (S.position i) bad ts c i).1 := by
  have h := tokensLoop_located hE cmp (S.position i) bad hb ts c i
  revert h
  generalize (tokensLoop S cmp (S.position i) bad ts c i).1 = r
  cases r with
  | commitErr e => intro h; change S.Spot Own i _; rw [h]; exact .here i
  | peekErr e => intro h; change S.Spot Own i _; rw [h]; exact .here i
  | _ => exact fun _ => trivial

theorem places_tokens (cmp : β → S.Tok → Bool) (x : Info S.Tok S.Rng) (ts : List β) :
    Places Own (tokens S cmp x ts) :=
  .ofLazy hS hE (moves_tokens hS cmp x ts).lazy
    (fun i => .map _ (tokensLoop_located' hS hE cmp _ ts false i fun t => by rw [hE.add, hE.fromError]))
    (keeps_addExpected hS hE _) (keeps_id hS hE)

theorem places_tokensCmp (ts : List β) (cmp : β → S.Tok → Bool) : Places Own (tokensCmp S ts cmp) :=
  .ofLazy hS hE (moves_tokensCmp hS ts cmp).lazy
    (fun i => .map _ (tokensLoop_located' hS hE cmp _ ts false i fun t => by rw [hE.fromError]))
    (keeps_id hS hE) (keeps_id hS hE)

theorem places_position : Places Own (position S) :=
  .ofLazy hS hE (fun i => .refl i) (fun i => trivial) (keeps_id hS hE) (keeps_id hS hE)

theorem keeps_foldl (ts : List β) (g : β → Info S.Tok S.Rng) :
    KeepsPosition S fun e => ts.foldl (fun e t => addExpected S (g t) e) e := by
  intro e
  induction ts generalizing e with
  | nil => rfl
  | cons t ts ih => exact (ih _).trans (hE.add _ _)

theorem places_oneOf [DecidableEq S.Tok] (ts : List S.Tok) : Places Own (oneOf S ts) :=
  .ofLazy hS hE (satisfyImpl_reach hS _) (satisfyImpl_located hS hE _) (keeps_foldl hS hE ts _) (keeps_id hS hE)

theorem places_noneOf [DecidableEq S.Tok] (ts : List S.Tok) : Places Own (noneOf S ts) :=
  .ofLazy hS hE (satisfyImpl_reach hS _) (satisfyImpl_located hS hE _) (keeps_id hS hE) (keeps_id hS hE)

theorem places_value (v : α) : Places Own (value S v) :=
  .ofLazy hS hE (fun i => .refl i) (fun i => trivial) (keeps_id hS hE) (keeps_id hS hE)

theorem places_produce (f : Unit → α) : Places Own (produce S f) :=
  .ofLazy hS hE (fun i => .refl i) (fun i => trivial) (keeps_id hS hE) (keeps_id hS hE)

theorem places_eof : Places Own (eof S) := by
  refine .ofLazy hS hE (moves_eof hS).lazy (fun i => ?_) (keeps_addExpected hS hE _) (keeps_id hS hE)
  simp only
  cases h : S.uncons i with
  | mk r j =>
    cases r with
    | ok t => simp only [hS.reset_reach ⟨[t], .cons h (.nil _)⟩]; exact spot_empty hS hE i
    | error e =>
      cases hS.uncons_error h
      simp only [hS.reset_self]
      split
      · trivial
      · exact spot_empty hS hE i

/-! ## Combinators -/

theorem places_notFollowedBy {p : Parser S σ α} (h : Moves p) : Places Own (notFollowedBy p) := by
  refine .ofMode hS hE (moves_notFollowedBy hS h).run (fun m i s => ?_) (keeps_id hS hE) (keeps_id hS hE)
  simp only [hS.tryReset_eq (h.run m i s)]
  split <;> first | trivial | exact spot_empty hS hE i

theorem attemptRun_located {p : Parser S σ α} (h : Places Own p) (m i s) :
    S.Located Own i (attemptRun p m i s).res := by
  unfold attemptRun
  have := h.committed m i s
  simp only
  split
  · rename_i e he
    split
    · exact this
    · rw [he] at this; exact this
  · exact this

theorem places_attempt {p : Parser S σ α} (h : Places Own p) : Places Own (attempt p) where
  moves := moves_attempt hS h.moves
  run := attemptRun_located hS hE h
  lazy := defaultLazy_located hS hE (attemptRun_reach hS h.moves) (attemptRun_located hS hE h)
  committed := attemptRun_located hS hE h
  stream := defaultLazy_located hS hE (attemptRun_reach hS h.moves) (attemptRun_located hS hE h)
  addError := h.addError
  addCommitted := h.addCommitted

theorem places_lookAhead {p : Parser S σ α} (h : Places Own p) : Places Own (lookAhead p) := by
  refine .ofLazy hS hE (moves_lookAhead hS h.moves).lazy (fun i => ?_) h.addError h.addCommitted
  have := h.lazy i
  simp only [hS.reset_reach (h.moves.lazy i)]
  revert this
  generalize (p.lazy i).1 = r
  cases r <;> exact id

theorem places_map {p : Parser S σ α} (h : Places Own p) (f : α → β) : Places Own (map p f) :=
  .ofMode hS hE (moves_map hS h.moves f).run (fun m i s => .map f (h.run m i s)) h.addError h.addCommitted

theorem places_mapInput {p : Parser S σ α} (h : Places Own p) (f : α → S.Input → β × S.Input)
    (hf : ∀ a i, S.Reach i (f a i).2) : Places Own (mapInput p f) := by
  refine .ofMode hS hE (moves_mapInput hS h.moves f hf).run (fun m i s => ?_) h.addError h.addCommitted
  have := h.run m i s
  revert this
  generalize p.run m i s = o
  obtain ⟨r, j, t⟩ := o
  cases r <;> exact id

theorem places_flatMap {p : Parser S σ α} (h : Places Own p) (f : α → Except S.Err β)
    (hf : ∀ a e, f a = .error e → Own (S.E.position e)) : Places Own (flatMap p f) := by
  refine .ofMode hS hE (moves_flatMap hS h.moves f).run (fun m i s => ?_) h.addError h.addCommitted
  have := h.run m i s
  revert this
  generalize p.run m i s = o
  obtain ⟨r, j, t⟩ := o
  cases r with
  | commitOk x =>
    intro _
    simp only [Out.mapRes]
    cases hx : f x with
    | ok y => trivial
    | error e => exact .inl (hf _ _ hx)
  | peekOk x =>
    intro _
    simp only [Out.mapRes]
    cases hx : f x with
    | ok y => trivial
    | error e => exact .inl (hf _ _ hx)
  | _ => exact id

theorem places_andThen {p : Parser S σ α} (h : Places Own p) (f : α → Except S.SErr β) :
    Places Own (andThen p f) := by
  refine .ofMode hS hE (moves_andThen hS h.moves f).run (fun m i s => ?_) h.addError h.addCommitted
  have hm := h.moves.run m i s
  have := h.run m i s
  have he := hS.inputAtEof_eq (p.run m i s).inp
  simp only
  split <;> (try (rename_i hr; rw [hr] at this; exact this))
  all_goals
    split
    · trivial
    · split
      · rw [he]
        generalize (S.inputAtEof (p.run m i s).inp).1 = b
        cases b
        · exact spot_fromError hS hE i _
        · simp only [hS.tryReset_eq hm]; exact spot_fromError hS hE i _
      · exact spot_fromError hS hE i _

theorem replay_located (last : S.Pos) (n : Nat) (i : S.Input) (els : List S.Tok) {e : S.Err}
    (h : (replay S last n i els).1 = .failed e) : S.Spot Own i (S.E.position e) := by
  induction n generalizing i els with
  | zero => cases h
  | succ n ih =>
    unfold replay at h
    split at h
    · cases h
    · have hu := hS.uncons_reach i
      revert hu h
      generalize S.uncons i = x
      obtain ⟨r, j⟩ := x
      intro h hu
      cases r with
      | ok t => exact .back hu (ih _ _ h)
      | error x => cases h; exact spot_fromError_at hS hE hu x

theorem places_recognize {p : Parser S σ α} (h : Places Own p) : Places Own (recognize p) := by
  refine .ofMode hS hE (moves_recognize hS h.moves).run (fun m i s => ?_) h.addError (keeps_id hS hE)
  have hm := h.moves.run m i s.2
  have h1 := h.run m i s.2
  simp only
  split
  · rename_i e he; rw [he] at h1; exact h1
  · trivial
  · rw [hS.tryReset_eq hm]
    have := fun e => replay_located hS hE (Own := Own) (S.position (p.run m i s.2).inp) (S.size i + 1) i s.1 (e := e)
    revert this
    generalize replay S (S.position (p.run m i s.2).inp) (S.size i + 1) i s.1 = x
    obtain ⟨r, k, els⟩ := x
    intro this
    cases r with
    | diverged => trivial
    | failed e => simp only; split <;> exact this e rfl
    | done =>
      revert h1
      cases (p.run m i s.2).res <;> exact id

/-- The state in which the child runs is of no importance. -/
theorem Places.reroute {p : Parser S σ α} (h : Places Own p) {init : τ} (g : τ → σ) (k : τ → σ → τ)
    {ac : Tracked S.Err → Tracked S.Err} (hc : KeepsPosition S ac) (n : Nat) :
    Places Own (Parser.ofMode (S := S) init (fun m i s => (p.run m i (g s)).mapSt (k s)) p.addError ac n) :=
  .ofMode hS hE (fun m i s => h.moves.run m i (g s)) (fun m i s => h.run m i (g s)) h.addError hc

theorem places_eitherLeft {p : Parser S σ α} (h : Places Own p) (τ : Type) : Places Own (eitherLeft p τ) := by
  have hm := moves_eitherLeft hS h.moves τ
  exact ⟨hm, fun m i s => h.run m i _, h.lazy,
    fun m i s => describing_located hS hE h.addError (hm.run m i s) (h.run m i _),
    fun i => describing_located hS hE h.addError (hm.run true i none) (h.run true i _), h.addError, keeps_id hS hE⟩

theorem places_eitherRight {p : Parser S τ α} (h : Places Own p) (σ : Type) : Places Own (eitherRight p σ) := by
  have hm := moves_eitherRight hS h.moves σ
  exact ⟨hm, fun m i s => h.run m i _, h.lazy,
    fun m i s => describing_located hS hE h.addError (hm.run m i s) (h.run m i _),
    fun i => describing_located hS hE h.addError (hm.run true i none) (h.run true i _), h.addError, keeps_id hS hE⟩

theorem places_noPartial {p : Parser S σ α} (h : Places Own p) : Places Own (noPartial p) :=
  .ofLazy hS hE h.moves.lazy h.lazy h.addError h.addCommitted

theorem places_ignore {p : Parser S σ α} (h : Places Own p) : Places Own (ignore p) := by
  have hm := moves_ignore hS h.moves
  have hr : ∀ m i s, S.Located Own i ((ignore p).run m i s).res := fun m i s => .map _ (h.run m i s)
  exact ⟨hm, hr, fun i => .map _ (h.lazy i),
    fun m i s => describing_located hS hE h.addError (hm.run m i s) (hr m i s),
    fun i => describing_located hS hE h.addError (hm.run true i _) (hr true i _), h.addError, h.addCommitted⟩

theorem places_anyPartialState {p : Parser S σ α} (h : Places Own p) : Places Own (anyPartialState p) := by
  have hm := moves_anyPartialState hS h.moves
  have hr : ∀ m i s, S.Located Own i ((anyPartialState p).run m i s).res := by
    intro m i s
    cases s with
    | some c => exact h.run m i c
    | none =>
      have := h.run m i p.init
      change S.Located Own i (match (p.run m i p.init).res with
        | .commitErr _ => (⟨(p.run m i p.init).res, (p.run m i p.init).inp, some (p.run m i p.init).st⟩ : Out S (Option σ) α)
        | _ => ⟨(p.run m i p.init).res, (p.run m i p.init).inp, none⟩).res
      split <;> exact this
  exact ⟨hm, hr, h.lazy,
    fun m i s => describing_located hS hE h.addError (hm.run m i s) (hr m i s),
    fun i => describing_located hS hE h.addError (hm.run true i none) (hr true i none), h.addError, h.addCommitted⟩

theorem places_lazyP {f : Unit → Parser S σ α} (h : Places Own (f ())) : Places Own (lazyP f) :=
  ⟨moves_lazyP hS h.moves, h.run, h.lazy, h.run, h.stream, h.addError, h.addCommitted⟩

theorem places_factory {f : S.Input → Parser S σ α} (h : ∀ i, Places Own (f i)) (init : σ) :
    Places Own (factory f init) :=
  .ofMode hS hE (moves_factory hS (fun i => (h i).moves) init).run (fun m i s => (h _).run m i s.2)
    (keeps_id hS hE) (keeps_id hS hE)

theorem places_opaqueP {p : Parser S σ α} (h : Places Own p) : Places Own (opaqueP p) :=
  ⟨moves_opaqueP hS h.moves, h.run, h.lazy,
    fun m i s => describing_located hS hE h.addError (h.moves.run m i s) (h.run m i s), h.stream,
    h.addError, h.addCommitted⟩

theorem places_boxed {p : Parser S σ α} (h : Places Own p) : Places Own (boxed p) :=
  .ofMode hS hE h.moves.run h.run h.addError h.addCommitted

theorem places_parserMacro {p : Parser S σ α} (h : Places Own p) : Places Own (parserMacro p) :=
  .ofMode hS hE h.moves.run h.run h.addError h.addCommitted

theorem places_fromStr {p : Parser S σ α} (h : Places Own p) (u : α → Option String)
    (f : String → Except String β) : Places Own (fromStr p u f) :=
  places_parserMacro hS hE (places_andThen hS hE h _)

theorem places_parserMacroUnit {p : Parser S σ α} (h : Places Own p) : Places Own (parserMacroUnit p) :=
  .ofMode hS hE (moves_parserMacroUnit hS h.moves).run (fun m i _ => h.run m i p.init) h.addError h.addCommitted

theorem places_fnParser (f : S.Input → StdResult α S.Err × S.Input) (hf : ∀ i, S.Reach i (f i).2)
    (hl : ∀ i, S.Located Own i (ParseResult.ofStd (f i).1)) : Places Own (fnParser S f) :=
  .ofLazy hS hE hf hl (keeps_id hS hE) (keeps_id hS hE)

theorem places_inputConverter {T : Strm} (p : Parser T σ α)
    (convert : S.Input → Except S.Err T.Input) (back : S.Input → T.Input → S.Input)
    (convertError : S.Input → T.Err → S.Err)
    (h : ∀ m i j s, convert i = .ok j → ∃ ts, S.Reads i ts (back i (p.run m j s).inp))
    (hc : ∀ i e, convert i = .error e → Own (S.E.position e))
    (he : ∀ i e, Own (S.E.position (convertError i e))) :
    Places Own (inputConverter p convert back convertError) := by
  refine .ofMode hS hE (moves_inputConverter hS p convert back convertError h).run (fun m i s => ?_)
    (keeps_id hS hE) (keeps_id hS hE)
  cases hx : convert i with
  | error e => exact .inl (hc _ _ hx)
  | ok j =>
    simp only
    cases (p.run m j s).res with
    | commitErr e => exact .inl (he _ _)
    | peekErr e => exact .inl (he _ _)
    | _ => trivial

theorem places_bottom (F : Parser S σ α → Parser S σ α) (init : σ) : Places Own (recur F init 0) :=
  .ofMode hS hE (fun _ i _ => .refl i) (fun _ _ _ => trivial) (keeps_id hS hE) (keeps_id hS hE)

/-! ## Error decorators -/

theorem places_unexpected (x : Info S.Tok S.Rng) : Places Own (unexpected S α x) :=
  .ofLazy hS hE (fun i => .refl i) (fun i => spot_empty hS hE i) (fun t => hE.add _ _) (keeps_id hS hE)

theorem places_message {p : Parser S σ α} (h : Places Own p) (x : Info S.Tok S.Rng) :
    Places Own (message p x) := by
  refine .ofMode hS hE (moves_message hS h.moves x).run (fun m i s => ?_) (fun t => ?_) h.addCommitted
  · have := h.run m i s
    simp only
    split
    · rename_i e he
      rw [he] at this
      change S.Spot Own i (S.E.position (S.E.add e _))
      rw [hE.add]
      exact this
    · exact this
  · exact (hE.add _ _).trans (h.addError t)

theorem places_expected {p : Parser S σ α} (h : Places Own p) (x : Info S.Tok S.Rng) :
    Places Own (expected p x) :=
  .ofMode hS hE h.moves.run h.run (fun t => hE.setExpected t _ _ h.addError) h.addCommitted

theorem places_silent {p : Parser S σ α} (h : Places Own p) : Places Own (silent p) :=
  .ofMode hS hE (moves_silent hS h.moves).run
    (fun m i s => .mapErr (h.run m i s) fun e he => by rw [hE.clearExpected]; exact he)
    (keeps_id hS hE) (keeps_id hS hE)

theorem places_spanned {Q : Type} [DecidableEq Q] (a : S.Pos → Span Q) (b : Span Q → S.Pos)
    (hb : ∀ x, Own (b x)) {p : Parser S σ α} (h : Places Own p) : Places Own (spanned a b p) :=
  .ofMode hS hE (moves_spanned hS a b h.moves).run
    (fun m i s => .mapErr (h.run m i s) fun e he => by
      simp only
      split
      · rw [hE.setPosition]; exact .inl (hb _)
      · exact he) h.addError h.addCommitted

end

end Verif
