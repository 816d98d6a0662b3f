import Verif.Proof.Reach
import Verif.Spec.Behaved

/-!
# Every combinator only reads forward
-/

namespace Verif

set_option linter.unusedSectionVars false
set_option linter.unusedVariables false

variable {S : Strm} {σ τ υ α β γ : Type}

section
variable (hS : S.Lawful)
include hS

theorem describe_inp {i j : S.Input} (h : S.Reach i j) (ae : Tracked S.Err → Tracked S.Err)
    (e : Tracked S.Err) (s : σ) :
    (Strm.describe (α := α) (S.checkpoint i) ae e j s).inp = i := by
  unfold Strm.describe
  rw [hS.tryReset_eq h]
  cases hu : S.uncons i with
  | mk r k =>
    cases r with
    | ok t =>
      simp only
      rw [hS.tryReset_eq ⟨[t], .cons hu (.nil _)⟩]
    | error e => simpa using hS.uncons_error hu

theorem describing_reach (ae : Tracked S.Err → Tracked S.Err) {run : S.Input → σ → Out S σ α}
    {i : S.Input} {s : σ} (h : S.Reach i (run i s).inp) :
    S.Reach i (Strm.describing ae run i s).inp := by
  unfold Strm.describing
  simp only
  split
  · rw [describe_inp hS h]; exact .refl i
  · exact h

theorem defaultLazy_reach {init : σ} {run : Bool → S.Input → σ → Out S σ α}
    (h : ∀ m i s, S.Reach i (run m i s).inp) (i : S.Input) :
    S.Reach i (Strm.defaultLazy init run i).2 := by
  unfold Strm.defaultLazy
  split
  · simp only
    split
    · rw [hS.reset_reach (h _ _ _)]; exact .refl i
    · exact h _ _ _
  · exact h _ _ _

theorem Moves.ofMode {init : σ} {run : Bool → S.Input → σ → Out S σ α}
    {ae ac : Tracked S.Err → Tracked S.Err} {c : Nat} (h : ∀ m i s, S.Reach i (run m i s).inp) :
    Moves (Parser.ofMode init run ae ac c) where
  run := h
  lazy := defaultLazy_reach hS h
  committed := fun _ _ _ => describing_reach hS _ (h _ _ _)
  stream := fun _ => describing_reach hS _ (h _ _ _)

theorem Moves.ofLazy {init : σ} {lazy : S.Input → ParseResult α S.Err × S.Input}
    {ae ac : Tracked S.Err → Tracked S.Err} {c : Nat} (h : ∀ i, S.Reach i (lazy i).2) :
    Moves (Parser.ofLazy init lazy ae ac c) where
  run := fun _ i _ => h i
  lazy := h
  committed := fun _ i _ => describing_reach hS _ (h i)
  stream := fun i => describing_reach hS (σ := σ) _ (h i)

/-! ### Token parsers -/

theorem unconsP_reach (i : S.Input) : S.Reach i (S.unconsP i).2 := by
  rw [Strm.unconsP_snd]; exact hS.uncons_reach i

theorem moves_any : Moves (any S) := .ofLazy hS (unconsP_reach hS)

theorem satisfyImpl_reach (f : S.Tok → Option α) (i : S.Input) :
    S.Reach i (satisfyImpl S f i).2 := by
  have h := unconsP_reach hS i
  unfold satisfyImpl
  revert h
  generalize S.unconsP i = x
  obtain ⟨r, j⟩ := x
  intro h
  cases r <;> simp only <;> try split
  all_goals exact h

theorem moves_satisfy (f : S.Tok → Bool) : Moves (satisfy S f) :=
  .ofLazy hS (satisfyImpl_reach hS _)

theorem moves_satisfyMap (f : S.Tok → Option α) : Moves (satisfyMap S f) :=
  .ofLazy hS (satisfyImpl_reach hS _)

theorem moves_token [DecidableEq S.Tok] (c : S.Tok) : Moves (token S c) :=
  .ofLazy hS (satisfyImpl_reach hS _)

theorem tokensLoop_reach (cmp : β → S.Tok → Bool) (start : S.Pos) (bad : S.Tok → S.Err)
    (ts : List β) (c : Bool) (i : S.Input) :
    S.Reach i (tokensLoop S cmp start bad ts c i).2 := by
  induction ts generalizing c i with
  | nil => exact .refl i
  | cons t ts ih =>
    have h := unconsP_reach hS i
    unfold tokensLoop
    revert h
    generalize S.unconsP i = x
    obtain ⟨r, j⟩ := x
    intro h
    cases r <;> simp only
    · split
      · exact h.trans (ih _ _)
      · exact h
    · split
      · exact h.trans (ih _ _)
      · exact h
    all_goals exact h

theorem moves_tokens (cmp : β → S.Tok → Bool) (x : Info S.Tok S.Rng) (ts : List β) :
    Moves (tokens S cmp x ts) :=
  .ofLazy hS fun i => tokensLoop_reach hS _ _ _ _ _ i

theorem moves_tokensCmp (ts : List β) (cmp : β → S.Tok → Bool) :
    Moves (tokensCmp S ts cmp) :=
  .ofLazy hS fun i => tokensLoop_reach hS _ _ _ _ _ i

theorem moves_position : Moves (position S) := .ofLazy hS fun i => .refl i

theorem moves_oneOf [DecidableEq S.Tok] (ts : List S.Tok) : Moves (oneOf S ts) :=
  .ofLazy hS (moves_satisfy hS _).lazy

theorem moves_noneOf [DecidableEq S.Tok] (ts : List S.Tok) : Moves (noneOf S ts) :=
  .ofLazy hS (moves_satisfy hS _).lazy

theorem moves_value (v : α) : Moves (value S v) := .ofLazy hS fun i => .refl i

theorem moves_produce (f : Unit → α) : Moves (produce S f) := .ofLazy hS fun i => .refl i

theorem moves_eof : Moves (eof S) := by
  refine .ofLazy hS fun i => ?_
  simp only
  cases h : S.uncons i with
  | mk r j =>
    cases r with
    | ok t => simp [hS.reset_reach ⟨[t], .cons h (.nil _)⟩, Strm.Reach.refl]
    | error e =>
      cases hS.uncons_error h
      simp only [hS.reset_self]
      split <;> exact .refl i

/-! ### Combinators -/

theorem moves_notFollowedBy {p : Parser S σ α} (h : Moves p) : Moves (notFollowedBy p) := by
  refine .ofMode hS fun m i s => ?_
  simp only [hS.tryReset_eq (h.run m i s)]
  split <;> exact .refl i

theorem attemptRun_reach {p : Parser S σ α} (h : Moves p) (m i s) :
    S.Reach i (attemptRun p m i s).inp := by
  unfold attemptRun
  simp only
  split
  · split <;> exact h.committed m i s
  · exact h.committed m i s

theorem moves_attempt {p : Parser S σ α} (h : Moves p) : Moves (attempt p) where
  run := attemptRun_reach hS h
  lazy := defaultLazy_reach hS (attemptRun_reach hS h)
  committed := attemptRun_reach hS h
  stream := defaultLazy_reach hS (attemptRun_reach hS h)

theorem moves_lookAhead {p : Parser S σ α} (h : Moves p) : Moves (lookAhead p) := by
  refine .ofLazy hS fun i => ?_
  simp only [hS.reset_reach (h.lazy i)]
  split <;> exact .refl i

theorem moves_map {p : Parser S σ α} (h : Moves p) (f : α → β) : Moves (map p f) :=
  .ofMode hS fun m i s => h.run m i s

theorem moves_mapInput {p : Parser S σ α} (h : Moves p) (f : α → S.Input → β × S.Input)
    (hf : ∀ a i, S.Reach i (f a i).2) : Moves (mapInput p f) := by
  refine .ofMode hS fun m i s => ?_
  have := h.run m i s
  simp only
  split
  · exact this.trans (hf _ _)
  · exact this.trans (hf _ _)
  all_goals exact this

theorem moves_flatMap {p : Parser S σ α} (h : Moves p) (f : α → Except S.Err β) :
    Moves (flatMap p f) :=
  .ofMode hS fun m i s => h.run m i s

theorem moves_andThen {p : Parser S σ α} (h : Moves p) (f : α → Except S.SErr β) :
    Moves (andThen p f) := by
  refine .ofMode hS fun m i s => ?_
  have := h.run m i s
  have he := hS.inputAtEof_eq (p.run m i s).inp
  simp only
  split <;> try exact this
  all_goals
    split <;> try exact this
    split <;> try exact this
    rw [he]
    generalize (S.inputAtEof (p.run m i s).inp).1 = b
    cases b
    · exact this
    · simp only [hS.tryReset_eq this]; exact .refl i

theorem replay_reach (last : S.Pos) (n : Nat) (i : S.Input) (els : List S.Tok) :
    S.Reach i (replay S last n i els).2.1 := by
  induction n generalizing i els with
  | zero => exact .refl i
  | succ n ih =>
    unfold replay
    split
    · exact .refl i
    · have hu := hS.uncons_reach i
      revert hu
      generalize S.uncons i = x
      obtain ⟨r, j⟩ := x
      intro hu
      cases r with
      | ok t => exact Strm.Reach.trans hu (ih _ _)
      | error e => exact hu

theorem moves_recognize {p : Parser S σ α} (h : Moves p) : Moves (recognize p) := by
  refine .ofMode hS fun m i s => ?_
  have h1 := h.run m i s.2
  simp only
  split
  · exact h1
  · exact h1
  · rw [hS.tryReset_eq h1]
    have := replay_reach hS (S.position (p.run m i s.2).inp) (S.size i + 1) i s.1
    revert this
    generalize replay S (S.position (p.run m i s.2).inp) (S.size i + 1) i s.1 = x
    obtain ⟨r, k, els⟩ := x
    intro this
    cases r <;> simp only <;> try split
    all_goals exact this

theorem moves_eitherLeft {p : Parser S σ α} (h : Moves p) (τ : Type) : Moves (eitherLeft p τ) where
  run := fun m i s => h.run m i _
  lazy := h.lazy
  committed := fun m i s => describing_reach hS _ (h.run m i _)
  stream := fun i => describing_reach hS _ (h.run true i _)

theorem moves_eitherRight {p : Parser S τ α} (h : Moves p) (σ : Type) :
    Moves (eitherRight p σ) where
  run := fun m i s => h.run m i _
  lazy := h.lazy
  committed := fun m i s => describing_reach hS _ (h.run m i _)
  stream := fun i => describing_reach hS _ (h.run true i _)

theorem moves_noPartial {p : Parser S σ α} (h : Moves p) : Moves (noPartial p) :=
  .ofLazy hS h.lazy

theorem moves_ignore {p : Parser S σ α} (h : Moves p) : Moves (ignore p) where
  run := fun m i s => h.run m i s
  lazy := h.lazy
  committed := fun m i s => describing_reach hS _ (h.run m i s)
  stream := fun i => describing_reach hS _ (h.run true i _)

theorem moves_anyPartialState {p : Parser S σ α} (h : Moves p) : Moves (anyPartialState p) := by
  have hr : ∀ m i s, S.Reach i ((anyPartialState p).run m i s).inp := by
    intro m i s
    cases s with
    | some c => exact h.run m i c
    | none =>
      show S.Reach i (match (p.run m i p.init).res with
        | .commitErr _ => _
        | _ => _ : Out S (Option σ) α).inp
      split <;> exact h.run m i p.init
  exact ⟨hr, h.lazy, fun m i s => describing_reach hS _ (hr m i s),
    fun i => describing_reach hS _ (hr true i none)⟩

theorem moves_lazyP {f : Unit → Parser S σ α} (h : Moves (f ())) : Moves (lazyP f) :=
  ⟨h.run, h.lazy, h.run, h.stream⟩

theorem moves_factory {f : S.Input → Parser S σ α} (h : ∀ i, Moves (f i)) (init : σ) :
    Moves (factory f init) := .ofMode hS fun m i s => (h _).run m i s.2

theorem moves_opaqueP {p : Parser S σ α} (h : Moves p) : Moves (opaqueP p) :=
  ⟨h.run, h.lazy, fun m i s => describing_reach hS _ (h.run m i s), h.stream⟩

theorem moves_boxed {p : Parser S σ α} (h : Moves p) : Moves (boxed p) := .ofMode hS h.run

theorem moves_parserMacro {p : Parser S σ α} (h : Moves p) : Moves (parserMacro p) :=
  .ofMode hS h.run

theorem moves_parserMacroUnit {p : Parser S σ α} (h : Moves p) : Moves (parserMacroUnit p) :=
  .ofMode hS fun m i _ => h.run m i p.init

theorem moves_fnParser (f : S.Input → StdResult α S.Err × S.Input)
    (h : ∀ i, S.Reach i (f i).2) : Moves (fnParser S f) := .ofLazy hS h

theorem moves_fromStr {p : Parser S σ α} (h : Moves p) (u : α → Option String)
    (f : String → Except String β) : Moves (fromStr p u f) := moves_parserMacro hS (moves_andThen hS h _)

/-! ### Error decorators -/

theorem moves_unexpected (x : Info S.Tok S.Rng) : Moves (unexpected S α x) :=
  .ofLazy hS fun i => .refl i

theorem moves_message {p : Parser S σ α} (h : Moves p) (x : Info S.Tok S.Rng) :
    Moves (message p x) := by
  refine .ofMode hS fun m i s => ?_
  simp only
  split <;> exact h.run m i s

theorem moves_expected {p : Parser S σ α} (h : Moves p) (x : Info S.Tok S.Rng) :
    Moves (expected p x) := .ofMode hS h.run

theorem moves_silent {p : Parser S σ α} (h : Moves p) : Moves (silent p) :=
  .ofMode hS fun m i s => h.run m i s

theorem moves_spanned {Q : Type} [DecidableEq Q] (a : S.Pos → Span Q) (b : Span Q → S.Pos)
    {p : Parser S σ α} (h : Moves p) : Moves (spanned a b p) :=
  .ofMode hS fun m i s => h.run m i s

end

section
variable (hS : S.Lawful)
include hS

/-! ### Sequences -/

theorem seq_steps_reach (ps : Seq S τ β) (h : ∀ q, ps.Mem q → Moves q.2.2)
    (m : Bool) (fe cur off : Nat) (i : S.Input) (st : τ) :
    S.Reach i (ps.steps m fe cur off i st).inp := by
  induction ps generalizing m fe cur off i with
  | nil => exact .refl i
  | cons p ps ih =>
    obtain ⟨⟨v, s⟩, t⟩ := st
    have h1 := (h ⟨_, _, p⟩ (.inl rfl)).run m i s
    have ih := ih (fun q hq => h q (.inr hq))
    unfold Seq.steps
    split
    · simp only
      split
      · exact h1.trans (ih _ _ _ _ _ _)
      · exact h1.trans (ih _ _ _ _ _ _)
      · rw [hS.reset_reach h1]; exact .refl i
      · exact h1
      · exact h1
    · exact ih _ _ _ _ _ _

theorem seqAddErrors_reach (parts : List (ErrPart S)) (e : Tracked S.Err) (fe off : Nat)
    (i : S.Input) : S.Reach i (seqAddErrors (α := α) parts e fe off i).2 := by
  unfold seqAddErrors
  have hu := hS.uncons_reach i
  revert hu
  generalize S.uncons i = x
  obtain ⟨r, j⟩ := x
  intro hu
  split
  · cases r <;> exact hu
  · exact .refl i

omit hS in
theorem seqFinish_inp (ps : Seq S τ β) (fe : Nat) (i : S.Input) (st : SeqSt σ τ α) :
    (seqFinish ps fe i st).inp = i := by
  unfold seqFinish
  simp only
  split <;> rfl

theorem seqRest_reach (p : Parser S σ α) (ps : Seq S τ β)
    (h : ∀ q, ps.Mem q → Moves q.2.2) (m : Bool) (fe : Nat) (i : S.Input)
    (st : SeqSt σ τ α) : S.Reach i (seqRest p ps m fe i st).inp := by
  have h1 := seq_steps_reach hS ps h m fe 0 st.offset i st.tail
  unfold seqRest
  simp only
  split
  · rw [seqFinish_inp]; exact h1
  · exact h1.trans (seqAddErrors_reach hS _ _ _ _ _)
  all_goals exact h1

theorem moves_tuple {p : Parser S σ α} (hp : Moves p) (ps : Seq S τ β)
    (h : ∀ q, ps.Mem q → Moves q.2.2) : Moves (tuple p ps) := by
  refine .ofMode hS fun m i st => ?_
  have h1 := hp.run m i st.head
  unfold seqRun
  split
  · simp only
    split
    · exact h1.trans (seqRest_reach hS p ps h _ _ _ _)
    · exact h1.trans (seqRest_reach hS p ps h _ _ _ _)
    all_goals exact h1
  · exact seqRest_reach hS p ps h _ _ _ _

theorem moves_pair {p : Parser S σ α} {q : Parser S τ β} (hp : Moves p) (hq : Moves q) :
    Moves (pair p q) := by
  refine moves_tuple hS hp _ fun r hr => ?_
  rcases hr with rfl | hr
  · exact hq
  · cases hr

theorem moves_with {p : Parser S σ α} {q : Parser S τ β} (hp : Moves p) (hq : Moves q) :
    Moves («with» p q) := by
  have h := moves_pair hS (moves_ignore hS hp) hq
  exact ⟨fun m i s => h.run m i s, h.lazy, fun m i s => describing_reach hS _ (h.run m i s),
    fun i => describing_reach hS _ (h.run true i _)⟩

theorem moves_skip {p : Parser S σ α} {q : Parser S τ β} (hp : Moves p) (hq : Moves q) :
    Moves (skip p q) :=
  .ofMode hS fun m i s => (moves_pair hS hp (moves_ignore hS hq)).run m i s

theorem moves_between {o : Parser S σ α} {c : Parser S υ γ} {p : Parser S τ β} (ho : Moves o)
    (hc : Moves c) (hp : Moves p) : Moves (between o c p) := by
  refine moves_parserMacro hS (moves_map hS (moves_tuple hS ho _ fun r hr => ?_) _)
  rcases hr with rfl | rfl | hr
  · exact hp
  · exact hc
  · cases hr

/-! ### Choice -/

theorem doChoice_reach {ps : Alts S α σ}
    (h : ∀ q, ps.Mem q → Moves q.2) (bp : S.Pos)
    (tried : List (Tried S)) (i : S.Input) :
    S.Reach i (ps.doChoice bp (S.checkpoint i) tried i).inp := by
  induction ps generalizing tried with
  | last p =>
    have h1 := (h ⟨_, p⟩ rfl).run true i p.init
    unfold Alts.doChoice
    simp only
    split <;> try exact h1
    rw [hS.reset_reach h1]; exact .refl i
  | cons p ps ih =>
    have h1 := (h ⟨_, p⟩ (.inl rfl)).run true i p.init
    unfold Alts.doChoice
    simp only
    split <;> try exact h1
    rw [hS.reset_reach h1]
    exact ih (fun q hq => h q (.inr hq)) _

omit hS in
theorem resume_reach {ps : Alts S α σ}
    (h : ∀ q, ps.Mem q → Moves q.2) (m : Bool) (i : S.Input) (s : σ) :
    S.Reach i (ps.resume m i s).inp := by
  induction ps with
  | last p => exact (h ⟨_, p⟩ rfl).run m i s
  | cons p ps ih =>
    cases s with
    | inl s => exact (h ⟨_, p⟩ (.inl rfl)).run m i s
    | inr s => exact ih (fun q hq => h q (.inr hq)) s

theorem choiceRun_reach {ps : Alts S α σ}
    (h : ∀ q, ps.Mem q → Moves q.2) (m : Bool) (i : S.Input)
    (s : Option σ) : S.Reach i (choiceRun ps m i s).inp := by
  unfold choiceRun
  split
  · exact resume_reach h m i _
  · exact doChoice_reach hS h _ _ i

theorem moves_choice {ps : Alts S α σ} (h : ∀ q, ps.Mem q → Moves q.2) :
    Moves (choice ps) := .ofMode hS (choiceRun_reach hS h)

theorem moves_or {p : Parser S σ α} {q : Parser S τ α} (hp : Moves p) (hq : Moves q) :
    Moves (or p q) := by
  refine .ofMode hS (choiceRun_reach hS fun r hr => ?_)
  rcases hr with rfl | rfl
  · exact hp
  · exact hq

theorem sliceLoop_reach (all : List (Parser S σ α)) (m : Bool) (i0 : S.Input)
    (ps : List (Parser S σ α)) (h : ∀ q ∈ ps, Moves q) (k l : Nat) (prev : Option (Tracked S.Err))
    (i : S.Input) (hi : S.Reach i0 i) (st : Nat × σ) :
    S.Reach i0 (sliceLoop all m (S.checkpoint i0) ps k l prev i st).inp := by
  induction ps generalizing k l prev i st with
  | nil =>
    unfold sliceLoop
    split
    · exact hi
    · split <;> exact hi
  | cons p ps ih =>
    have h1 := (h p (by simp)).run m i0 st.2
    have ih := ih fun q hq => h q (by simp [hq])
    unfold sliceLoop
    rw [hS.reset_reach hi]
    simp only
    split <;> try exact h1
    split
    · exact ih _ _ _ _ h1 _
    · split <;> exact ih _ _ _ _ h1 _

theorem moves_sliceChoice (all : List (Parser S σ α)) (h : ∀ q ∈ all, Moves q) (init : σ) :
    Moves (sliceChoice all init) := by
  refine .ofMode hS fun m i st => ?_
  unfold sliceRun
  split
  · split
    · exact .refl i
    · rename_i p hp
      exact (h p (List.mem_of_getElem? hp)).run _ _ _
  · exact sliceLoop_reach hS all m i all h _ _ _ _ (.refl i) _

theorem moves_optional {p : Parser S σ α} (h : Moves p) : Moves (optional p) := by
  refine .ofMode hS fun m i s => ?_
  have h1 := h.run m i s
  simp only
  split <;> try exact h1
  rw [hS.tryReset_eq h1]; exact .refl i

theorem moves_dispatch {ps : Alts S α σ}
    (h : ∀ q, ps.Mem q → Moves q.2) (k : Nat) : Moves (dispatch ps k) :=
  .ofMode hS fun m i _ => resume_reach h m i _

end

section
variable (hS : S.Lawful)
include hS

/-! ### Continuations -/

theorem moves_thenP {p : Parser S σ α} {f : α → Parser S τ β} (hp : Moves p)
    (hf : ∀ a, Moves (f a)) (n : τ) : Moves (thenP p f n) := by
  refine .ofMode hS fun m i s => ?_
  have h1 := hp.run m i s.1
  simp only
  split
  · exact (hf _).committed _ _ _
  · split
    · exact h1.trans ((hf _).committed _ _ _)
    · exact h1.trans ((hf _).committed _ _ _)
    all_goals exact h1

theorem moves_thenPartial {p : Parser S σ α} {f : α → Parser S τ β × α} (hp : Moves p)
    (hf : ∀ a, Moves (f a).1) (n : τ) : Moves (thenPartial p f n) := by
  refine .ofMode hS fun m i s => ?_
  have h1 := hp.run m i s.1
  simp only
  split
  · exact (hf _).committed _ _ _
  · split
    · exact h1.trans ((hf _).committed _ _ _)
    · exact h1.trans ((hf _).committed _ _ _)
    all_goals exact h1

theorem moves_thenRef {p : Parser S σ α} {f : α → Parser S τ β} (hp : Moves p)
    (hf : ∀ a, Moves (f a)) (n : τ) : Moves (thenRef p f n) := by
  refine .ofMode hS fun m i s => ?_
  have h1 := hp.run m i s.1
  simp only
  split
  · exact (hf _).committed _ _ _
  · split
    · exact h1.trans ((hf _).committed _ _ _)
    · exact h1.trans ((hf _).committed _ _ _)
    all_goals exact h1

/-! ### Repetition -/

theorem iterNext_reach {p : Parser S σ α} (h : Moves p) (it : IterS S σ) :
    S.Reach it.inp (iterNext p it).2.inp := by
  have h1 := h.run it.first it.inp it.st
  unfold iterNext
  simp only
  split <;> try exact h1
  rw [hS.reset_reach h1]; exact .refl _

omit hS in
theorem iterExtend_lim (p : Parser S σ α) (f : α → Option β) (n : Nat) (els : List β)
    (it : IterS S σ) : iterExtend p f n (some 0) els it = (els, it) := by
  unfold iterExtend; split <;> first | rfl | contradiction

omit hS in
theorem iterExtend_fuel (p : Parser S σ α) (f : α → Option β) {lim : Option Nat}
    (h : lim ≠ some 0) (els : List β) (it : IterS S σ) :
    iterExtend p f 0 lim els it = (els, { it with state := .abort .diverge }) := by
  unfold iterExtend; split <;> first | rfl | contradiction

omit hS in
theorem iterExtend_succ (p : Parser S σ α) (f : α → Option β) (n : Nat) {lim : Option Nat}
    (h : lim ≠ some 0) (els : List β) (it : IterS S σ) :
    iterExtend p f (n + 1) lim els it =
      match iterNext p it with
      | (none, it') => (els, it')
      | (some x, it') =>
        match f x with
        | some y => iterExtend p f n (lim.map (· - 1)) (els ++ [y]) it'
        | none => (els, it') := by
  conv => lhs; unfold iterExtend
  split
  · contradiction
  · contradiction
  · rename_i hn _
    cases hn
    rfl

theorem iterExtend_reach {p : Parser S σ α} (h : Moves p) (f : α → Option β) (n : Nat)
    (lim : Option Nat) (els : List β) (it : IterS S σ) :
    S.Reach it.inp (iterExtend p f n lim els it).2.inp := by
  induction n generalizing lim els it with
  | zero =>
    by_cases hl : lim = some 0
    · subst hl; rw [iterExtend_lim]; exact .refl _
    · rw [iterExtend_fuel _ _ hl]; exact .refl _
  | succ n ih =>
    by_cases hl : lim = some 0
    · subst hl; rw [iterExtend_lim]; exact .refl _
    · rw [iterExtend_succ _ _ _ hl]
      have h1 := iterNext_reach hS h it
      revert h1
      generalize iterNext p it = x
      obtain ⟨o, it2⟩ := x
      intro h1
      cases o with
      | none => exact h1
      | some v =>
        simp only
        split
        · exact Strm.Reach.trans h1 (ih _ _ _)
        · exact h1

theorem moves_many {p : Parser S σ α} (h : Moves p) : Moves (many p) :=
  .ofMode hS fun m i s => iterExtend_reach hS h some _ none s.1 (IterS.new m i s.2)

theorem many1Rest_reach {p : Parser S σ α} (h : Moves p) (m : Bool) (i : S.Input)
    (s : Many1St σ α) : S.Reach i (many1Rest p m i s).inp :=
  iterExtend_reach hS h some _ none s.elements ⟨i, s.committed, .ok, s.child, m⟩

theorem moves_many1 {p : Parser S σ α} (h : Moves p) : Moves (many1 p) := by
  refine .ofMode hS fun m i s => ?_
  have h1 := h.run m i s.child
  simp only
  split
  · split
    · exact h1.trans (many1Rest_reach hS h _ _ _)
    · exact h1.trans (many1Rest_reach hS h _ _ _)
    all_goals exact h1
  · exact many1Rest_reach hS h _ _ _

theorem moves_countMinMax (lo hi : Nat) {p : Parser S σ α} (h : Moves p) :
    Moves (countMinMax lo hi p) := by
  refine .ofMode hS fun m i s => ?_
  have h1 := iterExtend_reach hS h some (hi - s.count + 1) (some (hi - s.count)) s.elements
    (IterS.new m i s.child)
  simp only
  split
  · exact .refl i
  · split <;> exact h1

theorem moves_count (n : Nat) {p : Parser S σ α} (h : Moves p) : Moves (count n p) :=
  moves_parserMacroUnit hS (moves_countMinMax hS 0 n h)

theorem moves_skipCount (n : Nat) {p : Parser S σ α} (h : Moves p) : Moves (skipCount n p) :=
  moves_parserMacro hS (moves_with hS (moves_count hS n (moves_map hS h _)) (moves_value hS _))

theorem moves_skipCountMinMax (lo hi : Nat) {p : Parser S σ α} (h : Moves p) :
    Moves (skipCountMinMax lo hi p) :=
  moves_parserMacro hS
    (moves_with hS (moves_countMinMax hS lo hi (moves_map hS h _)) (moves_value hS _))

theorem moves_skipMany {p : Parser S σ α} (h : Moves p) : Moves (skipMany p) :=
  moves_parserMacro hS (moves_ignore hS (moves_many hS (moves_ignore hS h)))

theorem moves_skipMany1 {p : Parser S σ α} (h : Moves p) : Moves (skipMany1 p) :=
  moves_parserMacro hS (moves_ignore hS (moves_many1 hS (moves_ignore hS h)))

theorem moves_sepBy1 {p : Parser S σ α} {sep : Parser S τ β} (hp : Moves p) (hs : Moves sep) :
    Moves (sepBy1 p sep) := by
  have hr := moves_with hS (moves_boxed hS hs) (moves_boxed hS hp)
  refine .ofMode hS fun m i s => ?_
  have h1 := hp.run m i s.2.2.tail.1.2
  simp only
  split
  · exact iterExtend_reach hS hr some _ none _ (IterS.new m i _)
  · split
    · exact h1.trans (iterExtend_reach hS hr some _ none _ (IterS.new m _ _))
    · exact h1.trans (iterExtend_reach hS hr some _ none _ (IterS.new m _ _))
    all_goals exact h1

theorem moves_emptyList : Moves (emptyList S α) := moves_fnParser hS _ fun i => .refl i

theorem moves_sepBy {p : Parser S σ α} {sep : Parser S τ β} (hp : Moves p) (hs : Moves sep) :
    Moves (sepBy p sep) :=
  .ofMode hS (moves_or hS (moves_sepBy1 hS (moves_boxed hS hp) (moves_boxed hS hs))
    (moves_emptyList hS)).run

theorem moves_sepEndBy1 {p : Parser S σ α} {sep : Parser S τ β} (hp : Moves p) (hs : Moves sep) :
    Moves (sepEndBy1 p sep) := by
  have hr := moves_with hS (moves_boxed hS hs) (moves_optional hS (moves_boxed hS hp))
  refine .ofMode hS fun m i s => ?_
  have h1 := hp.run m i s.2.2.tail.1.2
  simp only
  split
  · exact iterExtend_reach hS hr id _ none _ (IterS.new m i _)
  · split
    · exact h1.trans (iterExtend_reach hS hr id _ none _ (IterS.new m _ _))
    · exact h1.trans (iterExtend_reach hS hr id _ none _ (IterS.new m _ _))
    all_goals exact h1

theorem moves_sepEndBy {p : Parser S σ α} {sep : Parser S τ β} (hp : Moves p) (hs : Moves sep) :
    Moves (sepEndBy p sep) :=
  .ofMode hS (moves_or hS (moves_sepEndBy1 hS (moves_boxed hS hp) (moves_boxed hS hs))
    (moves_emptyList hS)).run

theorem chainl1Loop_reach {t : Parser S τ ((α → α → α) × α × Unit)} (h : Moves t) (n : Nat)
    (m : Bool) (l : α) (c : Commit Unit) (i : S.Input) (s : τ) :
    S.Reach i (chainl1Loop t n m l c i s).inp := by
  induction n generalizing m l c i s with
  | zero => exact .refl i
  | succ n ih =>
    have h1 := h.run m i s
    unfold chainl1Loop
    simp only
    split
    · exact h1.trans (ih _ _ _ _ _)
    · exact h1
    · rw [hS.tryReset_eq h1]; exact .refl i
    · exact h1

theorem moves_chainl1 {p : Parser S σ α} {op : Parser S τ (α → α → α)} (hp : Moves p)
    (ho : Moves op) : Moves (chainl1 p op) := by
  have ht := moves_pair hS (moves_boxed hS ho) (moves_boxed hS hp)
  refine .ofMode hS fun m i s => ?_
  have h1 := hp.run false i s.2.tail.1.2
  simp only
  split
  · exact chainl1Loop_reach hS ht _ _ _ _ _ _
  · split
    · exact h1.trans (chainl1Loop_reach hS ht _ _ _ _ _ _)
    · exact h1.trans (chainl1Loop_reach hS ht _ _ _ _ _ _)
    all_goals exact h1

theorem chainr1_reach {p : Parser S σ α} {op : Parser S τ (α → α → α)} (hp : Moves p)
    (ho : Moves op) (n : Nat) :
    (∀ i, S.Reach i (chainr1Lazy p op n i).2) ∧
    (∀ l c i, S.Reach i (chainr1Loop p op n l c i).2) := by
  induction n with
  | zero => exact ⟨fun i => .refl i, fun _ _ i => .refl i⟩
  | succ n ih =>
    constructor
    · intro i
      have h1 := hp.lazy i
      unfold chainr1Lazy
      revert h1
      generalize p.lazy i = x
      obtain ⟨r, j⟩ := x
      intro h1
      cases r <;> simp only
      · exact Strm.Reach.trans h1 (ih.2 _ _ _)
      · exact Strm.Reach.trans h1 (ih.2 _ _ _)
      all_goals exact h1
    · intro l c i
      have h1 := ho.lazy i
      have h2 := ih.1 (op.lazy i).2
      unfold chainr1Loop
      simp only
      split
      · exact h1
      · rw [hS.reset_reach h1]; exact .refl i
      · exact h1
      · split
        · exact (h1.trans h2).trans (ih.2 _ _ _)
        · exact h1.trans h2
        · rw [hS.reset_reach h2]; exact h1
        · exact h1.trans h2

theorem moves_chainr1 {p : Parser S σ α} {op : Parser S τ (α → α → α)} (hp : Moves p)
    (ho : Moves op) : Moves (chainr1 p op) :=
  .ofLazy hS fun i => (chainr1_reach hS hp ho _).1 i

theorem takeUntilLoop_reach {e : Parser S σ α} (h : Moves e) (m : Bool) (n : Nat) (c : Commit Unit)
    (i : S.Input) (els : List S.Tok) (s : σ) :
    S.Reach i (takeUntilLoop e m n c i els s).inp := by
  induction n generalizing c i els s with
  | zero => exact .refl i
  | succ n ih =>
    have h1 := h.run m i s
    unfold takeUntilLoop
    simp only
    split
    · rw [hS.tryReset_eq h1]; split <;> exact .refl i
    · rw [hS.tryReset_eq h1]
      have h2 := unconsP_reach hS i
      revert h2
      generalize S.unconsP i = x
      obtain ⟨r, j⟩ := x
      intro h2
      cases r <;> simp only
      · exact Strm.Reach.trans h2 (ih _ _ _ _)
      · exact Strm.Reach.trans h2 (ih _ _ _ _)
      all_goals exact h2
    · rw [hS.tryReset_eq h1]; exact .refl i
    · exact h1

theorem moves_takeUntil {e : Parser S σ α} (h : Moves e) : Moves (takeUntil e) :=
  .ofMode hS fun m i s => takeUntilLoop_reach hS h m _ _ i _ _

theorem moves_skipUntil {e : Parser S σ α} (h : Moves e) : Moves (skipUntil e) :=
  moves_parserMacro hS (moves_with hS (moves_takeUntil hS h) (moves_value hS _))

theorem repeatUntilLoop_reach {p : Parser S σ α} {e : Parser S τ β} (hp : Moves p) (he : Moves e)
    (n : Nat) (m : Bool) (c : Commit Unit) (i : S.Input) (s : RepeatSt σ τ α) :
    S.Reach i (repeatUntilLoop p e n m c i s).inp := by
  induction n generalizing m c i s with
  | zero => exact .refl i
  | succ n ih =>
    unfold repeatUntilLoop
    split
    · have h1 := hp.run m i s.parseSt
      simp only
      split
      · exact h1.trans (ih _ _ _ _)
      · exact h1.trans (ih _ _ _ _)
      all_goals exact h1
    · have h1 := he.run m i s.endSt
      simp only
      split
      · rw [hS.tryReset_eq h1]; split <;> exact .refl i
      · rw [hS.tryReset_eq h1]; exact ih _ _ _ _
      · rw [hS.tryReset_eq h1]; exact .refl i
      · exact h1

theorem moves_repeatUntil {p : Parser S σ α} {e : Parser S τ β} (hp : Moves p) (he : Moves e) :
    Moves (repeatUntil p e) :=
  .ofMode hS fun m i s => repeatUntilLoop_reach hS hp he _ m _ i s

theorem moves_repeatSkipUntil {p : Parser S σ α} {e : Parser S τ β} (hp : Moves p) (he : Moves e) :
    Moves (repeatSkipUntil p e) :=
  moves_parserMacro hS (moves_with hS (moves_repeatUntil hS hp he) (moves_value hS _))

theorem escapedLoop_reach [DecidableEq S.Tok] {p : Parser S σ α} {q : Parser S τ β} (hp : Moves p)
    (hq : Moves q) (esc : S.Tok) (n : Nat) (c : Commit Unit) (i : S.Input) :
    S.Reach i (escapedLoop p esc q n c i).2 := by
  induction n generalizing c i with
  | zero => exact .refl i
  | succ n ih =>
    have h1 := hp.lazy i
    unfold escapedLoop
    revert h1
    generalize p.lazy i = x
    obtain ⟨r, j⟩ := x
    intro h1
    cases r <;> simp only
    · exact Strm.Reach.trans h1 (ih _ _)
    · exact Strm.Reach.trans h1 (ih _ _)
    · exact h1
    · have h2 := unconsP_reach hS j
      revert h2
      generalize S.unconsP j = y
      obtain ⟨r2, k⟩ := y
      intro h2
      have hk : S.reset (S.checkpoint j) k = (none, j) := hS.reset_reach h2
      have h3 := hq.committed true k q.init
      cases r2 <;> simp only [hk]
      · split
        · split
          · exact Strm.Reach.trans h1 (Strm.Reach.trans h2 (h3.trans (ih _ _)))
          · exact Strm.Reach.trans h1 (Strm.Reach.trans h2 (h3.trans (ih _ _)))
          all_goals exact Strm.Reach.trans h1 (Strm.Reach.trans h2 h3)
        · exact h1
      · split
        · split
          · exact Strm.Reach.trans h1 (Strm.Reach.trans h2 (h3.trans (ih _ _)))
          · exact Strm.Reach.trans h1 (Strm.Reach.trans h2 (h3.trans (ih _ _)))
          all_goals exact Strm.Reach.trans h1 (Strm.Reach.trans h2 h3)
        · exact h1
      · exact Strm.Reach.trans h1 h2
      · exact h1
      · exact Strm.Reach.trans h1 h2
    · exact h1

theorem moves_escaped [DecidableEq S.Tok] {p : Parser S σ α} {q : Parser S τ β} (hp : Moves p)
    (hq : Moves q) (esc : S.Tok) : Moves (escaped p esc q) :=
  .ofLazy hS fun i => escapedLoop_reach hS hp hq esc _ _ i

theorem iterateLoop_reach {J : Type} {f : J → S.Input → Parser S σ α} (h : ∀ x i, Moves (f x i))
    (xs : List J) (m c : Bool) (buf : List α) (i : S.Input) (s : σ) :
    S.Reach i (iterateLoop f xs m c buf i s).inp := by
  induction xs generalizing m c buf i s with
  | nil => exact .refl i
  | cons x xs ih =>
    have h1 := (h x i).run m i s
    unfold iterateLoop
    simp only
    split
    · exact h1.trans (ih _ _ _ _ _)
    · exact h1.trans (ih _ _ _ _ _)
    · rw [hS.reset_reach h1]; exact .refl i
    · exact h1
    · exact h1

theorem moves_iterate {J : Type} (items : List J) {f : J → S.Input → Parser S σ α}
    (h : ∀ x i, Moves (f x i)) (init : σ) : Moves (iterate items f init) := by
  refine .ofMode hS fun m i s => ?_
  split <;> exact iterateLoop_reach hS h _ _ _ _ _ _

end

/-! ### Range parsers -/

section
variable (hS : S.Lawful) {R : RangeOps S} {toks : S.Rng → List S.Tok} {w : S.Tok → Nat}
  (hR : R.Lawful toks w)
include hS hR

theorem unconsRange_reach (n : Nat) (i : S.Input) : S.Reach i (R.unconsRange n i).2 := by
  cases h : R.unconsRange n i with
  | mk r j =>
    cases r with
    | ok r => exact ⟨_, (hR.range_ok h).1⟩
    | error e => cases (hR.range_error h).1; exact .refl i

theorem unconsRangeP_reach (n : Nat) (i : S.Input) : S.Reach i (R.unconsRangeP n i).2 := by
  have h := unconsRange_reach hS hR n i
  unfold RangeOps.unconsRangeP
  revert h
  generalize R.unconsRange n i = x
  obtain ⟨r, j⟩ := x
  intro h
  cases r <;> exact h

theorem unconsWhileP_reach {ς : Type} (f : ς → S.Tok → Bool × ς) (s : ς) (i : S.Input) :
    S.Reach i (R.unconsWhileP f s i).2 := by
  unfold RangeOps.unconsWhileP
  cases h : R.unconsWhile f s i with
  | mk x j =>
    obtain ⟨r, s'⟩ := x
    have hj : S.Reach i j := by
      obtain ⟨r, _, h, _⟩ := hR.while_scan h
      exact ⟨_, h⟩
    have he := hS.inputAtEof_eq j
    cases r <;> simp only
    · exact hj
    · rw [he]
      generalize (S.inputAtEof j).1 = b
      split
      · cases b <;> exact hj
      · exact hj

theorem unconsWhile1P_reach {ς : Type} (f : ς → S.Tok → Bool × ς) (s : ς) (i : S.Input) :
    S.Reach i (R.unconsWhile1P f s i).2 := by
  unfold RangeOps.unconsWhile1P
  cases h : R.unconsWhile1 f s i with
  | mk x j =>
    obtain ⟨r, s'⟩ := x
    have hj : S.Reach i j := by
      rcases hR.while1_scan h with ⟨r', _, _, h, _⟩ | ⟨e, _, rfl, _⟩
      · exact ⟨_, h⟩
      · exact .refl _
    have he := hS.inputAtEof_eq j
    cases r <;> simp only <;> try exact hj
    all_goals
      rw [he]
      generalize (S.inputAtEof j).1 = b
      split
      · cases b <;> exact hj
      · exact hj

theorem moves_range [DecidableEq S.Rng] (r : S.Rng) : Moves (range R r) := by
  refine .ofLazy hS fun i => ?_
  have h := unconsRange_reach hS hR (R.len r) i
  revert h
  generalize R.unconsRange (R.len r) i = x
  obtain ⟨q, j⟩ := x
  intro h
  cases q <;> simp only
  · exact h
  · split <;> exact h

theorem moves_take (n : Nat) : Moves (take R n) := .ofLazy hS (unconsRangeP_reach hS hR n)

theorem retake_reach {i j : S.Input} (h : S.Reach i j) (s : Nat × σ) (f : S.Rng → α) :
    S.Reach i (retake R (S.checkpoint i) s j f).inp := by
  unfold retake
  simp only [hS.tryReset_eq h]
  exact unconsRangeP_reach hS hR _ i

theorem partialRange_reach {first resume : S.Input → ParseResult S.Rng S.Err × S.Input}
    (h1 : ∀ i, S.Reach i (first i).2) (h2 : ∀ i, S.Reach i (resume i).2) (m : Bool) (i : S.Input)
    (d : Nat) : S.Reach i (partialRange R first resume m i d).inp := by
  unfold partialRange
  simp only
  split
  · exact h1 i
  · split
    · split
      · rw [hS.tryReset_eq (h1 i)]; exact .refl i
      · exact h1 i
    · have h3 := unconsRange_reach hS hR d i
      revert h3
      generalize R.unconsRange d i = x
      obtain ⟨q, j⟩ := x
      intro h3
      cases q <;> simp only
      · exact h3
      · have h4 : S.Reach i (resume j).2 := Strm.Reach.trans h3 (h2 j)
        split
        · exact h4
        · rw [hS.tryReset_eq h4]; exact .refl i
        · exact h4
        · exact retake_reach hS hR h4 _ _

theorem moves_takeWhile (f : S.Tok → Bool) : Moves (takeWhile R f) :=
  .ofMode hS (partialRange_reach hS hR (fun i => unconsWhileP_reach hS hR _ _ i)
    (fun i => unconsWhileP_reach hS hR _ _ i))

theorem moves_takeWhile1 (f : S.Tok → Bool) : Moves (takeWhile1 R f) :=
  .ofMode hS (partialRange_reach hS hR (fun i => unconsWhile1P_reach hS hR _ _ i)
    (fun i => unconsWhileP_reach hS hR _ _ i))

theorem moves_recognizeWithValue {p : Parser S σ α} (h : Moves p) :
    Moves (recognizeWithValue R p) := by
  have body : ∀ (m : Bool) (i j : S.Input) (s : Nat × σ), S.Reach i j →
      S.Reach i (match (p.run m j s.2).res with
        | .commitOk x => retake R (S.checkpoint i) (s.1, (p.run m j s.2).st) (p.run m j s.2).inp
            fun r => (r, x)
        | .peekOk x => retake R (S.checkpoint i) (s.1, (p.run m j s.2).st) (p.run m j s.2).inp
            fun r => (r, x)
        | .peekErr e => ⟨.peekErr e, (p.run m j s.2).inp, (s.1, (p.run m j s.2).st)⟩
        | .commitErr e =>
          S.tryReset (S.checkpoint i) (p.run m j s.2).inp
            (R.distance (p.run m j s.2).inp (S.checkpoint i), (p.run m j s.2).st) fun k =>
            ⟨.commitErr e, k, (R.distance (p.run m j s.2).inp (S.checkpoint i), (p.run m j s.2).st)⟩
        | .abort a => ⟨.abort a, (p.run m j s.2).inp, (s.1, (p.run m j s.2).st)⟩ :
          Out S (Nat × σ) (S.Rng × α)).inp := by
    intro m i j s hij
    have h1 := hij.trans (h.run m j s.2)
    split
    · exact retake_reach hS hR h1 _ _
    · exact retake_reach hS hR h1 _ _
    · exact h1
    · rw [hS.tryReset_eq h1]; exact .refl i
    · exact h1
  refine .ofMode hS fun m i s => ?_
  simp only
  split
  · exact body m i i s (.refl i)
  · have h3 := unconsRange_reach hS hR s.1 i
    revert h3
    generalize R.unconsRange s.1 i = x
    obtain ⟨q, j⟩ := x
    intro h3
    cases q with
    | error e => exact h3
    | ok r => exact body m i j s h3

theorem moves_recognizeRange {p : Parser S σ α} (h : Moves p) : Moves (recognizeRange R p) :=
  moves_parserMacro hS (moves_map hS (moves_recognizeWithValue hS hR h) _)

theorem takeUntilRangeLoop_reach [DecidableEq S.Rng] (r : S.Rng) (i0 : S.Input) (n : Nat)
    (fe : Option (S.SErr × Nat)) (i : S.Input) (hi : S.Reach i0 i) (st : Nat) :
    S.Reach i0 (takeUntilRangeLoop R r (S.checkpoint i0) n fe i st).inp := by
  induction n generalizing fe i st with
  | zero => exact hi
  | succ n ih =>
    unfold takeUntilRangeLoop
    simp only
    have h1 := unconsRange_reach hS hR (R.len r) i
    revert h1
    generalize R.unconsRange (R.len r) i = x
    obtain ⟨q, j⟩ := x
    intro h1
    have h1' : S.Reach i j := h1
    have hu := hS.uncons_reach i
    revert hu
    generalize hy : S.uncons i = y
    obtain ⟨u, l⟩ := y
    intro hu
    have hu' : S.Reach i l := hu
    cases q <;> simp only
    · rw [hS.tryReset_eq h1', hy]
      cases u with
      | ok t => exact ih _ _ (hi.trans hu') _
      | error e => simp only [hS.tryReset_eq (hi.trans hu')]; exact .refl i0
    · split
      · rw [hS.tryReset_eq (hi.trans h1')]
        have h2 := unconsRange_reach hS hR (R.distance j (S.checkpoint i0) - R.len r) i0
        revert h2
        generalize R.unconsRange (R.distance j (S.checkpoint i0) - R.len r) i0 = z
        obtain ⟨w, l2⟩ := z
        intro h2
        cases w with
        | error e => exact h2
        | ok c => simp only; split <;> exact h2
      · rw [hS.tryReset_eq h1', hy]
        cases u with
        | ok t => exact ih _ _ (hi.trans hu') _
        | error e => exact hi.trans hu'

theorem moves_takeUntilRange [DecidableEq S.Rng] (r : S.Rng) : Moves (takeUntilRange R r) := by
  refine .ofMode hS fun _ i st => ?_
  simp only
  have h1 := unconsRangeP_reach hS hR st i
  revert h1
  generalize R.unconsRangeP st i = x
  obtain ⟨q, j⟩ := x
  intro h1
  cases q <;> simp only
  · exact takeUntilRangeLoop_reach hS hR r i _ _ _ h1 _
  · exact takeUntilRangeLoop_reach hS hR r i _ _ _ h1 _
  all_goals exact h1

theorem moves_takeFn (search : S.Rng → TakeRange) : Moves (takeFn R search) := by
  refine .ofMode hS fun m i st => ?_
  have hj : ∀ n, S.Reach i (if m then i else (R.unconsRange n i).2) := by
    intro n
    split
    · exact .refl i
    · exact unconsRange_reach hS hR n i
  simp only
  split
  · rw [hS.tryReset_eq (hj _)]; exact unconsRangeP_reach hS hR _ i
  · rw [hS.tryReset_eq ((hj _).trans (unconsRange_reach hS hR _ _))]
    (repeat' split) <;> exact .refl i

theorem moves_lengthPrefix {p : Parser S σ α} (h : Moves p) (f : α → Except S.SErr Nat) :
    Moves (lengthPrefix R p f) :=
  moves_parserMacroUnit hS
    (moves_thenPartial hS (moves_andThen hS h f) (fun _ => moves_take hS hR _) _)

/-! ### Byte, char and regex parsers -/

theorem moves_takeUntilByte (b : S.Rng → List UInt8) (f : UInt8 → Bool) :
    Moves (takeUntilByte R b f) := moves_parserMacro hS (moves_takeFn hS hR _)

theorem moves_takeUntilBytes (b : S.Rng → List UInt8) (n : List UInt8) :
    Moves (takeUntilBytes R b n) := moves_parserMacro hS (moves_takeFn hS hR _)

theorem moves_regexMatch (re : Regex S.Rng) : Moves (regexMatch R re) := by
  refine .ofLazy hS fun i => ?_
  split <;> exact .refl i

theorem regexTake_reach (r : Nat × Option α) (i : S.Input) : S.Reach i (regexTake R r i).2 := by
  unfold regexTake
  split
  · exact unconsRangeP_reach hS hR _ i
  · exact .refl i

theorem moves_regexFind (re : Regex S.Rng) : Moves (regexFind R re) :=
  .ofLazy hS fun i => regexTake_reach hS hR _ i

theorem moves_regexCaptures (re : Regex S.Rng) : Moves (regexCaptures R re) :=
  .ofLazy hS fun i => regexTake_reach hS hR _ i

theorem moves_regexFindMany (re : Regex S.Rng) : Moves (regexFindMany R re) :=
  .ofLazy hS fun i => unconsRangeP_reach hS hR _ i

theorem moves_regexCapturesMany (re : Regex S.Rng) : Moves (regexCapturesMany R re) :=
  .ofLazy hS fun i => unconsRangeP_reach hS hR _ i

end

section
variable (hS : S.Lawful)
include hS

theorem moves_satisfyNamed (f : S.Tok → Bool) (n : String) : Moves (satisfyNamed S f n) :=
  moves_expected hS (moves_satisfy hS f) _

theorem moves_spaces (f : S.Tok → Bool) (n : String) : Moves (spaces S f n) :=
  moves_expected hS (moves_skipMany hS (moves_satisfyNamed hS f n)) _

theorem moves_newline [DecidableEq S.Tok] (lf : S.Tok) : Moves (newline S lf) :=
  moves_satisfyNamed hS _ _

theorem moves_crlf [DecidableEq S.Tok] (cr lf : S.Tok) : Moves (crlf S cr lf) :=
  moves_expected hS (moves_noPartial hS (moves_with hS (moves_satisfy hS _) (moves_newline hS lf))) _

theorem moves_stringCmp (ts : List τ) (cmp : τ → S.Tok → Bool) (x : Info S.Tok S.Rng) (v : α) :
    Moves (stringCmp S ts cmp x v) :=
  moves_expected hS (moves_map hS (moves_tokensCmp hS ts cmp) _) _

theorem readN_reach (n : Nat) (buf : List S.Tok) (i : S.Input) :
    S.Reach i (readN S n buf i).2 := by
  induction n generalizing buf i with
  | zero => exact .refl i
  | succ n ih =>
    have h1 := unconsP_reach hS i
    unfold readN
    revert h1
    generalize S.unconsP i = x
    obtain ⟨r, j⟩ := x
    intro h1
    cases r <;> simp only
    · exact Strm.Reach.trans h1 (ih _ _)
    · exact Strm.Reach.trans h1 (ih _ _)
    all_goals exact h1

theorem moves_intParser (n : Nat) (conv : List S.Tok → α) : Moves (intParser S n conv) := by
  refine moves_fnParser hS _ fun i => ?_
  have h1 := readN_reach hS n [] i
  simp only
  split <;> try exact h1
  all_goals rw [hS.reset_reach h1]; exact .refl i

theorem moves_recur {F : Parser S σ α → Parser S σ α} (h : ∀ p, Moves p → Moves (F p)) (init : σ)
    (n : Nat) : Moves (recur F init n) := by
  induction n with
  | zero => exact .ofMode hS fun _ i _ => .refl i
  | succ n ih => exact h _ ih

end

end Verif
