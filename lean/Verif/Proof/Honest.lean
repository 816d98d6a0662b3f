import Verif.Spec.Commitment
import Verif.Proof.BuiltMoves
import Verif.Proof.Coherent
import Verif.Proof.Consume
import Verif.Proof.RangeLemmas

/-! # The commit status tells the truth: one lemma per combinator -/

namespace Verif

set_option linter.unusedSectionVars false
set_option linter.unusedVariables false

variable {S : Strm} {σ τ υ α β γ : Type} {h : Bool} {Q : σ → Prop} {C : τ → Prop}

/-- Between `i` and `j` something was read, or nothing. -/
def Strm.Since (S : Strm) (c : Bool) (i j : S.Input) : Prop :=
  match c with
  | true => ∃ t ts, S.Reads i (t :: ts) j
  | false => j = i

theorem Strm.Since.trans {c d : Bool} {i j k : S.Input} (h : S.Since c i j) (h' : S.Since d j k) :
    S.Since (c || d) i k := by
  cases c with
  | false =>
    cases h
    exact h'
  | true =>
    obtain ⟨t, ts, h⟩ := h
    cases d with
    | false => cases h'; exact ⟨t, ts, h⟩
    | true =>
      obtain ⟨t', ts', h'⟩ := h'
      exact ⟨t, ts ++ t' :: ts', h.trans h'⟩

theorem Strm.Since.step {c : Bool} {i j k : S.Input} (h : S.Since c i j) (h' : S.Since true j k) :
    S.Since true i k := by
  have := h.trans h'
  rwa [Bool.or_true] at this

theorem since_of_uncons {i j : S.Input} {t : S.Tok} (h : S.uncons i = (.ok t, j)) : S.Since true i j :=
  ⟨t, [], .cons h (.nil j)⟩

theorem since_of_unconsP {i j : S.Input} {t : S.Tok}
    (h : S.unconsP i = (.commitOk t, j) ∨ S.unconsP i = (.peekOk t, j)) : S.Since true i j := by
  unfold Strm.unconsP at h
  revert h
  cases hu : S.uncons i with
  | mk r k =>
    cases r with
    | ok x =>
      rintro (h | h) <;> cases h
      exact since_of_uncons hu
    | error e =>
      rintro (h | h) <;>
      · simp only [Prod.mk.injEq, Strm.wrapStreamError] at h
        obtain ⟨h, rfl⟩ := h
        split at h <;> cases h

theorem since_of_reads {i j : S.Input} {ts : List S.Tok} (h : S.Reads i ts j) :
    S.Since (!ts.isEmpty) i j := by
  cases ts with
  | nil => exact Strm.reads_nil.1 h
  | cons t ts => exact ⟨t, ts, h⟩

theorem tells_map {E E' : Type} {i j : S.Input} {r : ParseResult α E} (h : S.Tells i r j) (f : α → β) :
    S.Tells i (r.map f) j := by cases r <;> exact h

theorem tells_mapErr {E E' : Type} {i j : S.Input} {r : ParseResult α E} (h : S.Tells i r j) (f : E → E') :
    S.Tells i (r.mapErr f) j := by cases r <;> exact h

/-- The result `if c then CommitOk else PeekOk`. -/
theorem tells_ite {E : Type} {c : Bool} {i j : S.Input} (h : S.Since c i j) (v : α) :
    S.Tells i (if c then .commitOk v else .peekOk v : ParseResult α E) j := by
  cases c <;> exact h

theorem tells_ofStd {E : Type} {c : Commit Unit} {i j : S.Input} (h : S.Since (!c.isPeek) i j) (v : α) :
    S.Tells i (.ofStd (.ok v c) : ParseResult α E) j := by
  cases c <;> exact h

/-! ## The invariant -/

/-- `Plain`, semantically. -/
structure HonestIn (h : Bool) (Q : σ → Prop) (p : Parser S σ α) : Prop where
  init : Q p.init
  run : ∀ i s, Q s → S.Tells i (p.run true i s).res (p.run true i s).inp
  keep : ∀ i s, Q s → (p.run true i s).res.kept h = true → Q (p.run true i s).st
  lazy : ∀ i, S.Tells i (p.lazy i).1 (p.lazy i).2
  committed : ∀ i s, Q s → S.Tells i (p.committed true i s).res (p.committed true i s).inp
  keepC : ∀ i s, Q s → (p.committed true i s).res.kept h = true → Q (p.committed true i s).st

/-- `Fresh`, semantically. -/
structure HonestFresh (p : Parser S σ α) : Prop where
  run : ∀ i, S.Tells i (p.run true i p.init).res (p.run true i p.init).inp
  lazy : ∀ i, S.Tells i (p.lazy i).1 (p.lazy i).2
  committed : ∀ i, S.Tells i (p.committed true i p.init).res (p.committed true i p.init).inp

theorem HonestIn.fresh {p : Parser S σ α} (hp : HonestIn h Q p) : HonestFresh p :=
  ⟨fun i => hp.run i _ hp.init, hp.lazy, fun i => hp.committed i _ hp.init⟩

theorem kept_weaken {E : Type} {r : ParseResult α E} (hr : r.kept false = true) : r.kept true = true := by
  cases r <;> first | rfl | cases hr

theorem HonestIn.weaken {p : Parser S σ α} (hp : HonestIn true Q p) : HonestIn false Q p :=
  ⟨hp.init, hp.run, fun i s hs hk => hp.keep i s hs (kept_weaken hk), hp.lazy, hp.committed,
    fun i s hs hk => hp.keepC i s hs (kept_weaken hk)⟩

theorem describe_tells (i : S.Input) (b : S.Ckpt) (ae : Tracked S.Err → Tracked S.Err) (e : Tracked S.Err)
    (j : S.Input) (s : σ) : S.Tells i (Strm.describe (α := α) b ae e j s).res
      (Strm.describe (α := α) b ae e j s).inp := by
  unfold Strm.describe Strm.tryReset
  split
  · trivial
  · simp only
    split
    · split <;> trivial
    · trivial

theorem describe_st (b : S.Ckpt) (ae : Tracked S.Err → Tracked S.Err) (e : Tracked S.Err)
    (j : S.Input) (s : σ) : (Strm.describe (α := α) b ae e j s).st = s := by
  unfold Strm.describe Strm.tryReset
  split
  · rfl
  · simp only
    split
    · split <;> rfl
    · rfl

theorem describing_tells (ae : Tracked S.Err → Tracked S.Err) {run : S.Input → σ → Out S σ α} {i : S.Input}
    {s : σ} (hr : S.Tells i (run i s).res (run i s).inp) :
    S.Tells i (Strm.describing ae run i s).res (Strm.describing ae run i s).inp := by
  unfold Strm.describing
  simp only
  split
  · exact describe_tells _ _ _ _ _ _
  · exact hr

theorem describing_keep (ae : Tracked S.Err → Tracked S.Err) {run : S.Input → σ → Out S σ α} {i : S.Input}
    {s : σ} (hr : (run i s).res.kept h = true → Q (run i s).st)
    (hk : (Strm.describing ae run i s).res.kept h = true) : Q (Strm.describing ae run i s).st := by
  unfold Strm.describing at hk ⊢
  simp only at hk ⊢
  revert hk
  split
  · rename_i e he
    intro _
    rw [describe_st]
    exact hr (by rw [he]; rfl)
  · exact hr

theorem defaultLazy_tells {init : σ} {run : Bool → S.Input → σ → Out S σ α} {i : S.Input}
    (hr : S.Tells i (run true i init).res (run true i init).inp) :
    S.Tells i (Strm.defaultLazy init run i).1 (Strm.defaultLazy init run i).2 := by
  unfold Strm.defaultLazy
  split
  · simp only
    split
    · split <;> trivial
    · exact hr
  · exact hr

theorem HonestIn.ofMode {init : σ} {run : Bool → S.Input → σ → Out S σ α}
    {ae ac : Tracked S.Err → Tracked S.Err} {c : Nat} (hi : Q init)
    (hr : ∀ i s, Q s → S.Tells i (run true i s).res (run true i s).inp)
    (hk : ∀ i s, Q s → (run true i s).res.kept h = true → Q (run true i s).st) :
    HonestIn h Q (Parser.ofMode init run ae ac c) where
  init := hi
  run := hr
  keep := hk
  lazy := fun i => defaultLazy_tells (hr i init hi)
  committed := fun i s hs => describing_tells _ (hr i s hs)
  keepC := fun i s hs => describing_keep _ (hk i s hs)

theorem HonestFresh.ofMode {init : σ} {run : Bool → S.Input → σ → Out S σ α}
    {ae ac : Tracked S.Err → Tracked S.Err} {c : Nat}
    (hr : ∀ i, S.Tells i (run true i init).res (run true i init).inp) :
    HonestFresh (Parser.ofMode init run ae ac c) where
  run := hr
  lazy := fun i => defaultLazy_tells (hr i)
  committed := fun i => describing_tells _ (hr i)

theorem HonestIn.ofLazy {init : σ} {lazy : S.Input → ParseResult α S.Err × S.Input}
    {ae ac : Tracked S.Err → Tracked S.Err} {c : Nat} (hl : ∀ i, S.Tells i (lazy i).1 (lazy i).2) :
    HonestIn h (fun _ => True) (Parser.ofLazy init lazy ae ac c) where
  init := trivial
  run := fun i _ _ => hl i
  keep := fun _ _ _ _ => trivial
  lazy := hl
  committed := fun i s _ => describing_tells (σ := σ) _ (hl i)
  keepC := fun _ _ _ _ => trivial

/-- A parser with the methods of `p` up to a change of results that keeps their kind. -/
theorem HonestIn.view {p : Parser S σ α} (hp : HonestIn h Q p) {run : Bool → S.Input → σ → Out S σ β}
    {ae ac : Tracked S.Err → Tracked S.Err} {c : Nat}
    (hr : ∀ i s, S.Tells i (p.run true i s).res (p.run true i s).inp → S.Tells i (run true i s).res (run true i s).inp)
    (hk : ∀ i s, (run true i s).res.kept h = true → (p.run true i s).res.kept h = true)
    (hs : ∀ i s, (run true i s).st = (p.run true i s).st) :
    HonestIn h Q (Parser.ofMode p.init run ae ac c) :=
  .ofMode hp.init (fun i s q => hr i s (hp.run i s q))
    (fun i s q k => by rw [hs]; exact hp.keep i s q (hk i s k))

/-! ## Token parsers -/

theorem tells_unconsP (i : S.Input) : S.Tells i (S.unconsP i).1 (S.unconsP i).2 := by
  cases hx : S.unconsP i with
  | mk r j =>
    cases r with
    | commitOk t => exact since_of_unconsP (.inl hx)
    | peekOk t =>
      exfalso
      unfold Strm.unconsP at hx
      revert hx
      cases hu : S.uncons i with
      | mk r k =>
        cases r with
        | ok x => intro hx; cases hx
        | error e =>
          intro hx
          simp only [Prod.mk.injEq, Strm.wrapStreamError] at hx
          obtain ⟨hx, rfl⟩ := hx
          split at hx <;> cases hx
    | _ => trivial

theorem tells_satisfyImpl (f : S.Tok → Option α) (i : S.Input) :
    S.Tells i (satisfyImpl S f i).1 (satisfyImpl S f i).2 := by
  unfold satisfyImpl
  cases hx : S.unconsP i with
  | mk r j =>
    cases r with
    | commitOk t =>
      simp only
      cases f t with
      | none => trivial
      | some v => exact since_of_unconsP (.inl hx)
    | peekOk t =>
      simp only
      cases f t with
      | none => trivial
      | some v => exact since_of_unconsP (.inr hx)
    | _ => trivial

theorem honest_any : HonestIn h (fun _ => True) (any S) := .ofLazy tells_unconsP

theorem honest_satisfyMap (f : S.Tok → Option α) : HonestIn h (fun _ => True) (satisfyMap S f) :=
  .ofLazy (tells_satisfyImpl f)

theorem honest_satisfy (f : S.Tok → Bool) : HonestIn h (fun _ => True) (satisfy S f) :=
  .ofLazy (tells_satisfyImpl _)

theorem honest_token [DecidableEq S.Tok] (t : S.Tok) : HonestIn h (fun _ => True) (token S t) :=
  .ofLazy (tells_satisfyImpl _)

theorem honest_oneOf [DecidableEq S.Tok] (ts : List S.Tok) : HonestIn h (fun _ => True) (oneOf S ts) :=
  .ofLazy (tells_satisfyImpl _)

theorem honest_noneOf [DecidableEq S.Tok] (ts : List S.Tok) : HonestIn h (fun _ => True) (noneOf S ts) :=
  .ofLazy (tells_satisfyImpl _)

theorem tells_tokensLoop (cmp : β → S.Tok → Bool) (start : S.Pos) (bad : S.Tok → S.Err) (ts : List β)
    (c : Bool) (i0 i : S.Input) (hc : S.Since c i0 i) :
    S.Tells i0 (tokensLoop S cmp start bad ts c i).1 (tokensLoop S cmp start bad ts c i).2 := by
  induction ts generalizing c i with
  | nil => exact tells_ite hc ()
  | cons t ts ih =>
    unfold tokensLoop
    cases hx : S.unconsP i with
    | mk r j =>
      cases r with
      | commitOk x =>
        simp only
        split
        · exact ih true j (hc.step (since_of_unconsP (.inl hx)))
        · cases c <;> trivial
      | peekOk x =>
        simp only
        split
        · exact ih true j (hc.step (since_of_unconsP (.inr hx)))
        · cases c <;> trivial
      | peekErr e => cases c <;> trivial
      | _ => trivial

theorem honest_tokens (cmp : β → S.Tok → Bool) (x : Info S.Tok S.Rng) (ts : List β) :
    HonestIn h (fun _ => True) (tokens S cmp x ts) :=
  .ofLazy fun i => tells_map (E' := S.Err) (tells_tokensLoop cmp _ _ ts false i i rfl) _

theorem honest_tokensCmp (ts : List β) (cmp : β → S.Tok → Bool) :
    HonestIn h (fun _ => True) (tokensCmp S ts cmp) :=
  .ofLazy fun i => tells_map (E' := S.Err) (tells_tokensLoop cmp _ _ ts false i i rfl) _

theorem honest_position : HonestIn h (fun _ => True) (position S) := .ofLazy fun _ => rfl

theorem honest_value (v : α) : HonestIn h (fun _ => True) (value S v) := .ofLazy fun _ => rfl

theorem honest_produce (f : Unit → α) : HonestIn h (fun _ => True) (produce S f) := .ofLazy fun _ => rfl

theorem honest_eof (hS : S.Lawful) : HonestIn h (fun _ => True) (eof S) := by
  refine .ofLazy fun i => ?_
  simp only
  cases hu : S.uncons i with
  | mk r j =>
    cases r with
    | ok t => simp only; split <;> trivial
    | error e =>
      simp only
      by_cases he : S.E.isEoiS e = true
      · rw [if_pos he]; exact hS.uncons_error hu
      · rw [if_neg he]; split <;> trivial

theorem honest_unexpected (x : Info S.Tok S.Rng) : HonestIn h (fun _ => True) (unexpected S α x) :=
  .ofLazy fun _ => trivial

/-! ## Combinators -/

theorem honest_notFollowedBy (hS : S.Lawful) {p : Parser S σ α} (hm : Moves p) :
    HonestIn h (fun _ => True) (notFollowedBy p) := by
  refine .ofMode trivial (fun i s _ => ?_) (fun _ _ _ _ => trivial)
  simp only [hS.tryReset_eq (hm.run true i s)]
  split <;> first | trivial | rfl

theorem tells_attemptRun {p : Parser S σ α} {i : S.Input} {s : σ}
    (hp : S.Tells i (p.committed true i s).res (p.committed true i s).inp) :
    S.Tells i (attemptRun p true i s).res (attemptRun p true i s).inp := by
  unfold attemptRun
  simp only
  split
  · split
    · exact hp
    · trivial
  · exact hp

theorem attemptRun_st (p : Parser S σ α) (m : Bool) (i : S.Input) (s : σ) :
    (attemptRun p m i s).st = (p.committed m i s).st := by
  unfold attemptRun
  simp only
  split
  · split <;> rfl
  · rfl

theorem honest_attempt {p : Parser S σ α} (hp : HonestIn true Q p) : HonestIn true Q (attempt p) := by
  have hk : ∀ i s, Q s → (attemptRun p true i s).res.kept true = true → Q (attemptRun p true i s).st := by
    intro i s hs hk
    rw [attemptRun_st]
    refine hp.keepC i s hs ?_
    unfold attemptRun at hk
    revert hk
    simp only
    split
    · rename_i e he; intro _; rw [he]; rfl
    · exact id
  exact ⟨hp.init, fun i s hs => tells_attemptRun (hp.committed i s hs), hk,
    fun i => defaultLazy_tells (tells_attemptRun (hp.committed i _ hp.init)),
    fun i s hs => tells_attemptRun (hp.committed i s hs), hk⟩

theorem fresh_attempt {p : Parser S σ α} (hp : HonestFresh p) : HonestFresh (attempt p) :=
  ⟨fun i => tells_attemptRun (hp.committed i), fun i => defaultLazy_tells (tells_attemptRun (hp.committed i)),
    fun i => tells_attemptRun (hp.committed i)⟩

theorem honest_lookAhead (hS : S.Lawful) {p : Parser S σ α} (hm : Moves p) :
    HonestIn h (fun _ => True) (lookAhead p) := by
  refine .ofLazy fun i => ?_
  simp only [hS.reset_reach (hm.lazy i)]
  split <;> first | trivial | rfl

theorem kept_map {E : Type} (r : ParseResult α E) (f : α → β) : (r.map f).kept h = r.kept h := by
  cases r <;> rfl

theorem kept_mapErr {E E' : Type} (r : ParseResult α E) (f : E → E') : (r.mapErr f).kept h = r.kept h := by
  cases r <;> rfl

theorem honest_map {p : Parser S σ α} (hp : HonestIn h Q p) (f : α → β) : HonestIn h Q (map p f) :=
  hp.view (fun i s t => tells_map (E' := S.Err) t f)
    (fun i s k => by simpa only [Out.mapRes, kept_map] using k) (fun _ _ => rfl)

theorem fresh_map {p : Parser S σ α} (hp : HonestFresh p) (f : α → β) : HonestFresh (map p f) :=
  .ofMode fun i => tells_map (E' := S.Err) (hp.run i) f

theorem honest_mapInput {p : Parser S σ α} (hp : HonestIn h Q p) (f : α → S.Input → β × S.Input)
    (hf : ∀ a i, (f a i).2 = i) : HonestIn h Q (mapInput p f) := by
  refine hp.view (fun i s => ?_) (fun i s => ?_) (fun i s => ?_) <;> simp only
  · generalize p.run true i s = o
    obtain ⟨r, j, t⟩ := o
    cases r with
    | commitOk v => intro t; simp only [hf]; exact t
    | peekOk v => intro t; simp only [hf]; exact t
    | _ => exact fun _ => trivial
  · generalize p.run true i s = o
    obtain ⟨r, j, t⟩ := o
    cases r <;> exact id
  · generalize p.run true i s = o
    obtain ⟨r, j, t⟩ := o
    cases r <;> rfl

theorem honest_flatMap {p : Parser S σ α} (hp : HonestIn h Q p) (f : α → Except S.Err β) :
    HonestIn h Q (flatMap p f) := by
  refine hp.view (fun i s => ?_) (fun i s => ?_) (fun i s => rfl) <;> simp only [Out.mapRes]
  · generalize p.run true i s = o
    obtain ⟨r, j, t⟩ := o
    cases r with
    | commitOk v => simp only; cases f v <;> first | exact fun _ => trivial | exact id
    | peekOk v => simp only; cases f v <;> first | exact fun _ => trivial | exact id
    | _ => exact fun _ => trivial
  · generalize p.run true i s = o
    obtain ⟨r, j, t⟩ := o
    cases r with
    | commitOk v => exact fun _ => rfl
    | peekOk v => exact fun _ => rfl
    | _ => exact id

theorem honest_andThen (hS : S.Lawful) {p : Parser S σ α} (hm : Moves p) (hp : HonestIn h Q p)
    (f : α → Except S.SErr β) : HonestIn h Q (andThen p f) := by
  have key : ∀ i s, (S.Tells i (p.run true i s).res (p.run true i s).inp →
      S.Tells i ((andThen p f).run true i s).res ((andThen p f).run true i s).inp) ∧
      (((andThen p f).run true i s).res.kept h = true → (p.run true i s).res.kept h = true) ∧
      ((andThen p f).run true i s).st = (p.run true i s).st := by
    intro i s
    have hr := hm.run true i s
    revert hr
    simp only [andThen, Parser.ofMode]
    generalize p.run true i s = o
    obtain ⟨r, j, t⟩ := o
    intro hr
    cases r with
    | commitOk v =>
      simp only
      cases f v with
      | ok y => exact ⟨id, id, rfl⟩
      | error e =>
        simp only
        split
        · rw [hS.inputAtEof_eq j]
          cases (S.inputAtEof j).1
          · refine ⟨fun _ => trivial, fun _ => rfl, ?_⟩ <;> trivial
          · simp only [hS.tryReset_eq hr]; refine ⟨fun _ => trivial, fun _ => rfl, ?_⟩ <;> trivial
        · refine ⟨fun _ => trivial, fun _ => rfl, ?_⟩ <;> trivial
    | peekOk v =>
      simp only
      cases f v with
      | ok y => exact ⟨id, id, rfl⟩
      | error e =>
        simp only
        split
        · rw [hS.inputAtEof_eq j]
          cases (S.inputAtEof j).1
          · refine ⟨fun _ => trivial, fun _ => rfl, ?_⟩ <;> trivial
          · simp only [hS.tryReset_eq hr]; refine ⟨fun _ => trivial, fun _ => rfl, ?_⟩ <;> trivial
        · refine ⟨fun _ => trivial, fun _ => rfl, ?_⟩ <;> trivial
    | _ => exact ⟨fun _ => trivial, id, rfl⟩
  exact hp.view (fun i s => (key i s).1) (fun i s => (key i s).2.1) (fun i s => (key i s).2.2)

theorem fresh_andThen (hS : S.Lawful) {p : Parser S σ α} (hm : Moves p) (hp : HonestFresh p)
    (f : α → Except S.SErr β) : HonestFresh (andThen p f) := by
  refine .ofMode fun i => ?_
  have hr := hm.run true i p.init
  have ht := hp.run i
  revert hr ht
  simp only
  generalize p.run true i p.init = o
  obtain ⟨r, j, t⟩ := o
  intro hr ht
  cases r with
  | commitOk v =>
    simp only
    cases f v with
    | ok y => exact ht
    | error e =>
      simp only
      split
      · rw [hS.inputAtEof_eq j]
        cases (S.inputAtEof j).1
        · trivial
        · simp only [hS.tryReset_eq hr]; trivial
      · trivial
  | peekOk v =>
    simp only
    cases f v with
    | ok y => exact ht
    | error e =>
      simp only
      split
      · rw [hS.inputAtEof_eq j]
        cases (S.inputAtEof j).1
        · trivial
        · simp only [hS.tryReset_eq hr]; trivial
      · trivial
  | _ => trivial

theorem honest_recognize (hS : S.Lawful) (hpos : S.Positioned) {p : Parser S σ α} (hm : Moves p)
    (hp : HonestIn h Q p) : HonestIn h (fun s => Q s.2) (recognize p) := by
  have key : ∀ i s, (S.Tells i (p.run true i s.2).res (p.run true i s.2).inp →
      S.Tells i ((recognize p).run true i s).res ((recognize p).run true i s).inp) ∧
      (((recognize p).run true i s).res.kept h = true → (p.run true i s.2).res.kept h = true) ∧
      ((recognize p).run true i s).st.2 = (p.run true i s.2).st := by
    intro i s
    have hr := hm.run true i s.2
    revert hr
    simp only [recognize, Parser.ofMode]
    generalize p.run true i s.2 = o
    obtain ⟨r, j, t⟩ := o
    rintro ⟨ts, hr⟩
    have hl : ts.length < S.size i + 1 := by
      have := hS.reads_size hr
      omega
    cases r with
    | commitOk v =>
      simp only [hS.tryReset_eq ⟨ts, hr⟩, replay_eq hS hpos hr _ hl]
      refine ⟨id, id, ?_⟩ <;> trivial
    | peekOk v =>
      simp only [hS.tryReset_eq ⟨ts, hr⟩, replay_eq hS hpos hr _ hl]
      refine ⟨id, id, ?_⟩ <;> trivial
    | commitErr v =>
      simp only [hS.tryReset_eq ⟨ts, hr⟩, replay_eq hS hpos hr _ hl]
      refine ⟨id, id, ?_⟩ <;> trivial
    | peekErr v => exact ⟨id, id, rfl⟩
    | abort v => exact ⟨id, id, rfl⟩
  exact .ofMode hp.init (fun i s q => (key i s).1 (hp.run i s.2 q)) (fun i s q k => by
    have e := (key i s).2.2
    have := hp.keep i s.2 q ((key i s).2.1 k)
    rw [← e] at this
    exact this)

theorem honest_eitherLeft {p : Parser S σ α} (hp : HonestIn h Q p) (τ : Type) :
    HonestIn h (fun s => ∀ x, s = some (.inl x) → Q x) (eitherLeft p τ) := by
  have hq : ∀ s : Option (σ ⊕ τ), (∀ x, s = some (.inl x) → Q x) →
      Q (match s with | some (.inl x) => x | _ => p.init) := by
    intro s hs
    split
    · exact hs _ rfl
    · exact hp.init
  have hr := fun i s qs => hp.run i _ (hq s qs)
  have hk : ∀ i s, (∀ x, s = some (.inl x) → Q x) → ((eitherLeft p τ).run true i s).res.kept h = true →
      ∀ x, ((eitherLeft p τ).run true i s).st = some (.inl x) → Q x := by
    intro i s qs k x hx
    have := hp.keep i _ (hq s qs) k
    cases hx
    exact this
  exact ⟨(fun _ h => nomatch h), hr, hk, hp.lazy, fun i s qs => describing_tells _ (hr i s qs),
    fun i s qs => describing_keep (Q := fun s : Option (σ ⊕ τ) => ∀ x, s = some (.inl x) → Q x) _ (hk i s qs)⟩

theorem honest_eitherRight {p : Parser S τ α} (hp : HonestIn h C p) (σ : Type) :
    HonestIn h (fun s => ∀ x, s = some (.inr x) → C x) (eitherRight p σ) := by
  have hq : ∀ s : Option (σ ⊕ τ), (∀ x, s = some (.inr x) → C x) →
      C (match s with | some (.inr x) => x | _ => p.init) := by
    intro s hs
    split
    · exact hs _ rfl
    · exact hp.init
  have hr := fun i s qs => hp.run i _ (hq s qs)
  have hk : ∀ i s, (∀ x, s = some (.inr x) → C x) → ((eitherRight p σ).run true i s).res.kept h = true →
      ∀ x, ((eitherRight p σ).run true i s).st = some (.inr x) → C x := by
    intro i s qs k x hx
    have := hp.keep i _ (hq s qs) k
    cases hx
    exact this
  exact ⟨(fun _ h => nomatch h), hr, hk, hp.lazy, fun i s qs => describing_tells _ (hr i s qs),
    fun i s qs => describing_keep (Q := fun s : Option (σ ⊕ τ) => ∀ x, s = some (.inr x) → C x) _ (hk i s qs)⟩

theorem honest_noPartial {p : Parser S σ α} (hp : HonestFresh p) :
    HonestIn h (fun _ => True) (noPartial p) := .ofLazy hp.lazy

theorem honest_ignore {p : Parser S σ α} (hp : HonestIn h Q p) : HonestIn h Q (ignore p) := by
  have v := hp.view (run := fun m i s => (p.run m i s).mapRes (·.map fun _ => ())) (ae := p.addError)
    (ac := p.addCommitted) (c := p.count) (fun i s t => tells_map (E' := S.Err) t _)
    (fun i s k => by simpa only [Out.mapRes, kept_map] using k) (fun _ _ => rfl)
  exact ⟨v.init, v.run, v.keep, fun i => tells_map (E' := S.Err) (hp.lazy i) _, v.committed, v.keepC⟩

theorem honest_anyPartialState {p : Parser S σ α} (hp : HonestIn h Q p) :
    HonestIn h (fun s => ∀ x, s = some x → Q x) (anyPartialState p) := by
  have key : ∀ i s, (∀ x, s = some x → Q x) →
      S.Tells i ((anyPartialState p).run true i s).res ((anyPartialState p).run true i s).inp ∧
      (((anyPartialState p).run true i s).res.kept h = true →
        ∀ x, ((anyPartialState p).run true i s).st = some x → Q x) := by
    intro i s qs
    cases s with
    | some c =>
      refine ⟨hp.run i c (qs c rfl), fun k x hx => ?_⟩
      have := hp.keep i c (qs c rfl) k
      cases hx
      exact this
    | none =>
      have h1 := hp.run i _ hp.init
      have h2 := hp.keep i _ hp.init
      revert h1 h2
      simp only [anyPartialState, Parser.ofMode]
      generalize p.run true i p.init = o
      obtain ⟨r, j, t⟩ := o
      intro h1 h2
      cases r with
      | commitErr e =>
        refine ⟨trivial, fun k x hx => ?_⟩
        cases hx
        exact h2 k
      | _ => exact ⟨h1, fun k x hx => by cases hx⟩
  exact ⟨(fun _ h => nomatch h), fun i s qs => (key i s qs).1, fun i s qs => (key i s qs).2, hp.lazy,
    fun i s qs => describing_tells _ (key i s qs).1,
    fun i s qs => describing_keep (Q := fun s => ∀ x, s = some x → Q x) _ (key i s qs).2⟩

theorem honest_lazyP {f : Unit → Parser S σ α} (hp : HonestIn h Q (f ())) : HonestIn h Q (lazyP f) :=
  ⟨hp.init, hp.run, hp.keep, hp.lazy, hp.run, hp.keep⟩

theorem honest_factory {f : S.Input → Parser S σ α} {init : σ} (hi : Q init) (hp : ∀ i, HonestIn h Q (f i)) :
    HonestIn h (fun s => Q s.2) (factory f init) :=
  .ofMode hi (fun i s q => (hp _).run i s.2 q) (fun i s q k => (hp _).keep i s.2 q k)

theorem honest_opaqueP {p : Parser S σ α} (hp : HonestIn h Q p) : HonestIn h Q (opaqueP p) :=
  ⟨hp.init, hp.run, hp.keep, hp.lazy, fun i s q => describing_tells _ (hp.run i s q),
    fun i s q => describing_keep _ (hp.keep i s q)⟩

theorem honest_boxed {p : Parser S σ α} (hp : HonestIn h Q p) : HonestIn h Q (boxed p) :=
  .ofMode hp.init hp.run hp.keep

theorem fresh_boxed {p : Parser S σ α} (hp : HonestFresh p) : HonestFresh (boxed p) := .ofMode hp.run

theorem honest_parserMacro {p : Parser S σ α} (hp : HonestIn h Q p) : HonestIn h Q (parserMacro p) :=
  .ofMode hp.init hp.run hp.keep

theorem fresh_parserMacro {p : Parser S σ α} (hp : HonestFresh p) : HonestFresh (parserMacro p) :=
  .ofMode hp.run

theorem honest_parserMacroUnit {p : Parser S σ α} (hp : HonestFresh p) :
    HonestIn h (fun _ => True) (parserMacroUnit p) :=
  .ofMode trivial (fun i _ _ => hp.run i) (fun _ _ _ _ => trivial)

theorem honest_fnParser (f : S.Input → StdResult α S.Err × S.Input)
    (hf : ∀ i, S.Tells i (ParseResult.ofStd (f i).1) (f i).2) : HonestIn h (fun _ => True) (fnParser S f) :=
  .ofLazy hf

theorem honest_inputConverter {T : Strm} (p : Parser T σ α) (convert : S.Input → Except S.Err T.Input)
    (back : S.Input → T.Input → S.Input) (convertError : S.Input → T.Err → S.Err)
    (hf : ∀ i j s, convert i = .ok j → S.Tells i (p.run true j s).res (back i (p.run true j s).inp)) :
    HonestIn h (fun _ => True) (inputConverter p convert back convertError) := by
  refine .ofMode trivial (fun i s _ => ?_) (fun _ _ _ _ => trivial)
  have := hf i
  revert this
  simp only
  cases convert i with
  | error e => exact fun _ => trivial
  | ok j => exact fun t => tells_mapErr (t j s rfl) _

theorem honest_bottom (F : Parser S σ α → Parser S σ α) (init : σ) :
    HonestIn h (fun _ => True) (recur F init 0) :=
  .ofMode trivial (fun _ _ _ => trivial) (fun _ _ _ _ => trivial)

/-! ## Error decorators -/

theorem honest_message {p : Parser S σ α} (hp : HonestIn h Q p) (x : Info S.Tok S.Rng) :
    HonestIn h Q (message p x) := by
  refine hp.view (fun i s => ?_) (fun i s => ?_) (fun i s => ?_) <;> simp only <;>
  · generalize p.run true i s = o
    obtain ⟨r, j, t⟩ := o
    cases r <;> first | exact id | rfl

theorem fresh_message {p : Parser S σ α} (hp : HonestFresh p) (x : Info S.Tok S.Rng) :
    HonestFresh (message p x) := by
  refine .ofMode fun i => ?_
  have := hp.run i
  revert this
  simp only
  generalize p.run true i p.init = o
  obtain ⟨r, j, t⟩ := o
  cases r <;> exact id

theorem honest_expected {p : Parser S σ α} (hp : HonestIn h Q p) (x : Info S.Tok S.Rng) :
    HonestIn h Q (expected p x) := .ofMode hp.init hp.run hp.keep

theorem fresh_expected {p : Parser S σ α} (hp : HonestFresh p) (x : Info S.Tok S.Rng) :
    HonestFresh (expected p x) := .ofMode hp.run

theorem honest_silent {p : Parser S σ α} (hp : HonestIn h Q p) : HonestIn h Q (silent p) :=
  hp.view (fun i s t => tells_mapErr t _) (fun i s k => by simpa only [Out.mapRes, kept_mapErr] using k)
    (fun _ _ => rfl)

theorem honest_spanned {P : Type} [DecidableEq P] (a : S.Pos → Span P) (b : Span P → S.Pos)
    {p : Parser S σ α} (hp : HonestIn h Q p) : HonestIn h Q (spanned a b p) :=
  hp.view (fun i s t => tells_mapErr t _) (fun i s k => by simpa only [Out.mapRes, kept_mapErr] using k)
    (fun _ _ => rfl)

end Verif
