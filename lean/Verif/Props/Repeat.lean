import Verif.Proof.IterLemmas
import Verif.Proof.Reuse
import Verif.Proof.Consume
import Verif.Props.Sequence
import Verif.Props.Control
import Verif.Spec.Repeat

/-!
# C07–C10, C36: repetition

Hypotheses on the repeated parser: it is `Reusable` (its state after a success or a soft failure can be
used again; `Proof/Reuse.lean` shows this for the combinators), and it is `Consuming` (otherwise the
loop does not end, `C36_many_diverges`).
-/

namespace Verif

set_option linter.unusedVariables false

variable {S : Strm} {σ τ υ α β γ : Type}

/-! ## Runs -/

/-- The maximal run is unique. -/
private theorem run_unique {I E : Type} {m : Sem I E α} {i : I} {vs vs' : List α} {c c' : Bool} {k k' : I}
    (h : Ref.Run m i vs c k) (h' : Ref.Run m i vs' c' k') (hk : ∀ c v j, m k ≠ .ok c v j)
    (hk' : ∀ c v j, m k' ≠ .ok c v j) : vs = vs' ∧ c = c' ∧ k = k' := by
  induction h generalizing vs' c' with
  | nil i =>
    cases h' with
    | nil => exact ⟨rfl, rfl, rfl⟩
    | cons h _ => exact absurd h (hk _ _ _)
  | cons h1 h2 ih =>
    cases h' with
    | nil => exact absurd h1 (hk' _ _ _)
    | cons h1' h2' =>
      cases h1.symm.trans h1'
      obtain ⟨rfl, rfl, rfl⟩ := ih h2' hk
      exact ⟨rfl, rfl, rfl⟩

/-- **C07.**  Greedy repetition has at most one answer: `Ref.IsMany` determines the result. -/
theorem C07_unique {I E : Type} {m : Sem I E α} {i : I} {a b : Answer I E (List α)}
    (ha : Ref.IsMany m i a) (hb : Ref.IsMany m i b) : a = b := by
  obtain ⟨vs, c, k, h1, h2⟩ := ha
  obtain ⟨vs', c', k', h1', h2'⟩ := hb
  obtain ⟨rfl, rfl, rfl⟩ := run_unique h1 h1' (fun c v j h => by rw [h] at h2; exact h2)
    (fun c v j h => by rw [h] at h2'; exact h2')
  revert h2 h2'
  cases m k with
  | ok c v j => intro h; exact h.elim
  | _ => rintro rfl rfl; rfl

private theorem fast_hard {it : IterS S σ} {e : S.Err} (h : it.state = .commitErr e) (v : List α) :
    (it.intoResultFast v).1 = .commitErr e := by unfold IterS.intoResultFast; rw [h]

private theorem fast_abort {it : IterS S σ} {e : Abort} (h : it.state = .abort e) (v : List α) :
    (it.intoResultFast v).1 = .abort e := by unfold IterS.intoResultFast; rw [h]

/-! ## `many` -/

/-- **C07.**  `many(p)` applies `p` again and again, each time where the last success stopped, until `p`
fails; a soft failure ends the list where the last success stopped, a committed failure is the failure of
the whole.  All values are kept, in order; it is committed if one of the repetitions was. -/
theorem C07_many (hS : S.Lawful) {p : Parser S σ α} (hm : Moves p) (hr : Reusable p) (hp : Consuming p)
    (i : S.Input) : Ref.IsMany p.answer i ((many p).answer i) := by
  obtain ⟨Clean, hr⟩ := hr
  obtain ⟨vs, c, k, h1, h2, h3⟩ := many_run hS hm.run hr hp i p.init hr.init [] false
  refine ⟨vs, c, k, h1, ?_⟩
  simp only [List.nil_append, Bool.false_or] at h2 h3
  have e : (many p).answer i = Answer.of
      ((iterExtend p some (S.size i + 2) none [] ⟨i, false, .ok, p.init, true⟩).2.intoResultFast
        (iterExtend p some (S.size i + 2) none [] ⟨i, false, .ok, p.init, true⟩).1).1
      (iterExtend p some (S.size i + 2) none [] ⟨i, false, .ok, p.init, true⟩).2.inp := rfl
  rw [e]
  revert h2 h3
  generalize iterExtend p some (S.size i + 2) none [] ⟨i, false, .ok, p.init, true⟩ = r
  obtain ⟨els, it⟩ := r
  cases p.answer k with
  | ok c v j => intro _ h; exact h.elim
  | soft =>
    rintro h ⟨e, s, hs, h'⟩
    simp only at h h'
    subst h h'
    cases c <;> rfl
  | hard e => intro h h'; rw [fast_hard h']; rfl
  | abort a => intro h h'; rw [fast_abort h']; rfl

private theorem ignore_answer (p : Parser S σ α) (i : S.Input) :
    (ignore p).answer i = (p.answer i).map fun _ => () := by
  have e : (ignore p).answer i = ((p.run true i p.init).mapRes (·.map fun _ => ())).answer := rfl
  rw [e]
  unfold Parser.answer
  generalize p.run true i p.init = o
  obtain ⟨r, j, s⟩ := o
  cases r <;> rfl

private theorem macro_ignore_answer (p : Parser S σ α) (i : S.Input) :
    (parserMacro (ignore p)).answer i = (p.answer i).map fun _ => () := ignore_answer p i

private theorem run_map {I E : Type} {m : Sem I E α} (f : α → β) {i : I} {vs : List β} {c : Bool} {k : I}
    (h : Ref.Run (fun i => (m i).map f) i vs c k) : ∃ ws, Ref.Run m i ws c k ∧ vs = ws.map f := by
  induction h with
  | nil i => exact ⟨[], .nil i, rfl⟩
  | cons h _ ih =>
    obtain ⟨ws, h1, rfl⟩ := ih
    revert h
    generalize hx : m _ = x
    cases x with
    | ok c v j =>
      intro h
      simp only [Answer.map, Answer.ok.injEq] at h
      obtain ⟨rfl, rfl, rfl⟩ := h
      exact ⟨v :: ws, .cons hx h1, rfl⟩
    | _ => intro h; cases h

private theorem isMany_map {I E : Type} {m : Sem I E α} (f : α → β) {i : I} {a : Answer I E (List β)}
    (h : Ref.IsMany (fun i => (m i).map f) i a) :
    ∃ b, Ref.IsMany m i b ∧ a = b.map (·.map f) := by
  obtain ⟨vs, c, k, h1, h2⟩ := h
  obtain ⟨ws, h3, rfl⟩ := run_map f h1
  revert h2
  simp only
  generalize hx : m k = x
  intro h2
  cases x with
  | ok c v j => exact h2.elim
  | soft => exact ⟨.ok c ws k, ⟨ws, c, k, h3, by rw [hx]⟩, h2⟩
  | hard e => exact ⟨.hard e, ⟨ws, c, k, h3, by rw [hx]⟩, h2⟩
  | abort e => exact ⟨.abort e, ⟨ws, c, k, h3, by rw [hx]⟩, h2⟩

private theorem consuming_ignore {p : Parser S σ α} (hp : Consuming p) : Consuming (ignore p) := by
  intro i c v j h
  rw [ignore_answer] at h
  revert h
  generalize hx : p.answer i = x
  cases x with
  | ok c v j => intro h; cases h; exact hp _ _ _ _ hx
  | _ => intro h; cases h

private theorem ignore_run (p : Parser S σ α) (m : Bool) (i : S.Input) (s : σ) :
    (ignore p).run m i s = (p.run m i s).mapRes (·.map fun _ => ()) := rfl

theorem reusable_ignore {p : Parser S σ α} (hr : Reusable p) : Reusable (ignore p) := by
  obtain ⟨C, hr⟩ := hr
  refine ⟨C, hr.init, fun s hs i => ?_, fun s hs i h => ?_, fun s hs i e h => ?_⟩
  · rw [ignore_answer, ignore_run, ← hr.same s hs i]
    generalize p.run true i s = o
    obtain ⟨r, j, u⟩ := o
    cases r <;> rfl
  · have := hr.ok s hs i
    revert h this
    rw [ignore_run]
    generalize p.run true i s = o
    obtain ⟨r, j, u⟩ := o
    cases r <;> exact fun h h' => h' h
  · have := hr.soft s hs i e
    revert h this
    rw [ignore_run]
    generalize p.run true i s = o
    obtain ⟨r, j, u⟩ := o
    cases r <;> intro h h' <;> cases h
    exact h' rfl

/-- **C07** for `skip_many`: the same, without the values. -/
theorem C07_skip_many (hS : S.Lawful) {p : Parser S σ α} (hm : Moves p) (hr : Reusable p)
    (hp : Consuming p) (i : S.Input) :
    ∃ a, Ref.IsMany p.answer i a ∧ (skipMany p).answer i = a.map fun _ => () := by
  have h := C07_many hS (moves_ignore hS hm) (reusable_ignore hr) (consuming_ignore hp) i
  rw [funext (ignore_answer p)] at h
  obtain ⟨b, h1, h2⟩ := isMany_map _ h
  refine ⟨b, h1, ?_⟩
  rw [skipMany, macro_ignore_answer, h2]
  cases b <;> rfl

/-! ## `many1` -/

/-- **C08.**  `many1(p)` is `many(p)` where `p` succeeds at all; otherwise it fails as `p` does. -/
theorem C08_many1 (hS : S.Lawful) {p : Parser S σ α} (hm : Moves p) (hr : Reusable p) (hp : Consuming p)
    (i : S.Input) : Ref.IsMany1 p.answer i ((many1 p).answer i) := by
  obtain ⟨Clean, hr⟩ := hr
  have hok := hr.ok p.init hr.init i
  have key : ∀ (b : Bool) (v : α) (j : S.Input) (s : σ), p.answer i = .ok b v j → Clean s →
      Ref.IsMany p.answer i ((many1Rest p true j ⟨true, b, [v], s⟩).answer) := by
    intro b v j s ha hs
    obtain ⟨vs, c, k, h1, h2, h3⟩ := many_run hS hm.run hr hp j s hs [v] b
    refine ⟨v :: vs, b || c, k, .cons ha h1, ?_⟩
    have e : (many1Rest p true j ⟨true, b, [v], s⟩).answer = Answer.of
        ((iterExtend p some (S.size j + 2) none [v] ⟨j, b, .ok, s, true⟩).2.intoResultFast
          (iterExtend p some (S.size j + 2) none [v] ⟨j, b, .ok, s, true⟩).1).1
        (iterExtend p some (S.size j + 2) none [v] ⟨j, b, .ok, s, true⟩).2.inp := rfl
    rw [e]
    revert h2 h3
    generalize iterExtend p some (S.size j + 2) none [v] ⟨j, b, .ok, s, true⟩ = r
    obtain ⟨els, it⟩ := r
    cases p.answer k with
    | ok c v j => intro _ h; exact h.elim
    | soft =>
      rintro h ⟨e, s, hs, h'⟩
      simp only at h h'
      subst h h'
      cases b <;> cases c <;> rfl
    | hard e => intro h h'; rw [fast_hard h']; rfl
    | abort a => intro h h'; rw [fast_abort h']; rfl
  unfold Ref.IsMany1
  revert key hok
  have e : (many1 p).answer i = (match (p.run true i p.init).res with
        | .commitOk v => many1Rest p true (p.run true i p.init).inp ⟨true, true, [v], (p.run true i p.init).st⟩
        | .peekOk v => many1Rest p true (p.run true i p.init).inp ⟨true, false, [v], (p.run true i p.init).st⟩
        | .commitErr e => ⟨.commitErr e, (p.run true i p.init).inp, ⟨false, false, [], (p.run true i p.init).st⟩⟩
        | .peekErr e => ⟨.peekErr e, (p.run true i p.init).inp, ⟨false, false, [], (p.run true i p.init).st⟩⟩
        | .abort a => ⟨.abort a, (p.run true i p.init).inp, ⟨false, false, [], (p.run true i p.init).st⟩⟩ :
          Out S (Many1St σ α) (List α)).answer := rfl
  rw [e]
  have e : p.answer i = (p.run true i p.init).answer := rfl
  rw [e]
  generalize p.run true i p.init = o
  obtain ⟨r, j, s⟩ := o
  intro hok key
  cases r with
  | commitOk v => exact key true v j s rfl (hok rfl)
  | peekOk v => exact key false v j s rfl (hok rfl)
  | commitErr e => rfl
  | peekErr e => rfl
  | abort a => rfl

/-- **C08** for `skip_many1`. -/
theorem C08_skip_many1 (hS : S.Lawful) {p : Parser S σ α} (hm : Moves p) (hr : Reusable p)
    (hp : Consuming p) (i : S.Input) :
    ∃ a, Ref.IsMany1 p.answer i a ∧ (skipMany1 p).answer i = a.map fun _ => () := by
  have h := C08_many1 hS (moves_ignore hS hm) (reusable_ignore hr) (consuming_ignore hp) i
  rw [funext (ignore_answer p)] at h
  have e : (skipMany1 p).answer i = ((many1 (ignore p)).answer i).map fun _ => () :=
    macro_ignore_answer _ _
  rw [e]
  revert h
  unfold Ref.IsMany1
  simp only
  cases hx : p.answer i with
  | ok c v j =>
    intro h
    obtain ⟨b, h1, h2⟩ := isMany_map _ h
    refine ⟨b, h1, ?_⟩
    rw [h2]
    cases b <;> rfl
  | soft => intro h; exact ⟨_, rfl, by rw [h]; rfl⟩
  | hard e => intro h; exact ⟨_, rfl, by rw [h]; rfl⟩
  | abort a => intro h; exact ⟨_, rfl, by rw [h]; rfl⟩

/-- **C08.**  A successful `many1` never yields an empty list. -/
theorem C08_nonempty (hS : S.Lawful) {p : Parser S σ α} (hm : Moves p) (hr : Reusable p)
    (hp : Consuming p) (i : S.Input) (c : Bool) (vs : List α) (j : S.Input)
    (h : (many1 p).answer i = .ok c vs j) : vs ≠ [] := by
  have h1 := C08_many1 hS hm hr hp i
  rw [h] at h1
  revert h1
  unfold Ref.IsMany1
  cases hx : p.answer i with
  | ok c v j =>
    rintro ⟨ws, c', k, h1, h2⟩ rfl
    revert h2
    cases hk : p.answer k with
    | soft =>
      intro h2
      cases h2
      cases h1
      rw [hk] at hx
      cases hx
    | ok => exact id
    | hard => intro h; cases h
    | abort => intro h; cases h
  | _ => intro h; cases h

/-! ## `count_min_max` -/

theorem run_shape {m : Sem S.Input S.Err α} {i : S.Input} {vs : List α} {c : Bool} {k : S.Input}
    (h : Ref.Run m i vs c k) : Ref.Run (fun i => (m i).shape) i vs c k := by
  induction h with
  | nil i => exact .nil i
  | cons h _ ih => exact .cons (by simp [h, Answer.shape]) ih

/-- **C09.**  `count_min_max(lo, hi, p)` applies `p` as often as it succeeds but at most `hi` times; with
fewer than `lo` successes it fails: committed exactly if one of the repetitions committed.  No assumption
that `p` consumes anything. -/
theorem C09_count_min_max (hS : S.Lawful) {p : Parser S σ α} (hm : Moves p) (hr : Reusable p)
    (lo hi : Nat) (hlh : lo ≤ hi) (i : S.Input) :
    Ref.IsCount lo hi p.shape i ((countMinMax lo hi p).shape i) := by
  obtain ⟨Clean, hr⟩ := hr
  obtain ⟨vs, c, k, ys, h1, h2, h3, h4, h5⟩ := iterExtend_ends hS hm.run hr some (hi + 1) (some hi) []
    ⟨i, false, .ok, p.init, true⟩ (.inl ⟨hi, rfl, Nat.lt_succ_self _⟩) rfl hr.init
  cases map_some_eq h2
  refine ⟨vs, c, k, run_shape h1, h4 _ rfl, ?_⟩
  simp only [List.nil_append, Bool.false_or] at h3 h5
  have e : (countMinMax lo hi p).shape i = (let r := iterExtend p some (hi + 1) (some hi) [] ⟨i, false, .ok, p.init, true⟩
      let count := 0 + (r.1.length - 0)
      if count < lo then
          ⟨r.2.fail (S.E.message (.format s!"expected {lo - count} more elements")), r.2.inp,
            ⟨count, r.1, r.2.st⟩⟩
        else
          let x := r.2.intoResultFast r.1
          ⟨x.1, r.2.inp, ⟨if x.1.isOk then 0 else count, x.2, r.2.st⟩⟩ : Out S (CountSt σ α) (List α)).answer.shape := rfl
  rw [e]
  simp only
  revert h3 h5
  generalize iterExtend p some (hi + 1) (some hi) [] ⟨i, false, .ok, p.init, true⟩ = r
  obtain ⟨els, it⟩ := r
  intro h3 h5
  simp only at h3 h5
  subst h3
  simp only [Nat.sub_zero, Nat.zero_add, Parser.shape]
  cases h5 with
  | limit h =>
    cases h
    rw [if_neg (Nat.not_lt.2 hlh), if_pos rfl]
    cases c <;> rfl
  | soft h h' =>
    rw [if_neg (fun x => h (by rw [x])), h']
    change (Out.answer _).shape =
      (if lo ≤ els.length then Answer.ok c els k else if c then .hard () else .soft)
    by_cases hl : els.length < lo
    · rw [if_pos hl, if_neg (show ¬ lo ≤ els.length by omega)]
      cases c <;> rfl
    · rw [if_neg hl, if_pos (show lo ≤ els.length by omega)]
      cases c <;> rfl
  | hard h h' =>
    rw [if_neg (fun x => h (by rw [x])), h']
    by_cases hl : els.length < lo
    · rw [if_pos hl]; rfl
    · rw [if_neg hl]; rfl
  | abort h h' =>
    rw [if_neg (fun x => h (by rw [x])), h']
    by_cases hl : els.length < lo
    · rw [if_pos hl]; rfl
    · rw [if_neg hl]; rfl
  | stop _ _ h => cases h

/-- **C09** for `count(n, p)`: at most `n`, no minimum. -/
theorem C09_count (hS : S.Lawful) {p : Parser S σ α} (hm : Moves p) (hr : Reusable p)
    (n : Nat) (i : S.Input) : Ref.IsCount 0 n p.shape i ((count n p).shape i) := by
  have h := C09_count_min_max hS hm hr 0 n (Nat.zero_le _) i
  exact h

/-- **C09.**  A successful `count_min_max(lo, hi, p)` yields between `lo` and `hi` values. -/
theorem C09_bounds (hS : S.Lawful) {p : Parser S σ α} (hm : Moves p) (hr : Reusable p)
    (lo hi : Nat) (hlh : lo ≤ hi) (i : S.Input) (c : Bool) (vs : List α) (j : S.Input)
    (h : (countMinMax lo hi p).answer i = .ok c vs j) : lo ≤ vs.length ∧ vs.length ≤ hi := by
  obtain ⟨ws, d, k, h1, h2, h3⟩ := C09_count_min_max hS hm hr lo hi hlh i
  have e : (countMinMax lo hi p).shape i = .ok c vs j := by
    simp only [Parser.shape, h, Answer.shape]
  rw [e] at h3
  revert h3
  by_cases hl : ws.length = hi
  · rw [if_pos hl]
    intro h
    cases h
    omega
  · rw [if_neg hl]
    cases p.shape k with
    | ok => exact False.elim
    | soft =>
      simp only
      split
      · intro h; cases h; omega
      · split <;> intro h <;> cases h
    | hard => intro h; cases h
    | abort => intro h; cases h

private theorem map_answer (p : Parser S σ α) (f : α → β) (i : S.Input) :
    (map p f).answer i = (p.answer i).map f := by
  have e : (map p f).answer i = ((p.run true i p.init).mapRes (·.map f)).answer := rfl
  rw [e]
  unfold Parser.answer
  generalize p.run true i p.init = o
  obtain ⟨r, j, s⟩ := o
  cases r <;> rfl

private theorem map_shape (p : Parser S σ α) (f : α → β) :
    (map p f).shape = fun i => (p.shape i).map f := by
  funext i
  simp only [Parser.shape, map_answer]
  cases p.answer i <;> rfl

private theorem reusable_discard {p : Parser S σ α} (hr : Reusable p) : Reusable (map p fun _ => ()) := by
  obtain ⟨Clean, hr⟩ := reusable_ignore hr
  exact ⟨Clean, ⟨hr.init, hr.same, hr.ok, hr.soft⟩⟩

private theorem isCount_map {I : Type} {m : Sem I Unit α} (f : α → β) {lo hi : Nat} {i : I}
    {a : Answer I Unit (List β)} (h : Ref.IsCount lo hi (fun i => (m i).map f) i a) :
    ∃ b, Ref.IsCount lo hi m i b ∧ a = b.map (·.map f) := by
  obtain ⟨vs, c, k, h1, hl, h2⟩ := h
  obtain ⟨ws, h3, rfl⟩ := run_map f h1
  rw [List.length_map] at hl h2
  by_cases he : ws.length = hi
  · rw [if_pos he] at h2
    exact ⟨.ok c ws k, ⟨ws, c, k, h3, hl, by rw [if_pos he]⟩, h2⟩
  · rw [if_neg he] at h2
    revert h2
    simp only
    generalize hx : m k = x
    intro h2
    cases x with
    | ok c v j => exact h2.elim
    | soft =>
      refine ⟨_, ⟨ws, c, k, h3, hl, by rw [if_neg he, hx]⟩, ?_⟩
      simp only [Answer.map] at h2
      rw [h2]
      split
      · rfl
      · split <;> rfl
    | hard e => exact ⟨.hard e, ⟨ws, c, k, h3, hl, by rw [if_neg he, hx]⟩, h2⟩
    | abort e => exact ⟨.abort e, ⟨ws, c, k, h3, hl, by rw [if_neg he, hx]⟩, h2⟩

private theorem then_unit {I : Type} (a : Sem I Unit α) (v : Sem I Unit Unit) (hv : ∀ j, v j = .ok false () j)
    (i : I) : Ref.bind a (fun _ => v) i = (a i).map fun _ => () := by
  simp only [Ref.bind]
  cases a i with
  | ok c x j => cases c <;> simp [hv, Answer.map, Answer.after]
  | _ => rfl

/-- **C09** for `skip_count_min_max(lo, hi, p)`: the same, without the values. -/
theorem C09_skip_count_min_max (hS : S.Lawful) {p : Parser S σ α} (hm : Moves p) (hr : Reusable p)
    (lo hi : Nat) (hlh : lo ≤ hi) (i : S.Input) :
    ∃ a, Ref.IsCount lo hi p.shape i a ∧ (skipCountMinMax lo hi p).shape i = a.map fun _ => () := by
  have h := C09_count_min_max hS (moves_map hS hm fun _ => ()) (reusable_discard hr) lo hi hlh i
  rw [map_shape p] at h
  obtain ⟨b, h1, h2⟩ := isCount_map _ h
  refine ⟨b, h1, ?_⟩
  have e : (skipCountMinMax lo hi p).shape i =
      («with» (countMinMax lo hi (map p fun _ => ())) (value S ())).shape i := rfl
  rw [e, C12_with, then_unit _ (value S ()).shape (fun _ => rfl), h2]
  cases b <;> rfl

/-- **C09** for `skip_count(n, p)`. -/
theorem C09_skip_count (hS : S.Lawful) {p : Parser S σ α} (hm : Moves p) (hr : Reusable p) (n : Nat) (i : S.Input) :
    ∃ a, Ref.IsCount 0 n p.shape i a ∧ (skipCount n p).shape i = a.map fun _ => () := by
  have h := C09_count hS (moves_map hS hm fun _ => ()) (reusable_discard hr) n i
  rw [map_shape p] at h
  obtain ⟨b, h1, h2⟩ := isCount_map _ h
  refine ⟨b, h1, ?_⟩
  have e : (skipCount n p).shape i = («with» (count n (map p fun _ => ())) (value S ())).shape i := rfl
  rw [e, C12_with, then_unit _ (value S ()).shape (fun _ => rfl), h2]
  cases b <;> rfl

-- two to three digits, the third absent
example :
    (skipCountMinMax 2 3 (satisfy (sliceS Char 1) Char.isDigit)).shape ⟨0, ['1', '2', 'x']⟩ =
      .ok true () ⟨2, ['x']⟩ ∧
    (skipCountMinMax 2 3 (satisfy (sliceS Char 1) Char.isDigit)).shape ⟨0, ['1', 'x']⟩ = .hard () := ⟨rfl, rfl⟩

/-! ## Separated lists -/

private theorem boxed_answer (p : Parser S σ α) : (boxed p).answer = p.answer := rfl
private theorem boxed_shape (p : Parser S σ α) : (boxed p).shape = p.shape := rfl

private theorem shape_of {p : Parser S σ α} {i : S.Input} {a : Answer S.Input S.Err α}
    (h : p.answer i = a) : p.shape i = a.shape := by rw [Parser.shape, h]

theorem isMany_shape {m : Sem S.Input S.Err α} {i : S.Input} {a : Answer S.Input S.Err (List α)}
    (h : Ref.IsMany m i a) : Ref.IsMany (fun i => (m i).shape) i a.shape := by
  obtain ⟨vs, c, k, h1, h2⟩ := h
  refine ⟨vs, c, k, run_shape h1, ?_⟩
  revert h2
  simp only
  cases m k with
  | ok => exact id
  | _ => rintro rfl; rfl

/-- `sep` then an element consumes if the element does. -/
private theorem consuming_with {p : Parser S σ α} {q : Parser S τ β} (hm : Moves q) (hp : Consuming p) :
    Consuming («with» q p) := by
  intro i c v j h
  have h' := shape_of h
  rw [C12_with] at h'
  obtain ⟨c1, x, k, c2, h1, h2, -⟩ := bind_ok h'
  obtain ⟨ts, hts⟩ := reach_of_shape hm h1
  obtain ⟨u, us, hus⟩ := hp _ _ _ _ (of_shape_ok h2)
  have := hts.trans hus
  cases ts with
  | nil => exact ⟨_, _, this⟩
  | cons t ts => exact ⟨_, _, this⟩

private theorem finish_many {T : Type} (w : Answer S.Input S.Err α) (r : List α × IterS S T) (v : α)
    (vs : List α) (k : S.Input) (c b : Bool) (h2 : r.1 = [v] ++ vs)
    (h3 : match w with
       | .ok _ _ _ => False
       | .soft => ∃ e s', r.2 = ⟨k, c, .peekErr e, s', true⟩
       | .hard e => r.2.state = .commitErr e
       | .abort a => r.2.state = .abort a) :
    ∃ a : Answer S.Input Unit (List α), (match w.shape with
      | .ok _ _ _ => False
      | .soft => a = .ok c vs k
      | .hard e => a = .hard e
      | .abort x => a = .abort x) ∧
      (Answer.of (ParseResult.combineCommit (if b then .commit () else .peek ()) fun _ =>
        (r.2.intoResultFast r.1).1) r.2.inp).shape = (a.map (v :: ·)).after b := by
  obtain ⟨els, it⟩ := r
  simp only at h2
  subst h2
  cases w with
  | ok => exact h3.elim
  | soft =>
    obtain ⟨e, s'', h3⟩ := h3
    simp only at h3
    subst h3
    exact ⟨.ok c vs k, rfl, by cases b <;> cases c <;> rfl⟩
  | hard e => exact ⟨.hard (), rfl, by simp only [fast_hard h3]; cases b <;> rfl⟩
  | abort e => exact ⟨.abort e, rfl, by simp only [fast_abort h3]; cases b <;> rfl⟩

private theorem sep_init {Clean : σ → Prop} {C : τ → Prop} {p : Parser S σ α} {q : Parser S τ β} {u : σ}
    (hq : Keeps false C q) (hu : Clean u) :
    tupleClean C (fun t => Clean t.1.2 ∧ True)
      (SepSt.setB («with» (boxed q) (boxed p)).init u) := ⟨hq.init, hu, trivial⟩

/-- **C10.**  `sep_by1(p, sep)` parses one element and then, greedily, a separator followed by an
element.  A separator after which no element follows is a failure (committed if the separator was),
otherwise the list ends before it. -/
theorem C10_sep_by1 (hS : S.Lawful) {Clean : σ → Prop} {C : τ → Prop} {p : Parser S σ α} {sep : Parser S τ β}
    (hmp : Moves p) (hms : Moves sep) (hp : Keeps false Clean p) (hs : Keeps false C sep)
    (hc : Consuming p) (i : S.Input) :
    Ref.IsSepBy1 p.shape sep.shape i ((sepBy1 p sep).shape i) := by
  have hw := keeps_with (keeps_boxed hs) (keeps_boxed hp)
  have hwm := moves_with hS (moves_boxed hS hms) (moves_boxed hS hmp)
  have hok := hp.keep p.init hp.init i
  have key : ∀ (b : Bool) (v : α) (j : S.Input) (s : σ), Clean s →
      ∀ o : Out S (Option (Commit Unit) × List α × SepSt σ τ α) (List α),
      o = (let r := iterExtend («with» (boxed sep) (boxed p)) some (S.size j + 2) none [v]
            (IterS.new true j (SepSt.setB («with» (boxed sep) (boxed p)).init s))
        let x := r.2.intoResultFast r.1
        ⟨ParseResult.combineCommit (if b then .commit () else .peek ()) fun _ => x.1, r.2.inp,
          (if x.1.isOk then none else none, x.2, r.2.st)⟩) →
      ∃ a, Ref.IsMany (Ref.bind sep.shape fun _ => p.shape) j a ∧
        o.answer.shape = (a.map (v :: ·)).after b := by
    intro b v j s hs' o ho
    obtain ⟨vs, c, k, h1, h2, h3⟩ := many_run hS hwm.run hw.reusableIn
      (consuming_with (moves_boxed hS hms) hc) j
      (SepSt.setB («with» (boxed sep) (boxed p)).init s) ⟨hs.init, hs', trivial⟩ [v] false
    have e : (fun i => ((«with» (boxed sep) (boxed p)).answer i).shape) =
        Ref.bind sep.shape fun _ => p.shape := funext fun i => C12_with _ _ i
    have h4 := run_shape h1
    rw [e] at h4
    have h5 : («with» (boxed sep) (boxed p)).shape k = Ref.bind sep.shape (fun _ => p.shape) k :=
      C12_with _ _ k
    simp only [Bool.false_or] at h3
    obtain ⟨a, h6, h7⟩ := finish_many ((«with» (boxed sep) (boxed p)).answer k) _ v vs k c b h2 (by
      revert h3
      cases («with» (boxed sep) (boxed p)).answer k with
      | soft => rintro ⟨e, s', -, h⟩; exact ⟨e, s', h⟩
      | _ => exact id)
    subst ho
    refine ⟨a, ⟨vs, c, k, h4, ?_⟩, h7⟩
    rw [← h5]
    revert h6
    unfold Parser.shape
    cases («with» (boxed sep) (boxed p)).answer k <;> exact id
  unfold Ref.IsSepBy1
  revert hok key
  simp only [Parser.shape, Parser.answer, sepBy1, Parser.ofMode]
  have e : («with» (boxed sep) (boxed p)).init.tail.1.2 = p.init := rfl
  rw [e]
  generalize p.run true i p.init = o
  obtain ⟨r, j, s⟩ := o
  intro hok key
  cases r with
  | commitOk v => exact key true v j s (hok rfl) _ rfl
  | peekOk v => exact key false v j s (hok rfl) _ rfl
  | commitErr e => rfl
  | peekErr e => rfl
  | abort a => rfl


private theorem or_empty (hS : S.Lawful) {p : Parser S σ (List α)} (hp : Moves p) (i : S.Input) :
    (or p (emptyList S α)).shape i = match p.shape i with
      | .soft => .ok false [] i
      | r => r := by
  simp only [Parser.shape]
  rw [C03_or hS hp (moves_emptyList hS)]
  cases p.answer i <;> rfl

/-- **C10.**  `sep_by(p, sep)` is `sep_by1(p, sep)`, or the empty list where that fails softly. -/
theorem C10_sep_by (hS : S.Lawful) {Clean : σ → Prop} {C : τ → Prop} {p : Parser S σ α} {sep : Parser S τ β}
    (hmp : Moves p) (hms : Moves sep) (hp : Keeps false Clean p) (hs : Keeps false C sep)
    (hc : Consuming p) (i : S.Input) :
    Ref.OrEmpty (Ref.IsSepBy1 p.shape sep.shape) i ((sepBy p sep).shape i) :=
  ⟨_, C10_sep_by1 hS (moves_boxed hS hmp) (moves_boxed hS hms) (keeps_boxed hp) (keeps_boxed hs) hc i,
    by
      have h := or_empty hS (moves_sepBy1 hS (moves_boxed hS hmp) (moves_boxed hS hms)) i
      refine Eq.trans h ?_
      cases (sepBy1 (boxed p) (boxed sep)).shape i <;> rfl⟩

theorem opt_shape (hS : S.Lawful) {p : Parser S σ α} (hp : Moves p) :
    (optional p).shape = Ref.optional p.shape := by
  funext i
  simp only [Parser.shape, C06_optional hS hp, Ref.optional]
  cases p.answer i <;> rfl

private theorem run_opt {sep : Sem S.Input Unit β} {p : Sem S.Input Unit α}
    {m : Sem S.Input S.Err (Option α)} (hm : (fun i => (m i).shape) = Ref.bind sep fun _ => Ref.optional p)
    {i : S.Input} {ys : List α} {c : Bool} {k : S.Input} (h : Ref.Run m i (ys.map some) c k) :
    Ref.Run (Ref.bind sep fun _ => p) i ys c k := by
  induction ys generalizing i c with
  | nil => cases h; exact .nil _
  | cons y ys ih =>
    cases h with
    | cons h1 h2 =>
      refine .cons ?_ (ih h2)
      have h3 := congrFun hm i
      simp only [h1, Answer.shape] at h3
      obtain ⟨c1, x, j, c2, h4, h5, rfl⟩ := bind_ok h3.symm
      unfold Ref.bind
      rw [h4]
      revert h5
      simp only [Ref.optional]
      cases p j <;> intro h <;> cases h
      rfl

/-- **C10.**  `sep_end_by1(p, sep)` parses one element and then, greedily, a separator followed by an
element; a separator after which no element follows ends the list and is consumed. -/
theorem C10_sep_end_by1 (hS : S.Lawful) {Clean : σ → Prop} {C : τ → Prop} {p : Parser S σ α}
    {sep : Parser S τ β} (hmp : Moves p) (hms : Moves sep) (hp : Keeps false Clean p)
    (hs : Keeps false C sep) (hc : Consuming p) (i : S.Input) :
    Ref.IsSepEndBy1 p.shape sep.shape i ((sepEndBy1 p sep).shape i) := by
  have hmo := moves_optional hS (moves_boxed hS hmp)
  have hw := keeps_with (keeps_boxed hs) (keeps_optional hS (p := boxed p) hmp.run (keeps_boxed hp))
  have hwm := moves_with hS (moves_boxed hS hms) hmo
  have hok := hp.keep p.init hp.init i
  have e : (fun i => ((«with» (boxed sep) (optional (boxed p))).answer i).shape) =
      Ref.bind sep.shape fun _ => Ref.optional p.shape := by
    funext i
    have := C12_with (boxed sep) (optional (boxed p)) i
    rw [opt_shape hS (moves_boxed hS hmp)] at this
    exact this
  have key : ∀ (b : Bool) (v : α) (j : S.Input) (s : σ), Clean s →
      ∀ o : Answer S.Input S.Err (List α),
      (let r := iterExtend («with» (boxed sep) (optional (boxed p))) id (S.size j + 2) none [v]
            (IterS.new true j (SepSt.setB («with» (boxed sep) (optional (boxed p))).init s));
        o = Answer.of (ParseResult.combineCommit (if b then .commit () else .peek ()) fun _ =>
          (r.2.intoResultFast r.1).1) r.2.inp) →
      Ref.IsSepEndRest p.shape sep.shape b v j o.shape := by
    intro b v j s hs' o ho
    obtain ⟨vs, c, k, ys, h1, h2, h3, -, h5⟩ := iterExtend_ends hS hwm.run hw.reusableIn id (S.size j + 2)
      none [v] ⟨j, false, .ok, SepSt.setB («with» (boxed sep) (optional (boxed p))).init s, true⟩
      (.inr ⟨by
        intro i c v j h hv
        have h' := congrFun e i
        simp only [h, Answer.shape] at h'
        obtain ⟨c1, x, k, c2, h1, h2, -⟩ := bind_ok h'.symm
        obtain ⟨ts, hts⟩ := reach_of_shape hms h1
        cases v with
        | none => exact absurd rfl hv
        | some v =>
          have h3 : p.shape k = .ok c2 v j := by
            revert h2
            simp only [Ref.optional]
            cases p.shape k <;> intro h <;> cases h
            rfl
          obtain ⟨u, us, hus⟩ := hc _ _ _ _ (of_shape_ok h3)
          have := hts.trans hus
          cases ts with
          | nil => exact ⟨_, _, this⟩
          | cons t ts => exact ⟨_, _, this⟩, by simp⟩) rfl ⟨hs.init, hs', trivial⟩
    simp only [List.map_id] at h2
    subst h2
    refine ⟨ys, c, k, run_opt e h1, ?_⟩
    have ek := congrFun e k
    simp only [Bool.false_or] at h5
    simp only [IterS.new] at ho
    rw [ho]
    revert h3 h5
    generalize iterExtend («with» (boxed sep) (optional (boxed p))) id (S.size j + 2) none [v] _ = r
    obtain ⟨els, it⟩ := r
    intro h3 h5
    simp only at h3 h5
    subst h3
    cases h5 with
    | limit h => cases h
    | soft _ h =>
      simp only [h, Answer.shape, Ref.bind] at ek
      revert ek
      cases sep.shape k with
      | ok c' x k' =>
        simp only [Ref.optional]
        cases p.shape k' <;> cases c' <;> intro h <;> cases h
      | soft => intro _; cases b <;> cases c <;> rfl
      | hard => intro h; cases h
      | abort => intro h; cases h
    | hard _ h =>
      simp only [h, Answer.shape, Ref.bind] at ek
      revert ek
      cases sep.shape k with
      | ok c' x k' =>
        simp only [Ref.optional]
        cases p.shape k' <;> cases c' <;> intro h <;> cases h <;> cases b <;> rfl
      | soft => intro h; cases h
      | hard => intro _; cases b <;> rfl
      | abort => intro h; cases h
    | abort _ h =>
      simp only [h, Answer.shape, Ref.bind] at ek
      revert ek
      cases sep.shape k with
      | ok c' x k' =>
        simp only [Ref.optional]
        cases p.shape k' <;> cases c' <;> intro h <;> cases h <;> cases b <;> rfl
      | soft => intro h; cases h
      | hard => intro h; cases h
      | abort => intro h; cases h; cases b <;> rfl
    | stop _ h hn =>
      cases hn
      simp only [h, Answer.shape, Ref.bind] at ek
      revert ek
      cases sep.shape k with
      | ok c' x k' =>
        simp only [Ref.optional]
        cases p.shape k' <;> cases c' <;> intro h <;> cases h <;> cases b <;> cases c <;> rfl
      | _ => intro h; cases h
  unfold Ref.IsSepEndBy1
  revert hok key
  simp only [Parser.shape, Parser.answer, sepEndBy1, Parser.ofMode]
  have e : («with» (boxed sep) (optional (boxed p))).init.tail.1.2 = p.init := rfl
  rw [e]
  generalize p.run true i p.init = o
  obtain ⟨r, j, s⟩ := o
  intro hok key
  cases r with
  | commitOk v => exact key true v j s (hok rfl) _ rfl
  | peekOk v => exact key false v j s (hok rfl) _ rfl
  | commitErr e => rfl
  | peekErr e => rfl
  | abort a => rfl

/-- **C10.**  `sep_end_by(p, sep)` is `sep_end_by1(p, sep)`, or the empty list where that fails softly. -/
theorem C10_sep_end_by (hS : S.Lawful) {Clean : σ → Prop} {C : τ → Prop} {p : Parser S σ α}
    {sep : Parser S τ β} (hmp : Moves p) (hms : Moves sep) (hp : Keeps false Clean p)
    (hs : Keeps false C sep) (hc : Consuming p) (i : S.Input) :
    Ref.OrEmpty (Ref.IsSepEndBy1 p.shape sep.shape) i ((sepEndBy p sep).shape i) :=
  ⟨_, C10_sep_end_by1 hS (moves_boxed hS hmp) (moves_boxed hS hms) (keeps_boxed hp) (keeps_boxed hs) hc i,
    by
      have h := or_empty hS (moves_sepEndBy1 hS (moves_boxed hS hmp) (moves_boxed hS hms)) i
      refine Eq.trans h ?_
      cases (sepEndBy1 (boxed p) (boxed sep)).shape i <;> rfl⟩

/-! ## Concrete cases -/

private abbrev B := sliceS Nat 1

/-- An element: `1 2`. -/
private abbrev el := pair (token B 1) (token B 2)

private theorem el_built : Built (sliceR Nat 1) el := .pair (.token _) (.token _)

private theorem el_moves : Moves el := Built.moves (R := sliceR Nat 1) (slice_lawful _ _) (sliceR_lawful _ _) el_built

private theorem el_consuming : Consuming el :=
  consuming_tuple (fun q hq => by
    rcases hq with rfl | rfl | hq
    · exact Built.moves (R := sliceR Nat 1) (slice_lawful _ _) (sliceR_lawful _ _) (.token _)
    · exact Built.moves (R := sliceR Nat 1) (slice_lawful _ _) (sliceR_lawful _ _) (.token _)
    · exact hq.elim) ⟨_, .inl rfl, consuming_token _⟩

private theorem tok_keeps (t : Nat) : Keeps true (fun _ => True) (token B t) := keeps_unit _

private theorem el_reusable : Reusable el := ⟨_, (keeps_pair (tok_keeps 1) (tok_keeps 2)).reusableIn⟩

example (i : B.Input) : Ref.IsMany el.answer i ((many el).answer i) :=
  C07_many (slice_lawful _ _) el_moves el_reusable el_consuming i
example (i : B.Input) : Ref.IsMany1 el.answer i ((many1 el).answer i) :=
  C08_many1 (slice_lawful _ _) el_moves el_reusable el_consuming i
example (i : B.Input) : Ref.IsCount 2 4 el.shape i ((countMinMax 2 4 el).shape i) :=
  C09_count_min_max (slice_lawful _ _) el_moves el_reusable 2 4 (by decide) i
example : (many el).answer ⟨0, [1, 2, 1, 2, 3]⟩ = .ok true [(1, 2, ()), (1, 2, ())] ⟨4, [3]⟩ := rfl
example : (many el).answer ⟨0, [3]⟩ = .ok false [] ⟨0, [3]⟩ := rfl
example : ∃ e, (many el).answer ⟨0, [1, 2, 1, 3]⟩ = .hard e := ⟨_, rfl⟩
example : (many1 el).answer ⟨0, [3]⟩ = .soft := rfl
example : (countMinMax 1 2 el).answer ⟨0, [1, 2, 1, 2, 1, 2]⟩ = .ok true [(1, 2, ()), (1, 2, ())] ⟨4, [1, 2]⟩ := rfl
example : ∃ e, (countMinMax 2 3 el).answer ⟨0, [1, 2, 3]⟩ = .hard e := ⟨_, rfl⟩

private theorem t_moves (t : Nat) : Moves (token B t) :=
  Built.moves (R := sliceR Nat 1) (slice_lawful _ _) (sliceR_lawful _ _) (.token _)

private theorem t_keeps (t : Nat) : Keeps false (fun _ => True) (token B t) := keeps_unit _

example (i : B.Input) : Ref.IsSepBy1 (token B 1).shape (token B 0).shape i ((sepBy1 (token B 1) (token B 0)).shape i) :=
  C10_sep_by1 (slice_lawful _ _) (t_moves 1) (t_moves 0) (t_keeps 1) (t_keeps 0) (consuming_token _) i
example (i : B.Input) : Ref.IsSepEndBy1 (token B 1).shape (token B 0).shape i
    ((sepEndBy1 (token B 1) (token B 0)).shape i) :=
  C10_sep_end_by1 (slice_lawful _ _) (t_moves 1) (t_moves 0) (t_keeps 1) (t_keeps 0) (consuming_token _) i
example : (sepBy (token B 1) (token B 0)).answer ⟨0, [1, 0, 1, 3]⟩ = .ok true [1, 1] ⟨3, [3]⟩ := rfl
example : (sepBy (token B 1) (token B 0)).answer ⟨0, [0]⟩ = .ok false [] ⟨0, [0]⟩ := rfl
example : ∃ e, (sepBy (token B 1) (token B 0)).answer ⟨0, [1, 0, 3]⟩ = .hard e := ⟨_, rfl⟩
example : (sepEndBy (token B 1) (token B 0)).answer ⟨0, [1, 0, 1, 0, 3]⟩ = .ok true [1, 1] ⟨4, [3]⟩ := rfl
example : (sepEndBy (token B 1) (token B 0)).answer ⟨0, [1, 0, 1, 3]⟩ = .ok true [1, 1] ⟨3, [3]⟩ := rfl

/-! ## Where the state is not reusable -/

private abbrev inner := many el
private abbrev outer := skip (optional (attempt inner)) (countMinMax 4 4 (any B))

/-- **C07** is false for elements that are not `Reusable`, although every call `many` makes starts anew:
on `1 2 1 9` the inner repetition collects `(1, 2)` and then fails; `attempt` and `optional` swallow the
failure, and the next element of the outer repetition finds `(1, 2)` in its list, although it is parsed
from `5 5 5 5`, where the element on its own answers with the empty list. -/
theorem C07_stale_state : ∃ j k,
    (many outer).answer ⟨0, [1, 2, 1, 9, 5, 5, 5, 5]⟩ = .ok true [none, some [(1, 2, ())]] j ∧
    outer.answer ⟨4, [5, 5, 5, 5]⟩ = .ok true (some []) k := ⟨_, _, rfl, rfl⟩

end Verif
