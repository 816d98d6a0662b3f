import Verif.Proof.Reuse
import Verif.Proof.Consume
import Verif.Proof.IterLemmas
import Verif.Proof.Safe
import Verif.Proof.SliceLaws
import Verif.Proof.BuiltMoves
import Verif.Props.Repeat
import Verif.Spec.Repeat
import Verif.Spec.Termination

/-!
# C45: the iterator of a parser, and `iterate`
-/

namespace Verif

set_option linter.unusedVariables false

variable {S : Strm} {σ τ υ α β γ : Type}

/-! ## `Parser::iter` -/

private theorem extend_nexts (p : Parser S σ α) {it it' it'' : IterS S σ} {vs : List α}
    (h : Nexts (iterNext p) it vs it') (hn : iterNext p it' = (none, it'')) (n : Nat) (els : List α)
    (hlen : vs.length < n) : iterExtend p some n none els it = (els ++ vs, it'') := by
  induction h generalizing n els with
  | nil i =>
    obtain ⟨n, rfl⟩ : ∃ m, n = m + 1 := ⟨n - 1, by omega⟩
    simp [iterExtend, hn]
  | @cons _ _ _ v _ h1 h2 ih =>
    obtain ⟨n, rfl⟩ : ∃ m, n = m + 1 := ⟨n - 1, by omega⟩
    simp only [List.length_cons] at hlen
    have := ih hn n (els ++ [v]) (by omega)
    simp only [iterExtend, h1, Option.map_none]
    rw [this]
    simp

private theorem next_progress (hS : S.Lawful) {p : Parser S σ α} (hp : Progress p) {it it' : IterS S σ} {v : α}
    (hf : it.first = true) (h : iterNext p it = (some v, it')) :
    it'.first = true ∧ S.size it'.inp < S.size it.inp := by
  obtain ⟨i, cm, st, s, fi⟩ := it
  simp only at hf
  subst hf
  have hpr := hp i s
  unfold iterNext at h
  simp only at h
  revert h hpr
  generalize p.run true i s = o
  obtain ⟨r, j, u⟩ := o
  intro h hpr
  have size : r.isOk = true → S.size j < S.size i := by
    intro hr
    obtain ⟨t, ts, h⟩ := hpr hr
    have := hS.reads_size h
    simp only [List.length_cons] at this
    omega
  cases r with
  | commitOk v => cases h; exact ⟨rfl, size rfl⟩
  | peekOk v => cases h; exact ⟨rfl, size rfl⟩
  | commitErr e => cases h
  | abort e => cases h
  | peekErr e =>
    simp only at h
    generalize S.reset (S.checkpoint i) j = x at h
    obtain ⟨e, k⟩ := x
    cases e <;> cases h

private theorem nexts_length (hS : S.Lawful) {p : Parser S σ α} (hp : Progress p) {it it' : IterS S σ} {vs : List α}
    (h : Nexts (iterNext p) it vs it') (hf : it.first = true) :
    it'.first = true ∧ vs.length + S.size it'.inp ≤ S.size it.inp := by
  induction h with
  | nil i => exact ⟨hf, by simp⟩
  | cons h1 h2 ih =>
    obtain ⟨h3, h4⟩ := next_progress hS hp hf h1
    obtain ⟨h5, h6⟩ := ih h3
    exact ⟨h5, by simp only [List.length_cons]; omega⟩

/-- **C45.**  The values an iterator over a parser yields before it ends, its status (`into_result`) and the place
where it left the input are what `many` gives: the same elements, commitment, error and remaining input. -/
theorem C45_iter_many (hS : S.Lawful) {p : Parser S σ α} (hp : Progress p) {i : S.Input} {it it' : IterS S σ}
    {vs : List α} (h : Nexts (iterNext p) (IterS.new true i p.init) vs it) (hn : iterNext p it = (none, it')) :
    (many p).answer i = Answer.of (it'.intoResult vs) it'.inp := by
  have hl := (nexts_length hS hp h rfl).2
  have e := extend_nexts p h hn (S.size i + 2) [] (by
    have : (IterS.new true i p.init).inp = i := rfl
    rw [this] at hl; omega)
  have e' : (many p).answer i = Answer.of
      ((iterExtend p some (S.size i + 2) none [] (IterS.new true i p.init)).2.intoResultFast
        (iterExtend p some (S.size i + 2) none [] (IterS.new true i p.init)).1).1
      (iterExtend p some (S.size i + 2) none [] (IterS.new true i p.init)).2.inp := rfl
  rw [e', e]
  simp only [List.nil_append]
  obtain ⟨j, c, st, s, f⟩ := it'
  cases st <;> rfl

/-- **C45.**  The iterator does end. -/
theorem C45_iter_ends (hS : S.Lawful) {p : Parser S σ α} (hp : Progress p) (i : S.Input) :
    ∃ vs it it', Nexts (iterNext p) (IterS.new true i p.init) vs it ∧ iterNext p it = (none, it') := by
  suffices h : ∀ n (it : IterS S σ), S.size it.inp < n → it.first = true →
      ∃ vs it1 it2, Nexts (iterNext p) it vs it1 ∧ iterNext p it1 = (none, it2) from
    h (S.size i + 1) (IterS.new true i p.init) (Nat.lt_succ_self _) rfl
  intro n
  induction n with
  | zero => intro it h; omega
  | succ n ih =>
    intro it hn hf
    cases hx : iterNext p it with
    | mk o it1 =>
      cases o with
      | none => exact ⟨[], it, it1, .nil _, hx⟩
      | some v =>
        obtain ⟨h1, h2⟩ := next_progress hS hp hf hx
        obtain ⟨vs, it2, it3, h3, h4⟩ := ih it1 (by omega) h1
        exact ⟨v :: vs, it2, it3, .cons hx h3, h4⟩

/-- **C45.**  While it yields, the values are the successive answers of the parser, each where the last one
stopped; `into_result` is a success, committed if one of them was. -/
theorem C45_iter_run (hS : S.Lawful) {p : Parser S σ α} (hr : Reusable p) {i : S.Input} {it : IterS S σ} {vs : List α}
    (h : Nexts (iterNext p) (IterS.new true i p.init) vs it) :
    ∃ c, Ref.Run p.answer i vs c it.inp ∧
      ∀ {β : Type} (x : β), it.intoResult x = if c then .commitOk x else .peekOk x := by
  obtain ⟨Clean, hr⟩ := hr
  suffices key : ∀ (it0 : IterS S σ), Nexts (iterNext p) it0 vs it → it0.first = true → it0.state = .ok → Clean it0.st →
      ∃ c, Ref.Run p.answer it0.inp vs c it.inp ∧ it.state = .ok ∧ it.committed = (it0.committed || c) by
    obtain ⟨c, h1, h2, h3⟩ := key _ h rfl rfl hr.init
    refine ⟨c, h1, fun x => ?_⟩
    simp only [IterS.intoResult, h2, h3]
    rfl
  clear h
  intro it0 h hf hs hc
  induction h with
  | nil it => exact ⟨false, .nil _, hs, by simp⟩
  | @cons it0 it1 it2 v vs h1 h2 ih =>
    obtain ⟨i, cm, st, s, fi⟩ := it0
    simp only at hf hs hc
    subst hf hs
    have h3 := hr.same s hc i
    have h4 := hr.ok s hc i
    unfold iterNext at h1
    simp only at h1
    revert h1 h3 h4
    generalize p.run true i s = o
    obtain ⟨r, j, u⟩ := o
    intro h1 h3 h4
    cases r with
    | commitOk v =>
      cases h1
      obtain ⟨c, h5, h6, h7⟩ := ih rfl rfl (h4 rfl)
      exact ⟨true || c, .cons h3.symm h5, h6, by simpa using h7⟩
    | peekOk v =>
      cases h1
      obtain ⟨c, h5, h6, h7⟩ := ih rfl rfl (h4 rfl)
      exact ⟨false || c, .cons h3.symm h5, h6, by simpa using h7⟩
    | commitErr e => cases h1
    | abort e => cases h1
    | peekErr e =>
      simp only at h1
      generalize S.reset (S.checkpoint i) j = x at h1
      obtain ⟨e, k⟩ := x
      cases e <;> cases h1

/-! ## `iterate` -/

private theorem iterate_loop {J : Type} (hS : S.Lawful) {f : J → S.Input → Parser S σ α} (hm : ∀ x i, Moves (f x i))
    {Clean : σ → Prop} (hr : ∀ x i, ReusableIn Clean (f x i)) (items : List J) (c : Bool) (buf : List α)
    (i : S.Input) (s : σ) (hs : Clean s) :
    (iterateLoop f items true c buf i s).answer.shape =
      ((Ref.iterate (fun x i => (f x i).shape) items i).map (buf ++ ·)).after c := by
  induction items generalizing c buf i s with
  | nil => cases c <;> simp [iterateLoop, Ref.iterate, Ref.value, Answer.map, Answer.after] <;> rfl
  | cons x xs ih =>
    have h1 := (hr x i).same s hs i
    have h2 := (hr x i).ok s hs i
    have h3 := (hm x i).run true i s
    have h4 : (f x i).shape i = ((f x i).answer i).shape := rfl
    unfold iterateLoop
    simp only [Ref.iterate, Ref.bind]
    rw [h4, ← h1]
    revert h2 h3
    generalize (f x i).run true i s = o
    obtain ⟨r, j, u⟩ := o
    intro h2 h3
    cases r with
    | commitOk v =>
      simp only [answer_commitOk, shape_ok]
      rw [ih _ _ _ _ (h2 rfl)]
      simp only [Ref.map]
      cases Ref.iterate (fun x i => (f x i).shape) xs j <;> cases c <;> simp [Answer.map, Answer.after]
    | peekOk v =>
      simp only [answer_peekOk, shape_ok]
      rw [ih _ _ _ _ (h2 rfl)]
      simp only [Ref.map]
      cases Ref.iterate (fun x i => (f x i).shape) xs j <;> cases c <;> simp [Answer.map, Answer.after]
    | commitErr e => rfl
    | abort e => rfl
    | peekErr e =>
      simp only
      rw [hS.reset_reach h3]
      cases c <;> rfl

/-- **C45.**  `iterate(items, f)` runs the parser `f` makes for each item, in order, each where the last one
stopped, and collects the values; it fails where one of them does, committed if something was read. -/
theorem C45_iterate {J : Type} (hS : S.Lawful) {f : J → S.Input → Parser S σ α} (hm : ∀ x i, Moves (f x i))
    {Clean : σ → Prop} (hr : ∀ x i, ReusableIn Clean (f x i)) (items : List J) (init : σ) (hi : Clean init)
    (i : S.Input) :
    (iterate items f init).shape i = Ref.iterate (fun x i => (f x i).shape) items i := by
  have h := iterate_loop hS hm hr items false [] i init hi
  rw [show (iterate items f init).shape i = (iterateLoop f items true false [] i init).answer.shape from rfl, h]
  cases Ref.iterate (fun x i => (f x i).shape) items i <;> simp [Answer.map, Answer.after]

/-! ## Where the code deviates -/

private abbrev B := sliceS Nat 1

/-- **C45** is violated where the state is used again: `iterate` keeps the elements of a failed
call.  In `many((optional(attempt(iterate([1, 2], token))), any))` on `1 3 1 2 4` the third element should be
`[1, 2]`; the `1` of the abandoned first try is prepended. -/
theorem C45_stale_buffer :
    (many (pair (optional (attempt (iterate [1, 2] (fun t _ => token B t) ()))) (any B))).answer
      ⟨0, [1, 3, 1, 2, 4]⟩ = .ok true [(none, 1, ()), (none, 3, ()), (some [1, 1, 2], 4, ())] ⟨5, []⟩ ∧
    (pair (optional (attempt (iterate [1, 2] (fun t _ => token B t) ()))) (any B)).answer
      ⟨2, [1, 2, 4]⟩ = .ok true (some [1, 2], 4, ()) ⟨5, []⟩ := ⟨rfl, rfl⟩

/-! ## Examples -/

example (i : B.Input) : (iterate [1, 2, 3] (fun t _ => token B t) ()).shape i =
    Ref.iterate (fun t i => (token B t).shape) [1, 2, 3] i :=
  C45_iterate (Clean := fun _ => True) (slice_lawful _ _)
    (fun t _ => Built.moves (R := sliceR Nat 1) (slice_lawful _ _) (sliceR_lawful _ _) (.token _))
    (fun t _ => (keeps_unit (h := false) _).reusableIn) [1, 2, 3] () trivial i
example : (iterate [1, 2] (fun t _ => token B t) ()).answer ⟨0, [1, 2, 3]⟩ = .ok true [1, 2] ⟨2, [3]⟩ := rfl
example : ∃ e, (iterate [1, 2] (fun t _ => token B t) ()).answer ⟨0, [1, 3]⟩ = .hard e := ⟨_, rfl⟩
example : (iterate [1, 2] (fun t _ => token B t) ()).answer ⟨0, [3]⟩ = .soft := rfl
example : ∃ it it', Nexts (iterNext (token B 1)) (IterS.new true ⟨0, [1, 1, 3]⟩ ()) [1, 1] it ∧
    iterNext (token B 1) it = (none, it') ∧ it'.intoResult [1, 1] = .commitOk [1, 1] ∧ it'.inp = ⟨2, [3]⟩ :=
  ⟨_, _, .cons rfl (.cons rfl (.nil _)), rfl, rfl, rfl⟩
example : Progress (token B 1) := progress_token _

end Verif
