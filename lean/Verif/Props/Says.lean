import Verif.Spec.Says
import Verif.Spec.Behaved
import Verif.Proof.Coherent
import Verif.Props.Positions
import Verif.Props.Repeat
import Verif.Model.Byte
import Verif.Spec.Bytes
import Verif.Proof.ErrorLemmas
import Verif.Proof.WrapLaws
import Verif.Proof.SliceLaws

/-!
# C67: what the report of a failure says
-/

namespace Verif

variable {S : Strm} {σ τ α β : Type}

/-! ## At the top -/

private theorem add_found (hP : S.Plain) (k : S.Input) :
    (∀ t j, S.uncons k = (.ok t, j) → S.E.add (S.bare k) (S.E.unexpected (.token t)) = S.found k) ∧
    (∀ e j, S.uncons k = (.error e, j) → S.E.add (S.bare k) S.E.endOfInput = S.found k) := by
  constructor
  · intro t j h; simp only [Strm.bare, Strm.found, h]
  · intro e j h; simp only [Strm.bare, Strm.found, h]; exact hP.again _ _ _ h _

/-- **C67.**  A parser that fails without having consumed anything: `parse` reports what is found where it was tried, and what
the parser wanted. -/
theorem C67_parse (hS : S.Lawful) (hP : S.Plain) {p : Parser S σ α} (hd : DescribesOnce p) {i : S.Input} {off : Nat} {xs : List S.SErr}
    (h : Reports p i off xs) : p.parse i = .err (S.told i xs) := by
  obtain ⟨⟨j, s, ts, hj, hr⟩, ha⟩ := h
  simp only [Parser.parse, hd i, Strm.describing, hr, Strm.describe]
  rw [hS.tryReset_eq ⟨ts, hj⟩]
  cases hu : S.uncons i with
  | mk x k =>
    cases x with
    | ok t =>
      dsimp only
      rw [hS.tryReset_eq ⟨[t], .cons hu (.nil _)⟩]
      dsimp only
      rw [(ha _).1, (add_found hP i).1 t k hu]
      rfl
    | error e =>
      dsimp only
      rw [(ha _).1, (add_found hP i).2 e k hu]
      rfl

/-- All parsers but `attempt` and its like describe their errors in this way. -/
theorem describes_mode (init : σ) (run : Bool → S.Input → σ → Out S σ α) (a c : Tracked S.Err → Tracked S.Err) (n : Nat) :
    DescribesOnce (Parser.ofMode init run a c n) := fun _ => rfl

theorem describes_lazy (init : σ) (lazy : S.Input → ParseResult α S.Err × S.Input) (a c : Tracked S.Err → Tracked S.Err) (n : Nat) :
    DescribesOnce (Parser.ofLazy init lazy a c n) := fun _ => rfl

/-! ## Sequences -/

private theorem answer_ok {p : Parser S σ α} {i j : S.Input} {c : Bool} {v : α} (h : p.answer i = .ok c v j) :
    ∃ s, p.run true i p.init = ⟨if c then .commitOk v else .peekOk v, j, s⟩ := by
  simp only [Parser.answer, Out.answer] at h
  generalize p.run true i p.init = o at h ⊢
  obtain ⟨r, k, s⟩ := o
  cases r <;> simp only [Answer.of] at h <;> cases h <;> exact ⟨s, rfl⟩

private theorem foldl_add (xs ys : List S.SErr) (e : S.Err) : ys.foldl S.E.add (xs.foldl S.E.add e) = (xs ++ ys).foldl S.E.add e := by
  rw [List.foldl_append]

private theorem breaks_inv {i k : S.Input} {τ β : Type} {qs : Seq S τ β} {xs : List S.SErr} (h : Breaks k qs i xs) :
    match qs with
    | .nil => False
    | .cons q qs => (∃ v off ys zs, xs = ys ++ zs ∧ q.answer i = .ok true v k ∧ S.AddsAll q.addCommitted ys ∧ Halts k qs off zs) ∨
        ∃ j c v, q.answer i = .ok c v j ∧ Breaks k qs j xs := by
  cases h with
  | last h1 h2 h3 => exact .inl ⟨_, _, _, _, rfl, h1, h2, h3⟩
  | next h1 h2 => exact .inr ⟨_, _, _, h1, h2⟩

private theorem halts_inv {i : S.Input} {τ β : Type} {qs : Seq S τ β} {off : Nat} {xs : List S.SErr} (h : Halts i qs off xs) :
    match qs with
    | .nil => False
    | .cons q qs => Reports q i off xs ∨
        ∃ v ys zs, xs = ys ++ zs ∧ q.answer i = .ok false v i ∧ S.AddsAll q.addError ys ∧ 1 ≤ q.count ∧ Halts i qs off zs := by
  cases h with
  | fail h => exact .inl h
  | peek h1 h2 h3 h4 => exact .inr ⟨_, _, _, rfl, h1, h2, h3, h4⟩

/-- The steps up to a failing member. -/
private theorem halts_steps (hS : S.Lawful) {i : S.Input} {ps : Seq S τ β} {off : Nat} {xs : List S.SErr} (h : Halts i ps off xs)
    (fe cur o : Nat) (ho : o + ps.counts ≤ 255) :
    ∃ n st, ps.steps true fe cur o i ps.init = ⟨.fail ⟨S.bare i, off⟩, fe, o + n, i, st⟩ ∧
      (∀ (e : S.Err) (idx : Nat), fe ≤ idx →
        (addSequenceErrors fe off idx ⟨e, 1 + n⟩ ps.parts).error = xs.foldl S.E.add e) ∧
      (off = 1 → ∀ e : S.Err, (ps.addErrors ⟨e, 1 + n⟩).error = xs.foldl S.E.add e ∧ (ps.addErrors ⟨e, 1 + n⟩).offset ≤ 1) := by
  induction h generalizing cur o with
  | @fail σ τ α β q qs off xs h =>
    obtain ⟨⟨j, s, ts, hj, hr⟩, ha⟩ := h
    refine ⟨0, ((none, s), qs.init), ?_, ?_, ?_⟩
    · simp only [Seq.steps, Seq.init, Bool.true_or, if_true, hr, hS.reset_reach ⟨ts, hj⟩, Nat.add_zero]
    · intro e idx hi
      have h1 : ¬ (idx + 1 = fe) := by omega
      simp only [Seq.parts, addSequenceErrors, h1, if_false, hi, if_true, Nat.add_zero, Nat.le_refl, Parser.part, (ha e).1, (ha e).2]
    · rintro rfl e
      have h2 := (ha e).2
      unfold Seq.addErrors
      simp only [Nat.add_zero, h2, if_true]
      exact ⟨(ha e).1, by omega⟩
  | @peek σ τ α β q qs v off xs ys hq ha hc hh ih =>
    obtain ⟨s, hs⟩ := answer_ok hq
    simp only [Bool.false_eq_true, if_false] at hs
    simp only [Seq.counts] at ho
    have hsat : satAdd o q.count = o + q.count := by simp only [satAdd]; omega
    obtain ⟨n, st, h1, h2, h7⟩ := ih (cur + 1) (o + q.count) (by omega)
    refine ⟨q.count + n, ((some v, s), st), ?_, ?_, ?_⟩
    · simp only [Seq.steps, Seq.init, Bool.true_or, if_true, hs, hsat, h1, Nat.add_assoc]
    · intro e idx hi
      have h3 : ¬ (idx + 1 = fe) := by omega
      have h4 : ¬ (1 + (q.count + n) ≤ 1) := by omega
      have h5 : 1 + (q.count + n) - q.count = 1 + n := by omega
      simp only [Seq.parts, addSequenceErrors, h3, if_false, hi, if_true, Parser.part, h4, ha e _, h5]
      rw [h2 _ _ (by omega), foldl_add]
    · intro h1 e
      have h4 : ¬ (1 + (q.count + n) ≤ 1) := by omega
      have h5 : 1 + (q.count + n) - q.count = 1 + n := by omega
      have h8 := h7 h1 (xs.foldl S.E.add e)
      rw [foldl_add] at h8
      unfold Seq.addErrors
      simp only [ha e _, h4, if_false, if_true, h5]
      cases qs with
      | nil => exact (halts_inv hh).elim
      | cons => exact h8

private theorem breaks_steps (hS : S.Lawful) {i k : S.Input} {ps : Seq S τ β} {xs : List S.SErr} (h : Breaks k ps i xs)
    (fe cur o : Nat) (ho : o + ps.counts ≤ 255) :
    ∃ n fe' off st, ps.steps true fe cur o i ps.init = ⟨.fail ⟨S.bare k, off⟩, cur + 2 + fe', o + n, k, st⟩ ∧
      ∀ e : S.Err, (addSequenceErrors (cur + 2 + fe') off (cur + 1) ⟨e, 1 + n⟩ ps.parts).error = xs.foldl S.E.add e := by
  induction h generalizing fe cur o with
  | @last σ τ α β q qs i v off xs ys hq ha hh =>
    obtain ⟨s, hs⟩ := answer_ok hq
    simp only [if_true] at hs
    simp only [Seq.counts] at ho
    have hsat : satAdd o q.count = o + q.count := by simp only [satAdd]; omega
    obtain ⟨n, st, h1, h2, _⟩ := halts_steps hS hh (cur + 2) (cur + 1) (o + q.count) (by omega)
    refine ⟨q.count + n, 0, off, ((some v, s), st), ?_, ?_⟩
    · simp only [Seq.steps, Seq.init, Bool.true_or, if_true, hs, hsat, Nat.add_zero]
      rw [h1]
      simp only [Nat.add_assoc]
    · intro e
      have h4 : ¬ (cur + 2 ≤ cur + 1) := by omega
      have h5 : 1 + (q.count + n) - q.count = 1 + n := by omega
      simp only [Seq.parts, addSequenceErrors, Nat.add_zero, if_true, Parser.part, h4, if_false, ha e _, h5]
      rw [h2 _ _ (Nat.le_refl _), foldl_add]
  | @next σ τ α β q qs i j c v xs hq _ ih =>
    obtain ⟨s, hs⟩ := answer_ok hq
    simp only [Seq.counts] at ho
    have hsat : satAdd o q.count = o + q.count := by simp only [satAdd]; omega
    have go : ∀ fe₀, ∃ n fe' off st, qs.steps true fe₀ (cur + 1) (o + q.count) j qs.init =
        ⟨.fail ⟨S.bare k, off⟩, cur + 2 + (fe' + 1), o + q.count + n, k, st⟩ ∧
        ∀ e : S.Err, (addSequenceErrors (cur + 2 + (fe' + 1)) off (cur + 2) ⟨e, 1 + n⟩ qs.parts).error = xs.foldl S.E.add e := by
      intro fe₀
      obtain ⟨n, fe', off, st, h1, h2⟩ := ih fe₀ (cur + 1) (o + q.count) (by omega)
      have : cur + 1 + 2 + fe' = cur + 2 + (fe' + 1) := by omega
      rw [this] at h1 h2
      exact ⟨n, fe', off, st, h1, h2⟩
    have fin : ∀ n fe' off, (∀ e : S.Err, (addSequenceErrors (cur + 2 + (fe' + 1)) off (cur + 2) ⟨e, 1 + n⟩ qs.parts).error =
        xs.foldl S.E.add e) → ∀ e : S.Err, (addSequenceErrors (cur + 2 + (fe' + 1)) off (cur + 1) ⟨e, 1 + (q.count + n)⟩
          (Seq.cons q qs).parts).error = xs.foldl S.E.add e := by
      intro n fe' off h e
      have h3 : ¬ (cur + 1 + 1 = cur + 2 + (fe' + 1)) := by omega
      have h4 : ¬ (cur + 2 + (fe' + 1) ≤ cur + 1) := by omega
      have h5 : 1 + (q.count + n) - q.count = 1 + n := by omega
      simp only [Seq.parts, addSequenceErrors, h3, if_false, h4, Parser.part, h5]
      exact h e
    cases c
    · simp only [Bool.false_eq_true, if_false] at hs
      obtain ⟨n, fe', off, st, h1, h2⟩ := go fe
      refine ⟨q.count + n, fe' + 1, off, ((some v, s), st), ?_, fin n fe' off h2⟩
      simp only [Seq.steps, Seq.init, Bool.true_or, if_true, hs, hsat, h1, Nat.add_assoc]
    · simp only [if_true] at hs
      obtain ⟨n, fe', off, st, h1, h2⟩ := go (cur + 2)
      refine ⟨q.count + n, fe' + 1, off, ((some v, s), st), ?_, fin n fe' off h2⟩
      simp only [Seq.steps, Seq.init, Bool.true_or, if_true, hs, hsat]
      rw [h1]
      simp only [Nat.add_assoc]

private theorem bare_found {k : S.Input} {α : Type} (parts : List (ErrPart S)) (off fe o : Nat) (hf : fe ≠ 0) (xs : List S.SErr)
    (h : ∀ e : S.Err, (addSequenceErrors fe off 0 ⟨e, o⟩ parts).error = xs.foldl S.E.add e) :
    (seqAddErrors (α := α) parts ⟨S.bare k, off⟩ fe o k).1 = .commitErr (S.told k xs) := by
  simp only [seqAddErrors, ne_eq, hf, not_false_eq_true, if_true]
  cases hu : S.uncons k with
  | mk x l =>
    cases x with
    | ok t => simp only [h, Strm.bare, hu, Strm.told, Strm.found]
    | error e => simp only [h, Strm.bare, hu, Strm.told, Strm.found]

private theorem seq_hard {r : ParseResult α S.Err} {j : S.Input} {s : σ} {e : S.Err} (h : r = .commitErr e) :
    (⟨r, j, s⟩ : Out S σ α).answer = .hard e := by rw [h]; rfl

/-- **C67.**  A sequence that fails after something was consumed: it reports the place where it could not go on, what is found
there, and then — in their order — with what the last member that consumed something could have gone on, what the members wanted
that then consumed nothing, and what the failing member wanted. -/
theorem C67_sequence (hS : S.Lawful) {p : Parser S σ α} {ps : Seq S τ β} {i k : S.Input} {xs : List S.SErr}
    (h : Breaks k (.cons p ps) i xs) (hn : 1 + p.count + ps.counts ≤ 255) : (tuple p ps).answer i = .hard (S.told k xs) := by
  have hsat : satAdd p.count 1 = p.count + 1 := by simp only [satAdd]; omega
  rcases breaks_inv h with ⟨v, off, xs, ys, rfl, hq, ha, hh⟩ | ⟨j, c, v, hq, hh⟩
  · obtain ⟨s, hs⟩ := answer_ok hq
    simp only [if_true] at hs
    obtain ⟨n, st, h1, h2, _⟩ := halts_steps hS hh 1 0 (p.count + 1) (by omega)
    simp only [Parser.answer, tuple, Parser.ofMode, seqRun, Bool.true_or, if_true, hs, hsat, seqRest, h1]
    refine seq_hard (bare_found _ _ _ _ (by decide) _ fun e => ?_)
    have h5 : p.count + 1 + n - p.count = 1 + n := by omega
    have h6 : ¬ (1 ≤ 0) := by omega
    simp only [addSequenceErrors, Nat.zero_add, if_true, Parser.part, h6, if_false, ha e _, h5]
    rw [h2 _ _ (Nat.le_refl _), foldl_add]
  · obtain ⟨s, hs⟩ := answer_ok hq
    have fin : ∀ n fe' off, (∀ e : S.Err, (addSequenceErrors (0 + 2 + fe') off (0 + 1) ⟨e, 1 + n⟩ ps.parts).error = xs.foldl S.E.add e) →
        ∀ e : S.Err, (addSequenceErrors (0 + 2 + fe') off 0 ⟨e, p.count + 1 + n⟩ (p.part :: ps.parts)).error = xs.foldl S.E.add e := by
      intro n fe' off h e
      have h3 : ¬ (0 + 1 = 0 + 2 + fe') := by omega
      have h4 : ¬ (0 + 2 + fe' ≤ 0) := by omega
      have h5 : p.count + 1 + n - p.count = 1 + n := by omega
      simp only [addSequenceErrors, h3, if_false, h4, Parser.part, h5]
      exact h e
    cases c
    · simp only [Bool.false_eq_true, if_false] at hs
      obtain ⟨n, fe', off, st, h1, h2⟩ := breaks_steps hS hh 0 0 (p.count + 1) (by omega)
      simp only [Parser.answer, tuple, Parser.ofMode, seqRun, Bool.true_or, if_true, hs, hsat, seqRest, h1]
      exact seq_hard (bare_found _ _ _ _ (by omega) _ (fin n fe' off h2))
    · simp only [if_true] at hs
      obtain ⟨n, fe', off, st, h1, h2⟩ := breaks_steps hS hh 1 0 (p.count + 1) (by omega)
      simp only [Parser.answer, tuple, Parser.ofMode, seqRun, Bool.true_or, if_true, hs, hsat, seqRest, h1]
      exact seq_hard (bare_found _ _ _ _ (by omega) _ (fin n fe' off h2))

/-- **C67.**  A sequence that fails before anything was consumed: what the members wanted that consumed nothing, and what the failing
member wanted (`off = 1`: it is not itself a sequence that has already gone on). -/
theorem C67_sequence_first (hS : S.Lawful) {p : Parser S σ α} {ps : Seq S τ β} {i : S.Input} {xs : List S.SErr}
    (h : Halts i (.cons p ps) 1 xs) (hn : 1 + p.count + ps.counts ≤ 255) : ∃ off, Reports (tuple p ps) i off xs := by
  have hsat : satAdd p.count 1 = p.count + 1 := by simp only [satAdd]; omega
  rcases halts_inv h with ⟨⟨j, s, ts, hj, hr⟩, ha⟩ | ⟨v, ys, zs, rfl, hq, ha, hc, hh⟩
  · refine ⟨1, ⟨j, ⟨none, s, ps.init, 0⟩, ts, hj, ?_⟩, fun e => ?_⟩
    · simp only [tuple, Parser.ofMode, seqRun, Bool.true_or, if_true, hr]
    · have h2 := (ha e).2
      simp only [tuple, Parser.ofMode, h2, if_true]
      exact ⟨(ha e).1, by omega⟩
  · obtain ⟨s, hs⟩ := answer_ok hq
    simp only [Bool.false_eq_true, if_false] at hs
    obtain ⟨n, st, h1, _, h2⟩ := halts_steps hS hh 0 0 (p.count + 1) (by omega)
    refine ⟨p.count + 1 + n, ⟨i, ⟨some v, s, st, p.count + 1 + n⟩, [], .nil i, ?_⟩, fun e => ?_⟩
    · simp only [tuple, Parser.ofMode, seqRun, Bool.true_or, if_true, hs, hsat, seqRest, h1, seqAddErrors, ne_eq, not_true_eq_false, if_false]
    · have h4 : ¬ (p.count + 1 + n ≤ 1) := by omega
      have h5 : p.count + 1 + n - p.count = 1 + n := by omega
      have h8 := h2 rfl (ys.foldl S.E.add e)
      rw [foldl_add] at h8
      simp only [tuple, Parser.ofMode, ha e _, h4, if_false, if_true, h5]
      exact h8

/-! ## Tokens -/

private theorem impl_fails (hS : S.Lawful) (f : S.Tok → Option α) {i : S.Input} (hi : S.isPartial i = false)
    (hl : S.Lacks (fun t => f t ≠ none) i) :
    ∃ j ts, S.Reads i ts j ∧ satisfyImpl S f i = (.peekErr ⟨S.bare i, 1⟩, j) := by
  cases hu : S.uncons i with
  | mk x j =>
    cases x with
    | ok t =>
      have hf : f t = none := Classical.not_not.1 (hl t j hu)
      exact ⟨j, [t], .cons hu (.nil _), by simp only [satisfyImpl, Strm.unconsP, hu, hf, Strm.bare]; rfl⟩
    | error e =>
      obtain rfl := hS.uncons_error hu
      exact ⟨_, [], .nil _, by
        simp only [satisfyImpl, Strm.unconsP, hu, Strm.wrapStreamError, hi, Bool.false_eq_true, if_false, Strm.bare]; rfl⟩

private theorem expects (xs : List (Info S.Tok S.Rng)) (e : Tracked S.Err) :
    xs.foldl (fun e x => addExpected S x e) e = ⟨(xs.map S.E.expected).foldl S.E.add e.error, e.offset⟩ := by
  induction xs generalizing e with
  | nil => rfl
  | cons x xs ih => rw [List.foldl_cons, ih]; rfl

/-- **C67.**  One-token parsers: `satisfy`, `satisfy_map`, `any` and `none_of` have no names for what they want, `token` names its
token and `one_of` all of its tokens in their order. -/
theorem C67_one (hS : S.Lawful) [DecidableEq S.Tok] {i : S.Input} (hi : S.isPartial i = false) :
    (∀ f : S.Tok → Option α, S.Lacks (fun t => f t ≠ none) i → Reports (satisfyMap S f) i 1 []) ∧
    (∀ f : S.Tok → Bool, S.Lacks (fun t => f t = true) i → Reports (satisfy S f) i 1 []) ∧
    (S.Lacks (fun _ => True) i → Reports (any S) i 1 []) ∧
    (∀ c, S.Lacks (fun t => t = c) i → Reports (token S c) i 1 [S.E.expected (.token c)]) ∧
    (∀ cs, S.Lacks (fun t => t ∈ cs) i → Reports (oneOf S cs) i 1 (cs.map fun c => S.E.expected (.token c))) ∧
    (∀ cs, S.Lacks (fun t => t ∉ cs) i → Reports (noneOf S cs) i 1 []) := by
  refine ⟨fun f h => ?_, fun f h => ?_, fun h => ?_, fun c h => ?_, fun cs h => ?_, fun cs h => ?_⟩
  · obtain ⟨j, ts, h1, h2⟩ := impl_fails hS f hi h
    exact ⟨⟨j, (), ts, h1, by simp only [satisfyMap, Parser.ofLazy, h2]⟩, fun e => ⟨rfl, Nat.le_refl _⟩⟩
  · obtain ⟨j, ts, h1, h2⟩ := impl_fails hS (fun c => if f c then some c else none) hi (fun t j hu ht => h t j hu (by
      by_cases hf : f t = true
      · exact hf
      · simp [hf] at ht))
    exact ⟨⟨j, (), ts, h1, by simp only [satisfy, Parser.ofLazy, h2]⟩, fun e => ⟨rfl, Nat.le_refl _⟩⟩
  · refine ⟨⟨i, (), [], .nil _, ?_⟩, fun e => ⟨rfl, Nat.le_refl _⟩⟩
    cases hu : S.uncons i with
    | mk x j =>
      cases x with
      | ok t => exact absurd trivial (h t j hu)
      | error e =>
        obtain rfl := hS.uncons_error hu
        simp only [any, Parser.ofLazy, Strm.unconsP, hu, Strm.wrapStreamError, hi, Bool.false_eq_true, if_false, Strm.bare]
        rfl
  · obtain ⟨j, ts, h1, h2⟩ := impl_fails hS (fun x => if x = c then some x else none) hi (fun t j hu ht => h t j hu (by
      by_cases hf : t = c
      · exact hf
      · simp [hf] at ht))
    exact ⟨⟨j, (), ts, h1, by simp only [token, Parser.ofLazy, h2]⟩, fun e => ⟨rfl, Nat.le_refl _⟩⟩
  · obtain ⟨j, ts, h1, h2⟩ := impl_fails hS (fun c => if (cs.any fun t => t = c) then some c else none) hi (fun t j hu ht => h t j hu (by
      by_cases hf : t ∈ cs
      · exact hf
      · simp [hf] at ht))
    refine ⟨⟨j, (), ts, h1, by simp only [oneOf, satisfy, Parser.ofLazy, h2]⟩, fun e => ?_⟩
    have := expects (S := S) (cs.map Info.token) ⟨e, 1⟩
    simp only [List.foldl_map, List.map_map] at this
    simp only [oneOf, Parser.ofLazy, this, List.foldl_map]
    exact ⟨rfl, Nat.le_refl _⟩
  · obtain ⟨j, ts, h1, h2⟩ := impl_fails hS (fun c => if (cs.all fun t => t ≠ c) then some c else none) hi (fun t j hu ht => h t j hu (by
      by_cases hf : t ∈ cs
      · refine absurd ht ?_
        simp only [ne_eq, Classical.not_not, ite_eq_right_iff, reduceCtorEq, imp_false]
        simpa using hf
      · exact hf))
    exact ⟨⟨j, (), ts, h1, by simp only [noneOf, satisfy, Parser.ofLazy, h2]⟩, fun e => ⟨rfl, Nat.le_refl _⟩⟩

/-- **C67.**  `tokens` and `tokens_cmp` whose first token does not come. -/
theorem C67_tokens_first (hS : S.Lawful) (hP : S.Plain) (cmp : τ → S.Tok → Bool) (x : Info S.Tok S.Rng) (c : τ) (cs : List τ)
    {i : S.Input} (hi : S.isPartial i = false) (hl : S.Lacks (fun t => cmp c t = true) i) :
    Reports (tokens S cmp x (c :: cs)) i 1 [S.E.expected x] ∧ Reports (tokensCmp S (c :: cs) cmp) i 1 [] := by
  have key : ∀ bad, ∃ j ts, S.Reads i ts j ∧ tokensLoop S cmp (S.position i) bad (c :: cs) false i = (.peekErr ⟨S.bare i, 1⟩, j) := by
    intro bad
    cases hu : S.uncons i with
    | mk y j =>
      cases y with
      | ok t =>
        have hf : ¬ cmp c t = true := hl t j hu
        exact ⟨j, [t], .cons hu (.nil _), by simp only [tokensLoop, Strm.unconsP, hu, hf, Strm.bare]; rfl⟩
      | error e =>
        obtain rfl := hS.uncons_error hu
        exact ⟨_, [], .nil _, by
          simp only [tokensLoop, Strm.unconsP, hu, Strm.wrapStreamError, hi, Bool.false_eq_true, if_false, Strm.bare, Tracked.of,
            hP.place]⟩
  constructor
  · obtain ⟨j, ts, h1, h2⟩ := key fun other =>
      S.E.add (S.E.fromError (S.position i) (S.E.unexpected (.token other))) (S.E.expected x)
    exact ⟨⟨j, (), ts, h1, by simp only [tokens, Parser.ofLazy, h2]; rfl⟩, fun e => ⟨rfl, Nat.le_refl _⟩⟩
  · obtain ⟨j, ts, h1, h2⟩ := key fun other => S.E.fromError (S.position i) (S.E.unexpected (.token other))
    exact ⟨⟨j, (), ts, h1, by simp only [tokensCmp, Parser.ofLazy, h2]; rfl⟩, fun e => ⟨rfl, Nat.le_refl _⟩⟩

private theorem loop_bad (cmp : τ → S.Tok → Bool) (start : S.Pos) (bad : S.Tok → S.Err) {pre : List τ} {ts : List S.Tok} {i j k : S.Input}
    (h : S.Reads i ts j) (he : EqualBy cmp pre ts) (d : τ) (post : List τ) {t : S.Tok} (hu : S.uncons j = (.ok t, k))
    (hd : cmp d t = false) (c : Bool) (hc : c = true ∨ pre ≠ []) :
    tokensLoop S cmp start bad (pre ++ d :: post) c i = (.commitErr (bad t), k) := by
  induction h generalizing pre c with
  | nil i =>
    cases pre with
    | cons _ _ => exact he.elim
    | nil =>
      obtain rfl | h := hc
      · simp only [List.nil_append, tokensLoop, Strm.unconsP, hu, hd, Bool.false_eq_true, if_false, if_true]
      · exact absurd rfl h
  | cons h1 _ ih =>
    cases pre with
    | nil => exact he.elim
    | cons x pre =>
      obtain ⟨h2, h3⟩ := he
      simp only [List.cons_append, tokensLoop, Strm.unconsP, h1, h2, if_true]
      exact ih h3 hu true (.inl rfl)

/-- **C67.**  `tokens`, `tokens_cmp` and `string` of which only the beginning comes: the report is put where the sequence began; it names
the token that does not fit and, for `tokens`, the label. -/
theorem C67_tokens (cmp : τ → S.Tok → Bool) (x : Info S.Tok S.Rng) {pre : List τ} (hp : pre ≠ []) (d : τ) (post : List τ)
    {i j k : S.Input} (h : S.StartsWith cmp pre i j) {t : S.Tok} (hu : S.uncons j = (.ok t, k)) (hd : cmp d t = false) (v : α) :
    (tokens S cmp x (pre ++ d :: post)).answer i =
      .hard (S.E.add (S.E.fromError (S.position i) (S.E.unexpected (.token t))) (S.E.expected x)) ∧
    (tokensCmp S (pre ++ d :: post) cmp).answer i = .hard (S.E.fromError (S.position i) (S.E.unexpected (.token t))) ∧
    (stringCmp S (pre ++ d :: post) cmp x v).answer i = .hard (S.E.fromError (S.position i) (S.E.unexpected (.token t))) := by
  obtain ⟨ts, h1, h2⟩ := h
  have key := fun bad => loop_bad cmp (S.position i) bad h1 h2 d post hu hd false (.inr hp)
  refine ⟨?_, ?_, ?_⟩
  · simp only [Parser.answer, tokens, Parser.ofLazy, Out.answer, key]; rfl
  · simp only [Parser.answer, tokensCmp, Parser.ofLazy, Out.answer, key]; rfl
  · simp only [Parser.answer, stringCmp, expected, map, Parser.ofMode, tokensCmp, Parser.ofLazy, Out.answer, Out.mapRes, key]; rfl

/-- **C67.**  `eof` before a token, and `unexpected`. -/
theorem C67_eof (hS : S.Lawful) {i j : S.Input} {t : S.Tok} (hu : S.uncons i = (.ok t, j)) (x : Info S.Tok S.Rng) :
    Reports (eof S) i 1 [S.E.expected (.static "end of input")] ∧ Reports (unexpected S α x) i 1 [S.E.unexpected x] := by
  constructor
  · refine ⟨⟨i, (), [], .nil _, ?_⟩, fun e => ⟨rfl, Nat.le_refl _⟩⟩
    have h := hS.reset_reach (i := i) (j := j) ⟨[t], .cons hu (.nil _)⟩
    simp only [eof, Parser.ofLazy, hu, h, Strm.bare]
    rfl
  · exact ⟨⟨i, (), [], .nil _, by simp only [unexpected, Parser.ofLazy, Strm.bare, hu]; rfl⟩, fun e => ⟨rfl, Nat.le_refl _⟩⟩

/-! ## Wrappers -/

private theorem reports_res {p : Parser S σ α} {q : Parser S τ β} {i : S.Input} {off : Nat} {xs : List S.SErr} (h : Reports p i off xs)
    (g : α → β) (hres : (q.run true i q.init).res = (p.run true i p.init).res.map g)
    (hinp : (q.run true i q.init).inp = (p.run true i p.init).inp) (ha : q.addError = p.addError) : Reports q i off xs := by
  obtain ⟨⟨j, s, ts, hj, hr⟩, h2⟩ := h
  rw [hr] at hres hinp
  generalize hq : q.run true i q.init = o at hres hinp
  obtain ⟨r, k, s'⟩ := o
  simp only [ParseResult.map] at hres hinp
  subst hres hinp
  exact ⟨⟨k, s', ts, hj, hq⟩, ha ▸ h2⟩

private theorem map_id' (r : ParseResult α S.Err) : r = r.map id := by cases r <;> rfl

/-- **C67.**  What maps the value, or only hides the type of the parser, reports the same. -/
theorem C67_wrappers {p : Parser S σ α} {i : S.Input} {off : Nat} {xs : List S.SErr} (h : Reports p i off xs) (g : α → β) :
    Reports (map p g) i off xs ∧ Reports (ignore p) i off xs ∧ Reports (boxed p) i off xs ∧ Reports (opaqueP p) i off xs ∧
    Reports (parserMacro p) i off xs ∧ Reports (parserMacroUnit p) i off xs :=
  ⟨reports_res h g rfl rfl rfl, reports_res h (fun _ => ()) rfl rfl rfl, reports_res h id (map_id' _) rfl rfl,
    reports_res h id (map_id' _) rfl rfl, reports_res h id (map_id' _) rfl rfl, reports_res h id (map_id' _) rfl rfl⟩

/-- **C67.**  `message` adds its message at the end. -/
theorem C67_message {p : Parser S σ α} {i : S.Input} {off : Nat} {xs : List S.SErr} (h : Reports p i off xs) (x : Info S.Tok S.Rng) :
    Reports (message p x) i off (xs ++ [S.E.message x]) := by
  obtain ⟨⟨j, s, ts, hj, hr⟩, h2⟩ := h
  refine ⟨⟨j, s, ts, hj, by simp only [message, Parser.ofMode, hr]⟩, fun e => ⟨?_, (h2 e).2⟩⟩
  simp only [message, Parser.ofMode, (h2 e).1, List.foldl_append]
  rfl

/-- **C67.**  `expected` replaces the expectations by its label. -/
theorem C67_expected (hP : S.Plain) {p : Parser S σ α} {i : S.Input} {off : Nat} {ys : List (Info S.Tok S.Rng)}
    (h : Reports p i off (ys.map S.E.expected)) (x : Info S.Tok S.Rng) : Reports (expected p x) i off [S.E.expected x] := by
  obtain ⟨h1, h2⟩ := h
  refine ⟨h1, fun e => ?_⟩
  have h3 := hP.label ⟨e, off⟩ x ys p.addError (h2 e).1
  exact ⟨h3.1, h3.2 ▸ (h2 e).2⟩

/-! ## Choices -/

private theorem merge_bare (hP : S.Plain) {i : S.Input} (ts : List (Tried S)) (t : Tried S) (h : ∀ u ∈ t :: ts, u.err = ⟨S.bare i, 1⟩) :
    (choiceFail (t :: ts) : ParseResult α S.Err) = .peekErr ⟨S.bare i, 1⟩ := by
  have h1 : ∀ (ts : List (Tried S)) (t : Tried S), (∀ u ∈ t :: ts, u.err = ⟨S.bare i, 1⟩) → mergeAll t ts = S.bare i := by
    intro ts
    induction ts with
    | nil => intro t h; rw [mergeAll, h t (by simp)]
    | cons u us ih => intro t h; rw [mergeAll, ih u (fun v hv => h v (.tail _ hv)), h t (by simp)]; exact hP.twice i
  have h2 : ∀ (us : List (Tried S)) (e : Tracked S.Err), (∀ u ∈ us, u.err = ⟨S.bare i, 1⟩) → addTried e us = e := by
    intro us
    simp only [addTried]
    induction us with
    | nil => intro e _; rfl
    | cons u us ih =>
      intro e h
      rw [List.foldl_cons, h u (by simp), if_neg (by simp)]
      exact ih e fun v hv => h v (.tail _ hv)
  simp only [choiceFail]
  rw [h2 _ _ h, h1 ts t h]
  rfl

private theorem alts_fail (hS : S.Lawful) (hP : S.Plain) {i : S.Input} {ps : Alts S α σ} {xs : List S.SErr} (h : AltsReport i ps xs) :
    (∀ bp tried, (∀ u ∈ tried, u.err = ⟨S.bare i, 1⟩) → ps.doChoice bp (S.checkpoint i) tried i = ⟨.peekErr ⟨S.bare i, 1⟩, i, none⟩) ∧
    ∀ e, (ps.addErrors e).error = xs.foldl S.E.add e.error := by
  induction h with
  | @last σ p xs h =>
    obtain ⟨⟨j, s, ts, hj, hr⟩, h2⟩ := h
    refine ⟨fun bp tried ht => ?_, fun e => (h2 e.error).1⟩
    simp only [Alts.doChoice, hr, hS.reset_reach ⟨ts, hj⟩]
    have hall : ∀ u ∈ tried ++ [⟨p.addError, ⟨S.bare i, 1⟩⟩], u.err = ⟨S.bare i, 1⟩ := by
      intro u hu
      rcases List.mem_append.1 hu with hu | hu
      · exact ht u hu
      · simp at hu; rw [hu]
    cases htr : tried with
    | nil => rw [List.nil_append, merge_bare hP [] _ (by rw [htr] at hall; exact hall)]
    | cons t tried => rw [List.cons_append, merge_bare hP _ _ (by rw [htr] at hall; exact hall)]
  | @cons σ τ p ps xs ys h _ ih =>
    obtain ⟨⟨j, s, ts, hj, hr⟩, h2⟩ := h
    refine ⟨fun bp tried ht => ?_, fun e => ?_⟩
    · simp only [Alts.doChoice, hr, hS.reset_reach ⟨ts, hj⟩]
      rw [ih.1 bp _ (by
        intro u hu
        rcases List.mem_append.1 hu with hu | hu
        · exact ht u hu
        · simp at hu; rw [hu])]
      rfl
    · simp only [Alts.addErrors]
      rw [ih.2, (h2 e.error).1, foldl_add]

/-- **C67.**  A choice all of whose alternatives fail at once wants what they want, in their order. -/
theorem C67_choice (hS : S.Lawful) (hP : S.Plain) {i : S.Input} {ps : Alts S α σ} {xs : List S.SErr} (h : AltsReport i ps xs) :
    Reports (choice ps) i 1 xs := by
  obtain ⟨h1, h2⟩ := alts_fail hS hP h
  refine ⟨⟨i, none, [], .nil _, ?_⟩, fun e => ⟨h2 ⟨e, 1⟩, Nat.zero_le _⟩⟩
  simp only [choice, Parser.ofMode, choiceRun, if_true, h1 _ [] (by simp)]

/-- **C67.**  `or`. -/
theorem C67_or (hS : S.Lawful) (hP : S.Plain) {i : S.Input} {p : Parser S σ α} {q : Parser S τ α} {xs ys : List S.SErr}
    (hp : Reports p i 1 xs) (hq : Reports q i 1 ys) : Reports (or p q) i 1 (xs ++ ys) := by
  obtain ⟨h1, h2⟩ := C67_choice hS hP (.cons hp (.last hq))
  exact ⟨h1, h2⟩

/-! ## Members of sequences that consume nothing -/

/-- **C67.**  `optional` of a parser that fails at once: it goes on, and wants what the parser wants. -/
theorem C67_optional (hS : S.Lawful) {p : Parser S σ α} {i : S.Input} {off : Nat} {xs : List S.SErr} (h : Reports p i off xs) :
    (optional p).answer i = .ok false none i ∧ (optional p).addError = p.addError ∧ (optional p).count = p.count := by
  obtain ⟨⟨j, s, ts, hj, hr⟩, _⟩ := h
  refine ⟨?_, rfl, rfl⟩
  simp only [Parser.answer, optional, Parser.ofMode, hr]
  rw [hS.tryReset_eq ⟨ts, hj⟩]
  rfl

/-- **C67.**  `many` of a parser that fails at once. -/
theorem C67_many (hS : S.Lawful) {p : Parser S σ α} (hm : Moves p) (hr : Reusable p) (hc : Consuming p) {i : S.Input} {off : Nat}
    {xs : List S.SErr} (h : Reports p i off xs) :
    (many p).answer i = .ok false [] i ∧ (many p).addError = p.addError ∧ (many p).addCommitted = p.addError ∧
    (many p).count = p.count := by
  refine ⟨?_, rfl, rfl, rfl⟩
  obtain ⟨⟨j, s, ts, hj, hr'⟩, _⟩ := h
  have hsoft : p.answer i = .soft := by simp only [Parser.answer, hr', Out.answer]; rfl
  obtain ⟨vs, c, k, h1, h2⟩ := C07_many hS hm hr hc i
  cases h1 with
  | nil => rw [hsoft] at h2; exact h2
  | cons h _ => rw [hsoft] at h; cases h

/-- **C67.**  What is added by the parsers that members of sequences are made of. -/
theorem C67_adds [DecidableEq S.Tok] (c : S.Tok) (f : S.Tok → Bool) (x : Info S.Tok S.Rng) (cmp : τ → S.Tok → Bool) (cs : List τ) :
    S.AddsAll (token S c).addError [S.E.expected (.token c)] ∧ S.AddsAll (satisfy S f).addError [] ∧
    S.AddsAll (tokens S cmp x cs).addError [S.E.expected x] ∧ S.AddsAll (token S c).addCommitted [] :=
  ⟨fun _ _ => rfl, fun _ _ => rfl, fun _ _ => rfl, fun _ _ => rfl⟩

/-! ## `attempt` -/

/-- **C67.**  `attempt(p)` reports what `p` reports, and also otherwise `parse` gives the same with it as without it. -/
theorem C67_attempt (hS : S.Lawful) {p : Parser S σ α} (hd : DescribesOnce p) (hc : p.committed = fun m => Strm.describing p.addError (p.run m))
    (hm : Moves p) (i : S.Input) : (attempt p).parse i = p.parse i := by
  have hr : S.Reach i (Strm.describing p.addError (p.run true) i p.init).inp := by
    have := (hm.committed true i p.init)
    rw [hc] at this
    exact this
  simp only [Parser.parse, attempt, hd i, Strm.defaultLazy, attemptRun, hc]
  revert hr
  generalize Strm.describing p.addError (p.run true) i p.init = o
  obtain ⟨r, j, s⟩ := o
  intro hr
  dsimp only at hr ⊢
  cases r with
  | commitErr e =>
    dsimp only
    by_cases hp : (S.isPartial j && S.E.isEoi e) = true
    · simp only [hp, if_true]
      by_cases hi : S.isPartial i = true
      · simp only [hi, if_true, hS.reset_reach hr]
      · simp only [hi, if_false, Bool.false_eq_true]
    · simp only [hp, if_false, Bool.false_eq_true]
      by_cases hi : S.isPartial i = true
      · simp only [hi, if_true]; rfl
      · simp only [hi, if_false, Bool.false_eq_true]; rfl
  | commitOk v => by_cases hi : S.isPartial i = true <;> simp [hi]
  | peekOk v => by_cases hi : S.isPartial i = true <;> simp [hi]
  | peekErr e => by_cases hi : S.isPartial i = true <;> simp [hi]
  | abort a => by_cases hi : S.isPartial i = true <;> simp [hi]

/-- **C67.**  A member of a sequence may be wrapped by `attempt` or `no_partial`, made opaque, boxed, built lazily, put in a `parser!`
or have its value mapped: when it consumes nothing and goes on, the report of the sequence still lists what it wanted. -/
theorem C67_member {p : Parser S σ α} (hc : p.committed = fun m => Strm.describing p.addError (p.run m)) {i : S.Input}
    {v : α} {xs ys : List S.SErr} {off : Nat} {ps : Seq S τ β} (h : p.answer i = .ok false v i) (ha : S.AddsAll p.addError xs)
    (hn : 1 ≤ p.count) (hh : Halts i ps off ys) :
    Halts i (.cons (attempt p) ps) off (xs ++ ys) ∧ Halts i (.cons (opaqueP p) ps) off (xs ++ ys) ∧
    Halts i (.cons (boxed p) ps) off (xs ++ ys) ∧ Halts i (.cons (parserMacro p) ps) off (xs ++ ys) ∧
    Halts i (.cons (lazyP fun _ => p) ps) off (xs ++ ys) ∧
    (∀ {γ : Type} (f : α → S.Input → γ), Halts i (.cons (mapInput p fun x j => (f x j, j)) ps) off (xs ++ ys)) ∧
    (p.lazy i = (.peekOk v, i) → Halts i (.cons (noPartial p) ps) off (xs ++ ys)) := by
  refine ⟨.peek (v := v) ?_ ha hn hh, .peek (v := v) h ha (Nat.le_refl _) hh, .peek (v := v) h ha hn hh,
    .peek (v := v) h ha (Nat.le_refl _) hh, .peek (v := v) h ha (Nat.le_refl _) hh, fun f => .peek (v := f v i) ?_ ha hn hh,
    fun hl => .peek (v := v) ?_ ha hn hh⟩
  all_goals
    obtain ⟨s, hs⟩ := answer_ok h
    simp only [Bool.false_eq_true, if_false] at hs
  · simp only [Parser.answer, attempt, attemptRun, hc, Strm.describing, hs]
    rfl
  · simp only [Parser.answer, mapInput, Parser.ofMode, Strm.describing, hs]
    rfl
  · simp only [Parser.answer, noPartial, Parser.ofLazy, Strm.describing, hl]
    rfl

/-! ## Easy errors -/

section Easy

variable {A : Strm} [DecidableEq A.Tok] [DecidableEq A.Rng] {cmp : A.Pos → A.Pos → Ordering}
  {convS : A.SErr → Easy.Error A.Tok A.Rng} {conv : A.Err → Easy.Errors A.Tok A.Rng A.Pos}

private theorem easy_adds (ys : List (Info A.Tok A.Rng)) (e : Easy.Errors A.Tok A.Rng A.Pos) :
    ∃ zs, (ys.map Easy.Error.expected).foldl Easy.Errors.addError e = ⟨e.position, e.errors ++ zs⟩ ∧ ∀ z ∈ zs, z.isExpected = true := by
  induction ys generalizing e with
  | nil => exact ⟨[], by simp, by simp⟩
  | cons y ys ih =>
    rw [List.map_cons, List.foldl_cons]
    by_cases h : (e.errors.all fun err => !err.eqv (.expected y)) = true
    · obtain ⟨zs, h1, h2⟩ := ih ⟨e.position, e.errors ++ [.expected y]⟩
      refine ⟨.expected y :: zs, ?_, ?_⟩
      · rw [Easy.Errors.addError, if_pos h, h1]; simp
      · intro z hz
        rcases List.mem_cons.1 hz with rfl | hz
        · rfl
        · exact h2 z hz
    · obtain ⟨zs, h1, h2⟩ := ih e
      exact ⟨zs, by rw [Easy.Errors.addError, if_neg h, h1], h2⟩

/-- Easy errors over a stream whose only failures are ends of the input. -/
theorem easy_plain (hc : ∀ q, cmp q q = .eq) (he : ∀ i e j, A.uncons i = (.error e, j) → convS e = Easy.Error.endOfInput) :
    (easyS A cmp convS conv).Plain where
  again i e j h q := by
    have h' : e = Easy.Error.endOfInput := by
      cases hu : A.uncons i with
      | mk x k =>
        cases x with
        | ok t => simp [mapExceptErr, hu] at h
        | error d => simp [mapExceptErr, hu] at h; cases h.1; exact he i d k hu
    subst h'
    rfl
  place q e := rfl
  twice i := by
    cases hu : A.uncons i with
    | mk x k =>
      cases x with
      | ok t =>
        have : Strm.bare (easyS A cmp convS conv) i = (⟨A.position i, []⟩ : Easy.Errors A.Tok A.Rng A.Pos) := by
          simp only [Strm.bare, mapExceptErr, hu]; rfl
        rw [this]
        change Easy.Errors.merge cmp _ _ = _
        simp [Easy.Errors.merge, hc]
      | error d =>
        have : Strm.bare (easyS A cmp convS conv) i = (⟨A.position i, [Easy.Error.endOfInput]⟩ : Easy.Errors A.Tok A.Rng A.Pos) := by
          simp only [Strm.bare, mapExceptErr, hu, he i d k hu]; rfl
        rw [this]
        change Easy.Errors.merge cmp _ _ = _
        simp only [Easy.Errors.merge, hc]
        rfl
  label t x ys f h := by
    refine ⟨?_, rfl⟩
    obtain ⟨zs, h1, h2⟩ := easy_adds ys t.error
    replace h : (f t).error = (⟨t.error.position, t.error.errors ++ zs⟩ : Easy.Errors A.Tok A.Rng A.Pos) := h.trans h1
    change (Easy.Errors.setExpected t (.expected x) f).error = Easy.Errors.addError t.error (.expected x)
    have h3 : zs.filter (!·.isExpected) = [] := List.filter_eq_nil_iff.2 fun z hz => by simp [h2 z hz]
    simp only [Easy.Errors.setExpected, h, List.take_left, List.drop_left, h3, List.append_nil]
    rfl

end Easy

theorem easySlice_plain (T : Type) [DecidableEq T] (sz : Nat) : (easySliceS T sz).Plain :=
  easy_plain (A := sliceS T sz) (fun q => Nat.compare_eq_eq.2 rfl) (fun i e j h => by
    obtain ⟨p, xs⟩ := i
    cases xs with
    | nil => cases h; rfl
    | cons _ _ => cases h)

/-! ## Examples -/

private abbrev Y := easySliceS Nat 1

/-- `(token(1), optional(token(2)), many(token(3)), token(4))` on `1 9`: the report says that 9 was unexpected, and that 2, 3 and 4 were
expected. -/
private theorem example_seq :
    (tuple (token Y (1 : Nat)) (.cons (optional (token Y (2 : Nat))) (.cons (many (token Y (3 : Nat)))
      (.cons (token Y (4 : Nat)) .nil)))).answer (⟨0, [1, 9]⟩ : Slice Nat) =
    .hard (Strm.told Y (⟨1, [9]⟩ : Slice Nat) [.expected (.token 2), .expected (.token 3), .expected (.token 4)]) := by
  have one := fun c : Nat => fun h : (9 : Nat) ≠ c =>
    ((C67_one (α := Unit) (S := Y) (convert_lawful (slice_lawful Nat 1)) (i := (⟨1, [9]⟩ : Slice Nat)) rfl).2.2.2.1 c
      (fun t j hu => by cases hu; exact h))
  refine C67_sequence (convert_lawful (slice_lawful Nat 1)) (k := (⟨1, [9]⟩ : Slice Nat)) ?_ (by decide)
  refine .last (xs := []) (ys := [_, _, _]) (v := (1 : Nat)) (off := 1) (by rfl) (fun _ _ => rfl) ?_
  refine .peek (xs := [_]) (ys := [_, _]) (v := none) (by rfl) (fun _ _ => rfl) (by decide) ?_
  refine .peek (xs := [_]) (ys := [_]) (v := []) (by rfl) (fun _ _ => rfl) (by decide) ?_
  exact .fail (one 4 (by decide))

example : Strm.told Y (⟨1, [9]⟩ : Slice Nat) [.expected (.token 2), .expected (.token 3), .expected (.token 4)] =
    (⟨1, [.unexpected (.token 9), .expected (.token 2), .expected (.token 3), .expected (.token 4)]⟩ :
      Easy.Errors Nat (List Nat) Nat) := rfl

/-- A choice under a label at the beginning. -/
example (c : Nat) (h : c ≠ 1 ∧ c ≠ 2) : (expected (or (token Y (1 : Nat)) (token Y (2 : Nat))) (.static "digit")).parse (⟨0, [c]⟩ : Slice Nat) =
    .err (⟨0, [.unexpected (.token c), .expected (.static "digit")]⟩ : Easy.Errors Nat (List Nat) Nat) := by
  have one := fun d : Nat => fun h : c ≠ d =>
    ((C67_one (α := Unit) (S := Y) (convert_lawful (slice_lawful Nat 1)) (i := (⟨0, [c]⟩ : Slice Nat)) rfl).2.2.2.1 d
      (fun t j hu => by cases hu; exact h))
  have h1 := C67_or (S := Y) (convert_lawful (slice_lawful Nat 1)) (easySlice_plain Nat 1) (one 1 h.1) (one 2 h.2)
  exact C67_parse (convert_lawful (slice_lawful Nat 1)) (easySlice_plain Nat 1) (describes_mode _ _ _ _ _)
    (C67_expected (easySlice_plain Nat 1) (ys := [.token (1 : Nat), .token (2 : Nat)]) h1 (.static "digit"))

/-- `"ab"` on `"ax"`. -/
example (v : Nat) := C67_tokens (S := Y) (α := Nat) (fun a b : Nat => a == b) (.static "ab") (pre := [1]) (by simp) 2 []
  (i := (⟨0, [1, 9]⟩ : Slice Nat)) (j := (⟨1, [9]⟩ : Slice Nat)) (k := (⟨2, []⟩ : Slice Nat))
  ⟨[1], .cons (j := (⟨1, [9]⟩ : Slice Nat)) rfl (.nil _), rfl, trivial⟩ (t := (9 : Nat)) rfl rfl v

/-! ## Where the report leaves out what could have come -/

/-- **C67 fails** for sequences whose optional member is a choice: `(token(1), optional(choice((token(2), token(3)))), token(4))` on
`1 9` reports that 2 and 3 were expected, but not that 4 was, although 4 is what is required there and the only token without
which the sequence cannot succeed. -/
theorem C67_choice_fails :
    (tuple (token Y (1 : Nat)) (.cons (optional (choice (.cons (token Y (2 : Nat)) (.last (token Y (3 : Nat))))))
      (.cons (token Y (4 : Nat)) .nil))).parse (⟨0, [1, 9]⟩ : Slice Nat) =
      .err (⟨1, [.unexpected (.token 9), .expected (.token 2), .expected (.token 3)]⟩ : Easy.Errors Nat (List Nat) Nat) ∧
    (tuple (token Y (1 : Nat)) (.cons (optional (choice (.cons (token Y (2 : Nat)) (.last (token Y (3 : Nat))))))
      (.cons (token Y (4 : Nat)) .nil))).parse (⟨0, [1, 4]⟩ : Slice Nat) = .ok (1, none, 4, ()) (⟨2, []⟩ : Slice Nat) := ⟨rfl, rfl⟩

/-- A pair of optional tokens as a member of a longer sequence. -/
private abbrev nested := tuple (token Y (1 : Nat)) (.cons (pair (optional (token Y (2 : Nat))) (optional (token Y (3 : Nat))))
  (.cons (optional (token Y (5 : Nat))) (.cons (token Y (4 : Nat)) .nil)))

/-- **C67 fails** for sequences inside sequences: the members of an inner sequence are counted twice, so the report of
`(token(1), (optional(token(2)), optional(token(3))), optional(token(5)), token(4))` on `1 9` stops before the token 4, which is
what the sequence cannot do without.  Without the inner parentheses all four are reported. -/
theorem C67_nested_fails :
    nested.parse (⟨0, [1, 9]⟩ : Slice Nat) =
      .err (⟨1, [.unexpected (.token 9), .expected (.token 2), .expected (.token 3), .expected (.token 5)]⟩ : Easy.Errors Nat (List Nat) Nat) ∧
    nested.parse (⟨0, [1, 4]⟩ : Slice Nat) = .ok (1, (none, none, ()), none, 4, ()) (⟨2, []⟩ : Slice Nat) ∧
    (tuple (token Y (1 : Nat)) (.cons (optional (token Y (2 : Nat))) (.cons (optional (token Y (3 : Nat)))
      (.cons (optional (token Y (5 : Nat))) (.cons (token Y (4 : Nat)) .nil))))).parse (⟨0, [1, 9]⟩ : Slice Nat) =
      .err (⟨1, [.unexpected (.token 9), .expected (.token 2), .expected (.token 3), .expected (.token 5), .expected (.token 4)]⟩ :
        Easy.Errors Nat (List Nat) Nat) := ⟨rfl, rfl, rfl⟩

/-- A pair of optional tokens at the beginning of a longer sequence. -/
private abbrev nestedFirst := tuple (pair (optional (token Y (2 : Nat))) (optional (token Y (3 : Nat))))
  (.cons (token Y (4 : Nat)) (.cons (token Y (5 : Nat)) (.cons (token Y (6 : Nat)) .nil)))

/-- **C67 fails** for sequences that begin with a sequence, too: the report of `((optional(token(2)), optional(token(3))), token(4),
token(5), token(6))` on `9` goes one member too far, to the token 5, which would not have been accepted there.  Without the inner
parentheses it does not. -/
theorem C67_nested_first_fails :
    nestedFirst.parse (⟨0, [9]⟩ : Slice Nat) = .err (⟨0, [.unexpected (.token 9), .expected (.token 2), .expected (.token 3),
      .expected (.token 4), .expected (.token 5)]⟩ : Easy.Errors Nat (List Nat) Nat) ∧
    (∀ xs : List Nat, (∃ e, nestedFirst.parse (⟨0, 5 :: xs⟩ : Slice Nat) = .err e)) ∧
    (tuple (optional (token Y (2 : Nat))) (.cons (optional (token Y (3 : Nat))) (.cons (token Y (4 : Nat)) (.cons (token Y (5 : Nat))
      (.cons (token Y (6 : Nat)) .nil))))).parse (⟨0, [9]⟩ : Slice Nat) = .err (⟨0, [.unexpected (.token 9), .expected (.token 2),
      .expected (.token 3), .expected (.token 4)]⟩ : Easy.Errors Nat (List Nat) Nat) := ⟨rfl, fun _ => ⟨_, rfl⟩, rfl⟩

/-- **C67 fails** for a choice one of whose alternatives is an `attempt` of a sequence: `choice((attempt((token(2), token(5))),
token(3)))` on `9` reports that 2 was expected and not that 3 was, in whichever order the alternatives are written, although
either would have been accepted.  `attempt` has its sequence describe the failure, which leaves the offset of the error at 0, and
`choice` then takes the whole merged error for one that has been described.  Without the `attempt` both are reported. -/
theorem C67_attempt_fails :
    (choice (.cons (attempt (pair (token Y (2 : Nat)) (token Y (5 : Nat)))) (.last (map (token Y (3 : Nat)) fun x => (x, x, ()))))).parse
      (⟨0, [9]⟩ : Slice Nat) = .err (⟨0, [.unexpected (.token 9), .expected (.token 2)]⟩ : Easy.Errors Nat (List Nat) Nat) ∧
    (choice (.cons (map (token Y (3 : Nat)) fun x => (x, x, ())) (.last (attempt (pair (token Y (2 : Nat)) (token Y (5 : Nat))))))).parse
      (⟨0, [9]⟩ : Slice Nat) = .err (⟨0, [.unexpected (.token 9), .expected (.token 2)]⟩ : Easy.Errors Nat (List Nat) Nat) ∧
    (choice (.cons (attempt (pair (token Y (2 : Nat)) (token Y (5 : Nat)))) (.last (map (token Y (3 : Nat)) fun x => (x, x, ()))))).parse
      (⟨0, [3]⟩ : Slice Nat) = .ok (3, 3, ()) (⟨1, []⟩ : Slice Nat) ∧
    (choice (.cons (pair (token Y (2 : Nat)) (token Y (5 : Nat))) (.last (map (token Y (3 : Nat)) fun x => (x, x, ()))))).parse
      (⟨0, [9]⟩ : Slice Nat) =
      .err (⟨0, [.unexpected (.token 9), .expected (.token 2), .expected (.token 3)]⟩ : Easy.Errors Nat (List Nat) Nat) :=
  ⟨rfl, rfl, rfl, rfl⟩

/-- The same for an `attempt` of a choice: the labels of the alternatives outside are left out. -/
theorem C67_attempt_choice_fails :
    (choice (.cons (token Y (3 : Nat)) (.last (attempt (choice (.cons (token Y (4 : Nat)) (.last (token Y (5 : Nat))))))))).parse
      (⟨0, []⟩ : Slice Nat) = .err (⟨0, [.unexpected (.static "end of input"), .expected (.token 4), .expected (.token 5)]⟩ : Easy.Errors Nat (List Nat) Nat) ∧
    (choice (.cons (token Y (3 : Nat)) (.last (attempt (choice (.cons (token Y (4 : Nat)) (.last (token Y (5 : Nat))))))))).parse
      (⟨0, [3]⟩ : Slice Nat) = .ok 3 (⟨1, []⟩ : Slice Nat) ∧
    (choice (.cons (token Y (3 : Nat)) (.last (choice (.cons (token Y (4 : Nat)) (.last (token Y (5 : Nat)))))))).parse
      (⟨0, []⟩ : Slice Nat) = .err (⟨0, [.unexpected (.static "end of input"), .expected (.token 3), .expected (.token 4), .expected (.token 5)]⟩ :
        Easy.Errors Nat (List Nat) Nat) :=
  ⟨rfl, rfl, rfl⟩

end Verif
