import Verif.Props.HintsMore
import Verif.Props.GrammarMore

/-!
# C58, C59: a bounded number of times

`count(n, p)` blames the right token.  `count_min_max` with a minimum does not: after too few elements, its error says how
many are missing, but not which token came instead.
-/

namespace Verif

variable {S : Strm} {N σ τ α β : Type} {rules : N → Gram N S.Tok} {a b : Gram N S.Tok} {F : S.Tok → Prop}
  {Has : S.Err → S.SErr → Prop} {H : S.E.Hints} {M : Info S.Tok S.Rng → S.Tok → Prop}

private theorem count_fails (hS : S.Lawful) {p : Parser S σ α} (hm : Moves p) (hr : Reusable p) (hi : Nat) (i : S.Input) :
    (∀ e, ((countMinMax 0 hi p).run true i (countMinMax 0 hi p).init).res ≠ .peekErr e) ∧
    ∀ e, ((countMinMax 0 hi p).run true i (countMinMax 0 hi p).init).res = .commitErr e →
      ∃ vs c k, Ref.Run p.answer i vs c k ∧ vs.length < hi ∧ p.answer k = .hard e := by
  obtain ⟨Clean, hr⟩ := hr
  obtain ⟨vs, c, k, ys, h1, h2, h3, h4, h5⟩ := iterExtend_ends hS hm.run hr some (hi + 1) (some hi) []
    ⟨i, false, .ok, p.init, true⟩ (.inl ⟨hi, rfl, Nat.lt_succ_self _⟩) rfl hr.init
  cases map_some_eq h2
  simp only [List.nil_append, Bool.false_or] at h3 h5
  have h4 := h4 _ rfl
  have e : ((countMinMax 0 hi p).run true i (countMinMax 0 hi p).init).res =
      ((iterExtend p some (hi + 1) (some hi) [] ⟨i, false, .ok, p.init, true⟩).2.intoResultFast
        (iterExtend p some (hi + 1) (some hi) [] ⟨i, false, .ok, p.init, true⟩).1).1 := rfl
  rw [e]
  revert h3 h5
  generalize iterExtend p some (hi + 1) (some hi) [] ⟨i, false, .ok, p.init, true⟩ = r
  obtain ⟨els, it⟩ := r
  intro h3 h5
  simp only at h3 h5
  subst h3
  cases h5 with
  | limit h => cases c <;> exact ⟨nofun, nofun⟩
  | soft h h' => cases c <;> exact ⟨nofun, nofun⟩
  | hard h h' =>
    refine ⟨nofun, fun e he => ?_⟩
    cases he
    exact ⟨els, c, k, h1, Nat.lt_of_le_of_ne h4 fun x => h (by rw [x]), h'⟩
  | abort h h' => exact ⟨nofun, nofun⟩
  | stop _ _ h => cases h

private theorem times_useful (h : a.Useful rules) : ∀ hi, (a.times 0 hi).Useful rules
  | 0 => trivial
  | hi + 1 => ⟨⟨h, times_useful h hi⟩, trivial⟩

private theorem next_accepts {p : Parser S σ α} (hp : Blames Has rules a (fun t => a.First rules t ∨ F t) p) (hi : Nat) :
    Accepts rules a ((a.times 0 hi).Then rules F) p.shape := fun i w k h1 h2 h3 h4 =>
  hp.accepts i w k h1 h2 h3 fun t j hu => by
    rcases h4 t j hu with h | h
    · exact .inl (first_times hi 0 h)
    · exact .inr h.2

private theorem count_blame (hS : S.Lawful) {p : Parser S σ α} (hp : Blames Has rules a (fun t => a.First rules t ∨ F t) p)
    {i k : S.Input} {vs : List α} {c : Bool} (hr : Ref.Run p.answer i vs c k) {e : S.Err} (hk : p.answer k = .hard e) :
    ∀ hi, vs.length < hi → S.isPartial i = false →
    ∃ w l, S.Reads i w l ∧ S.Blamed Has l e ∧ (a.times 0 hi).Viable rules w ∧ S.Beyond rules (a.times 0 hi) w l := by
  have hun : ∀ i, S.Unfit rules .empty i := fun i t j _ h => by cases h
  induction hr with
  | nil i =>
    intro hi hl hpart
    cases hi with
    | zero => cases hl
    | succ hi =>
      obtain ⟨w, l, h1, h2, h3, h4⟩ := hp.hard i e hpart hk
      have hs := shape_of_hard hk
      exact ⟨w, l, h1, h2, Gram.viable_alt.2 (.inl (Gram.viable_left h3 (times_useful hp.useful hi))),
        (beyond_alt h1 (beyond_left (next_accepts hp hi) hpart h1 (fun c v j h => by rw [hs] at h; cases h)
          (fun x h => by rw [hs] at h; cases h) h4) (hun i)).1⟩
  | @cons i j k b c v vs hx _ ih =>
    intro hi hl hpart
    cases hi with
    | zero => cases hl
    | succ hi =>
      have hx : p.shape i = .ok b v j := by simp only [Parser.shape, hx, Answer.shape]
      have hpred := hp.predicts i
      rw [hx] at hpred
      obtain ⟨u, h1, h2, _⟩ := hpred
      obtain ⟨w, l, h3, h4, h5, h6⟩ := ih hk hi (Nat.lt_of_succ_lt_succ hl) ((hS.reads_isPartial h1).trans hpart)
      exact ⟨u ++ w, l, reads_append h1 h3, h4, Gram.viable_alt.2 (.inl (Gram.viable_right h2 h5)),
        (beyond_alt (reads_append h1 h3) (beyond_right hS (next_accepts hp hi) hpart hx h1 h3
          (hp.stop i _ _ _ u hpart hx h1) h6) (hun i)).1⟩

private theorem predicts_map' {m : Sem S.Input Unit α} (h : Predicts rules a m) (f : α → β) :
    Predicts rules a (Ref.map m f) := by
  intro i
  have := h i
  simp only [Ref.map]
  revert this
  cases m i <;> exact id

private theorem count_stops (hS : S.Lawful) {p : Parser S σ α} (hp : Blames Has rules a (fun t => a.First rules t ∨ F t) p)
    (ha : ¬ a.Null rules) (hF : Gram.Apart (a.First rules) F) :
    ∀ hi, Stops rules (a.times 0 hi) (countSem p.shape orSem 0 hi)
  | 0 => stops_value []
  | hi + 1 =>
    have ih := count_stops hS hp ha hF hi
    have hf := countSem_follows hS hp.predicts hp.accepts ha hF hi 0
    stops_or (predicts_bind hp.predicts fun v => predicts_map' hf.1 (v :: ·))
      (stops_bind hS hp.predicts (next_accepts hp hi) hp.stop (fun v => predicts_map' hf.1 (v :: ·))
        fun v => stops_map ih (v :: ·)) (stops_value []) (fun h => ha (Gram.null_seq.1 h).1) (fun t _ h => by cases h)

/-- **C58.**  `count`, and `count_min_max` without a minimum: at most `n` times. -/
theorem C58_count (hS : S.Lawful) (hE : S.E.Naming Has) {p : Parser S σ α} (hm : Moves p) (hr : Reusable p)
    (hp : Blames Has rules a (fun t => a.First rules t ∨ F t) p) (ha : ¬ a.Null rules) (hF : Gram.Apart (a.First rules) F)
    (n : Nat) : Blames Has rules (a.times 0 n) F (countMinMax 0 n p) ∧ Blames Has rules (a.times 0 n) F (count n p) := by
  have h : Blames Has rules (a.times 0 n) F (countMinMax 0 n p) := by
    refine ⟨(C56_count_min_max hS hm hr hp.toFollows ha hF 0 n (Nat.zero_le n)).1, times_useful hp.useful n, ?_,
      fun i e _ hx => absurd hx ((count_fails hS hm hr n i).1 e), fun i e hpart hx => ?_, hp.addError, adds_id⟩
    · rw [show (countMinMax 0 n p).shape = countSem p.shape orSem 0 n from
        funext fun i => countSem_eq n 0 i _ (C09_count_min_max hS hm hr 0 n (Nat.zero_le n) i)]
      exact count_stops hS hp ha hF n
    · obtain ⟨vs, c, k, h1, h2, h3⟩ := (count_fails hS hm hr n i).2 e (answer_of_hard.1 hx)
      exact count_blame hS hp h1 h3 n h2 hpart
  exact ⟨h, (C58_labels hE h (.static "")).2.2.2.2.2.2⟩

private theorem count_tell (hS : S.Lawful) {p : Parser S σ α}
    (hp : Tells Has H M rules a (fun t => a.First rules t ∨ F t) p)
    {i k : S.Input} {vs : List α} {c : Bool} (hr : Ref.Run p.answer i vs c k) {e : S.Err} (hk : p.answer k = .hard e) :
    ∀ hi, vs.length < hi → S.isPartial i = false →
    ∃ w l, S.Reads i w l ∧ (a.times 0 hi).Viable rules w ∧ S.Beyond rules (a.times 0 hi) w l ∧
      ∀ x, H.Lists e x → (a.times 0 hi).Awaits rules M w x := by
  have hun : ∀ i, S.Unfit rules .empty i := fun i t j _ h => by cases h
  have hb := hp.toBlames
  induction hr with
  | nil i =>
    intro hi hl hpart
    cases hi with
    | zero => cases hl
    | succ hi =>
      obtain ⟨w, l, h1, h3, h4, h5⟩ := hp.hardly i e hpart hk
      have hs := shape_of_hard hk
      exact ⟨w, l, h1, Gram.viable_alt.2 (.inl (Gram.viable_left h3 (times_useful hp.useful hi))),
        (beyond_alt h1 (beyond_left (next_accepts hb hi) hpart h1 (fun c v j h => by rw [hs] at h; cases h)
          (fun x h => by rw [hs] at h; cases h) h4) (hun i)).1,
        fun x hx => awaits_alt_left (awaits_left (h5 x hx) (times_useful hp.useful hi))⟩
  | @cons i j k b c v vs hx _ ih =>
    intro hi hl hpart
    cases hi with
    | zero => cases hl
    | succ hi =>
      have hx : p.shape i = .ok b v j := by simp only [Parser.shape, hx, Answer.shape]
      have hpred := hp.predicts i
      rw [hx] at hpred
      obtain ⟨u, h1, h2, _⟩ := hpred
      obtain ⟨w, l, h3, h5, h6, h7⟩ := ih hk hi (Nat.lt_of_succ_lt_succ hl) ((hS.reads_isPartial h1).trans hpart)
      exact ⟨u ++ w, l, reads_append h1 h3, Gram.viable_alt.2 (.inl (Gram.viable_right h2 h5)),
        (beyond_alt (reads_append h1 h3) (beyond_right hS (next_accepts hb hi) hpart hx h1 h3
          (hp.stop i _ _ _ u hpart hx h1) h6) (hun i)).1, fun x hx => awaits_alt_left (awaits_right h2 (h7 x hx))⟩

/-- **C59.**  `count`, and `count_min_max` without a minimum; at least one element must be allowed, because `add_error` lists
what an element begins with in any case. -/
theorem C59_count (hS : S.Lawful) (hE : S.E.Naming Has) {p : Parser S σ α} (hm : Moves p) (hr : Reusable p)
    (hp : Tells Has H M rules a (fun t => a.First rules t ∨ F t) p) (ha : ¬ a.Null rules) (hF : Gram.Apart (a.First rules) F)
    (n : Nat) (hn : 0 < n) :
    Tells Has H M rules (a.times 0 n) F (countMinMax 0 n p) ∧ Tells Has H M rules (a.times 0 n) F (count n p) := by
  have h : Tells Has H M rules (a.times 0 n) F (countMinMax 0 n p) := by
    refine ⟨(C58_count hS hE hm hr hp.toBlames ha hF n).1, fun t => ⟨(hp.extends_ t).1, notes_refl t⟩,
      fun t ht => notes_mono (hp.first t ht) fun _ h => ?_,
      fun i e _ hx => absurd hx ((count_fails hS hm hr n i).1 e), fun i e hpart hx => ?_, fun t w _ _ => notes_refl t⟩
    · cases n with
      | zero => cases hn
      | succ n => exact awaits_alt_left (awaits_left h (times_useful hp.useful n))
    · obtain ⟨vs, c, k, h1, h2, h3⟩ := (count_fails hS hm hr n i).2 e (answer_of_hard.1 hx)
      exact count_tell hS hp h1 h3 n h2 hpart
  exact ⟨h, (C59_wrappers hE h).2.2.2⟩

/-! ## With a minimum -/

section Examples

open Hint

private theorem hS : Y.Lawful := source_lawful _ _

private theorem blames_ch (F : Char → Prop) (x : Char) : Blames SaysE lists (ch x) F (token Y x) :=
  (C58_one (S := Y) hS (Easy.naming cmpSource cmpSource_self) (source_plain _ _) (fun t => some t) ⟨'a', rfl⟩ (fun _ => true)
    ⟨'a', rfl⟩ x).2.2.1

/-- The error of a parser followed by `eof`, on a text: line, column and causes. -/
def Hint.reported {σ α : Type} (p : Parser Y σ α) (text : List Char) : Option (Int × Int × List (Easy.Error Char (List Char))) :=
  match (skip p (eof Y)).parse (⟨0, text⟩, SourcePosition.start) with
  | .err e => some (e.position.line, e.position.column, e.errors)
  | _ => none

/-- **C58** does not hold for `count_min_max` with a minimum: `count_min_max(2, 2, char('x'))` on `xy` reports an error in the
right place that does not name the unexpected `y`, nor what was expected, though `(char('x'), char('x'))`, a parser for the same
grammar, does. -/
theorem C58_count_min_max_fails :
    Hint.reported (countMinMax 2 2 (token Y 'x')) ['x', 'y'] = some (1, 2, [.message (.format "expected 1 more elements")]) ∧
    Hint.reported (pair (token Y 'x') (token Y 'x')) ['x', 'y'] = some (1, 2, [.unexpected (.token 'y'), .expected (.token 'x')]) := by
  constructor <;> decide +kernel

/-- **C59** does not hold for `count(0, p)`: `(count(0, char('x')), char('y'))` on `z` lists `x` as expected. -/
theorem C59_count_zero :
    Hint.reported (pair (count 0 (token Y 'x')) (token Y 'y')) ['z'] =
      some (1, 1, [.unexpected (.token 'z'), .expected (.token 'x'), .expected (.token 'y')]) ∧
    (∀ text, (((ch 'x').times 0 0).seq (ch 'y')).Derives lists text ↔ text = ['y']) := by
  refine ⟨by decide +kernel, fun text => ⟨fun h => ?_, ?_⟩⟩
  · cases h with
    | seq h1 h2 =>
      cases h1
      cases h2 with
      | one h =>
        rename_i t
        by_cases ht : t = 'y'
        · rw [ht]; rfl
        · simp [ht] at h
  · rintro rfl
    exact .seq (u := []) .empty (.one rfl)

private theorem tells_ch (F : Char → Prop) (x : Char) :
    Tells SaysE (Easy.hints cmpSource) named lists (ch x) F (token Y x) :=
  (C59_one (S := Y) hS (Easy.naming cmpSource cmpSource_self) (source_plain _ _) (fun t => some t) ⟨'a', rfl⟩ (fun _ => true)
    ⟨'a', rfl⟩ x rfl).2.2.1

example : Tells SaysE (Easy.hints cmpSource) named lists ((ch 'x').times 0 2) (fun _ => False) (count 2 (token Y 'x')) :=
  (C59_count hS (Easy.naming cmpSource cmpSource_self) (moves_token hS _) (keeps_unit (h := false) _).reusable
    (tells_ch _ 'x') Gram.null_one (fun _ _ h => h) 2 (by decide)).2

/-- Without a minimum it does. -/
example : Blames SaysE lists ((ch 'x').times 0 2) (fun _ => False) (count 2 (token Y 'x')) :=
  (C58_count hS (Easy.naming cmpSource cmpSource_self) (moves_token hS _) (keeps_unit (h := false) _).reusable
    (blames_ch _ 'x') Gram.null_one (fun _ _ h => h) 2).2

example : Hint.reported (count 2 (token Y 'x')) ['x', 'y'] =
    some (1, 2, [.unexpected (.token 'y'), .expected (.static "end of input")]) := by decide +kernel

end Examples

end Verif
