import Verif.Proof.Moves
import Verif.Proof.BuiltMoves
import Verif.Proof.Coherent
import Verif.Proof.Consume
import Verif.Props.Sequence
import Verif.Spec.Termination

/-! # Loops end -/

namespace Verif

set_option linter.unusedVariables false

variable {S : Strm} {σ τ υ α β γ : Type}

/-- Progress of the calls whose value satisfies `P`. -/
def ProgressIf (P : α → Prop) (p : Parser S σ α) : Prop :=
  ∀ i s x, ((p.run true i s).res = .commitOk x ∨ (p.run true i s).res = .peekOk x) → P x →
    ∃ t ts, S.Reads i (t :: ts) (p.run true i s).inp

theorem Progress.weaken {p : Parser S σ α} (h : Progress p) (P : α → Prop) : ProgressIf P p := by
  intro i s x hx _
  refine h i s ?_
  rcases hx with e | e <;> rw [e] <;> rfl

theorem ProgressIf.strengthen {p : Parser S σ α} (h : ProgressIf (fun _ => True) p) : Progress p := by
  intro i s hx
  cases hr : (p.run true i s).res with
  | commitOk x => exact h i s x (.inl hr) trivial
  | peekOk x => exact h i s x (.inr hr) trivial
  | _ => rw [hr] at hx; cases hx

/-! ## The loop of `Iter` -/

theorem next_some {p : Parser S σ α} (hm : ∀ m i s, S.Reach i (p.run m i s).inp) {P : α → Prop}
    (hp : ProgressIf P p) (hS : S.Lawful) (it : IterS S σ) {x : α} {it' : IterS S σ} (h : iterNext p it = (some x, it')) :
    (P x → S.size it'.inp + (if it.first then 1 else 0) ≤ S.size it.inp) ∧ it'.first = true ∧
      it'.state = it.state := by
  obtain ⟨i, cm, st, s, fi⟩ := it
  have h1 := hS.reach_size (hm fi i s)
  have h2 : fi = true → ∀ x, ((p.run fi i s).res = .commitOk x ∨ (p.run fi i s).res = .peekOk x) → P x →
      S.size (p.run fi i s).inp + 1 ≤ S.size i := by
    rintro rfl x hk hx
    obtain ⟨t, ts, hr⟩ := hp i s x hk hx
    have := hS.reads_size hr
    simp only [List.length_cons] at this
    omega
  unfold iterNext at h
  simp only at h
  revert h h1 h2
  generalize p.run fi i s = o
  obtain ⟨r, j, u⟩ := o
  cases r with
  | commitOk v =>
    intro h h1 h2
    cases h
    refine ⟨fun hP => ?_, rfl, rfl⟩
    simp only at h1 h2 ⊢
    split
    · exact h2 (by assumption) _ (.inl rfl) hP
    · exact h1
  | peekOk v =>
    intro h h1 h2
    cases h
    refine ⟨fun hP => ?_, rfl, rfl⟩
    simp only at h1 h2 ⊢
    split
    · exact h2 (by assumption) _ (.inr rfl) hP
    · exact h1
  | peekErr e =>
    intro h
    simp only at h
    split at h <;> cases h
  | commitErr e => intro h; cases h
  | abort a => intro h; cases h

theorem next_none {p : Parser S σ α} (ha : NeverAborts p) (it : IterS S σ) {it' : IterS S σ}
    (h : iterNext p it = (none, it')) (a : Abort) : it'.state ≠ .abort a := by
  have h1 := ha it.first it.inp it.st
  unfold iterNext at h
  simp only at h
  revert h h1
  generalize p.run it.first it.inp it.st = o
  obtain ⟨r, j, u⟩ := o
  cases r with
  | commitOk v => intro h; cases h
  | peekOk v => intro h; cases h
  | peekErr e =>
    simp only
    split
    · intro h; cases h; intro _ h; cases h
    · intro h; cases h; intro _ h; cases h
  | commitErr e => intro h; cases h; intro _ h; cases h
  | abort a => intro _ h1; exact absurd rfl (h1 a)

/-- With fuel for one more iteration than there are tokens the loop ends by itself. -/
theorem iter_safe (hS : S.Lawful) {p : Parser S σ α} (hm : ∀ m i s, S.Reach i (p.run m i s).inp)
    (ha : NeverAborts p) (f : α → Option β)
    (hp : ProgressIf (fun x => f x ≠ none) p) (n : Nat) (lim : Option Nat)
    (els : List β) (it : IterS S σ) (hn : S.size it.inp + (if it.first then 1 else 2) ≤ n)
    (hs : ∀ a, it.state ≠ .abort a) (a : Abort) : (iterExtend p f n lim els it).2.state ≠ .abort a := by
  induction n generalizing lim els it with
  | zero => exfalso; revert hn; cases it.first <;> simp
  | succ n ih =>
    by_cases h0 : lim = some 0
    · subst h0; exact hs a
    · have hx : iterExtend p f (n + 1) lim els it =
          match iterNext p it with
          | (none, it') => (els, it')
          | (some x, it') =>
            match f x with
            | some y => iterExtend p f n (lim.map (· - 1)) (els ++ [y]) it'
            | none => (els, it') := by
        cases lim with
        | none => rfl
        | some l =>
          cases l with
          | zero => exact absurd rfl h0
          | succ l => rfl
      rw [hx]
      cases hnx : iterNext p it with
      | mk o it' =>
        cases o with
        | none => exact next_none ha it hnx a
        | some x =>
          obtain ⟨h1, h2, h3⟩ := next_some hm hp hS it hnx
          simp only
          cases hfx : f x with
          | none => simp only; rw [h3]; exact hs a
          | some y =>
            refine ih _ _ _ ?_ (fun a => by rw [h3]; exact hs a)
            rw [h2]
            simp only [if_true]
            replace h1 := h1 (by simp [hfx])
            revert h1 hn
            cases it.first <;> simp <;> omega

/-- More fuel changes nothing. -/
theorem iter_fuel (hS : S.Lawful) {p : Parser S σ α} (hm : ∀ m i s, S.Reach i (p.run m i s).inp)
    (f : α → Option β) (hp : ProgressIf (fun x => f x ≠ none) p) (n k : Nat) (lim : Option Nat)
    (els : List β) (it : IterS S σ) (hn : S.size it.inp + (if it.first then 1 else 2) ≤ n) :
    iterExtend p f (n + k) lim els it = iterExtend p f n lim els it := by
  induction n generalizing lim els it with
  | zero => exfalso; revert hn; cases it.first <;> simp
  | succ n ih =>
    by_cases h0 : lim = some 0
    · subst h0; rw [Nat.succ_add]; rfl
    · have hx : ∀ n, iterExtend p f (n + 1) lim els it =
          match iterNext p it with
          | (none, it') => (els, it')
          | (some x, it') =>
            match f x with
            | some y => iterExtend p f n (lim.map (· - 1)) (els ++ [y]) it'
            | none => (els, it') := by
        intro n
        cases lim with
        | none => rfl
        | some l =>
          cases l with
          | zero => exact absurd rfl h0
          | succ l => rfl
      rw [show n + 1 + k = (n + k) + 1 by omega, hx, hx]
      cases hnx : iterNext p it with
      | mk o it' =>
        cases o with
        | none => rfl
        | some x =>
          obtain ⟨h1, h2, h3⟩ := next_some hm hp hS it hnx
          simp only
          cases hfx : f x with
          | none => rfl
          | some y =>
            refine ih _ _ _ ?_
            rw [h2]
            simp only [if_true]
            replace h1 := h1 (by simp [hfx])
            revert h1 hn
            cases it.first <;> simp <;> omega

theorem fast_safe {it : IterS S σ} (h : ∀ a, it.state ≠ .abort a) (v : List α) (a : Abort) :
    (it.intoResultFast v).1 ≠ .abort a := by
  unfold IterS.intoResultFast
  cases hs : it.state with
  | abort b => exact absurd hs (h b)
  | ok => simp only; split <;> intro h <;> cases h
  | peekErr e => simp only; split <;> intro h <;> cases h
  | commitErr e => intro h; cases h

theorem combine_safe {c : Commit Unit} {r : ParseResult α S.Err} (h : ∀ a, r ≠ .abort a) (a : Abort) :
    ParseResult.combineCommit c (fun _ => r) ≠ .abort a := by
  cases c with
  | peek u => exact h a
  | commit u =>
    unfold ParseResult.combineCommit
    cases r with
    | abort b => exact absurd rfl (h b)
    | _ => intro h; cases h


/-! ## Closure properties -/

theorem never_boxed {p : Parser S σ α} (h : NeverAborts p) : NeverAborts (boxed p) := h
theorem progress_boxed {p : Parser S σ α} (h : Progress p) : Progress (boxed p) := h
theorem never_parserMacro {p : Parser S σ α} (h : NeverAborts p) : NeverAborts (parserMacro p) := h
theorem progress_parserMacro {p : Parser S σ α} (h : Progress p) : Progress (parserMacro p) := h

theorem map_abort {r : ParseResult α S.Err} (f : α → β) {a : Abort} : r.map f = .abort a ↔ r = .abort a := by
  cases r <;> simp [ParseResult.map]

theorem map_isOk {r : ParseResult α S.Err} (f : α → β) : (r.map f).isOk = r.isOk := by
  cases r <;> rfl

theorem never_map {p : Parser S σ α} (h : NeverAborts p) (f : α → β) : NeverAborts (map p f) :=
  fun m i s a hh => h m i s a ((map_abort f).1 hh)
theorem progress_map {p : Parser S σ α} (h : Progress p) (f : α → β) : Progress (map p f) :=
  fun i s hh => h i s (by rw [← map_isOk f]; exact hh)
theorem never_ignore {p : Parser S σ α} (h : NeverAborts p) : NeverAborts (ignore p) :=
  fun m i s a hh => h m i s a ((map_abort _).1 hh)
theorem progress_ignore {p : Parser S σ α} (h : Progress p) : Progress (ignore p) :=
  fun i s hh => h i s (by rw [← map_isOk fun _ => ()]; exact hh)

theorem never_optional {p : Parser S σ α} (hS : S.Lawful) (hm : Moves p) (h : NeverAborts p) :
    NeverAborts (optional p) := by
  intro m i s a
  have h1 := h m i s
  have h2 := hm.run m i s
  simp only [optional, Parser.ofMode]
  revert h1 h2
  generalize p.run m i s = o
  obtain ⟨r, j, u⟩ := o
  intro h1 h2
  cases r with
  | peekErr e => simp only; rw [hS.tryReset_eq h2]; intro h; cases h
  | abort b => exact absurd rfl (h1 b)
  | _ => intro h; cases h

/-- Members of a tuple that starts anew: where they are done, something was read if one of them always
reads something. -/
theorem steps_progress {ps : Seq S τ β} (hS : S.Lawful) (hm : ∀ q, ps.Mem q → Moves q.2.2) (fe cur off : Nat)
    (i : S.Input) (t : τ) : S.Reach i (ps.steps true fe cur off i t).inp ∧
      ((∃ q, ps.Mem q ∧ Progress q.2.2) → (ps.steps true fe cur off i t).fin = .done →
        ∃ x xs, S.Reads i (x :: xs) (ps.steps true fe cur off i t).inp) := by
  induction ps generalizing fe cur off i with
  | nil => exact ⟨.refl _, fun ⟨q, h, _⟩ => h.elim⟩
  | cons p ps ih =>
    have ih := @ih (fun q hq => hm q (.inr hq))
    have h1 := (hm _ (.inl rfl)).run true i t.1.2
    have h2 : Progress p → _ := fun h => h i t.1.2
    obtain ⟨⟨v, s⟩, t⟩ := t
    simp only [Seq.steps, Bool.true_or, if_true]
    simp only at h1 h2
    revert h1 h2
    generalize p.run true i s = o
    obtain ⟨r, j, u⟩ := o
    intro h1 h2
    have key : ∀ fe cur off, S.Reach i (ps.steps true fe cur off j t).inp ∧
        ((ParseResult.isOk r = true) → (∃ q, (Seq.cons p ps).Mem q ∧ Progress q.2.2) →
          (ps.steps true fe cur off j t).fin = .done →
        ∃ x xs, S.Reads i (x :: xs) (ps.steps true fe cur off j t).inp) := by
      intro fe cur off
      obtain ⟨ih1, ih2⟩ := ih fe cur off j t
      refine ⟨h1.trans ih1, ?_⟩
      rintro hok ⟨q, hq | hq, hpq⟩ hd
      · subst hq
        obtain ⟨x, xs, hx⟩ := h2 hpq hok
        exact reads_append_left hx ih1
      · obtain ⟨x, xs, hx⟩ := ih2 ⟨q, hq, hpq⟩ hd
        exact reads_append_right h1 hx
    cases r with
    | commitOk x => exact ⟨(key _ _ _).1, (key _ _ _).2 rfl⟩
    | peekOk x => exact ⟨(key _ _ _).1, (key _ _ _).2 rfl⟩
    | commitErr e => exact ⟨h1, fun _ h => by cases h⟩
    | abort e => exact ⟨h1, fun _ h => by cases h⟩
    | peekErr e =>
      simp only [hS.reset_reach h1]
      exact ⟨.refl _, fun _ h => by cases h⟩

theorem progress_tuple (hS : S.Lawful) {p : Parser S σ α} {ps : Seq S τ β}
    (hm : ∀ q, (Seq.cons p ps).Mem q → Moves q.2.2) (h : ∃ q, (Seq.cons p ps).Mem q ∧ Progress q.2.2) :
    Progress (tuple p ps) := by
  intro i st
  have h1 := (hm _ (.inl rfl)).run true i st.head
  have h2 : Progress p → _ := fun h => h i st.head
  show (seqRun p ps true i st).res.isOk = true → ∃ t ts, S.Reads i (t :: ts) (seqRun p ps true i st).inp
  unfold seqRun
  simp only [Bool.true_or, if_true]
  revert h1 h2
  generalize p.run true i st.head = o
  obtain ⟨r, j, u⟩ := o
  intro h1 h2
  have key : ∀ fe st', ParseResult.isOk r = true → (seqRest p ps true fe j st').res.isOk = true →
      ∃ t ts, S.Reads i (t :: ts) (seqRest p ps true fe j st').inp := by
    intro fe st' hok
    obtain ⟨k1, k2⟩ := steps_progress hS (fun q hq => hm q (.inr hq)) fe 0 st'.offset j st'.tail
    unfold seqRest
    revert k1 k2
    generalize ps.steps true fe 0 st'.offset j st'.tail = w
    obtain ⟨fin, fe', off, k, tl⟩ := w
    intro k1 k2
    cases fin with
    | done =>
      simp only at k1 k2 ⊢
      have e : ∀ st, (seqFinish (σ := σ) (α := α) ps fe' k st).inp = k := by
        intro st; unfold seqFinish; simp only; split <;> rfl
      rw [e]
      intro _
      obtain ⟨q, hq | hq, hpq⟩ := h
      · subst hq
        obtain ⟨x, xs, hx⟩ := h2 hpq hok
        exact reads_append_left hx k1
      · obtain ⟨x, xs, hx⟩ := k2 ⟨q, hq, hpq⟩ trivial
        exact reads_append_right h1 hx
    | fail e =>
      simp only
      unfold seqAddErrors
      simp only
      split
      · split <;> intro h <;> cases h
      · intro h; cases h
    | _ => intro h; cases h
  cases r with
  | commitOk x => exact key _ _ rfl
  | peekOk x => exact key _ _ rfl
  | _ => intro h; cases h

theorem never_with {p : Parser S σ α} {q : Parser S τ β} (hp : NeverAborts p) (hq : NeverAborts q) :
    NeverAborts («with» p q) := by
  have h := C12_no_missing_value (ignore p) (.cons q .nil) (never_ignore hp) (by
    rintro r (rfl | hr)
    · exact hq
    · exact hr.elim)
  exact fun m i s a hh => h m i s a ((map_abort _).1 hh)

theorem progress_pair (hS : S.Lawful) {p : Parser S σ α} {q : Parser S τ β} (hmp : Moves p) (hmq : Moves q)
    (h : Progress p ∨ Progress q) : Progress (pair p q) :=
  progress_tuple hS (by
    rintro r (rfl | rfl | hr)
    · exact hmp
    · exact hmq
    · exact hr.elim) (by
    rcases h with h | h
    · exact ⟨_, .inl rfl, h⟩
    · exact ⟨_, .inr (.inl rfl), h⟩)

theorem never_pair {p : Parser S σ α} {q : Parser S τ β} (hp : NeverAborts p) (hq : NeverAborts q) :
    NeverAborts (pair p q) :=
  C12_no_missing_value p (.cons q .nil) hp (by
    rintro r (rfl | hr)
    · exact hq
    · exact hr.elim)

theorem progress_with (hS : S.Lawful) {p : Parser S σ α} {q : Parser S τ β} (hmp : Moves p) (hmq : Moves q)
    (h : Progress p ∨ Progress q) : Progress («with» p q) := by
  have h := progress_pair hS (moves_ignore hS hmp) hmq (h.imp progress_ignore id)
  intro i s hok
  refine h i s ?_
  rw [← map_isOk fun x => x.2.1]
  exact hok

/-- What the second member of a pair reads, the pair reads. -/
theorem progressIf_second (hS : S.Lawful) {p : Parser S σ α} {q : Parser S τ β} (hmp : Moves p) (hmq : Moves q)
    {Q : β → Prop} (hq : ProgressIf Q q) : ProgressIf (fun x => Q x.2.1) (pair p q) := by
  intro i st x
  have h1 := hmp.run true i st.head
  show ((seqRun p (.cons q .nil) true i st).res = _ ∨ (seqRun p (.cons q .nil) true i st).res = _) → _ →
    ∃ t ts, S.Reads i (t :: ts) (seqRun p (.cons q .nil) true i st).inp
  unfold seqRun
  simp only [Bool.true_or, if_true]
  revert h1
  generalize p.run true i st.head = o
  obtain ⟨r, j, u⟩ := o
  intro h1
  have key : ∀ fe (st' : SeqSt σ ((Option β × τ) × Unit) α),
      ((seqRest p (.cons q .nil) true fe j st').res = .commitOk x ∨
        (seqRest p (.cons q .nil) true fe j st').res = .peekOk x) → Q x.2.1 →
      ∃ t ts, S.Reads i (t :: ts) (seqRest p (.cons q .nil) true fe j st').inp := by
    intro fe st'
    have h2 := hq j st'.tail.1.2
    have h3 := hmq.run true j st'.tail.1.2
    obtain ⟨v, hd, ⟨⟨w, t⟩, un⟩, off⟩ := st'
    simp only [seqRest, Seq.steps, Bool.true_or, if_true] at h2 ⊢
    revert h2 h3
    simp only
    generalize q.run true j t = o
    obtain ⟨r, k, u⟩ := o
    intro h2 h3
    have fin : ∀ fe y (st : SeqSt σ ((Option β × τ) × Unit) α), st.tail.1.1 = some y →
        (seqFinish (.cons q .nil) fe k st).inp = k ∧
        (((seqFinish (.cons q .nil) fe k st).res = .commitOk x ∨ (seqFinish (.cons q .nil) fe k st).res = .peekOk x) →
          x.2.1 = y) := by
      rintro fe y ⟨v, hd, ⟨⟨w, t⟩, un⟩, off⟩ rfl
      cases v with
      | none => exact ⟨rfl, fun h => by rcases h with h | h <;> cases h⟩
      | some v =>
        refine ⟨rfl, fun h => ?_⟩
        simp only [seqFinish, Seq.take] at h
        revert h
        by_cases hf : fe = 0
        · simp [hf]; rintro rfl; rfl
        · simp [hf]; rintro rfl; rfl
    cases r with
    | commitOk y =>
      simp only
      intro hx hQ
      have e := fun fe off => fin fe y ⟨v, hd, ((some y, u), un), off⟩ rfl
      rw [(e _ _).1]
      obtain ⟨t, ts, h⟩ := h2 y (.inl rfl) ((e _ _).2 hx ▸ hQ)
      exact reads_append_right h1 h
    | peekOk y =>
      simp only
      intro hx hQ
      have e := fun fe off => fin fe y ⟨v, hd, ((some y, u), un), off⟩ rfl
      rw [(e _ _).1]
      obtain ⟨t, ts, h⟩ := h2 y (.inr rfl) ((e _ _).2 hx ▸ hQ)
      exact reads_append_right h1 h
    | peekErr e =>
      simp only [hS.reset_reach h3]
      unfold seqAddErrors
      simp only
      split
      · split <;> intro h <;> rcases h with h | h <;> cases h
      · intro h; rcases h with h | h <;> cases h
    | _ => intro h; rcases h with h | h <;> cases h
  cases r with
  | commitOk x => exact key _ _
  | peekOk x => exact key _ _
  | _ => intro h; rcases h with h | h <;> cases h

/-! ### Choice -/

theorem choiceFail_safe {ts : List (Tried S)} (h : ts ≠ []) (a : Abort) :
    (choiceFail ts : ParseResult α S.Err) ≠ .abort a := by
  cases ts with
  | nil => exact absurd rfl h
  | cons t ts => intro h; cases h

theorem doChoice_safe {ps : Alts S α σ} (h : ∀ q, ps.Mem q → NeverAborts q.2) (bp : S.Pos) (before : S.Ckpt)
    (tried : List (Tried S)) (i : S.Input) (a : Abort) :
    (ps.doChoice bp before tried i).res ≠ .abort a := by
  induction ps generalizing tried i with
  | last p =>
    have h1 := h _ rfl true i p.init
    simp only [Alts.doChoice]
    revert h1
    generalize p.run true i p.init = o
    obtain ⟨r, j, u⟩ := o
    intro h1
    cases r with
    | peekErr e =>
      simp only
      split
      · intro h; cases h
      · exact choiceFail_safe (by simp) a
    | abort b => exact absurd rfl (h1 b)
    | _ => intro h; cases h
  | cons p ps ih =>
    have h1 := h _ (.inl rfl) true i p.init
    have ih := @ih fun q hq => h q (.inr hq)
    simp only [Alts.doChoice]
    revert h1
    generalize p.run true i p.init = o
    obtain ⟨r, j, u⟩ := o
    intro h1
    cases r with
    | peekErr e =>
      simp only
      split
      · intro h; cases h
      · exact ih _ _
    | abort b => exact absurd rfl (h1 b)
    | _ => intro h; cases h

theorem resume_safe {ps : Alts S α σ} (h : ∀ q, ps.Mem q → NeverAborts q.2) (m : Bool) (i : S.Input) (s : σ)
    (a : Abort) : (ps.resume m i s).res ≠ .abort a := by
  induction ps generalizing i with
  | last p => exact h _ rfl m i s a
  | cons p ps ih =>
    cases s with
    | inl s => exact h _ (.inl rfl) m i s a
    | inr s => exact ih (fun q hq => h q (.inr hq)) _ _

theorem never_choice {ps : Alts S α σ} (h : ∀ q, ps.Mem q → NeverAborts q.2) : NeverAborts (choice ps) := by
  intro m i s a
  show (choiceRun ps m i s).res ≠ _
  unfold choiceRun
  split
  · exact resume_safe h _ _ _ a
  · exact doChoice_safe h _ _ _ _ a

theorem never_or {p : Parser S σ α} {q : Parser S τ α} (hp : NeverAborts p) (hq : NeverAborts q) :
    NeverAborts (or p q) :=
  never_choice (ps := .cons p (.last q)) (by
    rintro r (rfl | rfl)
    · exact hp
    · exact hq)

/-! ### Primitive parsers -/

theorem never_ofLazy {init : σ} {lazy : S.Input → ParseResult α S.Err × S.Input} {ae ac : Tracked S.Err → Tracked S.Err}
    {n : Nat} (h : ∀ i a, (lazy i).1 ≠ .abort a) : NeverAborts (Parser.ofLazy init lazy ae ac n) :=
  fun _ i _ a => h i a

theorem wrap_safe (i : S.Input) (e : S.SErr) (a : Abort) : (S.wrapStreamError i e : ParseResult α S.Err) ≠ .abort a := by
  unfold Strm.wrapStreamError
  simp only
  split <;> intro h <;> cases h

theorem unconsP_safe (i : S.Input) (a : Abort) : (S.unconsP i).1 ≠ .abort a := by
  unfold Strm.unconsP
  split
  · intro h; cases h
  · exact wrap_safe _ _ a

theorem satisfyImpl_safe (f : S.Tok → Option α) (i : S.Input) (a : Abort) : (satisfyImpl S f i).1 ≠ .abort a := by
  have h := unconsP_safe i
  unfold satisfyImpl
  simp only
  revert h
  generalize S.unconsP i = x
  obtain ⟨r, j⟩ := x
  intro h
  cases r with
  | commitOk c => simp only; split <;> intro h <;> cases h
  | peekOk c => simp only; split <;> intro h <;> cases h
  | abort b => exact absurd rfl (h b)
  | _ => intro h; cases h

theorem satisfyImpl_progress (f : S.Tok → Option α) (i : S.Input) (h : (satisfyImpl S f i).1.isOk = true) :
    ∃ t ts, S.Reads i (t :: ts) (satisfyImpl S f i).2 := by
  cases hx : satisfyImpl S f i with
  | mk r j =>
    rw [hx] at h
    cases r with
    | commitOk v => exact consuming_satisfyImpl (c := true) (v := v) (j := j) f (by rw [hx]; rfl)
    | peekOk v => exact consuming_satisfyImpl (c := false) (v := v) (j := j) f (by rw [hx]; rfl)
    | _ => cases h

theorem never_any : NeverAborts (any S) := never_ofLazy unconsP_safe
theorem never_satisfy (f : S.Tok → Bool) : NeverAborts (satisfy S f) := never_ofLazy (satisfyImpl_safe _)
theorem never_satisfyMap (f : S.Tok → Option α) : NeverAborts (satisfyMap S f) := never_ofLazy (satisfyImpl_safe _)
theorem never_token [DecidableEq S.Tok] (t : S.Tok) : NeverAborts (token S t) := never_ofLazy (satisfyImpl_safe _)
theorem never_value (v : α) : NeverAborts (value S v) := never_ofLazy fun _ _ h => by cases h
theorem progress_satisfy (f : S.Tok → Bool) : Progress (satisfy S f) := fun i _ h => satisfyImpl_progress _ i h
theorem progress_satisfyMap (f : S.Tok → Option α) : Progress (satisfyMap S f) :=
  fun i _ h => satisfyImpl_progress _ i h
theorem progress_token [DecidableEq S.Tok] (t : S.Tok) : Progress (token S t) :=
  fun i _ h => satisfyImpl_progress _ i h

end Verif
