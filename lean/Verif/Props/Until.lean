import Verif.Proof.Reuse
import Verif.Proof.Consume
import Verif.Proof.SliceLaws
import Verif.Props.Sequence
import Verif.Spec.Repeat

/-!
# C33: `take_until`, `skip_until`, `repeat_until`
-/

namespace Verif

set_option linter.unusedVariables false

variable {S : Strm} {σ τ υ α β γ : Type}

/-- The tokens before the first place where `e` does not fail softly are determined. -/
private theorem until_unique {E : Type} {e : Sem S.Input E α} {i k k' : S.Input} {ts ts' : List S.Tok}
    (h : S.Until e i ts k) (h' : S.Until e i ts' k')
    (hk : e k ≠ .soft ∨ ∃ x j, S.uncons k = (.error x, j))
    (hk' : e k' ≠ .soft ∨ ∃ x j, S.uncons k' = (.error x, j)) : ts = ts' ∧ k = k' := by
  induction h generalizing ts' with
  | nil i =>
    cases h' with
    | nil => exact ⟨rfl, rfl⟩
    | cons h1 h2 h3 =>
      rcases hk with hk | ⟨x, j, hk⟩
      · exact absurd h1 hk
      · rw [h2] at hk; cases hk
  | cons h1 h2 h3 ih =>
    cases h' with
    | nil =>
      rcases hk' with hk | ⟨x, j, hk⟩
      · exact absurd h1 hk
      · rw [h2] at hk; cases hk
    | cons h1' h2' h3' =>
      cases h2.symm.trans h2'
      obtain ⟨rfl, rfl⟩ := ih h3' hk
      exact ⟨rfl, rfl⟩

private theorem isTakeUntil_end {e : Sem S.Input Unit α} {i : S.Input} {a : Answer S.Input Unit (List S.Tok)}
    (h : S.IsTakeUntil e i a) : ∃ ts k, S.Until e i ts k ∧
      (e k ≠ .soft ∨ ∃ x j, S.uncons k = (.error x, j)) ∧ a = (match e k with
        | .ok c _ _ => .ok (!ts.isEmpty || c) ts k
        | .soft => if S.isPartial (S.uncons k).2 then .hard () else .soft
        | .hard x => .hard x
        | .abort x => .abort x) := by
  obtain ⟨ts, k, h1, h2⟩ := h
  refine ⟨ts, k, h1, ?_⟩
  cases hk : e k with
  | soft =>
    rw [hk] at h2
    obtain ⟨x, j, h3, h4⟩ := h2
    exact ⟨.inr ⟨x, j, h3⟩, by rw [h3]; exact h4⟩
  | ok c v j => rw [hk] at h2; exact ⟨.inl (by simp), h2⟩
  | hard e => rw [hk] at h2; exact ⟨.inl (by simp), h2⟩
  | abort e => rw [hk] at h2; exact ⟨.inl (by simp), h2⟩

/-- **C33.**  `Strm.IsTakeUntil` determines the answer. -/
theorem C33_unique {e : Sem S.Input Unit α} {i : S.Input} {a b : Answer S.Input Unit (List S.Tok)}
    (ha : S.IsTakeUntil e i a) (hb : S.IsTakeUntil e i b) : a = b := by
  obtain ⟨ts, k, h1, h2, rfl⟩ := isTakeUntil_end ha
  obtain ⟨ts', k', h1', h2', rfl⟩ := isTakeUntil_end hb
  obtain ⟨rfl, rfl⟩ := until_unique h1 h1' h2 h2'
  rfl

private theorem loop_until (hS : S.Lawful) {e : Parser S σ α} (hm : Moves e) {Clean : σ → Prop}
    (hr : ReusableIn Clean e) (n : Nat) (c : Commit Unit) (i : S.Input) (els : List S.Tok) (s : σ)
    (hn : S.size i + 1 ≤ n) (hs : Clean s) (hc : (!c.isPeek) = !els.isEmpty) :
    ∃ ts k, S.Until e.shape i ts k ∧
      (match e.shape k with
      | .ok d _ _ => (takeUntilLoop e true n c i els s).answer.shape = .ok (!(els ++ ts).isEmpty || d) (els ++ ts) k
      | .soft => ∃ err k', S.uncons k = (.error err, k') ∧ (takeUntilLoop e true n c i els s).answer.shape =
          if S.isPartial k' then .hard () else .soft
      | .hard x => (takeUntilLoop e true n c i els s).answer.shape = .hard x
      | .abort x => (takeUntilLoop e true n c i els s).answer.shape = .abort x) := by
  induction n generalizing c i els s with
  | zero => omega
  | succ n ih =>
    have h1 : (e.run true i s).answer.shape = e.shape i := by rw [hr.same s hs i]; rfl
    have h2 := hm.run true i s
    have h3 := hr.soft s hs i
    have hsz : ∀ t k, S.uncons i = (.ok t, k) → S.size k + 1 ≤ n := fun t k h => by
      have := hS.size h; omega
    unfold takeUntilLoop
    simp only
    revert h1 h2 h3
    generalize e.run true i s = o
    obtain ⟨r, j, u⟩ := o
    intro h1 h2 h3
    cases r with
    | commitOk x =>
      refine ⟨[], i, .nil i, ?_⟩
      rw [← h1]
      simp only [ParseResult.toStd]
      rw [hS.tryReset_eq h2]
      cases c <;> simp [Commit.merge, Commit.intoCommit, Out.answer, Answer.of, Answer.shape] <;> rfl
    | peekOk x =>
      refine ⟨[], i, .nil i, ?_⟩
      rw [← h1]
      simp only [ParseResult.toStd]
      rw [hS.tryReset_eq h2]
      cases c with
      | peek _ =>
        have he : els.isEmpty = true := by simpa [Commit.isPeek] using hc.symm
        simp [Commit.merge, Commit.intoCommit, Out.answer, Answer.of, Answer.shape, he]
      | commit _ =>
        have he : els.isEmpty = false := by simpa [Commit.isPeek] using hc.symm
        simp [Commit.merge, Commit.intoCommit, Out.answer, Answer.of, Answer.shape, he]
    | commitErr x =>
      refine ⟨[], i, .nil i, ?_⟩
      rw [← h1]
      simp only [ParseResult.toStd]
      rw [hS.tryReset_eq h2]
      rfl
    | abort x =>
      refine ⟨[], i, .nil i, ?_⟩
      rw [← h1]
      rfl
    | peekErr x =>
      simp only [ParseResult.toStd]
      rw [hS.tryReset_eq h2]
      have hu : S.unconsP i = match S.uncons i with
          | (.ok t, j) => (.commitOk t, j)
          | (.error e, j) => (S.wrapStreamError j e, j) := rfl
      rw [hu]
      cases hx : S.uncons i with
      | mk r k =>
        cases r with
        | ok t =>
          obtain ⟨ts, k', q1, q2⟩ := ih (.commit ()) k (els ++ [t]) u (hsz t k hx) (h3 x rfl) (by simp [Commit.isPeek])
          refine ⟨t :: ts, k', .cons h1.symm hx q1, ?_⟩
          simp only [List.append_assoc, List.singleton_append] at q2
          exact q2
        | error err =>
          refine ⟨[], i, .nil i, ?_⟩
          rw [← h1]
          refine ⟨err, k, hx, ?_⟩
          simp only [Strm.wrapStreamError]
          cases hp : S.isPartial k <;> rfl

/-- **C33.**  `take_until(end)` reads tokens up to the first place where `end` does not fail softly:
if it succeeds there, the tokens before are the result and the input is left at that place; if the input
ends first, or `end` fails there after committing, it fails. -/
theorem C33_take_until (hS : S.Lawful) {e : Parser S σ α} (hm : Moves e) (hr : Reusable e) (i : S.Input) :
    S.IsTakeUntil e.shape i ((takeUntil e).shape i) := by
  obtain ⟨Clean, hr⟩ := hr
  obtain ⟨ts, k, h1, h2⟩ := loop_until hS hm hr (S.size i + 1) (.peek ()) i [] e.init (Nat.le_refl _) hr.init rfl
  refine ⟨ts, k, h1, ?_⟩
  rw [show (takeUntil e).shape i = (takeUntilLoop e true (S.size i + 1) (.peek ()) i [] e.init).answer.shape from rfl]
  revert h2
  simp only [List.nil_append]
  cases e.shape k <;> exact id

/-- **C33.**  `skip_until` is `take_until` without the tokens. -/
theorem C33_skip_until (e : Parser S σ α) (i : S.Input) :
    (skipUntil e).shape i = ((takeUntil e).shape i).map fun _ => () := by
  have h := C12_with (takeUntil e) (value S ()) i
  rw [show (skipUntil e).shape i = («with» (takeUntil e) (value S ())).shape i from rfl, h]
  simp only [Ref.bind]
  cases (takeUntil e).shape i with
  | ok c v j => cases c <;> rfl
  | _ => rfl

private theorem loop_again (hS : S.Lawful) {e : Parser S σ α} (hm : Moves e) {Clean : σ → Prop} (hr : ReusableIn Clean e) (n : Nat) :
    ∀ (c : Commit Unit) (i : S.Input) (els : List S.Tok) (s : σ), Clean s →
      (takeUntilLoop e true n c i els s).res.isOk = true →
      (takeUntilLoop e true n c i els s).st.1 = [] ∧ Clean (takeUntilLoop e true n c i els s).st.2 := by
  induction n with
  | zero => intro c i els s _ h; cases h
  | succ n ih =>
    intro c i els s hs
    have h2 := hm.run true i s
    have h3 := hr.soft s hs i
    have h4 := hr.ok s hs i
    unfold takeUntilLoop
    simp only
    revert h2 h3 h4
    generalize e.run true i s = o
    obtain ⟨r, j, u⟩ := o
    intro h2 h3 h4
    cases r with
    | commitOk x =>
      simp only [ParseResult.toStd]
      rw [hS.tryReset_eq h2]
      intro _
      cases c <;> exact ⟨rfl, h4 rfl⟩
    | peekOk x =>
      simp only [ParseResult.toStd]
      rw [hS.tryReset_eq h2]
      intro _
      cases c <;> exact ⟨rfl, h4 rfl⟩
    | commitErr x =>
      simp only [ParseResult.toStd]
      rw [hS.tryReset_eq h2]
      intro h; cases h
    | abort x => intro h; cases h
    | peekErr x =>
      simp only [ParseResult.toStd]
      rw [hS.tryReset_eq h2]
      generalize S.unconsP i = y
      obtain ⟨r, k⟩ := y
      cases r with
      | commitOk t => exact ih _ _ _ _ (h3 x rfl)
      | peekOk t => exact ih _ _ _ _ (h3 x rfl)
      | _ => intro h; cases h

/-- **C33.**  `take_until` used again after it has succeeded, with the state it left behind: it does what a fresh one does, so
that in `many(take_until(..))` no tokens of one element get into the next.  (After a failure they do: `C33_stale_take_until`.) -/
theorem C33_take_until_again (hS : S.Lawful) {e : Parser S σ α} (hm : Moves e) {Clean : σ → Prop} (hr : ReusableIn Clean e)
    (s : List S.Tok × σ) (hs : s.1 = [] ∧ Clean s.2) (i : S.Input) :
    ((takeUntil e).run true i s).answer.shape = (takeUntil e).shape i ∧
    (((takeUntil e).run true i s).res.isOk = true →
      ((takeUntil e).run true i s).st.1 = [] ∧ Clean ((takeUntil e).run true i s).st.2) := by
  obtain ⟨els, s⟩ := s
  obtain ⟨rfl, hs⟩ := hs
  refine ⟨?_, loop_again hS hm hr _ _ _ _ _ hs⟩
  refine C33_unique (e := e.shape) (i := i) ?_ (C33_take_until hS hm ⟨_, hr⟩ i)
  obtain ⟨ts, k, h1, h2⟩ := loop_until hS hm hr (S.size i + 1) (.peek ()) i [] s (Nat.le_refl _) hs rfl
  refine ⟨ts, k, h1, ?_⟩
  rw [show ((takeUntil e).run true i ([], s)).answer.shape = (takeUntilLoop e true (S.size i + 1) (.peek ()) i [] s).answer.shape from rfl]
  revert h2
  simp only [List.nil_append]
  cases e.shape k <;> exact id

private theorem loop_repeat (hS : S.Lawful) {p : Parser S σ α} {e : Parser S τ β} (hmp : Moves p) (hme : Moves e)
    {C : σ → Prop} {D : τ → Prop} (hp : ReusableIn C p) (he : ReusableIn D e) (hc : Consuming p)
    (n : Nat) (c : Commit Unit) (i : S.Input) (s : RepeatSt σ τ α) (hi : s.isParse = false)
    (hn : 2 * S.size i + 2 ≤ n) (hs : C s.parseSt) (ht : D s.endSt) :
    ∃ vs d k, Ref.Until p.answer (fun i => (e.answer i).map fun _ => ()) i vs d k ∧
      (match e.answer k with
      | .ok b _ _ => (repeatUntilLoop p e n true c i s).answer = .ok (!c.isPeek || d || b) (s.output ++ vs) k
      | .soft =>
        match p.answer k with
        | .ok _ _ _ => False
        | .soft => (repeatUntilLoop p e n true c i s).answer = .soft
        | .hard x => (repeatUntilLoop p e n true c i s).answer = .hard x
        | .abort x => (repeatUntilLoop p e n true c i s).answer = .abort x
      | .hard x => (repeatUntilLoop p e n true c i s).answer = .hard x
      | .abort x => (repeatUntilLoop p e n true c i s).answer = .abort x) := by
  induction n using Nat.strongRecOn generalizing c i s with
  | ind n ih =>
    obtain ⟨out, ip, ps, es⟩ := s
    simp only at hi hs ht
    subst hi
    obtain ⟨n, rfl⟩ : ∃ m, n = m + 2 := ⟨n - 2, by omega⟩
    have h1 := he.same es ht i
    have h2 := hme.run true i es
    have h3 := he.soft es ht i
    rw [repeatUntilLoop]
    simp only [Bool.false_eq_true, if_false]
    revert h1 h2 h3
    generalize e.run true i es = o
    obtain ⟨r, j, u⟩ := o
    intro h1 h2 h3
    cases r with
    | commitOk x =>
      refine ⟨[], false, i, .nil i, ?_⟩
      rw [← h1]
      simp only [ParseResult.toStd]
      rw [hS.tryReset_eq h2]
      cases c <;> simp [Commit.merge, Commit.intoCommit, Out.answer, Answer.of]
    | peekOk x =>
      refine ⟨[], false, i, .nil i, ?_⟩
      rw [← h1]
      simp only [ParseResult.toStd]
      rw [hS.tryReset_eq h2]
      cases c <;> simp [Commit.merge, Commit.intoCommit, Commit.isPeek, Out.answer, Answer.of]
    | commitErr x =>
      refine ⟨[], false, i, .nil i, ?_⟩
      rw [← h1]
      simp only [ParseResult.toStd]
      rw [hS.tryReset_eq h2]
      rfl
    | abort x =>
      refine ⟨[], false, i, .nil i, ?_⟩
      rw [← h1]
      rfl
    | peekErr x =>
      simp only [ParseResult.toStd]
      rw [hS.tryReset_eq h2]
      have h1s : e.answer i = .soft := h1.symm
      have hsoft : ((e.answer i).map fun _ => ()) = .soft := by rw [h1s]; rfl
      have hu : D u := h3 x rfl
      have g1 := hp.same ps hs i
      have g2 := hp.ok ps hs i
      have g3 := fun c v j => hc i c v j
      rw [← g1] at g3
      rw [repeatUntilLoop]
      simp only [if_true]
      revert g1 g2 g3
      generalize p.run true i ps = o
      obtain ⟨r, j, w⟩ := o
      intro g1 g2 g3
      have key : ∀ (b : Bool) (v : α) (c' : Commit Unit), p.answer i = .ok b v j → C w →
          (!c'.isPeek) = (!c.isPeek || b) → (∃ t ts, S.Reads i (t :: ts) j) →
          ∃ vs d k, Ref.Until p.answer (fun i => (e.answer i).map fun _ => ()) i vs d k ∧
          (match e.answer k with
          | .ok b _ _ => (repeatUntilLoop p e n true c' j ⟨out ++ [v], false, w, u⟩).answer = .ok (!c.isPeek || d || b) (out ++ vs) k
          | .soft =>
            match p.answer k with
            | .ok _ _ _ => False
            | .soft => (repeatUntilLoop p e n true c' j ⟨out ++ [v], false, w, u⟩).answer = .soft
            | .hard x => (repeatUntilLoop p e n true c' j ⟨out ++ [v], false, w, u⟩).answer = .hard x
            | .abort x => (repeatUntilLoop p e n true c' j ⟨out ++ [v], false, w, u⟩).answer = .abort x
          | .hard x => (repeatUntilLoop p e n true c' j ⟨out ++ [v], false, w, u⟩).answer = .hard x
          | .abort x => (repeatUntilLoop p e n true c' j ⟨out ++ [v], false, w, u⟩).answer = .abort x) := by
        intro b v c' ha hw hcc ⟨t, ts, hrd⟩
        have hsz := hS.reads_size hrd
        simp only [List.length_cons] at hsz
        obtain ⟨vs, d, k, q1, q2⟩ := ih n (by omega) c' j ⟨out ++ [v], false, w, u⟩ rfl (by omega) hw hu
        refine ⟨v :: vs, b || d, k, .cons hsoft ha q1, ?_⟩
        revert q2
        simp only [List.append_assoc, List.singleton_append, hcc, Bool.or_assoc]
        cases e.answer k with
        | soft => cases p.answer k <;> exact id
        | _ => exact id
      cases r with
      | commitOk v =>
        exact key true v _ g1.symm (g2 rfl) (by cases c <;> rfl) (g3 true v j rfl)
      | peekOk v =>
        exact key false v _ g1.symm (g2 rfl) (by cases c <;> rfl) (g3 false v j rfl)
      | commitErr x =>
        refine ⟨[], false, i, .nil i, ?_⟩
        rw [h1s, ← g1]; rfl
      | peekErr x =>
        refine ⟨[], false, i, .nil i, ?_⟩
        rw [h1s, ← g1]; rfl
      | abort x =>
        refine ⟨[], false, i, .nil i, ?_⟩
        rw [h1s, ← g1]; rfl

private theorem repeat_from (hS : S.Lawful) {p : Parser S σ α} {e : Parser S τ β} (hmp : Moves p) (hme : Moves e)
    {C : σ → Prop} {D : τ → Prop} (hp : ReusableIn C p) (he : ReusableIn D e) (hc : Consuming p) (s : σ) (t : τ) (hs : C s) (ht : D t)
    (i : S.Input) : Ref.IsRepeatUntil p.answer e.answer i ((repeatUntil p e).run true i ⟨[], false, s, t⟩).answer := by
  obtain ⟨vs, d, k, h1, h2⟩ := loop_repeat hS hmp hme hp he hc (2 * S.size i + 3) (.peek ()) i
    ⟨[], false, s, t⟩ rfl (by omega) hs ht
  refine ⟨vs, d, k, ?_, ?_⟩
  · clear h2
    induction h1 with
    | nil i => exact .nil i
    | cons h1 h2 h3 ih =>
      refine .cons ?_ h2 ih
      revert h1
      cases e.answer _ <;> intro h <;> first | rfl | cases h
  · rw [show ((repeatUntil p e).run true i ⟨[], false, s, t⟩).answer = (repeatUntilLoop p e (2 * S.size i + 3) true (.peek ()) i
      ⟨[], false, s, t⟩).answer from rfl]
    revert h2
    simp only [List.nil_append, Commit.isPeek, Bool.not_true, Bool.false_or]
    cases e.answer k with
    | soft => cases p.answer k <;> exact id
    | _ => exact id

/-- **C33.**  `repeat_until(p, end)` collects values of `p` up to the first place where `end` does not fail
softly, and leaves the input there. -/
theorem C33_repeat_until (hS : S.Lawful) {p : Parser S σ α} {e : Parser S τ β} (hmp : Moves p) (hme : Moves e)
    (hp : Reusable p) (he : Reusable e) (hc : Consuming p) (i : S.Input) :
    Ref.IsRepeatUntil p.answer e.answer i ((repeatUntil p e).answer i) := by
  obtain ⟨C, hp⟩ := hp
  obtain ⟨D, he⟩ := he
  exact repeat_from hS hmp hme hp he hc _ _ hp.init he.init i

private theorem repeat_again (hS : S.Lawful) {p : Parser S σ α} {e : Parser S τ β} (hme : Moves e)
    {C : σ → Prop} {D : τ → Prop} (hp : ReusableIn C p) (he : ReusableIn D e) (n : Nat) :
    ∀ (c : Commit Unit) (i : S.Input) (s : RepeatSt σ τ α), C s.parseSt → D s.endSt →
      let o := repeatUntilLoop p e n true c i s
      o.res.isOk = true → o.st.output = [] ∧ o.st.isParse = false ∧ C o.st.parseSt ∧ D o.st.endSt := by
  induction n with
  | zero => intro c i s _ _ o h; cases h
  | succ n ih =>
    rintro c i ⟨out, ip, ps, es⟩ hs ht
    simp only at hs ht
    unfold repeatUntilLoop
    cases ip with
    | true =>
      simp only [if_true]
      have g2 := hp.ok ps hs i
      revert g2
      generalize p.run true i ps = o
      obtain ⟨r, j, w⟩ := o
      intro g2
      cases r with
      | commitOk v => exact ih _ _ _ (g2 rfl) ht
      | peekOk v => exact ih _ _ _ (g2 rfl) ht
      | _ => intro h; cases h
    | false =>
      simp only [Bool.false_eq_true, if_false]
      have h2 := hme.run true i es
      have h3 := he.soft es ht i
      have h4 := he.ok es ht i
      revert h2 h3 h4
      generalize e.run true i es = o
      obtain ⟨r, j, u⟩ := o
      intro h2 h3 h4
      cases r with
      | commitOk x =>
        simp only [ParseResult.toStd]
        rw [hS.tryReset_eq h2]
        intro _
        cases c <;> exact ⟨rfl, rfl, hs, h4 rfl⟩
      | peekOk x =>
        simp only [ParseResult.toStd]
        rw [hS.tryReset_eq h2]
        intro _
        cases c <;> exact ⟨rfl, rfl, hs, h4 rfl⟩
      | commitErr x =>
        simp only [ParseResult.toStd]
        rw [hS.tryReset_eq h2]
        intro h; cases h
      | abort x => intro h; cases h
      | peekErr x =>
        simp only [ParseResult.toStd]
        rw [hS.tryReset_eq h2]
        exact ih _ _ _ hs (h3 x rfl)

/-- **C33.**  `repeat_until` used again after it has succeeded, with the state it left behind, collects the values up to the marker
and no others. -/
theorem C33_repeat_until_again (hS : S.Lawful) {p : Parser S σ α} {e : Parser S τ β} (hmp : Moves p) (hme : Moves e)
    {C : σ → Prop} {D : τ → Prop} (hp : ReusableIn C p) (he : ReusableIn D e) (hc : Consuming p) (s : RepeatSt σ τ α)
    (hs : s.output = [] ∧ s.isParse = false ∧ C s.parseSt ∧ D s.endSt) (i : S.Input) :
    let o := (repeatUntil p e).run true i s
    Ref.IsRepeatUntil p.answer e.answer i o.answer ∧
    (o.res.isOk = true → o.st.output = [] ∧ o.st.isParse = false ∧ C o.st.parseSt ∧ D o.st.endSt) := by
  obtain ⟨out, ip, ps, es⟩ := s
  obtain ⟨rfl, rfl, h1, h2⟩ := hs
  exact ⟨repeat_from hS hmp hme hp he hc _ _ h1 h2 i, repeat_again hS hme hp he _ _ _ _ h1 h2⟩

/-! ## Concrete cases -/

private abbrev B := sliceS Nat 1

private theorem moves_tok (t : Nat) : Moves (token B t) :=
  Built.moves (R := sliceR Nat 1) (slice_lawful _ _) (sliceR_lawful _ _) (.token _)
private theorem reusable_tok (t : Nat) : Reusable (token B t) := ⟨_, (keeps_unit (h := false) (token B t)).reusableIn⟩

example (i : B.Input) : B.IsTakeUntil (token B 0).shape i ((takeUntil (token B 0)).shape i) :=
  C33_take_until (slice_lawful _ _) (moves_tok 0) (reusable_tok 0) i
example (i : B.Input) : Ref.IsRepeatUntil (token B 1).answer (token B 0).answer i
    ((repeatUntil (token B 1) (token B 0)).answer i) :=
  C33_repeat_until (slice_lawful _ _) (moves_tok 1) (moves_tok 0) (reusable_tok 1) (reusable_tok 0) (consuming_token _) i
example : (takeUntil (token B 0)).answer ⟨0, [1, 2, 0, 3]⟩ = .ok true [1, 2] ⟨2, [0, 3]⟩ := rfl
example : (repeatUntil (any B) (token B 0)).answer ⟨0, [1, 2, 0, 3]⟩ = .ok true [1, 2] ⟨2, [0, 3]⟩ := rfl
/-- **C02/C33**, a deviation: the end of the input after some tokens is a failure *without* commitment,
although tokens were read. -/
theorem C33_soft_failure_after_reading :
    ∃ e s, (takeUntil (token B 0)).run true ⟨0, [1, 2]⟩ (takeUntil (token B 0)).init = ⟨.peekErr e, ⟨2, []⟩, s⟩ :=
  ⟨_, _, rfl⟩
/-- **C02/C33**, a deviation: the end marker, which is not consumed, commits the result: `CommitOk` without
having consumed anything. -/
theorem C33_commit_without_reading :
    (takeUntil (token B 0)).answer ⟨0, [0, 2]⟩ = .ok true [] ⟨0, [0, 2]⟩ := rfl

private abbrev L := sliceS Char 1

/-- **C33** fails for a `take_until` that is started anew after its end parser failed: the tokens it had then are still there.
Here `attempt` undoes the first call, at `x`, and the call at `a` gives `xa`. -/
theorem C33_stale_take_until :
    let arrow := tuple (token L '-') (.cons (token L '>') .nil)
    let p := skip (attempt (takeUntil arrow)) arrow
    (many (pair (optional p) (any L))).answer ⟨0, "x-a->z".toList⟩ =
      .ok true [(none, 'x', ()), (none, '-', ()), (some ['x', 'a'], 'z', ())] ⟨6, []⟩ ∧
    (pair (optional p) (any L)).answer ⟨2, "a->z".toList⟩ = .ok true (some ['a'], 'z', ()) ⟨6, []⟩ := ⟨rfl, rfl⟩

/-- The same for `repeat_until` where an element fails. -/
theorem C33_stale_repeat_until :
    let p := skip (attempt (repeatUntil (satisfy L fun c => c != '!') (token L '.'))) (token L '.')
    (many (pair (optional p) (any L))).answer ⟨0, "x!a..".toList⟩ =
      .ok true [(none, 'x', ()), (none, '!', ()), (some ['x', 'a'], '.', ())] ⟨5, []⟩ ∧
    (pair (optional p) (any L)).answer ⟨2, "a..".toList⟩ = .ok true (some ['a'], '.', ()) ⟨5, []⟩ := ⟨rfl, rfl⟩

-- after a success the state can be used again
example : ∃ j, (many1 (skip (takeUntil (token L ';')) (token L ';'))).answer ⟨0, "ab;c;".toList⟩ = .ok true [['a', 'b'], ['c']] j :=
  ⟨_, rfl⟩
example (i : L.Input) (t : Unit) : ((takeUntil (token L ';')).run true i ([], t)).answer.shape = (takeUntil (token L ';')).shape i :=
  (C33_take_until_again (slice_lawful _ _)
    (Built.moves (R := sliceR Char 1) (slice_lawful _ _) (sliceR_lawful _ _) (.token _))
    (keeps_unit (h := false) (token L ';')).reusableIn ([], t) ⟨rfl, trivial⟩ i).1

end Verif
