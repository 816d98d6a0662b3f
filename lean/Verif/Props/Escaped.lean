import Verif.Proof.Reuse
import Verif.Proof.Consume
import Verif.Proof.SliceLaws
import Verif.Proof.BuiltMoves
import Verif.Proof.Coherent
import Verif.Model.Range
import Verif.Props.TakeWhile
import Verif.Spec.Repeat

/-!
# C42: `escaped`
-/

namespace Verif

set_option linter.unusedVariables false

variable {S : Strm} {σ τ υ α β γ : Type}

private theorem escapes_loop [DecidableEq S.Tok] (hS : S.Lawful) {p : Parser S σ α} {q : Parser S τ β}
    (hmp : Moves p) (hmq : Moves q) (hp : Coherent p) (hq : Coherent q) (hc : Consuming p) (hst : Stays p)
    (hqc : Commits q) (esc : S.Tok) (n : Nat) (c : Commit Unit) (i : S.Input) (hn : S.size i + 1 ≤ n) :
    ∃ d k, S.Escapes p.shape esc q.shape i d k ∧
      (match p.shape k with
      | .ok _ _ _ => False
      | .hard x => (Answer.of (escapedLoop p esc q n c i).1 (escapedLoop p esc q n c i).2).shape = .hard x
      | .abort x => (Answer.of (escapedLoop p esc q n c i).1 (escapedLoop p esc q n c i).2).shape = .abort x
      | .soft =>
        match S.uncons k with
        | (.error _, k') => (Answer.of (escapedLoop p esc q n c i).1 (escapedLoop p esc q n c i).2).shape =
            if S.isPartial k' then .hard () else .ok (!c.isPeek || d) () k
        | (.ok t, k') =>
          if t = esc then
            match q.shape k' with
            | .ok _ _ _ => False
            | .soft => (Answer.of (escapedLoop p esc q n c i).1 (escapedLoop p esc q n c i).2).shape = .hard ()
            | .hard x => (Answer.of (escapedLoop p esc q n c i).1 (escapedLoop p esc q n c i).2).shape = .hard x
            | .abort x => (Answer.of (escapedLoop p esc q n c i).1 (escapedLoop p esc q n c i).2).shape = .abort x
          else (Answer.of (escapedLoop p esc q n c i).1 (escapedLoop p esc q n c i).2).shape =
            .ok (!c.isPeek || d) () k) := by
  induction n generalizing c i with
  | zero => omega
  | succ n ih =>
    have h1 : (Answer.of (p.lazy i).1 (p.lazy i).2).shape = p.shape i := by rw [hp.lazy i]; rfl
    have h2 := hst i
    have h3 : ∀ c v j, p.shape i = .ok c v j → S.size j + 1 ≤ n := by
      intro c v j h
      have h' : p.answer i = .ok c v j := by
        revert h
        simp only [Parser.shape]
        cases p.answer i <;> intro h <;> cases h
        rfl
      obtain ⟨t, ts, h⟩ := hc i c v j h'
      have h := hS.reads_size h
      simp only [List.length_cons] at h
      omega
    unfold escapedLoop
    revert h1 h2
    generalize p.lazy i = x
    obtain ⟨r, j⟩ := x
    intro h1 h2
    cases r with
    | commitOk v =>
      obtain ⟨d, k, q1, q2⟩ := ih (.commit ()) j (h3 true v j h1.symm)
      refine ⟨true || d, k, .plain h1.symm q1, ?_⟩
      revert q2
      simp only [Commit.isPeek, Bool.not_false, Bool.true_or, Bool.or_true]
      exact id
    | peekOk v =>
      obtain ⟨d, k, q1, q2⟩ := ih c j (h3 false v j h1.symm)
      refine ⟨false || d, k, .plain h1.symm q1, ?_⟩
      revert q2
      simp only [Bool.false_or]
      exact id
    | commitErr e =>
      refine ⟨false, i, .nil i, ?_⟩
      rw [← h1]
      rfl
    | abort e =>
      refine ⟨false, i, .nil i, ?_⟩
      rw [← h1]
      rfl
    | peekErr e =>
      have hj : j = i := h2 e j rfl
      subst hj
      have hu : S.unconsP j = match S.uncons j with
          | (.ok t, j) => (.commitOk t, j)
          | (.error e, j) => (S.wrapStreamError j e, j) := rfl
      simp only
      rw [hu]
      cases hx : S.uncons j with
      | mk r k =>
        cases r with
        | error err =>
          refine ⟨false, j, .nil j, ?_⟩
          rw [← h1, hx]
          have hk := hS.uncons_error hx
          subst hk
          simp only [Strm.wrapStreamError]
          cases hpt : S.isPartial k
          · simp only [Bool.false_eq_true, if_false]
            rw [hS.reset (.nil k)]
            cases c <;> rfl
          · rfl
        | ok t =>
          simp only
          by_cases ht : t = esc
          · subst ht
            rw [if_pos rfl]
            have g1 : (Answer.of (q.committed true k q.init).res (q.committed true k q.init).inp).shape = q.shape k := by
              have := hq.committed true k q.init
              simp only [Parser.shape, Parser.answer, ← this]
              rfl
            have g2 := hmq.committed true k q.init
            revert g1 g2
            generalize q.committed true k q.init = o
            obtain ⟨r, l, u⟩ := o
            intro g1 g2
            have hsz : S.size l + 1 ≤ n := by
              have e1 := hS.size hx
              have e2 := hS.reach_size g2
              simp only at e2
              omega
            have hcm : ∀ c v j, q.shape k = .ok c v j → c = true := by
              intro c v j h
              refine hqc k c v j ?_
              revert h
              simp only [Parser.shape]
              cases q.answer k <;> intro h <;> cases h
              rfl
            cases r with
            | commitOk v =>
              obtain ⟨d, k', q1, q2⟩ := ih (.commit ()) l hsz
              refine ⟨true, k', .escape h1.symm hx g1.symm q1, ?_⟩
              revert q2
              simp only [Commit.isPeek, Bool.not_false, Bool.true_or, Bool.or_true]
              exact id
            | peekOk v => exact absurd (hcm false v l g1.symm) (by decide)
            | commitErr e =>
              refine ⟨false, j, .nil j, ?_⟩
              rw [← h1, hx]
              simp only [Answer.shape, Answer.of, if_true]
              rw [← g1]
              trivial
            | peekErr e =>
              refine ⟨false, j, .nil j, ?_⟩
              rw [← h1, hx]
              simp only [Answer.shape, Answer.of, if_true]
              rw [← g1]
              trivial
            | abort e =>
              refine ⟨false, j, .nil j, ?_⟩
              rw [← h1, hx]
              simp only [Answer.shape, Answer.of, if_true]
              rw [← g1]
              rfl
          · refine ⟨false, j, .nil j, ?_⟩
            rw [if_neg ht, ← h1, hx]
            simp only [Answer.shape, Answer.of, if_neg ht]
            rw [hS.reset (.cons hx (.nil k))]
            cases c <;> rfl

/-- **C42.**  `escaped(p, esc, q)` reads ordinary parts and escape sequences up to the first place where
there is neither; it fails where `esc` is not followed by something `q` matches. -/
theorem C42_escaped [DecidableEq S.Tok] (hS : S.Lawful) {p : Parser S σ α} {q : Parser S τ β}
    (hmp : Moves p) (hmq : Moves q) (hp : Coherent p) (hq : Coherent q) (hc : Consuming p) (hst : Stays p)
    (hqc : Commits q) (esc : S.Tok) (i : S.Input) :
    S.IsEscaped p.shape esc q.shape i ((escaped p esc q).shape i) := by
  obtain ⟨d, k, h1, h2⟩ := escapes_loop hS hmp hmq hp hq hc hst hqc esc (S.size i + 1) (.peek ()) i (Nat.le_refl _)
  refine ⟨d, k, h1, ?_⟩
  rw [show (escaped p esc q).shape i = (Answer.of (escapedLoop p esc q (S.size i + 1) (.peek ()) i).1
    (escapedLoop p esc q (S.size i + 1) (.peek ()) i).2).shape from rfl]
  revert h2
  simp only [Commit.isPeek, Bool.not_true, Bool.false_or]
  exact id

private def Stops [DecidableEq S.Tok] (p : Sem S.Input Unit α) (q : Sem S.Input Unit β) (esc : S.Tok) (k : S.Input) : Prop :=
  (∀ c v j, p k ≠ .ok c v j) ∧ (p k = .soft → ∀ j, S.uncons k = (.ok esc, j) → ∀ c v l, q j ≠ .ok c v l)

private theorem escapes_unique [DecidableEq S.Tok] {p : Sem S.Input Unit α} {q : Sem S.Input Unit β} {esc : S.Tok}
    {i k k' : S.Input} {c c' : Bool} (h : S.Escapes p esc q i c k) (h' : S.Escapes p esc q i c' k')
    (hk : Stops p q esc k) (hk' : Stops p q esc k') : c = c' ∧ k = k' := by
  induction h generalizing c' with
  | nil i =>
    cases h' with
    | nil => exact ⟨rfl, rfl⟩
    | plain e1 _ => exact absurd e1 (hk.1 _ _ _)
    | escape e1 e2 e3 _ => exact absurd e3 (hk.2 e1 _ e2 _ _ _)
  | plain e1 r1 ih =>
    cases h' with
    | nil => exact absurd e1 (hk'.1 _ _ _)
    | plain e1' r1' =>
      cases e1.symm.trans e1'
      obtain ⟨rfl, rfl⟩ := ih r1' hk
      exact ⟨rfl, rfl⟩
    | escape e1' e2 e3 _ => cases e1.symm.trans e1'
  | escape e1 e2 e3 r1 ih =>
    cases h' with
    | nil => exact absurd e3 (hk'.2 e1 _ e2 _ _ _)
    | plain e1' r1' => cases e1.symm.trans e1'
    | escape e1' e2' e3' r1' =>
      cases e2.symm.trans e2'
      cases e3.symm.trans e3'
      obtain ⟨rfl, rfl⟩ := ih r1' hk
      exact ⟨rfl, rfl⟩

/-- **C42.**  The reference determines the answer. -/
theorem C42_unique [DecidableEq S.Tok] {p : Sem S.Input Unit α} {q : Sem S.Input Unit β} {esc : S.Tok}
    {i : S.Input} {a b : Answer S.Input Unit Unit} (ha : S.IsEscaped p esc q i a) (hb : S.IsEscaped p esc q i b) :
    a = b := by
  have stops : ∀ (c : Bool) (k : S.Input) (a : Answer S.Input Unit Unit), (match p k with
    | .ok _ _ _ => False
    | .hard x => a = .hard x
    | .abort x => a = .abort x
    | .soft =>
      match S.uncons k with
      | (.error _, k') => a = if S.isPartial k' then .hard () else .ok c () k
      | (.ok t, k') =>
        if t = esc then
          match q k' with
          | .ok _ _ _ => False
          | .soft => a = .hard ()
          | .hard x => a = .hard x
          | .abort x => a = .abort x
        else a = .ok c () k) → Stops p q esc k := by
    intro c k a h
    refine ⟨fun c v j e => ?_, fun e1 j e2 c v l e3 => ?_⟩
    · rw [e] at h; exact h
    · rw [e1, e2] at h
      simp only [if_true, e3] at h
  obtain ⟨c, k, h1, h2⟩ := ha
  obtain ⟨c', k', h1', h2'⟩ := hb
  obtain ⟨rfl, rfl⟩ := escapes_unique h1 h1' (stops _ _ _ h2) (stops _ _ _ h2')
  revert h2 h2'
  cases p k with
  | ok _ _ _ => exact fun h => h.elim
  | hard x => exact fun h h' => h.trans h'.symm
  | abort x => exact fun h h' => h.trans h'.symm
  | soft =>
    simp only
    cases S.uncons k with
    | mk r k' =>
      cases r with
      | error e => exact fun h h' => h.trans h'.symm
      | ok t =>
        simp only
        split
        · cases q k' with
          | ok _ _ _ => exact fun h => h.elim
          | _ => exact fun h h' => h.trans h'.symm
        · exact fun h h' => h.trans h'.symm

/-! ## Where the code deviates -/

private abbrev B := sliceS Nat 1
private abbrev R := sliceR Nat 1

/-- **C42** is violated: a parser of ordinary characters that fails after looking at a token, as `satisfy`
does, is not rewound.  `escaped(satisfy(c ≠ 9 and c ≠ 8), 9, any)` on `9 1` should read both tokens.  It succeeds
without commitment and has dropped the escape token. -/
theorem C42_not_rewound :
    (escaped (satisfy B fun t => t != 9 && t != 8) 9 (any B)).answer ⟨0, [9, 1]⟩ = .ok false () ⟨1, [1]⟩ ∧
    B.IsEscaped (satisfy B fun t => t != 9 && t != 8).shape 9 (any B).shape ⟨0, [9, 1]⟩
      (.ok true () ⟨2, []⟩) :=
  ⟨rfl, true, ⟨2, []⟩, Strm.Escapes.escape (S := B) (j := ⟨1, [1]⟩) (k := ⟨2, []⟩) (c := true) (v := 1) (d := false)
    rfl rfl rfl (.nil _), rfl⟩

/-- **C42** is violated: an escape token followed by something that consumes nothing is read, but the
result is not committed. -/
theorem C42_read_without_commit :
    (escaped (takeWhile1 R fun t => t != 9) 9 (value B ())).answer ⟨0, [9]⟩ = .ok false () ⟨1, []⟩ := rfl

/-! ## Examples -/

private theorem any_commits : Commits (any B) := by
  intro i c v j h
  obtain ⟨ptr, data⟩ := i
  cases data <;> cases h
  rfl

example (i : B.Input) : B.IsEscaped (takeWhile1 R fun t => t != 9 && t != 8).shape 9 (any B).shape i
    ((escaped (takeWhile1 R fun t => t != 9 && t != 8) 9 (any B)).shape i) :=
  C42_escaped (slice_lawful _ _)
    (Built.moves (R := R) (slice_lawful _ _) (sliceR_lawful _ _) (.takeWhile1 _))
    (Built.moves (R := R) (slice_lawful _ _) (sliceR_lawful _ _) .any)
    (Built.coherent (R := R) (slice_lawful _ _) (sliceR_lawful _ _) (.takeWhile1 _))
    (Built.coherent (R := R) (slice_lawful _ _) (sliceR_lawful _ _) .any)
    (consuming_takeWhile1 (slice_lawful _ _) (sliceR_lawful _ _) (slice_endsOnly _ _) _)
    (stays_takeWhile1 (slice_lawful _ _) (sliceR_lawful _ _) _) any_commits 9 i
example : (escaped (takeWhile1 R fun t => t != 9 && t != 8) 9 (any B)).answer ⟨0, [1, 9, 8, 9, 9, 2, 8]⟩ =
    .ok true () ⟨6, [8]⟩ := rfl
example : ∃ e, (escaped (takeWhile1 R fun t => t != 9 && t != 8) 9 (any B)).answer ⟨0, [1, 9]⟩ = .hard e :=
  ⟨_, rfl⟩

end Verif
