import Verif.Proof.RangeLemmas
import Verif.Spec.Bytes
import Verif.Proof.SliceLaws
import Verif.Proof.StrLaws
import Verif.Proof.WrapLaws
import Verif.Model.Byte

/-!
# C40: `tokens`, `tokens_cmp`, `string`, `bytes` match exactly the given sequence
-/

namespace Verif

variable {S : Strm} {τ α : Type}

private theorem tokensLoop_cases (hS : S.Lawful) (cmp : τ → S.Tok → Bool) (start : S.Pos) (bad : S.Tok → S.Err)
    (cs : List τ) (c : Bool) (i : S.Input) (r : ParseResult Unit S.Err) (l : S.Input)
    (hr : tokensLoop S cmp start bad cs c i = (r, l)) :
    (S.StartsWith cmp cs i l ∧ r = if c || !cs.isEmpty then .commitOk () else .peekOk ()) ∨
    (∃ pre d post j, cs = pre ++ d :: post ∧ S.StartsWith cmp pre i j ∧
      ((∃ t k, S.uncons j = (.ok t, k) ∧ cmp d t = false ∧
          ((c = false ∧ pre = [] ∧ ∃ e, r = .peekErr e) ∨ (¬(c = false ∧ pre = []) ∧ ∃ e, r = .commitErr e))) ∨
       (S.AtEnd j ∧
          ((c = false ∧ pre = [] ∧ S.isPartial i = false ∧ ∃ e, r = .peekErr e) ∨
           (¬(c = false ∧ pre = [] ∧ S.isPartial i = false) ∧ ∃ e, r = .commitErr e))))) := by
  induction cs generalizing c i with
  | nil =>
    simp only [tokensLoop] at hr
    cases hr
    exact .inl ⟨⟨[], .nil _, trivial⟩, by simp⟩
  | cons d cs ih =>
    cases hu : S.uncons i with
    | mk x j =>
      cases x with
      | ok t =>
        simp only [tokensLoop, Strm.unconsP, hu] at hr
        by_cases hc : cmp d t = true
        · rw [if_pos hc] at hr
          have hp := hS.isPartial hu
          rcases ih true j hr with ⟨⟨ts, h1, h2⟩, h3⟩ | ⟨pre, d', post, k, rfl, ⟨ts, h1, h2⟩, h3⟩
          · exact .inl ⟨⟨t :: ts, .cons hu h1, hc, h2⟩, by rw [h3]; simp⟩
          · refine .inr ⟨d :: pre, d', post, k, rfl, ⟨t :: ts, .cons hu h1, hc, h2⟩, ?_⟩
            rcases h3 with ⟨t', k', h4, h5, ⟨h6, _⟩ | ⟨_, h6⟩⟩ | ⟨h4, ⟨h6, _⟩ | ⟨_, h6⟩⟩
            · cases h6
            · exact .inl ⟨t', k', h4, h5, .inr ⟨by simp, h6⟩⟩
            · cases h6
            · exact .inr ⟨h4, .inr ⟨by simp, h6⟩⟩
        · rw [if_neg hc] at hr
          refine .inr ⟨[], d, cs, i, rfl, ⟨[], .nil i, trivial⟩, .inl ⟨t, j, hu, by simpa using hc, ?_⟩⟩
          cases c
          · exact .inl ⟨rfl, rfl, _, (congrArg Prod.fst hr).symm⟩
          · exact .inr ⟨by simp, _, (congrArg Prod.fst hr).symm⟩
      | error e =>
        obtain rfl := hS.uncons_error hu
        simp only [tokensLoop, Strm.unconsP, hu, Strm.wrapStreamError] at hr
        refine .inr ⟨[], d, cs, j, rfl, ⟨[], .nil j, trivial⟩, .inr ⟨⟨e, by rw [hu]⟩, ?_⟩⟩
        cases hp : S.isPartial j
        · simp only [hp, Bool.false_eq_true, if_false] at hr
          cases c
          · exact .inl ⟨rfl, rfl, rfl, _, (congrArg Prod.fst hr).symm⟩
          · exact .inr ⟨by simp, _, (congrArg Prod.fst hr).symm⟩
        · simp only [hp, if_true] at hr
          exact .inr ⟨by simp, _, (congrArg Prod.fst hr).symm⟩

private theorem isTokens_of_loop (hS : S.Lawful) (cmp : τ → S.Tok → Bool) (start : S.Pos) (bad : S.Tok → S.Err)
    (cs : List τ) (i : S.Input) (v : α) :
    S.IsTokens cmp cs v i (Answer.of ((tokensLoop S cmp start bad cs false i).1.map fun _ => v)
      (tokensLoop S cmp start bad cs false i).2).shape := by
  cases hr : tokensLoop S cmp start bad cs false i with
  | mk r l =>
    rcases tokensLoop_cases hS cmp start bad cs false i r l hr with ⟨h1, rfl⟩ | ⟨pre, d, post, j, rfl, h1, h2⟩
    · refine .inl ⟨l, h1, ?_⟩
      cases cs <;> rfl
    · refine .inr ⟨pre, d, post, j, rfl, h1, ?_⟩
      rcases h2 with ⟨t, k, h4, h5, ⟨_, h6, e, rfl⟩ | ⟨h6, e, rfl⟩⟩ | ⟨h4, ⟨_, h6, h7, e, rfl⟩ | ⟨h6, e, rfl⟩⟩
      · exact .inl ⟨t, k, h4, h5, by rw [if_pos h6]; rfl⟩
      · exact .inl ⟨t, k, h4, h5, by rw [if_neg (fun h => h6 ⟨rfl, h⟩)]; rfl⟩
      · exact .inr ⟨h4, by rw [if_pos ⟨h6, h7⟩]; rfl⟩
      · exact .inr ⟨h4, by rw [if_neg (fun h => h6 ⟨rfl, h.1, h.2⟩)]; rfl⟩

/-- C40: `tokens`. -/
theorem C40_tokens (hS : S.Lawful) (cmp : τ → S.Tok → Bool) (x : Info S.Tok S.Rng) (cs : List τ) (i : S.Input) :
    S.IsTokens cmp cs cs i ((tokens S cmp x cs).shape i) := isTokens_of_loop hS cmp _ _ cs i cs

/-- C40: `tokens_cmp`. -/
theorem C40_tokens_cmp (hS : S.Lawful) (cmp : τ → S.Tok → Bool) (cs : List τ) (i : S.Input) :
    S.IsTokens cmp cs cs i ((tokensCmp S cs cmp).shape i) := isTokens_of_loop hS cmp _ _ cs i cs

/-- C40: `string`, `string_cmp`, `bytes`, `bytes_cmp`; `v` is what they return: the given sequence. -/
theorem C40_string (hS : S.Lawful) (cmp : τ → S.Tok → Bool) (x : Info S.Tok S.Rng) (cs : List τ) (v : α)
    (i : S.Input) : S.IsTokens cmp cs v i ((stringCmp S cs cmp x v).shape i) := by
  have h := isTokens_of_loop hS cmp (S.position i) (fun other => S.E.fromError (S.position i)
    (S.E.unexpected (.token other))) cs i v
  have : (stringCmp S cs cmp x v).shape i = (Answer.of ((tokensLoop S cmp (S.position i)
      (fun other => S.E.fromError (S.position i) (S.E.unexpected (.token other))) cs false i).1.map fun _ => v)
      (tokensLoop S cmp (S.position i) (fun other => S.E.fromError (S.position i)
        (S.E.unexpected (.token other))) cs false i).2).shape := by
    simp only [stringCmp, expected, map, tokensCmp, Parser.shape, Parser.answer, Parser.ofMode, Parser.ofLazy,
      Out.mapRes]
    generalize tokensLoop S cmp _ _ cs false i = r
    obtain ⟨r, j⟩ := r
    cases r <;> rfl
  rw [this]
  exact h

/-- C40: where such a parser stops is determined: there is one answer. -/
theorem C40_unique (cmp : τ → S.Tok → Bool) (cs : List τ) (v : α) (i : S.Input)
    (a b : Answer S.Input Unit α) (ha : S.IsTokens cmp cs v i a) (hb : S.IsTokens cmp cs v i b) : a = b := by
  -- two matches of sequences of the same length are the same
  have len : ∀ (cs : List τ) (ts : List S.Tok), EqualBy cmp cs ts → ts.length = cs.length := by
    intro cs
    induction cs with
    | nil => intro ts h; cases ts with
      | nil => rfl
      | cons => exact h.elim
    | cons c cs ih => intro ts h; cases ts with
      | nil => exact h.elim
      | cons t ts => simp [ih ts h.2]
  have split : ∀ (pre : List τ) (c : τ) (post : List τ) (ts : List S.Tok), EqualBy cmp (pre ++ c :: post) ts →
      ∃ us t vs, ts = us ++ t :: vs ∧ EqualBy cmp pre us ∧ cmp c t = true := by
    intro pre c post
    induction pre with
    | nil => intro ts h; cases ts with
      | nil => exact h.elim
      | cons t ts => exact ⟨[], t, ts, rfl, trivial, h.1⟩
    | cons d pre ih => intro ts h; cases ts with
      | nil => exact h.elim
      | cons t ts =>
        obtain ⟨us, t', vs, rfl, h1, h2⟩ := ih ts h.2
        exact ⟨t :: us, t', vs, rfl, ⟨h.1, h1⟩, h2⟩
  -- at the place where a prefix ends, a longer match continues with an equal token
  have cont : ∀ (pre : List τ) (c : τ) (post : List τ) (j l : S.Input), S.StartsWith cmp pre i j →
      S.StartsWith cmp (pre ++ c :: post) i l → ∃ t k, S.uncons j = (.ok t, k) ∧ cmp c t = true := by
    intro pre c post j l ⟨us, h1, h2⟩ ⟨ts, h3, h4⟩
    obtain ⟨us', t, vs, rfl, h5, h6⟩ := split pre c post ts h4
    have hl : us'.length = us.length := (len _ _ h5).trans (len _ _ h2).symm
    rcases reads_comparable h1 h3 with ⟨cs, he, hc⟩ | ⟨cs, he, hc⟩
    · have := List.append_inj he hl
      rw [← this.2] at hc
      obtain ⟨k, hk, _⟩ := Strm.reads_cons.1 hc
      exact ⟨t, k, hk, h6⟩
    · have := congrArg List.length he
      simp at this; omega
  have fail : ∀ (pre : List τ) (c : τ) (post : List τ) (j : S.Input),
      ((∃ t k, S.uncons j = (.ok t, k) ∧ cmp c t = false) ∨ S.AtEnd j) → S.StartsWith cmp pre i j →
      ∀ l, ¬S.StartsWith cmp (pre ++ c :: post) i l := by
    intro pre c post j hj h1 l h2
    obtain ⟨t, k, h3, h4⟩ := cont pre c post j l h1 h2
    rcases hj with ⟨t', k', h5, h6⟩ | ⟨e, h5⟩
    · rw [h3] at h5; cases h5; rw [h4] at h6; cases h6
    · rw [h3] at h5; cases h5
  rcases ha with ⟨j, h1, rfl⟩ | ⟨pre, c, post, j, rfl, h1, h2⟩
  · rcases hb with ⟨k, h3, rfl⟩ | ⟨pre, c, post, k, rfl, h3, h4⟩
    · obtain ⟨ts, h1, h2⟩ := h1
      obtain ⟨us, h3, h4⟩ := h3
      obtain ⟨rfl, rfl⟩ := reads_length_unique h1 h3 ((len _ _ h2).trans (len _ _ h4).symm)
      rfl
    · refine absurd h1 (fail pre c post k ?_ h3 j)
      rcases h4 with ⟨t, l, h5, h6, _⟩ | ⟨h5, _⟩
      · exact .inl ⟨t, l, h5, h6⟩
      · exact .inr h5
  · have hj : (∃ t k, S.uncons j = (.ok t, k) ∧ cmp c t = false) ∨ S.AtEnd j := by
      rcases h2 with ⟨t, l, h5, h6, _⟩ | ⟨h5, _⟩
      · exact .inl ⟨t, l, h5, h6⟩
      · exact .inr h5
    rcases hb with ⟨k, h3, rfl⟩ | ⟨pre', c', post', k, he, h3, h4⟩
    · exact absurd h3 (fail pre c post j hj h1 k)
    · have hk : (∃ t l, S.uncons k = (.ok t, l) ∧ cmp c' t = false) ∨ S.AtEnd k := by
        rcases h4 with ⟨t, l, h5, h6, _⟩ | ⟨h5, _⟩
        · exact .inl ⟨t, l, h5, h6⟩
        · exact .inr h5
      have hpre : pre = pre' ∧ c = c' := by
        rcases List.append_eq_append_iff.1 he with ⟨xs, h5, h6⟩ | ⟨xs, h5, h6⟩
        · cases xs with
          | nil => simp at h5 h6; exact ⟨h5.symm, h6.1⟩
          | cons x xs =>
            cases h6
            rw [h5] at h3
            exact absurd h3 (fail pre c xs j hj h1 k)
        · cases xs with
          | nil => simp at h5 h6; exact ⟨h5, h6.1.symm⟩
          | cons x xs =>
            cases h6
            rw [h5] at h1
            exact absurd h1 (fail pre' c' xs k hk h3 j)
      obtain ⟨rfl, rfl⟩ := hpre
      obtain ⟨ts, h1, h1'⟩ := h1
      obtain ⟨us, h3, h3'⟩ := h3
      obtain ⟨rfl, rfl⟩ := reads_length_unique h1 h3 ((len _ _ h1').trans (len _ _ h3').symm)
      rcases h2 with ⟨t, l, h5, h6, rfl⟩ | ⟨⟨e, h5⟩, rfl⟩
      · rcases h4 with ⟨t', l', h7, h8, rfl⟩ | ⟨⟨e, h7⟩, rfl⟩
        · rfl
        · rw [h5] at h7; cases h7
      · rcases h4 with ⟨t', l', h7, h8, rfl⟩ | ⟨⟨e, h7⟩, rfl⟩
        · rw [h7] at h5; cases h5
        · rfl

/-! ## Examples -/

private abbrev B := sliceS Nat 1

example (i : B.Input) : B.IsTokens (fun a b => a = b) [1, 2] [1, 2] i ((tokensCmp B [1, 2] (fun a b => a = b)).shape i) :=
  C40_tokens_cmp (slice_lawful _ _) _ _ i
example : (tokensCmp B [1, 2] (fun a b => a = b)).shape ⟨0, [1, 2, 3]⟩ = .ok true [1, 2] ⟨2, [3]⟩ := rfl
example : (tokensCmp B [1, 2] (fun a b => a = b)).shape ⟨0, [1, 3]⟩ = .hard () := rfl
example : (tokensCmp B [1, 2] (fun a b => a = b)).shape ⟨0, [3]⟩ = .soft := rfl
example : (tokensCmp B [1, 2] (fun a b => a = b)).shape ⟨0, []⟩ = .soft := rfl
example : (tokensCmp B [1, 2] (fun a b => a = b)).shape ⟨0, [1]⟩ = .hard () := rfl
example : (tokensCmp B ([] : List Nat) (fun a b => a = b)).shape ⟨0, [1]⟩ = .ok false [] ⟨0, [1]⟩ := rfl

end Verif
