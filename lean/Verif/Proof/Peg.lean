import Verif.Spec.Peg
import Verif.Proof.Grammar
import Verif.Proof.RangeLemmas

/-!
# Lemmas on parsing expressions
-/

namespace Verif

namespace Peg

variable {N T : Type} {rules : N → Peg N T} {a b : Peg N T} {xs ys : List T} {r : Option (List T)}

theorem matches_empty : Matches rules empty xs r ↔ r = some xs := by
  constructor
  · intro h; cases h; rfl
  · rintro rfl; exact .empty

theorem matches_one {f : T → Bool} : Matches rules (one f) xs r ↔
    (∃ t ts, xs = t :: ts ∧ f t = true ∧ r = some ts) ∨ (∃ t ts, xs = t :: ts ∧ f t = false ∧ r = none) ∨
      (xs = [] ∧ r = none) := by
  constructor
  · intro h
    cases h with
    | one h => exact .inl ⟨_, _, rfl, h, rfl⟩
    | other h => exact .inr (.inl ⟨_, _, rfl, h, rfl⟩)
    | ended => exact .inr (.inr ⟨rfl, rfl⟩)
  · rintro (⟨t, ts, rfl, h, rfl⟩ | ⟨t, ts, rfl, h, rfl⟩ | ⟨rfl, rfl⟩)
    · exact .one h
    · exact .other h
    · exact .ended

theorem matches_seq : Matches rules (seq a b) xs r ↔
    (∃ ys, Matches rules a xs (some ys) ∧ Matches rules b ys r) ∨ (Matches rules a xs none ∧ r = none) := by
  constructor
  · intro h
    cases h with
    | seq h1 h2 => exact .inl ⟨_, h1, h2⟩
    | seqFail h => exact .inr ⟨h, rfl⟩
  · rintro (⟨ys, h1, h2⟩ | ⟨h, rfl⟩)
    · exact .seq h1 h2
    · exact .seqFail h

theorem matches_alt : Matches rules (alt a b) xs r ↔
    (∃ ys, Matches rules a xs (some ys) ∧ r = some ys) ∨ (Matches rules a xs none ∧ Matches rules b xs r) := by
  constructor
  · intro h
    cases h with
    | left h => exact .inl ⟨_, h, rfl⟩
    | right h1 h2 => exact .inr ⟨h1, h2⟩
  · rintro (⟨ys, h, rfl⟩ | ⟨h1, h2⟩)
    · exact .left h
    · exact .right h1 h2

theorem matches_star : Matches rules (star a) xs r ↔
    (∃ ys, Matches rules a xs (some ys) ∧ Matches rules (star a) ys r) ∨ (Matches rules a xs none ∧ r = some xs) := by
  constructor
  · intro h
    cases h with
    | more h1 h2 => exact .inl ⟨_, h1, h2⟩
    | stop h => exact .inr ⟨h, rfl⟩
  · rintro (⟨ys, h1, h2⟩ | ⟨h, rfl⟩)
    · exact .more h1 h2
    · exact .stop h

theorem matches_look : Matches rules (look a) xs r ↔
    (∃ ys, Matches rules a xs (some ys) ∧ r = some xs) ∨ (Matches rules a xs none ∧ r = none) := by
  constructor
  · intro h
    cases h with
    | look h => exact .inl ⟨_, h, rfl⟩
    | lookFail h => exact .inr ⟨h, rfl⟩
  · rintro (⟨ys, h, rfl⟩ | ⟨h, rfl⟩)
    · exact .look h
    · exact .lookFail h

theorem matches_not : Matches rules (not a) xs r ↔
    (∃ ys, Matches rules a xs (some ys) ∧ r = none) ∨ (Matches rules a xs none ∧ r = some xs) := by
  constructor
  · intro h
    cases h with
    | notFail h => exact .inl ⟨_, h, rfl⟩
    | not h => exact .inr ⟨h, rfl⟩
  · rintro (⟨ys, h, rfl⟩ | ⟨h, rfl⟩)
    · exact .notFail h
    · exact .not h

theorem matches_ref {n : N} : Matches rules (ref n) xs r ↔ Matches rules (rules n) xs r :=
  ⟨fun h => by cases h with | ref h => exact h, .ref⟩

/-- What is left is a suffix. -/
theorem matches_suffix {e : Peg N T} (h : Matches rules e xs r) : ∀ ys, r = some ys → ∃ u, xs = u ++ ys := by
  induction h with
  | empty => intro ys h; cases h; exact ⟨[], rfl⟩
  | @one f t xs _ => intro ys h; cases h; exact ⟨[t], rfl⟩
  | other => intro ys h; cases h
  | ended => intro ys h; cases h
  | seq _ _ ih1 ih2 =>
    intro ys h
    obtain ⟨u, rfl⟩ := ih1 _ rfl
    obtain ⟨v, rfl⟩ := ih2 _ h
    exact ⟨u ++ v, by simp⟩
  | seqFail => intro ys h; cases h
  | left _ ih => intro ys h; exact ih ys h
  | right _ _ _ ih => intro ys h; exact ih ys h
  | more _ _ ih1 ih2 =>
    intro ys h
    obtain ⟨u, rfl⟩ := ih1 _ rfl
    obtain ⟨v, rfl⟩ := ih2 _ h
    exact ⟨u ++ v, by simp⟩
  | stop => intro ys h; cases h; exact ⟨[], rfl⟩
  | look => intro ys h; cases h; exact ⟨[], rfl⟩
  | lookFail => intro ys h; cases h
  | not => intro ys h; cases h; exact ⟨[], rfl⟩
  | notFail => intro ys h; cases h
  | ref _ ih => exact ih

theorem null_one {f : T → Bool} : ¬ Null rules (one f) := by
  rintro ⟨xs, h⟩
  rcases matches_one.1 h with ⟨t, ts, rfl, _, h⟩ | ⟨t, ts, rfl, _, h⟩ | ⟨rfl, h⟩
  · cases h
  · cases h
  · cases h

theorem null_seq (h : Null rules (seq a b)) : Null rules a ∧ Null rules b := by
  obtain ⟨xs, h⟩ := h
  rcases matches_seq.1 h with ⟨ys, h1, h2⟩ | ⟨_, h⟩
  · obtain ⟨u, hu⟩ := matches_suffix h1 _ rfl
    obtain ⟨v, hv⟩ := matches_suffix h2 _ rfl
    have : ys = xs := by
      have h3 := congrArg List.length hu
      have h4 := congrArg List.length hv
      simp only [List.length_append] at h3 h4
      have : u = [] := List.length_eq_zero_iff.1 (by omega)
      subst this
      simpa using hu.symm
    subst this
    exact ⟨⟨_, h1⟩, ⟨_, h2⟩⟩
  · cases h

theorem null_alt (h : Null rules (alt a b)) : Null rules a ∨ Null rules b := by
  obtain ⟨xs, h⟩ := h
  rcases matches_alt.1 h with ⟨ys, h1, h2⟩ | ⟨_, h⟩
  · cases h2; exact .inl ⟨_, h1⟩
  · exact .inr ⟨_, h⟩

theorem null_ref {n : N} (h : Null rules (ref n)) : Null rules (rules n) := by
  obtain ⟨xs, h⟩ := h
  exact ⟨xs, matches_ref.1 h⟩

end Peg

variable {S : Strm} {N α β : Type} {rules : N → Peg N S.Tok} {a b : Peg N S.Tok}

theorem left_unique {i : S.Input} {xs ys : List S.Tok} (h1 : S.Left i xs) (h2 : S.Left i ys) : xs = ys := by
  obtain ⟨k, h1, e, he⟩ := h1
  obtain ⟨l, h2, e', he'⟩ := h2
  rcases reads_comparable h1 h2 with ⟨cs, rfl, h5⟩ | ⟨cs, rfl, h5⟩
  · cases cs with
    | nil => simp
    | cons t ts =>
      obtain ⟨l, hl⟩ := reads_head h5
      rw [hl] at he
      cases he
  · cases cs with
    | nil => simp
    | cons t ts =>
      obtain ⟨l, hl⟩ := reads_head h5
      rw [hl] at he'
      cases he'

theorem left_exists (hS : S.Lawful) (i : S.Input) : ∃ xs, S.Left i xs := by
  generalize hn : S.size i = n
  induction n using Nat.strongRecOn generalizing i with
  | ind n ih =>
  cases hu : S.uncons i with
  | mk x j =>
    cases x with
    | error e => exact ⟨[], i, .nil i, e, by rw [hu]⟩
    | ok t =>
      have h1 : S.Reads i [t] j := .cons hu (.nil j)
      have := hS.reads_size h1
      simp only [List.length_singleton] at this
      obtain ⟨xs, k, h2, h3⟩ := ih (S.size j) (by omega) j rfl
      exact ⟨t :: xs, k, .cons hu h2, h3⟩

theorem backtracks_bind (hS : S.Lawful) {m : Sem S.Input Unit α} {f : α → Sem S.Input Unit β} (hm : Backtracks rules a m)
    (hf : ∀ v, Backtracks rules b (f v)) : Backtracks rules (a.seq b) (Ref.bind m f) := by
  intro i xs hp hl
  have h := hm i xs hp hl
  simp only [Ref.bind]
  revert h
  cases hx : m i with
  | abort x => exact fun _ => trivial
  | soft => exact fun h => .seqFail h
  | hard e => exact fun h => .seqFail h
  | ok c v j =>
    rintro ⟨u, ys, h1, h2, h3⟩
    have h' := hf v j ys ((hS.reads_isPartial h1).trans hp) h2
    revert h'
    dsimp only
    cases hy : f v j with
    | abort x => exact fun _ => trivial
    | soft => cases c <;> exact fun h => .seq h3 h
    | hard e => exact fun h => .seq h3 h
    | ok c v' k =>
      rintro ⟨u', zs, h4, h5, h6⟩
      exact ⟨u ++ u', zs, reads_append h1 h4, h5, .seq h3 h6⟩

theorem backtracks_map {m : Sem S.Input Unit α} (hm : Backtracks rules a m) (f : α → β) :
    Backtracks rules a (Ref.map m f) := by
  intro i xs hp hl
  have h := hm i xs hp hl
  dsimp only [Ref.map]
  revert h
  cases m i <;> exact id

theorem backtracks_attempt {m : Sem S.Input Unit α} (hm : Backtracks rules a m) : Backtracks rules a (Ref.attempt m) := by
  intro i xs hp hl
  have h := hm i xs hp hl
  dsimp only [Ref.attempt]
  revert h
  cases m i <;> exact id

theorem backtracks_or {m n : Sem S.Input Unit α} (hm : Backtracks rules a m) (hn : Backtracks rules b n)
    (hh : ∀ i, S.isPartial i = false → ∀ e, m i ≠ .hard e) : Backtracks rules (a.alt b) (orSem m n) := by
  intro i xs hp hl
  have h := hm i xs hp hl
  revert h
  dsimp only [orSem]
  cases hx : m i with
  | abort x => exact fun _ => trivial
  | hard e => exact absurd hx (hh i hp e)
  | ok c v j => rintro ⟨u, ys, h1, h2, h3⟩; exact ⟨u, ys, h1, h2, .left h3⟩
  | soft =>
    intro h1
    have h := hn i xs hp hl
    revert h
    dsimp only
    cases n i with
    | abort x => exact fun _ => trivial
    | hard e => exact fun h => .right h1 h
    | soft => exact fun h => .right h1 h
    | ok c v j => rintro ⟨u, ys, h2, h3, h4⟩; exact ⟨u, ys, h2, h3, .right h1 h4⟩

theorem backtracks_run (hS : S.Lawful) {m : Sem S.Input Unit α} (hm : Backtracks rules a m) {i k : S.Input} {vs : List α}
    {c : Bool} (h : Ref.Run m i vs c k) {xs : List S.Tok} (hp : S.isPartial i = false) (hl : S.Left i xs) :
    ∃ u ys, S.Reads i u k ∧ S.Left k ys ∧ ∀ r, a.star.Matches rules ys r → a.star.Matches rules xs r := by
  induction h generalizing xs with
  | nil i => exact ⟨[], xs, .nil i, hl, fun _ h => h⟩
  | @cons i j k c d v vs h _ ih =>
    have h' := hm i xs hp hl
    rw [h] at h'
    obtain ⟨u, ys, h1, h2, h3⟩ := h'
    obtain ⟨w, zs, h4, h5, h6⟩ := ih ((hS.reads_isPartial h1).trans hp) h2
    exact ⟨u ++ w, zs, reads_append h1 h4, h5, fun r h => .more h3 (h6 r h)⟩

theorem backtracks_many (hS : S.Lawful) {m : Sem S.Input Unit α} (hm : Backtracks rules a m)
    (hh : ∀ i, S.isPartial i = false → ∀ e, m i ≠ .hard e)
    {n : Sem S.Input Unit (List α)} (hn : ∀ i, Ref.IsMany m i (n i)) : Backtracks rules a.star n := by
  intro i xs hp hl
  obtain ⟨vs, c, k, h1, h2⟩ := hn i
  obtain ⟨u, ys, h3, h4, h5⟩ := backtracks_run hS hm h1 hp hl
  have hp' := (hS.reads_isPartial h3).trans hp
  have hk := hm k ys hp' h4
  cases hx : m k with
  | ok c v j => rw [hx] at h2; exact h2.elim
  | abort x => rw [hx] at h2; rw [h2]; trivial
  | hard e => exact absurd hx (hh k hp' e)
  | soft =>
    rw [hx] at h2 hk
    rw [h2]
    exact ⟨u, ys, h3, h4, h5 _ (.stop hk)⟩

theorem backtracks_lookAhead {m : Sem S.Input Unit α} (hm : Backtracks rules a m) :
    Backtracks rules a.look (Ref.lookAhead m) := by
  intro i xs hp hl
  have h := hm i xs hp hl
  dsimp only [Ref.lookAhead]
  revert h
  cases m i with
  | abort x => exact fun _ => trivial
  | soft => exact fun h => .lookFail h
  | hard e => exact fun h => .lookFail h
  | ok c v j => rintro ⟨u, ys, h1, h2, h3⟩; exact ⟨[], xs, .nil i, hl, .look h3⟩

theorem backtracks_notFollowedBy {m : Sem S.Input Unit α} (hm : Backtracks rules a m) :
    Backtracks rules a.not (Ref.notFollowedBy m) := by
  intro i xs hp hl
  have h := hm i xs hp hl
  dsimp only [Ref.notFollowedBy]
  revert h
  cases m i with
  | abort x => exact fun _ => trivial
  | soft => exact fun h => ⟨[], xs, .nil i, hl, .not h⟩
  | hard e => exact fun h => ⟨[], xs, .nil i, hl, .not h⟩
  | ok c v j => rintro ⟨u, ys, h1, h2, h3⟩; exact .notFail h3

end Verif
