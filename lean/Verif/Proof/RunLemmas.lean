import Verif.Props.Repeat

/-!
# Lemmas about maximal runs: their uniqueness, `count_min_max` step by step, the end of `sep_end_by`
-/

namespace Verif

variable {α β : Type}

/-- A maximal run is unique. -/
theorem maximal_unique {I E : Type} {m : Sem I E α} {i : I} {vs vs' : List α} {c c' : Bool} {k k' : I}
    (h : Ref.Run m i vs c k) (h' : Ref.Run m i vs' c' k') (hk : ∀ c v j, m k ≠ .ok c v j)
    (hk' : ∀ c v j, m k' ≠ .ok c v j) : vs = vs' ∧ c = c' ∧ k = k' := by
  induction h generalizing vs' c' with
  | nil i =>
    cases h' with
    | nil => exact ⟨rfl, rfl, rfl⟩
    | cons h _ => exact absurd h (hk _ _ _)
  | cons h1 h2 ih =>
    cases h' with
    | nil => exact absurd h1 (hk' _ _ _)
    | cons h1' h2' =>
      cases h1.symm.trans h1'
      obtain ⟨rfl, rfl, rfl⟩ := ih h2' hk
      exact ⟨rfl, rfl, rfl⟩

/-- `count_min_max` of at least one: the first, then the others. -/
theorem isCount_step {I : Type} {m : Sem I Unit α} {lo hi : Nat} {i : I} {x : Answer I Unit (List α)}
    (h : Ref.IsCount lo (hi + 1) m i x) :
    (match m i with
    | .ok c v j => ∃ y, Ref.IsCount (lo - 1) hi m j y ∧ x = (y.map (v :: ·)).after c
    | .soft => x = if lo = 0 then .ok false [] i else .soft
    | .hard e => x = .hard e
    | .abort e => x = .abort e) := by
  obtain ⟨vs, c, k, h1, h2, h3⟩ := h
  cases h1 with
  | nil i =>
    rw [if_neg (by simp)] at h3
    cases hx : m i with
    | ok c v j => rw [hx] at h3; exact h3.elim
    | soft =>
      rw [hx] at h3
      dsimp only at h3 ⊢
      rw [h3]
      cases lo with
      | zero => rfl
      | succ lo => simp
    | hard e => rw [hx] at h3; exact h3
    | abort e => rw [hx] at h3; exact h3
  | @cons i j k c d v vs h4 h5 =>
    rw [h4]
    dsimp only
    simp only [List.length_cons, Nat.add_right_cancel_iff] at h2 h3
    by_cases hv : vs.length = hi
    · rw [if_pos hv] at h3
      exact ⟨.ok d vs k, ⟨vs, d, k, h5, by omega, by rw [if_pos hv]⟩, by rw [h3]; rfl⟩
    · rw [if_neg hv] at h3
      cases hx : m k with
      | ok c v j => rw [hx] at h3; exact h3.elim
      | soft =>
        rw [hx] at h3
        dsimp only at h3
        refine ⟨_, ⟨vs, d, k, h5, by omega, by rw [if_neg hv, hx]⟩, ?_⟩
        rw [h3]
        by_cases hl : lo ≤ vs.length + 1
        · rw [if_pos hl, if_pos (show lo - 1 ≤ vs.length by omega)]; rfl
        · rw [if_neg hl, if_neg (show ¬ lo - 1 ≤ vs.length by omega)]
          cases c <;> cases d <;> rfl
      | hard e => rw [hx] at h3; exact ⟨_, ⟨vs, d, k, h5, by omega, by rw [if_neg hv, hx]⟩, by rw [h3]; cases c <;> rfl⟩
      | abort e => rw [hx] at h3; exact ⟨_, ⟨vs, d, k, h5, by omega, by rw [if_neg hv, hx]⟩, by rw [h3]; cases c <;> rfl⟩

theorem isCount_zero {I : Type} {m : Sem I Unit α} {lo : Nat} {i : I} {x : Answer I Unit (List α)}
    (h : Ref.IsCount lo 0 m i x) : x = .ok false [] i := by
  obtain ⟨vs, c, k, h1, h2, h3⟩ := h
  obtain rfl : vs = [] := List.length_eq_zero_iff.1 (Nat.le_zero.1 h2)
  cases h1
  rw [if_pos (show ([] : List α).length = 0 from rfl)] at h3
  exact h3

/-- A maximal run, when `IsSepEndRest` tells the answer. -/
theorem sep_rest_stop {I : Type} {m : Sem I Unit α} {s : Sem I Unit β} {c : Bool} {v : α} {j : I}
    {x : Answer I Unit (List α)} (h : Ref.IsSepEndRest m s c v j x) :
    ∃ vs d k, Ref.Run (Ref.bind s fun _ => m) j vs d k ∧ (∀ c v j, Ref.bind s (fun _ => m) k ≠ .ok c v j) ∧
      (match s k with
      | .soft => x = .ok (c || d) (v :: vs) k
      | .hard e => x = .hard e
      | .abort y => x = .abort y
      | .ok c' _ k' =>
        match m k' with
        | .ok _ _ _ => False
        | .soft => x = .ok (c || d || c') (v :: vs) k'
        | .hard e => x = .hard e
        | .abort y => x = .abort y) := by
  obtain ⟨vs, d, k, h1, h2⟩ := h
  refine ⟨vs, d, k, h1, ?_, by
    revert h2
    cases s k with
    | ok c' v' k' => dsimp only; cases m k' <;> exact id
    | _ => exact id⟩
  intro c' v' j' e
  simp only [Ref.bind] at e
  cases hs : s k with
  | soft => rw [hs] at e; cases e
  | hard _ => rw [hs] at e; cases e
  | abort _ => rw [hs] at e; cases e
  | ok c2 v2 k2 =>
    rw [hs] at e h2
    dsimp only at e h2
    cases hm : m k2 with
    | ok _ _ _ => rw [hm] at h2; exact h2
    | soft => rw [hm] at e; cases c2 <;> cases e
    | hard _ => rw [hm] at e; cases c2 <;> cases e
    | abort _ => rw [hm] at e; cases c2 <;> cases e

/-- `Ref.IsSepEndRest` determines the answer. -/
theorem sep_rest_unique {I : Type} {m : Sem I Unit α} {s : Sem I Unit β} {c : Bool} {v : α} {j : I}
    {x y : Answer I Unit (List α)} (h : Ref.IsSepEndRest m s c v j x) (h' : Ref.IsSepEndRest m s c v j y) : x = y := by
  obtain ⟨vs, d, k, h1, h2, h3⟩ := sep_rest_stop h
  obtain ⟨vs', d', k', h1', h2', h3'⟩ := sep_rest_stop h'
  obtain ⟨rfl, rfl, rfl⟩ := maximal_unique h1 h1' h2 h2'
  revert h3 h3'
  cases s k with
  | ok c' v' k' =>
    dsimp only
    cases m k' with
    | ok _ _ _ => exact fun h => h.elim
    | _ => rintro rfl rfl; rfl
  | _ => rintro rfl rfl; rfl

/-- `Ref.IsSepEndBy1` determines the answer. -/
theorem sep_end_unique {I : Type} {m : Sem I Unit α} {s : Sem I Unit β} {i : I} {x y : Answer I Unit (List α)}
    (h : Ref.IsSepEndBy1 m s i x) (h' : Ref.IsSepEndBy1 m s i y) : x = y := by
  simp only [Ref.IsSepEndBy1] at h h'
  revert h h'
  cases m i with
  | ok c v j => exact sep_rest_unique
  | _ => rintro rfl rfl; rfl

end Verif
