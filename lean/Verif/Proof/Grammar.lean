import Verif.Spec.Grammar
import Verif.Props.Repeat

/-!
# Grammars and the reference combinators
-/

namespace Verif

namespace Gram

variable {N T : Type} {rules : N → Gram N T} {a b : Gram N T} {w : List T} {t : T}

theorem derives_seq : (seq a b).Derives rules w ↔ ∃ u v, w = u ++ v ∧ a.Derives rules u ∧ b.Derives rules v := by
  constructor
  · intro h
    cases h with
    | seq h1 h2 => exact ⟨_, _, rfl, h1, h2⟩
  · rintro ⟨u, v, rfl, h1, h2⟩
    exact .seq h1 h2

theorem null_seq : (seq a b).Null rules ↔ a.Null rules ∧ b.Null rules := by
  rw [Null, derives_seq]
  constructor
  · rintro ⟨u, v, h, h1, h2⟩
    obtain ⟨rfl, rfl⟩ := List.nil_eq_append_iff.1 h
    exact ⟨h1, h2⟩
  · rintro ⟨h1, h2⟩
    exact ⟨[], [], rfl, h1, h2⟩

theorem derives_alt : (alt a b).Derives rules w ↔ a.Derives rules w ∨ b.Derives rules w := by
  constructor
  · intro h
    cases h with
    | left h => exact .inl h
    | right h => exact .inr h
  · rintro (h | h)
    · exact .left h
    · exact .right h

theorem derives_ref {n : N} : (ref n).Derives rules w ↔ (rules n).Derives rules w :=
  ⟨fun h => by cases h; assumption, .ref⟩

theorem first_seq : (seq a b).First rules t ↔ a.First rules t ∨ (a.Null rules ∧ b.First rules t) := by
  constructor
  · intro h
    cases h with
    | seq h => exact .inl h
    | next h1 h2 => exact .inr ⟨h1, h2⟩
  · rintro (h | ⟨h1, h2⟩)
    · exact .seq h
    · exact .next h1 h2

theorem first_alt : (alt a b).First rules t ↔ a.First rules t ∨ b.First rules t := by
  constructor
  · intro h
    cases h with
    | left h => exact .inl h
    | right h => exact .inr h
  · rintro (h | h)
    · exact .left h
    · exact .right h

theorem first_star : (star a).First rules t ↔ a.First rules t := ⟨fun h => by cases h; assumption, .star⟩

theorem first_ref {n : N} : (ref n).First rules t ↔ (rules n).First rules t :=
  ⟨fun h => by cases h; assumption, .ref⟩

theorem first_one {f : T → Bool} : (one f : Gram N T).First rules t ↔ f t = true :=
  ⟨fun h => by cases h; assumption, .one⟩

theorem not_first_empty : ¬ (empty : Gram N T).First rules t := fun h => by cases h

theorem null_one {f : T → Bool} : ¬ (one f : Gram N T).Null rules := fun h => by cases h

theorem null_empty : (empty : Gram N T).Null rules := .empty

theorem null_star : (star a).Null rules := .stop

theorem null_alt : (alt a b).Null rules ↔ a.Null rules ∨ b.Null rules := derives_alt

theorem null_ref {n : N} : (ref n).Null rules ↔ (rules n).Null rules := derives_ref

/-- The FIRST sets are right. -/
theorem derives_first {g : Gram N T} (h : g.Derives rules w) : ∀ t ts, w = t :: ts → g.First rules t := by
  induction h with
  | empty => intro t ts h; cases h
  | one hf => intro t ts h; cases h; exact .one hf
  | @seq a b u v h1 h2 ih1 ih2 =>
    intro t ts h
    cases u with
    | nil => exact .next h1 (ih2 t ts h)
    | cons x xs =>
      cases h
      exact .seq (ih1 _ _ rfl)
  | left _ ih => exact fun t ts h => .left (ih t ts h)
  | right _ ih => exact fun t ts h => .right (ih t ts h)
  | stop => intro t ts h; cases h
  | @more a u v h1 h2 ih1 ih2 =>
    intro t ts h
    cases u with
    | nil => exact ih2 t ts h
    | cons x xs =>
      cases h
      exact .star (ih1 _ _ rfl)
  | ref _ ih => exact fun t ts h => .ref (ih t ts h)

end Gram

variable {S : Strm} {N α β : Type} {rules : N → Gram N S.Tok} {a b : Gram N S.Tok} {F : S.Tok → Prop}

theorem reads_append {i j k : S.Input} {u v : List S.Tok} (h1 : S.Reads i u j) (h2 : S.Reads j v k) :
    S.Reads i (u ++ v) k := by
  induction h1 with
  | nil i => exact h2
  | cons h _ ih => exact .cons h (ih h2)

theorem reads_split {i k : S.Input} {u v : List S.Tok} (h : S.Reads i (u ++ v) k) : ∃ j, S.Reads i u j ∧ S.Reads j v k := by
  induction u generalizing i with
  | nil => exact ⟨i, .nil i, h⟩
  | cons t ts ih =>
    rw [List.cons_append] at h
    obtain ⟨j, h1, h2⟩ := Strm.reads_cons.1 h
    obtain ⟨l, h3, h4⟩ := ih h2
    exact ⟨l, .cons h1 h3, h4⟩

theorem reads_head {i k : S.Input} {t : S.Tok} {ts : List S.Tok} (h : S.Reads i (t :: ts) k) : ∃ j, S.uncons i = (.ok t, j) := by
  obtain ⟨j, h1, _⟩ := Strm.reads_cons.1 h
  exact ⟨j, h1⟩

theorem reads_next {i k : S.Input} {w : List S.Tok} (h : S.Reads i w k) (hg : a.Derives rules w)
    (hF : ∀ t l, S.uncons k = (.ok t, l) → F t) (t : S.Tok) (l : S.Input) (hu : S.uncons i = (.ok t, l)) :
    (w ≠ [] ∧ a.First rules t) ∨ (w = [] ∧ F t) := by
  cases w with
  | nil =>
    cases Strm.reads_nil.1 h
    exact .inr ⟨rfl, hF t l hu⟩
  | cons x xs =>
    obtain ⟨j, hj⟩ := reads_head h
    rw [hu] at hj
    cases hj
    exact .inl ⟨by simp, Gram.derives_first hg _ _ rfl⟩

theorem predicts_bind {m : Sem S.Input Unit α} {f : α → Sem S.Input Unit β} (hm : Predicts rules a m)
    (hf : ∀ v, Predicts rules b (f v)) : Predicts rules (a.seq b) (Ref.bind m f) := by
  intro i
  have h := hm i
  simp only [Ref.bind]
  revert h
  cases hx : m i with
  | abort x => exact fun _ => trivial
  | soft =>
    rintro ⟨h1, h2⟩
    refine ⟨fun t j hu ht => ?_, fun hn => h2 (Gram.null_seq.1 hn).1⟩
    rcases Gram.first_seq.1 ht with h | ⟨h, _⟩
    · exact h1 t j hu h
    · exact h2 h
  | hard e =>
    rintro (⟨t, j, h1, h2⟩ | h)
    · exact .inl ⟨t, j, h1, .seq h2⟩
    · exact .inr h
  | ok c v j =>
    rintro ⟨w, h1, h2, rfl, h4⟩
    have h' := hf v j
    revert h'
    cases w with
    | nil =>
      cases Strm.reads_nil.1 h1
      have h4 := h4 rfl
      have hun : S.Unfit rules b i → S.Unfit rules (a.seq b) i := by
        intro hb t j hu ht
        rcases Gram.first_seq.1 ht with h | ⟨_, h⟩
        · exact h4 t j hu h
        · exact hb t j hu h
      dsimp only
      cases hy : f v i with
      | abort x => exact fun _ => trivial
      | soft =>
        rintro ⟨h5, h6⟩
        exact ⟨hun h5, fun hn => h6 (Gram.null_seq.1 hn).2⟩
      | hard e =>
        rintro (⟨t, j, h5, h6⟩ | h)
        · exact .inl ⟨t, j, h5, .next h2 h6⟩
        · exact .inr h
      | ok c v' k =>
        rintro ⟨w', h5, h6, rfl, h7⟩
        exact ⟨w', h5, Gram.Derives.seq h2 h6, rfl, fun h => hun (h7 h)⟩
    | cons t ts =>
      obtain ⟨l, hl⟩ := reads_head h1
      have hfirst : (a.seq b).First rules t := .seq (Gram.derives_first h2 _ _ rfl)
      dsimp only
      cases hy : f v j with
      | abort x => exact fun _ => trivial
      | soft => exact fun _ => .inl ⟨t, l, hl, hfirst⟩
      | hard e => exact fun _ => .inl ⟨t, l, hl, hfirst⟩
      | ok c v' k =>
        rintro ⟨w', h5, h6, rfl, h7⟩
        exact ⟨t :: ts ++ w', reads_append h1 h5, .seq h2 h6, by simp, fun h => by cases h⟩

theorem accepts_bind (hS : S.Lawful) {m : Sem S.Input Unit α} {f : α → Sem S.Input Unit β}
    (hm : Accepts rules a (b.Then rules F) m) (hf : ∀ v, Accepts rules b F (f v)) :
    Accepts rules (a.seq b) F (Ref.bind m f) := by
  intro i w k hp hr hd hF
  obtain ⟨u, v, rfl, h1, h2⟩ := Gram.derives_seq.1 hd
  obtain ⟨j, h3, h4⟩ := reads_split hr
  have hnext : ∀ t l, S.uncons j = (.ok t, l) → b.Then rules F t := by
    intro t l hu
    rcases reads_next h4 h2 hF t l hu with ⟨_, h⟩ | ⟨rfl, h⟩
    · exact .inl h
    · exact .inr ⟨h2, h⟩
  simp only [Ref.bind]
  rcases hm i u j hp h3 h1 hnext with ⟨c, x, hx⟩ | ⟨x, hx⟩
  · rw [hx]
    have hp' : S.isPartial j = false := (hS.reads_isPartial h3).trans hp
    rcases hf x j v k hp' h4 h2 hF with ⟨d, y, hy⟩ | ⟨y, hy⟩
    · exact .inl ⟨c || d, y, by dsimp only; rw [hy]; rfl⟩
    · exact .inr ⟨y, by dsimp only; rw [hy]; rfl⟩
  · rw [hx]
    exact .inr ⟨x, rfl⟩

/-- Where a parser cannot succeed it fails softly. -/
theorem predicts_soft {m : Sem S.Input Unit α} (hm : Predicts rules a m) {i : S.Input} (hp : S.isPartial i = false)
    (hu : S.Unfit rules a i) (hn : ¬ a.Null rules) : m i = .soft ∨ ∃ x, m i = .abort x := by
  have h := hm i
  revert h
  cases m i with
  | abort x => exact fun _ => .inr ⟨x, rfl⟩
  | soft => exact fun _ => .inl rfl
  | hard e =>
    rintro (⟨t, j, h1, h2⟩ | ⟨h, _⟩)
    · exact absurd h2 (hu t j h1)
    · rw [hp] at h; cases h
  | ok c v j =>
    rintro ⟨w, h1, h2, _, _⟩
    cases w with
    | nil => exact absurd h2 hn
    | cons t ts =>
      obtain ⟨l, hl⟩ := reads_head h1
      exact absurd (Gram.derives_first h2 _ _ rfl) (hu t l hl)

/-- The second where the first fails softly. -/
def orSem (m n : Sem S.Input Unit α) : Sem S.Input Unit α := fun i =>
  match m i with
  | .soft => n i
  | r => r

theorem predicts_or {m n : Sem S.Input Unit α} (hm : Predicts rules a m) (hn : Predicts rules b n) (ha : ¬ a.Null rules) :
    Predicts rules (a.alt b) (orSem m n) := by
  intro i
  have h := hm i
  revert h
  dsimp only [orSem]
  cases hx : m i with
  | abort x => exact fun _ => trivial
  | hard e =>
    rintro (⟨t, j, h1, h2⟩ | h)
    · exact .inl ⟨t, j, h1, .left h2⟩
    · exact .inr h
  | ok c v j =>
    rintro ⟨w, h1, h2, h3, _⟩
    exact ⟨w, h1, .left h2, h3, fun h => by subst h; exact absurd h2 ha⟩
  | soft =>
    rintro ⟨h1, h2⟩
    have hun : S.Unfit rules b i → S.Unfit rules (a.alt b) i := by
      intro hb t j hu ht
      rcases Gram.first_alt.1 ht with h | h
      · exact h1 t j hu h
      · exact hb t j hu h
    have h' := hn i
    revert h'
    dsimp only [orSem]
    cases n i with
    | abort x => exact fun _ => trivial
    | hard e =>
      rintro (⟨t, j, h3, h4⟩ | h)
      · exact .inl ⟨t, j, h3, .right h4⟩
      · exact .inr h
    | soft =>
      rintro ⟨h3, h4⟩
      refine ⟨hun h3, fun h => ?_⟩
      rcases Gram.derives_alt.1 h with h | h
      · exact h2 h
      · exact h4 h
    | ok c v j =>
      rintro ⟨w, h3, h4, h5, h6⟩
      exact ⟨w, h3, .right h4, h5, fun h => hun (h6 h)⟩

theorem accepts_or {m n : Sem S.Input Unit α} (hm : Predicts rules a m) (hm' : Accepts rules a F m) (hn : Accepts rules b F n)
    (ha : ¬ a.Null rules) (h1 : Gram.Apart (a.First rules) (b.First rules))
    (h2 : b.Null rules → Gram.Apart (a.First rules) F) :
    Accepts rules (a.alt b) F (orSem m n) := by
  intro i w k hp hr hd hF
  rcases Gram.derives_alt.1 hd with hd | hd
  · rcases hm' i w k hp hr hd hF with ⟨c, v, h⟩ | ⟨x, h⟩
    · exact .inl ⟨c, v, by dsimp only [orSem]; rw [h]⟩
    · exact .inr ⟨x, by dsimp only [orSem]; rw [h]⟩
  · have hun : S.Unfit rules a i := by
      intro t l hu ht
      rcases reads_next hr hd hF t l hu with ⟨_, h⟩ | ⟨rfl, h⟩
      · exact h1 t ht h
      · exact h2 hd t ht h
    rcases predicts_soft hm hp hun ha with h | ⟨x, h⟩
    · dsimp only [orSem]
      rw [h]
      exact hn i w k hp hr hd hF
    · exact .inr ⟨x, by dsimp only [orSem]; rw [h]⟩

theorem predicts_run {m : Sem S.Input Unit α} (hm : Predicts rules a m) {i k : S.Input} {vs : List α}
    {c : Bool} (h : Ref.Run m i vs c k) : ∃ w, S.Reads i w k ∧ a.star.Derives rules w ∧ c = !w.isEmpty := by
  induction h with
  | nil i => exact ⟨[], .nil i, .stop, rfl⟩
  | @cons i j k c d v vs h _ ih =>
    obtain ⟨w, h1, h2, rfl⟩ := ih
    have h' := hm i
    rw [h] at h'
    obtain ⟨u, h3, h4, rfl, _⟩ := h'
    exact ⟨u ++ w, reads_append h3 h1, .more h4 h2, by cases u <;> simp⟩

theorem predicts_many {m : Sem S.Input Unit α} (hm : Predicts rules a m)
    {n : Sem S.Input Unit (List α)} (hn : ∀ i, Ref.IsMany m i (n i)) : Predicts rules a.star n := by
  intro i
  obtain ⟨vs, c, k, h1, h2⟩ := hn i
  obtain ⟨w, h3, h4, rfl⟩ := predicts_run hm h1
  have hk := hm k
  have hfirst : ∀ t ts, w = t :: ts → ∃ j, S.uncons i = (.ok t, j) ∧ a.star.First rules t := by
    rintro t ts rfl
    obtain ⟨j, hj⟩ := reads_head h3
    exact ⟨j, hj, Gram.derives_first h4 _ _ rfl⟩
  cases hx : m k with
  | ok c v j => rw [hx] at h2; exact h2.elim
  | abort x => rw [hx] at h2; rw [h2]; trivial
  | soft =>
    rw [hx] at h2 hk
    rw [h2]
    refine ⟨w, h3, h4, rfl, ?_⟩
    rintro rfl
    cases Strm.reads_nil.1 h3
    exact fun t j hu ht => hk.1 t j hu (Gram.first_star.1 ht)
  | hard e =>
    rw [hx] at h2 hk
    rw [h2]
    cases w with
    | nil =>
      cases Strm.reads_nil.1 h3
      rcases hk with ⟨t, j, h5, h6⟩ | h
      · exact .inl ⟨t, j, h5, .star h6⟩
      · exact .inr h
    | cons t ts =>
      obtain ⟨j, h5, h6⟩ := hfirst t ts rfl
      exact .inl ⟨t, j, h5, h6⟩

private theorem accepts_run (hS : S.Lawful) {m : Sem S.Input Unit α} (hm : Predicts rules a m)
    (hm' : Accepts rules a (fun t => a.First rules t ∨ F t) m) (ha : ¬ a.Null rules)
    (hF : Gram.Apart (a.First rules) F) {g : Gram N S.Tok} {w : List S.Tok} (hd : g.Derives rules w) (hg : g = a.star)
    (i k : S.Input) (hp : S.isPartial i = false) (hr : S.Reads i w k) (hn : ∀ t l, S.uncons k = (.ok t, l) → F t) :
    ∃ vs c k', Ref.Run m i vs c k' ∧ ((k' = k ∧ m k = .soft) ∨ ∃ x, m k' = .abort x) := by
  induction hd generalizing i with
  | stop =>
    cases hg
    cases Strm.reads_nil.1 hr
    exact ⟨[], false, k, .nil k,
      (predicts_soft hm hp (fun t l hu ht => hF t ht (hn t l hu)) ha).imp (⟨rfl, ·⟩) id⟩
  | @more a' u v h1 h2 _ ih2 =>
    cases hg
    obtain ⟨j, h3, h4⟩ := reads_split hr
    have hnext : ∀ t l, S.uncons j = (.ok t, l) → a.First rules t ∨ F t := by
      intro t l hu
      rcases reads_next h4 h2 hn t l hu with ⟨_, h⟩ | ⟨_, h⟩
      · exact .inl (Gram.first_star.1 h)
      · exact .inr h
    rcases hm' i u j hp h3 h1 hnext with ⟨c, x, hx⟩ | ⟨x, hx⟩
    · obtain ⟨vs, d, k', h5, h6⟩ := ih2 rfl j ((hS.reads_isPartial h3).trans hp) h4
      exact ⟨_, _, k', .cons hx h5, h6⟩
    · exact ⟨[], false, i, .nil i, .inr ⟨x, hx⟩⟩
  | empty => cases hg
  | one => cases hg
  | seq => cases hg
  | left => cases hg
  | right => cases hg
  | ref => cases hg

theorem accepts_many (hS : S.Lawful) {m : Sem S.Input Unit α} (hm : Predicts rules a m)
    (hm' : Accepts rules a (fun t => a.First rules t ∨ F t) m) (ha : ¬ a.Null rules) (hF : Gram.Apart (a.First rules) F)
    {n : Sem S.Input Unit (List α)} (hn : ∀ i, Ref.IsMany m i (n i)) : Accepts rules a.star F n := by
  intro i w k hp hr hd hf
  obtain ⟨vs, c, k', h1, h2⟩ := accepts_run hS hm hm' ha hF hd rfl i k hp hr hf
  rcases h2 with ⟨rfl, h2⟩ | ⟨x, h2⟩
  · exact .inl ⟨c, vs, C07_unique (hn i) ⟨vs, c, k', h1, by rw [h2]⟩⟩
  · exact .inr ⟨x, C07_unique (hn i) ⟨vs, c, k', h1, by rw [h2]⟩⟩

end Verif
