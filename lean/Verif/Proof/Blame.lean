import Verif.Spec.Blame
import Verif.Proof.Grammar
import Verif.Proof.RangeLemmas

/-!
# Viable prefixes and the reference combinators
-/

namespace Verif

variable {S : Strm} {N σ τ α β : Type} {rules : N → Gram N S.Tok} {a b : Gram N S.Tok} {F : S.Tok → Prop}

namespace Gram

variable {T : Type} {rules : N → Gram N T} {a b : Gram N T} {u w : List T}

theorem useful_derives (h : a.Useful rules) : ∃ w, a.Derives rules w := by
  induction a with
  | empty => exact ⟨[], .empty⟩
  | one f => obtain ⟨t, ht⟩ := h; exact ⟨[t], .one ht⟩
  | seq a b iha ihb =>
    obtain ⟨u, hu⟩ := iha h.1
    obtain ⟨v, hv⟩ := ihb h.2
    exact ⟨u ++ v, .seq hu hv⟩
  | alt a b iha _ => obtain ⟨u, hu⟩ := iha h.1; exact ⟨u, .left hu⟩
  | star a _ => exact ⟨[], .stop⟩
  | ref n => obtain ⟨w, hw⟩ := h; exact ⟨w, .ref hw⟩

theorem viable_of_derives (h : a.Derives rules w) : a.Viable rules w := ⟨[], by simpa using h⟩

theorem viable_nil (h : a.Useful rules) : a.Viable rules [] := useful_derives h

theorem viable_left (h : a.Viable rules w) (hb : b.Useful rules) : (a.seq b).Viable rules w := by
  obtain ⟨v, h⟩ := h
  obtain ⟨x, hx⟩ := useful_derives hb
  exact ⟨v ++ x, by rw [← List.append_assoc]; exact .seq h hx⟩

theorem viable_right (h : a.Derives rules u) (hb : b.Viable rules w) : (a.seq b).Viable rules (u ++ w) := by
  obtain ⟨v, hb⟩ := hb
  exact ⟨v, by rw [List.append_assoc]; exact .seq h hb⟩

theorem viable_more (h : a.Derives rules u) (hb : a.star.Viable rules w) : a.star.Viable rules (u ++ w) := by
  obtain ⟨v, hb⟩ := hb
  exact ⟨v, by rw [List.append_assoc]; exact .more h hb⟩

theorem viable_star (h : a.Viable rules w) : a.star.Viable rules w := by
  obtain ⟨v, h⟩ := h
  exact ⟨v, by have := Derives.more h (.stop (a := a)); simpa using this⟩

theorem viable_alt : (a.alt b).Viable rules w ↔ a.Viable rules w ∨ b.Viable rules w := by
  constructor
  · rintro ⟨v, h⟩
    rcases derives_alt.1 h with h | h
    · exact .inl ⟨v, h⟩
    · exact .inr ⟨v, h⟩
  · rintro (⟨v, h⟩ | ⟨v, h⟩)
    · exact ⟨v, .left h⟩
    · exact ⟨v, .right h⟩

theorem viable_first {t : T} {ts : List T} (h : a.Viable rules (t :: ts)) : a.First rules t := by
  obtain ⟨v, h⟩ := h
  exact derives_first h _ _ rfl

theorem star_seq {g : Gram N T} (h : g.Derives rules w) (hg : g = a.star) (hw : w ≠ []) :
    (a.seq a.star).Derives rules w := by
  induction h with
  | stop => exact absurd rfl hw
  | more h1 h2 =>
    cases hg
    exact .seq h1 h2
  | _ => cases hg

theorem viable_star_seq {t : T} (h : a.star.Viable rules (w ++ [t])) :
    (a.seq a.star).Viable rules (w ++ [t]) := by
  obtain ⟨v, h⟩ := h
  exact ⟨v, star_seq h rfl (by simp)⟩

end Gram

/-- Two splits of one text. -/
private theorem append_compare {T : Type} {u x v y : List T} (h : u ++ x = v ++ y) :
    (∃ z, v = u ++ z ∧ x = z ++ y) ∨ (∃ z, u = v ++ z ∧ z ≠ [] ∧ y = z ++ x) := by
  rcases List.append_eq_append_iff.1 h with ⟨z, h1, h2⟩ | ⟨z, h1, h2⟩
  · exact .inl ⟨z, h1, h2⟩
  · cases z with
    | nil => exact .inl ⟨[], by simpa using h1.symm, by simpa using h2.symm⟩
    | cons t ts => exact .inr ⟨t :: ts, h1, by simp, h2⟩

/-- The parser for `a` stops as soon as `b` can begin. -/
private theorem accepts_shorter {m : Sem S.Input Unit α} (hm : Accepts rules a (b.Then rules F) m) {i k : S.Input}
    {u z v : List S.Tok} (hp : S.isPartial i = false) (hr : S.Reads i (u ++ z) k) (hz : z ≠ []) (h1 : a.Derives rules u)
    (h2 : b.Derives rules (z ++ v)) :
    ∃ l, S.Reads i u l ∧ S.Reads l z k ∧ ((∃ c x, m i = .ok c x l) ∨ ∃ x, m i = .abort x) := by
  obtain ⟨l, h3, h4⟩ := reads_split hr
  refine ⟨l, h3, h4, hm i u l hp h3 h1 fun t j hu => ?_⟩
  cases z with
  | nil => exact absurd rfl hz
  | cons t' ts =>
    obtain ⟨j', hj⟩ := reads_head h4
    rw [hu] at hj
    cases hj
    exact .inl (Gram.derives_first h2 _ _ rfl)

/-- Where the first part of a sequence fails. -/
theorem beyond_left {m : Sem S.Input Unit α} (hm : Accepts rules a (b.Then rules F) m) {i l : S.Input} {w : List S.Tok}
    (hp : S.isPartial i = false) (hr : S.Reads i w l) (hok : ∀ c v j, m i ≠ .ok c v j) (hab : ∀ x, m i ≠ .abort x)
    (h : S.Beyond rules a w l) : S.Beyond rules (a.seq b) w l := by
  rintro t k hu ⟨r, hd⟩
  obtain ⟨u, v, he, h1, h2⟩ := Gram.derives_seq.1 hd
  rcases append_compare he with ⟨z, rfl, _⟩ | ⟨z, h3, hz, rfl⟩
  · exact h t k hu ⟨z, h1⟩
  · have hr' : S.Reads i (u ++ z) k := h3 ▸ reads_append hr (.cons hu (.nil k))
    obtain ⟨l', _, _, h4⟩ := accepts_shorter hm hp hr' hz h1 h2
    rcases h4 with ⟨c, x, h4⟩ | ⟨x, h4⟩
    · exact hok _ _ _ h4
    · exact hab _ h4

/-- Where the second part of a sequence fails, or stops. -/
theorem beyond_right (hS : S.Lawful) {m : Sem S.Input Unit α} (hm : Accepts rules a (b.Then rules F) m) {i j l : S.Input}
    {u w : List S.Tok} (hp : S.isPartial i = false) {c : Bool} {x : α} (hx : m i = .ok c x j) (hr : S.Reads i u j)
    (hr' : S.Reads j w l) (h : S.Beyond rules a u j) (h' : S.Beyond rules b w l) :
    S.Beyond rules (a.seq b) (u ++ w) l := by
  rintro t k hu ⟨r, hd⟩
  obtain ⟨u2, v2, he, h1, h2⟩ := Gram.derives_seq.1 hd
  rw [List.append_assoc, List.append_assoc] at he
  have hread : S.Reads j (w ++ [t]) k := reads_append hr' (.cons hu (.nil k))
  rcases append_compare he with ⟨z, rfl, h3⟩ | ⟨z, h3, hz, rfl⟩
  · cases z with
    | nil =>
      simp only [List.nil_append] at h3
      subst h3
      exact h' t k hu ⟨r, by rw [List.append_assoc]; exact h2⟩
    | cons y ys =>
      -- the first part could have been longer
      have hy : ∃ k', S.uncons j = (.ok y, k') := by
        cases w with
        | nil =>
          simp only [List.nil_append, List.cons_append, List.cons.injEq] at h3
          obtain ⟨rfl, _⟩ := h3
          exact reads_head hread
        | cons y' ys' =>
          simp only [List.cons_append, List.cons.injEq] at h3
          obtain ⟨rfl, _⟩ := h3
          exact reads_head hread
      obtain ⟨k', hk'⟩ := hy
      exact h y k' hk' ⟨ys, by rw [List.append_assoc]; exact h1⟩
  · subst h3
    obtain ⟨l', h4, h5, h6⟩ := accepts_shorter hm hp hr hz h1 h2
    rcases h6 with ⟨c', x', h6⟩ | ⟨x', h6⟩
    · rw [h6] at hx
      cases hx
      cases z with
      | nil => exact hz rfl
      | cons t' ts =>
        have := hS.reads_size h5
        simp only [List.length_cons] at this
        omega
    · rw [h6] at hx; cases hx

/-- The first token of what is read up to and including the token at `l`. -/
private theorem head_of {i l k : S.Input} {w : List S.Tok} {t : S.Tok} (hr : S.Reads i w l) (hu : S.uncons l = (.ok t, k)) :
    ∃ t0 ts j, w ++ [t] = t0 :: ts ∧ S.uncons i = (.ok t0, j) := by
  have h := reads_append hr (.cons hu (.nil k))
  cases w with
  | nil => obtain ⟨j, hj⟩ := reads_head h; exact ⟨t, [], j, rfl, hj⟩
  | cons t0 ts => obtain ⟨j, hj⟩ := reads_head h; exact ⟨t0, ts ++ [t], j, rfl, hj⟩

/-- In a choice: no alternative that cannot begin here matters. -/
theorem beyond_alt {i l : S.Input} {w : List S.Tok} (hr : S.Reads i w l) (h : S.Beyond rules a w l)
    (hb : S.Unfit rules b i) : S.Beyond rules (a.alt b) w l ∧ S.Beyond rules (b.alt a) w l := by
  have key : ∀ t k, S.uncons l = (.ok t, k) → ¬ b.Viable rules (w ++ [t]) := by
    intro t k hu hv
    obtain ⟨t0, ts, j, h1, h2⟩ := head_of hr hu
    rw [h1] at hv
    exact hb t0 j h2 (Gram.viable_first hv)
  constructor <;> intro t k hu hv <;> rcases Gram.viable_alt.1 hv with h' | h'
  · exact h t k hu h'
  · exact key t k hu h'
  · exact key t k hu h'
  · exact h t k hu h'

/-- What begins with a token of `a` does not begin with one of `b`. -/
theorem unfit_of_first {i j : S.Input} {t : S.Tok} (hu : S.uncons i = (.ok t, j)) (ht : a.First rules t)
    (h : Gram.Apart (a.First rules) (b.First rules)) : S.Unfit rules b i := by
  intro t' j' hu' ht'
  rw [hu] at hu'
  cases hu'
  exact h t ht ht'

theorem beyond_nil {i : S.Input} (h : S.Unfit rules a i) : S.Beyond rules a [] i :=
  fun t k hu hv => h t k hu (Gram.viable_first hv)

theorem beyond_star {w : List S.Tok} {l : S.Input} (h : S.Beyond rules (a.seq a.star) w l) : S.Beyond rules a.star w l :=
  fun t k hu hv => h t k hu (Gram.viable_star_seq hv)

/-- The parser stops only where `a` derives nothing longer. -/
def Stops (rules : N → Gram N S.Tok) (a : Gram N S.Tok) (m : Sem S.Input Unit α) : Prop :=
  ∀ i c v j w, S.isPartial i = false → m i = .ok c v j → S.Reads i w j → S.Beyond rules a w j

theorem stops_map {m : Sem S.Input Unit α} (h : Stops rules a m) (f : α → β) : Stops rules a (Ref.map m f) := by
  intro i c v j w hp hx hr
  simp only [Ref.map] at hx
  cases hm : m i with
  | ok c' v' j' => rw [hm] at hx; cases hx; exact h i _ _ _ w hp hm hr
  | _ => rw [hm] at hx; cases hx

theorem stops_congr {m n : Sem S.Input Unit α} (h : ∀ i, m i = n i) (hn : Stops rules a n) : Stops rules a m :=
  (funext h : m = n) ▸ hn

theorem stops_value (v : α) : Stops (S := S) rules .empty (Ref.value v) := by
  rintro i c v' j w _ hx hr t k hu ⟨r, h⟩
  cases h' : w ++ [t] ++ r with
  | nil => simp at h'
  | cons x xs => rw [h'] at h; cases h

theorem stops_bind (hS : S.Lawful) {m : Sem S.Input Unit α} {f : α → Sem S.Input Unit β}
    (hm : Predicts rules a m) (hm' : Accepts rules a (b.Then rules F) m) (hs : Stops rules a m)
    (hf : ∀ v, Predicts rules b (f v)) (hfs : ∀ v, Stops rules b (f v)) : Stops rules (a.seq b) (Ref.bind m f) := by
  intro i c v k w hp hx hr
  simp only [Ref.bind] at hx
  cases hy : m i with
  | ok c1 v1 j =>
    rw [hy] at hx
    dsimp only at hx
    cases hz : f v1 j with
    | ok c2 v2 k2 =>
      rw [hz] at hx
      cases hx
      have h1 := hm i
      rw [hy] at h1
      obtain ⟨u, h2, _⟩ := h1
      have h3 := hf v1 j
      rw [hz] at h3
      obtain ⟨w', h4, _⟩ := h3
      have h5 := hS.reads_isPartial h2
      have h6 := reads_comparable (reads_append h2 h4) hr
      have h7 : w = u ++ w' := by
        rcases h6 with ⟨cs, h7, h8⟩ | ⟨cs, h7, h8⟩
        · have := hS.reads_size h8
          have : cs = [] := List.length_eq_zero_iff.1 (by omega)
          subst this
          simpa using h7
        · have := hS.reads_size h8
          have : cs = [] := List.length_eq_zero_iff.1 (by omega)
          subst this
          simpa using h7.symm
      subst h7
      exact beyond_right hS hm' hp hy h2 h4 (hs i _ _ _ u hp hy h2) (hfs v1 j _ _ _ w' (h5.trans hp) hz h4)
    | soft => rw [hz] at hx; cases c1 <;> cases hx
    | hard e => rw [hz] at hx; cases hx
    | abort x => rw [hz] at hx; cases hx
  | soft => rw [hy] at hx; cases hx
  | hard e => rw [hy] at hx; cases hx
  | abort x => rw [hy] at hx; cases hx

theorem stops_or {m n : Sem S.Input Unit α} (hm : Predicts rules a m) (hsm : Stops rules a m)
    (hsn : Stops rules b n) (ha : ¬ a.Null rules) (hab : Gram.Apart (a.First rules) (b.First rules)) :
    Stops rules (a.alt b) (orSem m n) := by
  intro i c v j w hp hx hr
  dsimp only [orSem] at hx
  have hmi := hm i
  cases hy : m i with
  | ok c' v' j' =>
    rw [hy] at hx hmi
    cases hx
    obtain ⟨u, h1, h2, _⟩ := hmi
    have hu : S.Unfit rules b i := by
      cases u with
      | nil => exact absurd h2 ha
      | cons t ts =>
        obtain ⟨l, hl⟩ := reads_head h1
        exact unfit_of_first hl (Gram.derives_first h2 _ _ rfl) hab
    exact (beyond_alt hr (hsm i _ _ _ w hp hy hr) hu).1
  | soft =>
    rw [hy] at hx hmi
    exact (beyond_alt hr (hsn i _ _ _ w hp hx hr) hmi.1).2
  | hard e => rw [hy] at hx; cases hx
  | abort x => rw [hy] at hx; cases hx

/-- The elements of a repetition that were parsed. -/
theorem beyond_run (hS : S.Lawful) {m : Sem S.Input Unit α} (hm : Predicts rules a m)
    (hm' : Accepts rules a (fun t => a.First rules t ∨ F t) m) (hs : Stops rules a m) {i k : S.Input} {vs : List α}
    {c : Bool} (h : Ref.Run m i vs c k) (hp : S.isPartial i = false) {l : S.Input} {w : List S.Tok} (hw : S.Reads k w l)
    (hb : S.Beyond rules a.star w l) :
    ∃ u, S.Reads i u k ∧ a.star.Derives rules u ∧ S.Beyond rules a.star (u ++ w) l := by
  have hm'' : Accepts rules a (a.star.Then rules F) m := fun i w k h1 h2 h3 h4 =>
    hm' i w k h1 h2 h3 fun t l hu => (h4 t l hu).imp Gram.first_star.1 (·.2)
  induction h with
  | nil i => exact ⟨[], .nil i, .stop, hb⟩
  | @cons i j k c d v vs h _ ih =>
    have h1 := hm i
    rw [h] at h1
    obtain ⟨u, h2, h3, _⟩ := h1
    obtain ⟨u', h4, h5, h6⟩ := ih ((hS.reads_isPartial h2).trans hp) hw
    refine ⟨u ++ u', reads_append h2 h4, .more h3 h5, ?_⟩
    rw [List.append_assoc]
    exact beyond_star (beyond_right hS hm'' hp h h2 (reads_append h4 hw) (hs i _ _ _ u hp h h2) h6)

theorem stops_many (hS : S.Lawful) {m : Sem S.Input Unit α} (hm : Predicts rules a m)
    (hm' : Accepts rules a (fun t => a.First rules t ∨ F t) m) (hs : Stops rules a m)
    {n : Sem S.Input Unit (List α)} (hn : ∀ i, Ref.IsMany m i (n i)) : Stops rules a.star n := by
  intro i c v j w hp hx hr
  obtain ⟨vs, c', k, h1, h2⟩ := hn i
  have hk := hm k
  cases hy : m k with
  | ok c v j => rw [hy] at h2; exact h2.elim
  | abort x => rw [hy] at h2; rw [h2] at hx; cases hx
  | hard e => rw [hy] at h2; rw [h2] at hx; cases hx
  | soft =>
    rw [hy] at h2 hk
    rw [h2] at hx
    cases hx
    obtain ⟨u, h3, _, h5⟩ := beyond_run hS hm hm' hs h1 hp (.nil j)
      (beyond_nil fun t l hu ht => hk.1 t l hu (Gram.first_star.1 ht))
    rw [List.append_nil] at h5
    have h7 : w = u := by
      rcases reads_comparable h3 hr with ⟨cs, h7, h8⟩ | ⟨cs, h7, h8⟩
      · have := hS.reads_size h8
        have : cs = [] := List.length_eq_zero_iff.1 (by omega)
        subst this
        simpa using h7
      · have := hS.reads_size h8
        have : cs = [] := List.length_eq_zero_iff.1 (by omega)
        subst this
        simpa using h7.symm
    exact h7 ▸ h5

end Verif
