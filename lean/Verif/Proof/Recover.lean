import Verif.Spec.Recover
import Verif.Proof.Grammar

/-!
# Reading back, on the level of answers
-/

namespace Verif

variable {S : Strm} {α β : Type} {F G : Option S.Tok → Prop} {w u : List S.Tok}

theorem ahead_some {i k : S.Input} {t : S.Tok} (h : S.uncons i = (.ok t, k)) : S.ahead i = some t := by
  simp only [Strm.ahead, h]

theorem ahead_of_some {i : S.Input} {t : S.Tok} (h : S.ahead i = some t) : ∃ k, S.uncons i = (.ok t, k) := by
  simp only [Strm.ahead] at h
  cases hu : S.uncons i with
  | mk x k =>
    rw [hu] at h
    cases x with
    | ok t' => cases h; exact ⟨k, rfl⟩
    | error e => cases h

theorem ahead_of_none {i : S.Input} (h : S.ahead i = none) : S.AtEnd i := by
  simp only [Strm.ahead] at h
  cases hu : S.uncons i with
  | mk x k =>
    rw [hu] at h
    cases x with
    | ok t' => cases h
    | error e => exact ⟨e, by rw [hu]⟩

theorem ahead_reads {i k : S.Input} (h : S.Reads i w k) : S.ahead i = lead w (S.ahead k) := by
  cases w with
  | nil => cases Strm.reads_nil.1 h; rfl
  | cons t ts =>
    obtain ⟨j, hj⟩ := reads_head h
    exact ahead_some hj

theorem lead_append {T : Type} (w u : List T) (o : Option T) : lead (w ++ u) o = lead w (lead u o) := by
  cases w <;> rfl

theorem before_nil {T : Type} {F : Option T → Prop} {o : Option T} : Before [] F o ↔ F o :=
  ⟨fun ⟨_, h, e⟩ => e ▸ h, fun h => ⟨o, h, rfl⟩⟩

theorem before_cons {T : Type} {F : Option T → Prop} {t : T} {ts : List T} {o : Option T} (h : Before (t :: ts) F o) :
    o = some t := by
  obtain ⟨o', _, h⟩ := h
  exact h

theorem before_append {T : Type} {F : Option T → Prop} {w u : List T} {o : Option T} :
    Before (w ++ u) F o ↔ Before w (Before u F) o := by
  constructor
  · rintro ⟨o', h, rfl⟩
    exact ⟨_, ⟨o', h, rfl⟩, lead_append w u o'⟩
  · rintro ⟨_, ⟨o', h, rfl⟩, rfl⟩
    exact ⟨o', h, (lead_append w u o').symm⟩

theorem before_mono {T : Type} {F G : Option T → Prop} {w : List T} (h : ∀ o, F o → G o) {o : Option T} (hb : Before w F o) :
    Before w G o := by
  obtain ⟨o', h1, h2⟩ := hb
  exact ⟨o', h _ h1, h2⟩

theorem readsBack_weaken {m : Sem S.Input Unit α} {v : α} (h : ReadsBack F m w v) (hG : ∀ o, G o → F o) : ReadsBack G m w v :=
  fun i k h1 h2 h3 => h i k h1 h2 (hG _ h3)

theorem refuses_weaken {m : Sem S.Input Unit α} (h : Refuses F m) (hG : ∀ o, G o → F o) : Refuses G m :=
  fun i h1 h2 => h i h1 (hG _ h2)

theorem readsBack_congr {m n : Sem S.Input Unit α} {v : α} (h : ∀ i, m i = n i) (hn : ReadsBack F n w v) : ReadsBack F m w v :=
  fun i k h1 h2 h3 => (h i).trans (hn i k h1 h2 h3)

theorem refuses_congr {m n : Sem S.Input Unit α} (h : ∀ i, m i = n i) (hn : Refuses F n) : Refuses F m :=
  fun i h1 h2 => (h i).trans (hn i h1 h2)

theorem readsBack_value (v : α) : ReadsBack F (Ref.value v) [] v := by
  intro i k _ hr _
  cases Strm.reads_nil.1 hr
  rfl

theorem readsBack_map {m : Sem S.Input Unit α} {v : α} (h : ReadsBack F m w v) (f : α → β) :
    ReadsBack F (Ref.map m f) w (f v) := by
  intro i k h1 h2 h3
  simp only [Ref.map, h i k h1 h2 h3, Answer.map]

theorem refuses_map {m : Sem S.Input Unit α} (h : Refuses F m) (f : α → β) : Refuses F (Ref.map m f) := by
  intro i h1 h2
  simp only [Ref.map, h i h1 h2, Answer.map]

theorem isEmpty_append_not {T : Type} (w u : List T) : (!w.isEmpty || !u.isEmpty) = !(w ++ u).isEmpty := by
  cases w <;> cases u <;> rfl

theorem readsBack_bind (hS : S.Lawful) {m : Sem S.Input Unit α} {f : α → Sem S.Input Unit β} {v : α} {x : β}
    (hm : ReadsBack (Before u F) m w v) (hf : ReadsBack F (f v) u x) : ReadsBack F (Ref.bind m f) (w ++ u) x := by
  intro i k h1 h2 h3
  obtain ⟨j, r1, r2⟩ := reads_split h2
  have hj : S.isPartial j = false := by rw [hS.reads_isPartial r1, h1]
  simp only [Ref.bind, hm i j h1 r1 ⟨_, h3, ahead_reads r2⟩, hf j k hj r2 h3, Answer.after, isEmpty_append_not]

theorem refuses_bind {m : Sem S.Input Unit α} {f : α → Sem S.Input Unit β} (hm : Refuses F m) :
    Refuses F (Ref.bind m f) := by
  intro i h1 h2
  simp only [Ref.bind, hm i h1 h2]

theorem refuses_bind_empty {m : Sem S.Input Unit α} {f : α → Sem S.Input Unit β} {v : α} (hm : ReadsBack F m [] v)
    (hf : Refuses F (f v)) : Refuses F (Ref.bind m f) := by
  intro i h1 h2
  simp only [Ref.bind, hm i i h1 (.nil i) h2, hf i h1 h2]
  rfl

theorem pieces_run (hS : S.Lawful) {m : Sem S.Input Unit α} {vs : List α} (hp : Pieces F m w vs)
    {i k : S.Input} (h1 : S.isPartial i = false) (h2 : S.Reads i w k) (h3 : F (S.ahead k)) :
    Ref.Run m i vs (!w.isEmpty) k := by
  induction hp generalizing i with
  | nil => cases Strm.reads_nil.1 h2; exact .nil _
  | @cons w u v vs hw hv _ ih =>
    obtain ⟨j, r1, r2⟩ := reads_split h2
    have hj : S.isPartial j = false := by rw [hS.reads_isPartial r1, h1]
    have := Ref.Run.cons (hv i j h1 r1 ⟨_, h3, ahead_reads r2⟩) (ih hj r2)
    rw [isEmpty_append_not] at this
    exact this

/-- A repetition. -/
theorem pieces_many (hS : S.Lawful) {m : Sem S.Input Unit α} {vs : List α} (hp : Pieces F m w vs) (hd : Refuses F m)
    {i k : S.Input} (h1 : S.isPartial i = false) (h2 : S.Reads i w k) (h3 : F (S.ahead k)) :
    Ref.IsMany m i (.ok (!w.isEmpty) vs k) := by
  refine ⟨vs, _, k, pieces_run hS hp h1 h2 h3, ?_⟩
  rw [hd k (by rw [hS.reads_isPartial h2, h1]) h3]

theorem readsBack_many (hS : S.Lawful) {m : Sem S.Input Unit α} {q : Sem S.Input Unit (List α)} {vs : List α}
    (hp : Pieces F m w vs) (hd : Refuses F m) (hq : ∀ i, Ref.IsMany m i (q i)) : ReadsBack F q w vs :=
  fun i _ h1 h2 h3 => C07_unique (hq i) (pieces_many hS hp hd h1 h2 h3)

theorem pieces_of_list {m : Sem S.Input Unit α} {B : Type} (xs : List B) (text : B → List S.Tok) (val : B → α)
    (h : ∀ x ∈ xs, text x ≠ [] ∧ ReadsBack G m (text x) (val x)) (hF : ∀ o, F o → G o)
    (hh : ∀ x ∈ xs, ∀ t, (text x).head? = some t → G (some t)) : Pieces F m (xs.flatMap text) (xs.map val) := by
  induction xs with
  | nil => exact .nil
  | cons x xs ih =>
    rw [List.flatMap_cons, List.map_cons]
    refine .cons (h x (by simp)).1 (readsBack_weaken (h x (by simp)).2 ?_)
      (ih (fun y hy => h y (by simp [hy])) fun y hy => hh y (by simp [hy]))
    cases xs with
    | nil => intro o ho; exact hF _ (before_nil.1 ho)
    | cons y ys =>
      intro o ho
      have hy := (h y (by simp)).1
      rw [List.flatMap_cons] at ho
      cases ht : text y with
      | nil => exact absurd ht hy
      | cons t ts =>
        rw [ht, List.cons_append] at ho
        rw [before_cons ho]
        exact hh y (by simp) t (by rw [ht]; rfl)

end Verif
