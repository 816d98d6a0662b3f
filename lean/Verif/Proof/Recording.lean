import Verif.Spec.Recording
import Verif.Proof.Buffered
import Verif.Proof.Lockstep

/-!
# Buffered streams, recordings and sources that do the same
-/

namespace Verif

variable {S : Strm}

theorem Tape.read_head (t : Tape S) : t.head ≤ t.read.2.head := by
  unfold Tape.read
  cases t.past[t.head]? with
  | some x => exact Nat.le_succ _
  | none =>
    dsimp only
    rcases S.uncons t.source with ⟨_ | _, _⟩
    · exact Nat.le_refl _
    · exact Nat.le_succ _

theorem BufHolds.uncons {b : BufState S} {t : Tape S} (h : BufHolds b t) :
    ((bufferedS S).uncons b).1 = ((tapeS S).uncons t).1 ∧
    BufHolds ((bufferedS S).uncons b).2 ((tapeS S).uncons t).2 ∧ ((bufferedS S).uncons b).2.cap = b.cap := by
  obtain ⟨b', h1, h2, h3⟩ := h.read
  simp only [h1, Option.getD_some]
  exact ⟨trivial, h2, h3⟩

theorem BufHolds.size {b : BufState S} {t : Tape S} (h : BufHolds b t) : (bufferedS S).size b = (tapeS S).size t := by
  simp only [h.source, h.count, h.head]

theorem BufHolds.position_ {b : BufState S} {t : Tape S} (h : BufHolds b t) : b.position = t.position := by
  simp only [BufState.position, h.position, Option.getD_some]

/-- The checkpoints in use: the same places on both streams, none ahead of the head, the last one taken first. -/
structure Marks (L : List (Nat × Nat)) (head : Nat) : Prop where
  same : ∀ c ∈ L, c.1 = c.2 ∧ c.1 ≤ head
  order : L.Pairwise fun c d => d.1 ≤ c.1

theorem Marks.mono {L : List (Nat × Nat)} {n m : Nat} (h : Marks L n) (hn : n ≤ m) : Marks L m :=
  ⟨fun c hc => ⟨(h.same c hc).1, Nat.le_trans (h.same c hc).2 hn⟩, h.order⟩

theorem Marks.save {L : List (Nat × Nat)} {n : Nat} (h : Marks L n) : Marks ((n, n) :: L) n := by
  refine ⟨fun c hc => ?_, List.pairwise_cons.2 ⟨fun c hc => (h.same c hc).2, h.order⟩⟩
  rcases List.mem_cons.1 hc with rfl | hc
  · exact ⟨rfl, Nat.le_refl _⟩
  · exact h.same c hc

theorem Marks.forget {c : Nat × Nat} {L : List (Nat × Nat)} {n : Nat} (h : Marks (c :: L) n) : Marks L n :=
  ⟨fun d hd => h.same d (List.mem_cons_of_mem _ hd), (List.pairwise_cons.1 h.order).2⟩

theorem Marks.reset {c : Nat × Nat} {L : List (Nat × Nat)} {n : Nat} (h : Marks (c :: L) n) : Marks (c :: L) c.1 := by
  refine ⟨fun d hd => ⟨(h.same d hd).1, ?_⟩, h.order⟩
  rcases List.mem_cons.1 hd with rfl | hd
  · exact Nat.le_refl _
  · exact (List.pairwise_cons.1 h.order).1 d hd

theorem BufHolds.reset {b : BufState S} {t : Tape S} (h : BufHolds b t) {c : Nat} (hc : c ≤ t.head) :
    (t.past.length ≤ c + b.cap ∧ b.reset c = (none, { b with offset := c }) ∧ BufHolds { b with offset := c } { t with head := c }) ∨
    (c < b.bufferOffset - b.buffer.length ∧ ∃ e, b.reset c = (some e, b)) := by
  have hh := h.high
  unfold BufState.reset
  by_cases h1 : c < b.bufferOffset - b.buffer.length
  · rw [if_pos h1]
    exact .inr ⟨h1, _, rfl⟩
  · rw [if_neg h1]
    have h2 := h.length
    have h3 := h.count
    refine .inl ⟨by omega, rfl, ⟨h.cap, h.source, h.count, h.buffer, rfl, ?_, ?_⟩⟩
    · dsimp only; omega
    · dsimp only; omega

/-- A buffered stream of any capacity and the recording of its source do the same until a token is needed again that is no longer
in the buffer. -/
def bufferTape (S : Strm) : Lockstep (bufferedS S).impl (tapeS S).impl where
  R L b t := BufHolds b t ∧ Marks L t.head
  Lost L b := ∀ c ∈ L, c.1 < b.bufferOffset - b.buffer.length
  uncons := fun {L b t} h => by
    obtain ⟨h1, h2, _⟩ := h.1.uncons
    exact ⟨h1, h2, h.2.mono t.read_head⟩
  isPartial := fun {L b t} h => congrArg S.isPartial h.1.source
  position := fun {L b t} h => h.1.position_
  size := fun {L b t} h => h.1.size
  save := fun {L b t} h => ⟨h.1, by
    have := h.2.save
    rwa [show (bufferedS S).impl.checkpoint b = t.head from h.1.head]⟩
  forget := fun {L c b t} h => ⟨h.1, h.2.forget⟩
  reset := fun {L b t c} h => by
    have hc := h.2.same c (.head _)
    rcases h.1.reset hc.2 with ⟨_, h1, h2⟩ | ⟨h1, e, h2⟩
    · refine .inr ⟨congrArg Prod.fst h1, ?_⟩
      rw [show (bufferedS S).impl.reset c.1 b = (none, { b with offset := c.1 }) from h1]
      refine ⟨?_, ?_⟩
      · rw [← hc.1]; exact h2
      · have := h.2.reset
        rwa [hc.1] at this
    · rw [show (bufferedS S).impl.reset c.1 b = (some e, b) from h2]
      refine .inl ⟨rfl, fun d hd => ?_⟩
      rcases List.mem_cons.1 hd with rfl | hd
      · exact h1
      · exact Nat.lt_of_le_of_lt ((List.pairwise_cons.1 h.2.order).1 d hd) h1
  lostForget := fun {L c b} h d hd => h d (List.mem_cons_of_mem _ hd)
  lostReset := fun {L c b} h => by
    have h1 := h c (.head _)
    have h2 : (bufferedS S).impl.reset c.1 b = BufState.reset c.1 b := rfl
    rw [h2, BufState.reset, if_pos h1]
    exact ⟨rfl, h⟩

theorem Strm.AtMost.ok {n : Nat} {i j : S.Input} {t : S.Tok} (h : S.AtMost n i) (hu : S.uncons i = (.ok t, j)) :
    1 ≤ n ∧ S.AtMost (n - 1) j := by
  have key : ∀ k, S.delivered k j + 1 ≤ n := fun k => by
    have := h (k + 1)
    simpa only [Strm.delivered, hu] using this
  exact ⟨Nat.le_trans (Nat.le_add_left 1 _) (key 0), fun k => by have := key k; omega⟩

theorem Strm.AtMost.error {n : Nat} {i j : S.Input} {e : S.SErr} (h : S.AtMost n i) (hu : S.uncons i = (.error e, j)) :
    S.AtMost n j := fun k => by
  have := h (k + 1)
  simpa only [Strm.delivered, hu] using this

theorem Tape.read_room {cap : Nat} {t : Tape S} (h : t.past.length ≤ cap ∧ S.AtMost (cap - t.past.length) t.source) :
    t.read.2.past.length ≤ cap ∧ S.AtMost (cap - t.read.2.past.length) t.read.2.source := by
  unfold Tape.read
  cases t.past[t.head]? with
  | some x => exact h
  | none =>
    dsimp only
    rcases hu : S.uncons t.source with ⟨e | tok, src⟩
    · exact ⟨h.1, h.2.error hu⟩
    · obtain ⟨h1, h2⟩ := h.2.ok hu
      simp only [List.length_append, List.length_singleton]
      refine ⟨by omega, ?_⟩
      rwa [Nat.sub_sub] at h2

/-- A buffered stream that has room for all that its source delivers does the same as the recording of the source. -/
def roomyTape (S : Strm) : Lockstep (bufferedS S).impl (tapeS S).impl where
  R L b t := BufHolds b t ∧ Marks L t.head ∧ t.past.length ≤ b.cap ∧ S.AtMost (b.cap - t.past.length) t.source
  Lost _ _ := False
  uncons := fun {L b t} h => by
    obtain ⟨h1, h2, h3⟩ := h.1.uncons
    refine ⟨h1, h2, h.2.1.mono t.read_head, ?_⟩
    have h3 : ((bufferedS S).impl.uncons b).2.cap = b.cap := h3
    rw [h3]
    exact Tape.read_room h.2.2
  isPartial := fun {L b t} h => congrArg S.isPartial h.1.source
  position := fun {L b t} h => h.1.position_
  size := fun {L b t} h => h.1.size
  save := fun {L b t} h => ⟨h.1, by
    have := h.2.1.save
    rwa [show (bufferedS S).impl.checkpoint b = t.head from h.1.head], h.2.2⟩
  forget := fun {L c b t} h => ⟨h.1, h.2.1.forget, h.2.2⟩
  reset := fun {L b t c} h => by
    have hc := h.2.1.same c (.head _)
    rcases h.1.reset hc.2 with ⟨_, h1, h2⟩ | ⟨h1, e, h2⟩
    · refine .inr ⟨congrArg Prod.fst h1, ?_⟩
      rw [show (bufferedS S).impl.reset c.1 b = (none, { b with offset := c.1 }) from h1]
      refine ⟨?_, ?_, h.2.2⟩
      · rw [← hc.1]; exact h2
      · have := h.2.1.reset
        rwa [hc.1] at this
    · have h3 := h.1.length
      have h4 := h.1.count
      have h5 := h.2.2.1
      omega
  lostForget := False.elim
  lostReset := False.elim

/-! ## The recording and the source -/

/-- From `i` the source delivers these tokens, at these positions, and is then at `j`. -/
inductive Delivers (S : Strm) : S.Input → List (S.Tok × S.Pos) → S.Input → Prop where
  | nil {i : S.Input} : Delivers S i [] i
  | cons {i j k : S.Input} {t : S.Tok} {xs : List (S.Tok × S.Pos)} : S.uncons i = (.ok t, j) → Delivers S j xs k →
      Delivers S i ((t, S.position i) :: xs) k

theorem delivers_nil {i j : S.Input} (h : Delivers S i [] j) : j = i := by cases h; rfl

theorem delivers_cons {i k : S.Input} {x : S.Tok × S.Pos} {xs : List (S.Tok × S.Pos)} (h : Delivers S i (x :: xs) k) :
    ∃ j, S.uncons i = (.ok x.1, j) ∧ S.position i = x.2 ∧ Delivers S j xs k := by
  cases h with
  | cons h1 h2 => exact ⟨_, h1, rfl, h2⟩

theorem delivers_append {i j k : S.Input} {xs ys : List (S.Tok × S.Pos)} (h : Delivers S i xs j) (h' : Delivers S j ys k) :
    Delivers S i (xs ++ ys) k := by
  induction h with
  | nil => exact h'
  | cons h1 _ ih => exact .cons h1 (ih h')

theorem delivers_split {i k : S.Input} {xs ys : List (S.Tok × S.Pos)} (h : Delivers S i (xs ++ ys) k) :
    ∃ j, Delivers S i xs j ∧ Delivers S j ys k := by
  induction xs generalizing i with
  | nil => exact ⟨i, .nil, h⟩
  | cons x xs ih =>
    cases h with
    | cons h1 h2 =>
      obtain ⟨j, h3, h4⟩ := ih h2
      exact ⟨j, .cons h1 h3, h4⟩

theorem delivers_once {i j k : S.Input} {xs : List (S.Tok × S.Pos)} (h : Delivers S i xs j) (h' : Delivers S i xs k) : j = k := by
  induction h with
  | nil => exact (delivers_nil h').symm
  | cons h1 _ ih =>
    obtain ⟨j', h2, _, h3⟩ := delivers_cons h'
    rw [h1] at h2
    cases h2
    exact ih h3

theorem Strm.Rewinds.delivers (hS : S.Rewinds) {i j : S.Input} {xs : List (S.Tok × S.Pos)} (h : Delivers S i xs j) :
    S.size i = S.size j + xs.length ∧ S.isPartial i = S.isPartial j := by
  induction h with
  | nil => exact ⟨rfl, rfl⟩
  | cons h1 _ ih =>
    rw [hS.size h1, hS.isPartial h1, ih.1, ih.2, List.length_cons]
    exact ⟨by omega, rfl⟩

/-- The source stands where the head of the recording stands. -/
structure Plays (S : Strm) (L : List (Nat × S.Ckpt)) (start : S.Input) (t : Tape S) (i : S.Input) : Prop where
  head : t.head ≤ t.past.length
  before : Delivers S start (t.past.take t.head) i
  after : Delivers S i (t.past.drop t.head) t.source
  marks : ∀ c ∈ L, c.1 ≤ t.past.length ∧ ∃ k, Delivers S start (t.past.take c.1) k ∧ c.2 = S.checkpoint k

theorem Plays.position {L : List (Nat × S.Ckpt)} {start i : S.Input} {t : Tape S} (h : Plays S L start t i) :
    t.position = S.position i := by
  unfold Tape.position
  have h1 := h.after
  by_cases hl : t.head < t.past.length
  · rw [List.drop_eq_getElem_cons hl] at h1
    obtain ⟨j, _, h2, _⟩ := delivers_cons h1
    simp only [List.getElem?_eq_getElem hl, h2]
  · rw [List.drop_eq_nil_of_le (by omega)] at h1
    simp only [List.getElem?_eq_none (Nat.le_of_not_lt hl), delivers_nil h1]

theorem Plays.read (hS : S.Rewinds) {L : List (Nat × S.Ckpt)} {start i : S.Input} {t : Tape S} (h : Plays S L start t i) :
    t.read.1 = (S.uncons i).1 ∧ Plays S L start t.read.2 (S.uncons i).2 := by
  have h1 := h.after
  unfold Tape.read
  by_cases hl : t.head < t.past.length
  · rw [List.drop_eq_getElem_cons hl] at h1
    obtain ⟨j, h2, h3, h4⟩ := delivers_cons h1
    simp only [List.getElem?_eq_getElem hl, h2]
    refine ⟨trivial, hl, ?_, h4, h.marks⟩
    have h5 : Delivers S i [t.past[t.head]] j := by
      have := Delivers.cons h2 (.nil (S := S))
      rwa [h3] at this
    have h6 := delivers_append h.before h5
    rwa [List.take_append_getElem hl] at h6
  · have he : t.head = t.past.length := Nat.le_antisymm h.head (Nat.le_of_not_lt hl)
    rw [List.drop_eq_nil_of_le (by omega)] at h1
    have h2 := delivers_nil h1
    simp only [List.getElem?_eq_none (Nat.le_of_not_lt hl), h2]
    rcases hu : S.uncons i with ⟨e | tok, j⟩
    · cases hS.error hu
      exact ⟨rfl, h.head, h.before, by simpa only [h2] using h.after, h.marks⟩
    · have hb := h.before
      rw [he, List.take_length] at hb
      refine ⟨rfl, ?_, ?_, ?_, ?_⟩
      · simp only [he, List.length_append, List.length_singleton]; omega
      · have : (t.past ++ [(tok, S.position i)]).take (t.head + 1) = t.past ++ [(tok, S.position i)] :=
          List.take_of_length_le (by simp [he])
        rw [this]
        exact delivers_append hb (.cons hu .nil)
      · have : (t.past ++ [(tok, S.position i)]).drop (t.head + 1) = [] := List.drop_eq_nil_of_le (by simp [he])
        rw [this]
        exact .nil
      · intro c hc
        obtain ⟨h3, k, h4, h5⟩ := h.marks c hc
        refine ⟨by simp only [List.length_append, List.length_singleton]; omega, k, ?_, h5⟩
        rwa [List.take_append_of_le_length h3]

/-- The recording of a source that can itself go back does the same as the source. -/
def tapeSource (hS : S.Rewinds) : Lockstep (tapeS S).impl S.impl where
  R L t i := ∃ start, Plays S L start t i
  Lost _ _ := False
  uncons := fun {L t i} ⟨start, h⟩ => ⟨(h.read hS).1, start, (h.read hS).2⟩
  isPartial := fun {L t i} ⟨_, h⟩ => (hS.delivers h.after).2.symm
  position := fun {L t i} ⟨_, h⟩ => h.position
  size := fun {L t i} ⟨_, h⟩ => by
    have := (hS.delivers h.after).1
    rw [List.length_drop] at this
    exact this.symm
  save := fun {L t i} ⟨start, h⟩ => ⟨start, h.head, h.before, h.after, fun c hc => by
    rcases List.mem_cons.1 hc with rfl | hc
    · exact ⟨h.head, i, h.before, rfl⟩
    · exact h.marks c hc⟩
  forget := fun {L c t i} ⟨start, h⟩ => ⟨start, h.head, h.before, h.after, fun d hd => h.marks d (List.mem_cons_of_mem _ hd)⟩
  reset := fun {L t i c} ⟨start, h⟩ => by
    obtain ⟨h1, k, h2, h3⟩ := h.marks c (.head _)
    have h4 : S.impl.reset c.2 i = (none, k) := by rw [h3]; exact hS.reset k i
    rw [h4]
    refine .inr ⟨rfl, start, h1, h2, ?_, h.marks⟩
    have h5 := delivers_append h.before h.after
    rw [List.take_append_drop, ← List.take_append_drop c.1 t.past] at h5
    obtain ⟨m, h6, h7⟩ := delivers_split h5
    cases delivers_once h2 h6
    exact h7
  lostForget := False.elim
  lostReset := False.elim

end Verif
