import Verif.Spec.Tape

/-!
# A buffered stream and the recording of its source
-/

namespace Verif

variable {S : Strm}

/-- The buffer holds the end of the recording, and the head is in it. -/
structure BufHolds (b : BufState S) (t : Tape S) : Prop where
  cap : 0 < b.cap
  source : b.iter = t.source
  count : b.bufferOffset = t.past.length
  buffer : b.buffer = t.past.drop (t.past.length - b.cap)
  head : b.offset = t.head
  low : t.past.length ≤ t.head + b.cap
  high : t.head ≤ t.past.length

theorem BufHolds.length {b : BufState S} {t : Tape S} (h : BufHolds b t) :
    b.buffer.length = min t.past.length b.cap := by
  rw [h.buffer, List.length_drop]; omega

theorem BufHolds.elem {b : BufState S} {t : Tape S} (h : BufHolds b t)
    (hlt : t.head < t.past.length) : b.elem? = t.past[t.head]? := by
  have hl := h.low
  unfold BufState.elem?
  rw [h.length, h.count, h.head, h.buffer, List.getElem?_drop]
  congr 1
  omega

theorem BufHolds.position {b : BufState S} {t : Tape S} (h : BufHolds b t) :
    b.position? = some t.position := by
  have hl := h.low
  have hh := h.high
  unfold BufState.position? Tape.position
  by_cases h1 : t.past.length ≤ t.head
  · rw [if_pos (by rw [h.count, h.head]; exact h1), List.getElem?_eq_none h1, h.source]
  · rw [if_neg (by rw [h.count, h.head]; exact h1),
      if_neg (by rw [h.count, h.head, h.length]; omega), h.elem (by omega),
      List.getElem?_eq_getElem (by omega)]
    rfl

theorem BufHolds.read {b : BufState S} {t : Tape S} (h : BufHolds b t) :
    ∃ b', b.uncons? = some (t.read.1, b') ∧ BufHolds b' t.read.2 ∧ b'.cap = b.cap := by
  have hl := h.low
  have hh := h.high
  have hc := h.cap
  unfold BufState.uncons? Tape.read
  by_cases h1 : t.past.length ≤ t.head
  · rw [if_pos (by rw [h.count, h.head]; exact h1), List.getElem?_eq_none h1, h.source]
    simp only
    generalize S.uncons t.source = r
    obtain ⟨r, src⟩ := r
    cases r with
    | error e => exact ⟨_, rfl, ⟨h.cap, rfl, h.count, h.buffer, h.head, h.low, h.high⟩, rfl⟩
    | ok tok =>
      refine ⟨_, rfl, ⟨h.cap, rfl, ?_, ?_, ?_, ?_, ?_⟩, rfl⟩
      · simp only [List.length_append, List.length_singleton, h.count]
      · simp only [BufState.push, h.length, List.length_append, List.length_singleton]
        rw [h.buffer]
        by_cases h2 : min t.past.length b.cap = b.cap
        · rw [if_pos h2, List.tail_drop, List.drop_append_of_le_length (by omega)]
          congr 2
          omega
        · rw [if_neg h2, List.drop_append_of_le_length (by omega)]
          congr 2
          omega
      · simp only [h.head]
      · simp only [List.length_append, List.length_singleton]; omega
      · simp only [List.length_append, List.length_singleton]; omega
  · rw [if_neg (by rw [h.count, h.head]; exact h1),
      if_neg (by rw [h.count, h.head, h.length]; omega), h.elem (by omega),
      List.getElem?_eq_getElem (by omega)]
    refine ⟨_, rfl, ⟨h.cap, h.source, h.count, h.buffer, ?_, ?_, ?_⟩, rfl⟩
    · simp only [h.head]
    · simp only; omega
    · simp only; omega

theorem BufHolds.step {b : BufState S} {t : Tape S} (h : BufHolds b t) (op : BufOp)
    (cs : List Nat) (hcs : ∀ c ∈ cs, c ≤ t.past.length) :
    ∃ b' t' cs', BufState.step op (b, cs) = ((Tape.step b.cap op (t, cs)).1, b', cs') ∧
      (Tape.step b.cap op (t, cs)).2 = (t', cs') ∧ BufHolds b' t' ∧ b'.cap = b.cap ∧
      (∀ c ∈ cs', c ≤ t'.past.length) := by
  cases op with
  | read =>
    obtain ⟨b', h1, h2, h3⟩ := h.read
    refine ⟨b', t.read.2, cs, ?_, rfl, h2, h3, ?_⟩
    · simp only [BufState.step, h1, Tape.step]
    · intro c hc
      refine Nat.le_trans (hcs c hc) ?_
      unfold Tape.read
      cases t.past[t.head]? with
      | some x => exact Nat.le_refl _
      | none =>
        simp only
        generalize S.uncons t.source = r
        obtain ⟨r, src⟩ := r
        cases r <;> simp
  | save =>
    refine ⟨b, t, cs ++ [t.head], ?_, rfl, h, rfl, ?_⟩
    · simp only [BufState.step, Tape.step, bufferedS, h.head]
    · intro c hc
      rcases List.mem_append.1 hc with hc | hc
      · exact hcs c hc
      · rw [List.mem_singleton.1 hc]; exact h.high
  | restore k =>
    simp only [BufState.step, Tape.step]
    cases hk : cs[k]? with
    | none => exact ⟨b, t, cs, rfl, rfl, h, rfl, hcs⟩
    | some c =>
      have hc := hcs c (List.mem_of_getElem? hk)
      simp only [BufState.reset]
      by_cases h1 : c + b.cap < t.past.length
      · rw [if_pos (by rw [h.count, h.length]; omega), if_pos h1]
        refine ⟨b, t, cs, ?_, rfl, h, rfl, hcs⟩
        simp only [BufState.position, h.position, Option.getD_some]
      · rw [if_neg (by rw [h.count, h.length]; omega), if_neg h1]
        exact ⟨_, _, _, rfl, rfl,
          ⟨h.cap, h.source, h.count, h.buffer, rfl, by simp only; omega, hc⟩, rfl, hcs⟩

theorem BufHolds.play {b : BufState S} {t : Tape S} (h : BufHolds b t) (ops : List BufOp)
    (cs : List Nat) (hcs : ∀ c ∈ cs, c ≤ t.past.length) :
    BufState.play ops (b, cs) = Tape.play b.cap ops (t, cs) := by
  induction ops generalizing b t cs with
  | nil => rfl
  | cons op ops ih =>
    obtain ⟨b', t', cs', h1, h2, h3, h4, h5⟩ := h.step op cs hcs
    simp only [BufState.play, Tape.play, h1, h2, h3.position]
    rw [ih h3 cs' h5, h4]

end Verif
