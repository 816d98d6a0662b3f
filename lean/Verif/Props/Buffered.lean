import Verif.Proof.Buffered

/-!
# C24: a buffered stream equals its source within its window
-/

namespace Verif

variable {S : Strm}

/-- **C24** For every source, lookahead and history of reads, checkpoints and resets, a buffered stream
shows exactly what an unlimited recording of the source shows, except that it refuses to go back
further than its window of at least `lookahead` tokens; it never panics. -/
theorem C24_buffered (source : S.Input) (lookahead : Nat) (ops : List BufOp) :
    ∃ window, lookahead ≤ window ∧ 0 < window ∧
      BufState.play ops (BufState.new source lookahead, []) =
        Tape.play window ops (Tape.new source, []) := by
  have hw : lookahead ≤ (BufState.new (S := S) source lookahead).cap ∧
      0 < (BufState.new (S := S) source lookahead).cap := by
    simp only [BufState.new]; split <;> omega
  exact ⟨_, hw.1, hw.2, BufHolds.play ⟨hw.2, rfl, rfl, by simp [BufState.new, Tape.new], rfl, by simp [Tape.new], by simp [Tape.new]⟩
    ops [] (by simp)⟩

/-- The same for any positive capacity of the ring buffer: `VecDeque::with_capacity` may give more
than it is asked for. -/
theorem C24_any_capacity (source : S.Input) (cap : Nat) (hcap : 0 < cap) (ops : List BufOp) :
    BufState.play ops (⟨0, source, 0, [], cap⟩, []) =
      Tape.play cap ops (Tape.new source, []) :=
  BufHolds.play ⟨hcap, rfl, rfl, by simp [Tape.new], rfl, by simp [Tape.new], by simp [Tape.new]⟩ ops [] (by simp)

/-- **C24** A history that never goes back more than `lookahead` tokens is never refused: it shows
what the recording shows, however large the window. -/
theorem C24_within_lookahead (source : S.Input) (lookahead : Nat) (ops : List BufOp)
    (h : ∀ e p, (.refused e, p) ∉ Tape.play lookahead ops (Tape.new (S := S) source, [])) :
    ∀ window, lookahead ≤ window →
      BufState.play ops (BufState.new source lookahead, []) =
        Tape.play window ops (Tape.new source, []) := by
  suffices key : ∀ window, lookahead ≤ window →
      Tape.play window ops (Tape.new (S := S) source, []) =
        Tape.play lookahead ops (Tape.new source, []) by
    intro window hw
    obtain ⟨w', h1, _, h2⟩ := C24_buffered source lookahead ops
    rw [h2, key window hw, key w' h1]
  intro window hw
  suffices H : ∀ (ops : List BufOp) (st : Tape S × List Nat),
      (∀ e p, (.refused e, p) ∉ Tape.play lookahead ops st) →
      Tape.play window ops st = Tape.play lookahead ops st from H ops _ h
  intro ops
  induction ops with
  | nil => intro st _; rfl
  | cons op ops ih =>
    intro st hr
    have hs : Tape.step window op st = Tape.step lookahead op st := by
      cases op with
      | restore k =>
        simp only [Tape.play, Tape.step, List.mem_cons, not_or] at hr
        simp only [Tape.step]
        cases hk : st.2[k]? with
        | none => rfl
        | some c =>
          by_cases h1 : c + lookahead < st.1.past.length
          · exfalso
            rw [hk] at hr
            simp only [if_pos h1] at hr
            exact (hr _ _).1 rfl
          · simp only
            rw [if_neg h1, if_neg (by omega)]
      | _ => rfl
    simp only [Tape.play, hs]
    rw [ih _ fun e p hm => hr e p (List.mem_cons_of_mem _ hm)]

/-- A window of one: a second step back is refused, the stream then continues where it was. -/
example :
    BufState.play [.save, .read, .save, .read, .restore 0, .restore 1, .read, .read, .read]
      (BufState.new (S := iterS Nat) [7, 8, 9] 1, []) =
    [(.nothing, some ()), (.read (.ok 7), some ()), (.nothing, some ()), (.read (.ok 8), some ()),
      (.refused .unexpected, some ()), (.restored, some ()), (.read (.ok 8), some ()),
      (.read (.ok 9), some ()), (.read (.error .eoi), some ())] := rfl

/-- An IO error of the reader shows once; reading goes on after it, and what was read before can be
read again. -/
example :
    BufState.play [.save, .read, .read, .read, .restore 0, .read]
      (BufState.new (S := readS) [.ok 1, .error "io", .ok 2] 4, []) =
    [(.nothing, some (0 : Nat)), (.read (.ok 1), some (0 : Nat)), (.read (.error (.io "io")), some (0 : Nat)),
      (.read (.ok 2), some (0 : Nat)), (.restored, some (0 : Nat)), (.read (.ok 1), some (0 : Nat))] := rfl

end Verif
