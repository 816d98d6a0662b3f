import Verif.Proof.Recording
import Verif.Props.Peg
import Verif.Proof.SliceLaws

/-!
# C68: parsing through a buffer is parsing the source

`buffered::Stream` lets a parser that has to go back read from a source that cannot.  These theorems compare what a parser does on the
buffered stream with what it does on an unlimited recording of the source, and on the source itself where that can go back by itself.
-/

namespace Verif

open Lockstep (Same)

variable {S : Strm} {σ α : Type}

private theorem new_holds (src : S.Input) (k : Nat) : BufHolds (BufState.new src k) (Tape.new src) ∧ k ≤ (BufState.new (S := S) src k).cap := by
  have hw : k ≤ (BufState.new (S := S) src k).cap ∧ 0 < (BufState.new (S := S) src k).cap := by
    simp only [BufState.new]; split <;> omega
  exact ⟨⟨hw.2, rfl, rfl, by simp [BufState.new, Tape.new], rfl, by simp [Tape.new], by simp [Tape.new]⟩, hw.1⟩

/-- **C68.**  A buffer with room for all the tokens of the source: a parse ends exactly as on an unlimited recording, with the same value at
the same position, the same error, or the same panic. -/
theorem C68_room {p : Parser (bufferedS S) σ α} {q : Parser (tapeS S) σ α} (h : (roomyTape S).Same p q) {src : S.Input} {n k : Nat}
    (hn : S.AtMost n src) (hk : n ≤ k) : (p.parse (BufState.new src k)).ending = (q.parse (Tape.new src)).ending := by
  have hb := new_holds src k
  have hr : (roomyTape S).R [] (BufState.new src k) (Tape.new src) :=
    ⟨hb.1, ⟨fun _ h => (List.not_mem_nil h).elim, .nil⟩, Nat.zero_le _, fun m => Nat.le_trans (hn m) (Nat.le_trans hk hb.2)⟩
  rcases Lockstep.parse h hr with ⟨_, _, _, h⟩ | ⟨v, i, j, h1, h2, h3⟩ | ⟨e, h1, h2⟩ | ⟨a, h1, h2⟩
  · exact h.elim
  · rw [h1, h2]
    exact congrArg (Ending.ok v) ((roomyTape S).position h3)
  · rw [h1, h2]; rfl
  · rw [h1, h2]; rfl

/-- **C68.**  A buffer of any size: a parse ends as on an unlimited recording or with an error; so what a small buffer costs is failures, and
never a wrong value. -/
theorem C68_any {p : Parser (bufferedS S) σ α} {q : Parser (tapeS S) σ α} (h : (bufferTape S).Same p q) (src : S.Input) (k : Nat) :
    (∃ e, p.parse (BufState.new src k) = .err e) ∨ (p.parse (BufState.new src k)).ending = (q.parse (Tape.new src)).ending := by
  have hr : (bufferTape S).R [] (BufState.new src k) (Tape.new src) :=
    ⟨(new_holds src k).1, ⟨fun _ h => (List.not_mem_nil h).elim, .nil⟩⟩
  rcases Lockstep.parse h hr with ⟨e, _, h, _⟩ | ⟨v, i, j, h1, h2, h3⟩ | ⟨e, h1, h2⟩ | ⟨a, h1, h2⟩
  · exact .inl ⟨e, h⟩
  · rw [h1, h2]
    exact .inr (congrArg (Ending.ok v) ((bufferTape S).position h3))
  · exact .inl ⟨e, h1⟩
  · rw [h1, h2]; exact .inr rfl

/-- **C68.**  What a parse through a buffer of any size accepts, the unlimited recording accepts with the same value. -/
theorem C68_sound {p : Parser (bufferedS S) σ α} {q : Parser (tapeS S) σ α} (h : (bufferTape S).Same p q) {src : S.Input} {k : Nat}
    {v : α} {rest : BufState S} (hv : p.parse (BufState.new src k) = .ok v rest) :
    ∃ rest', q.parse (Tape.new src) = .ok v rest' ∧ rest.position = rest'.position := by
  rcases C68_any h src k with ⟨e, h⟩ | h
  · rw [hv] at h; cases h
  · rw [hv] at h
    cases hq : q.parse (Tape.new src) with
    | ok w rest' => rw [hq] at h; injection h with h1 h2; exact ⟨rest', by rw [h1], h2⟩
    | err e => rw [hq] at h; cases h
    | abort a => rw [hq] at h; cases h

/-- **C68.**  Where the source can go back by itself, the recording of it changes nothing. -/
theorem C68_source (hS : S.Rewinds) {p : Parser (tapeS S) σ α} {q : Parser S σ α} (h : (tapeSource hS).Same p q) (src : S.Input) :
    (p.parse (Tape.new src)).ending = (q.parse src).ending := by
  have hr : (tapeSource hS).R [] (Tape.new src) src := ⟨src, Nat.le_refl _, .nil, .nil, fun _ h => (List.not_mem_nil h).elim⟩
  rcases Lockstep.parse h hr with ⟨_, _, _, h⟩ | ⟨v, i, j, h1, h2, h3⟩ | ⟨e, h1, h2⟩ | ⟨a, h1, h2⟩
  · exact h.elim
  · rw [h1, h2]
    exact congrArg (Ending.ok v) ((tapeSource hS).position h3)
  · rw [h1, h2]; rfl
  · rw [h1, h2]; rfl

/-! ## The same program over both -/

/-- **C68.**  The three together, for the same program over the buffered stream, the recording and the source. -/
theorem C68_program {p : (X : Impl S.E) → Parser X.strm σ α} (hp : Program p) (src : S.Input) (k : Nat) :
    ((∃ e, (p (bufferedS S).impl).parse (BufState.new src k) = .err e) ∨
      ((p (bufferedS S).impl).parse (BufState.new src k)).ending = ((p (tapeS S).impl).parse (Tape.new src)).ending) ∧
    (S.AtMost k src →
      ((p (bufferedS S).impl).parse (BufState.new src k)).ending = ((p (tapeS S).impl).parse (Tape.new src)).ending) ∧
    (S.Rewinds → ((p (tapeS S).impl).parse (Tape.new src)).ending = ((p S.impl).parse src).ending) :=
  ⟨C68_any (hp _) src k, fun h => C68_room (hp _) h (Nat.le_refl _), fun h => C68_source h (hp _) src⟩

/-- Parsing expressions are such programs. -/
theorem C68_peg {N T Rg P : Type} [DecidableEq P] {E : ErrOps T Rg P} (rules : N → Peg N T) (d : Nat) (n : N) :
    Program fun X : Impl E => Peg.parsers X.strm rules d n := by
  intro X Y M
  have expr : ∀ (e : Peg N T) {f : N → Parser X.strm Unit Unit} {g : N → Parser Y.strm Unit Unit}, (∀ n, M.Same (f n) (g n)) →
      M.Same (e.parser X.strm f) (e.parser Y.strm g) := by
    intro e f g h
    induction e with
    | empty => exact Lockstep.value (M := M) ()
    | one f => exact Lockstep.ignore (M := M) (Lockstep.satisfy (M := M) f)
    | seq a b ha hb => exact Lockstep.parserMacroUnit (Lockstep.with ha hb)
    | alt a b ha hb => exact Lockstep.parserMacroUnit (Lockstep.or (Lockstep.attempt ha) hb)
    | star a ha => exact Lockstep.parserMacroUnit (Lockstep.skipMany (Lockstep.attempt ha))
    | look a ha => exact Lockstep.parserMacroUnit (Lockstep.lookAhead ha)
    | not a ha => exact Lockstep.parserMacroUnit (Lockstep.notFollowedBy ha)
    | ref n => exact h n
  induction d generalizing n with
  | zero => exact Lockstep.recur (M := M) (fun _ _ h => h) () 0
  | succ d ih => exact Lockstep.parserMacroUnit (expr (rules n) ih)

/-! ## Sources -/

/-- Iterators over a list of items, slices and strings can go back by themselves. -/
theorem C68_rewinds (T : Type) (sz : Nat) : (iterS T).Rewinds ∧ (sliceS T sz).Rewinds ∧ strS.Rewinds := by
  refine ⟨⟨fun _ _ => rfl, ?_, ?_, fun _ => rfl⟩, ⟨fun _ _ => rfl, ?_, ?_, fun _ => rfl⟩, ⟨fun _ _ => rfl, ?_, ?_, fun _ => rfl⟩⟩
  · intro i j e h; cases i <;> cases h; rfl
  · intro i j t h; cases i <;> cases h; rfl
  · rintro ⟨p, i⟩ j e h; cases i <;> cases h; rfl
  · rintro ⟨p, i⟩ j t h; cases i <;> cases h; rfl
  · rintro ⟨p, i⟩ j e h; cases i <;> cases h; rfl
  · rintro ⟨p, i⟩ j t h; cases i <;> cases h; rfl

/-- An iterator delivers its items and a reader the bytes among what the reads return: no more than there are items, or reads. -/
theorem C68_at_most (T : Type) (xs : List T) (ys : List (Except String UInt8)) :
    (iterS T).AtMost xs.length xs ∧ readS.AtMost ys.length ys := by
  constructor
  · intro k
    induction k generalizing xs with
    | zero => exact Nat.zero_le _
    | succ k ih =>
      cases xs with
      | nil => exact ih []
      | cons x xs => exact Nat.succ_le_succ (ih xs)
  · intro k
    induction k generalizing ys with
    | zero => exact Nat.zero_le _
    | succ k ih =>
      rcases ys with _ | ⟨_ | b, ys⟩
      · exact ih []
      · exact Nat.le_succ_of_le (ih ys)
      · exact Nat.succ_le_succ (ih ys)

/-- **C68.**  A parsing expression grammar over a buffered iterator: what is accepted matches, however small the buffer; and with room for all
the items it is accepted exactly if it matches. -/
theorem C68_peg_iter {N T : Type} {rules : N → Peg N T} {rank : N → Nat} {R : Nat} (h : Peg.WellFormed rules rank R) (n : N)
    (xs : List T) (k d : Nat) (hd : xs.length * R + R ≤ d) :
    ((∃ v b, (Peg.parsers (bufferedS (iterS T)) rules d n).parse (BufState.new xs k) = .ok v b) →
      ∃ ys, (Peg.ref n).Matches rules xs (some ys)) ∧
    (xs.length ≤ k → ((∃ v b, (Peg.parsers (bufferedS (iterS T)) rules d n).parse (BufState.new xs k) = .ok v b) ↔
      ∃ ys, (Peg.ref n).Matches rules xs (some ys))) := by
  obtain ⟨h1, h2, h3⟩ := C68_program (C68_peg (E := (iterS T).E) rules d n) xs k
  have h3 := h3 (C68_rewinds T 0).1
  have hl : (iterS T).Left xs xs := ⟨[], iter_reads.2 (by simp), _, rfl⟩
  have h4 := (C57_exact (iter_lawful T) (fun _ => rfl) h d n xs xs hl hd).1
  have leaves : ∀ j : List T, (iterS T).Left j j := fun j => ⟨[], iter_reads.2 (by simp), _, rfl⟩
  have fwd : ((Peg.parsers (bufferedS (iterS T)) rules d n).parse (BufState.new xs k)).ending =
      ((Peg.parsers (iterS T) rules d n).parse xs).ending →
      ((∃ v b, (Peg.parsers (bufferedS (iterS T)) rules d n).parse (BufState.new xs k) = .ok v b) ↔
        ∃ ys, (Peg.ref n).Matches rules xs (some ys)) := by
    intro he
    constructor
    · rintro ⟨v, b, hb⟩
      rw [hb] at he
      cases hq : (Peg.parsers (iterS T) rules d n).parse xs with
      | ok w j => exact ⟨j, (h4 j).1 ⟨w, j, hq, leaves j⟩⟩
      | err e => rw [hq] at he; cases he
      | abort a => rw [hq] at he; cases he
    · rintro ⟨ys, hm⟩
      obtain ⟨v, j, hq, _⟩ := (h4 ys).2 hm
      rw [hq] at he
      cases hb : (Peg.parsers (bufferedS (iterS T)) rules d n).parse (BufState.new xs k) with
      | ok w b => exact ⟨w, b, rfl⟩
      | err e => rw [hb] at he; cases he
      | abort a => rw [hb] at he; cases he
  constructor
  · rintro ⟨v, b, hb⟩
    rcases h1 with ⟨e, he⟩ | he
    · exact absurd (hb.symm.trans he) (by intro h; cases h)
    · exact (fwd (he.trans h3)).1 ⟨v, b, hb⟩
  · intro hk
    exact fwd ((h2 fun m => Nat.le_trans ((C68_at_most T xs []).1 m) hk).trans h3)

/-! ## Examples -/

/-- Pairs `1 2` or single `1`s, up to the end. -/
def pairsProgram (E : ErrOps Nat Rg P) [DecidableEq P] (X : Impl E) : Parser X.strm Unit (List Nat) :=
  parserMacroUnit (skip (many (or (attempt («with» (token X.strm 1) (token X.strm 2))) (token X.strm 1))) (eof X.strm))

theorem pairs_program {Rg P : Type} [DecidableEq P] (E : ErrOps Nat Rg P) : Program (pairsProgram E) := by
  intro X Y M
  exact Lockstep.parserMacroUnit (M := M) (Lockstep.skip (M := M) (Lockstep.many (M := M) (Lockstep.or (M := M) (Lockstep.attempt (M := M)
    (Lockstep.with (M := M) (Lockstep.token (M := M) 1) (Lockstep.token (M := M) 2))) (Lockstep.token (M := M) 1)))
    (Lockstep.eof (M := M)))

/-- Two tokens are enough for this parser, … -/
example : ((pairsProgram (iterS Nat).E (bufferedS (iterS Nat)).impl).parse (BufState.new [1, 2, 1, 1, 2] 2)).ending = .ok [2, 1, 2] () := rfl

/-- … one is not: the parse fails instead of going on wrongly; … -/
example : ∃ e, (pairsProgram (iterS Nat).E (bufferedS (iterS Nat)).impl).parse (BufState.new [1, 2, 1, 1, 2] 1) = .err e := ⟨_, rfl⟩

/-- … and the theorem for enough room applies to it. -/
example (xs : List Nat) : ((pairsProgram (iterS Nat).E (bufferedS (iterS Nat)).impl).parse (BufState.new xs xs.length)).ending =
    ((pairsProgram (iterS Nat).E (iterS Nat).impl).parse xs).ending :=
  have h := C68_program (pairs_program (iterS Nat).E) xs xs.length
  (h.2.1 (C68_at_most Nat xs []).1).trans (h.2.2 (C68_rewinds Nat 0).1)

/-- Bytes from a reader: one token of lookahead is enough here. -/
example : ((parserMacroUnit (skip (many (token (bufferedS readS) 7)) (eof (bufferedS readS)))).parse
      (BufState.new [.ok 7, .ok 7] 1)).ending = .ok [7, 7] (0 : Nat) := rfl

/-- **C68, a limit.**  An error of the reader counts as a failure without commitment of the parser that met it, so `many` ends
successfully there and `optional` yields nothing; the next parser reads on behind it, and the whole parse succeeds as if nothing had
happened (read.rs:162-171, repeat.rs:352). -/
theorem C68_io_error_fails :
    ((pair (many (token (bufferedS readS) 7)) (skip (many (token (bufferedS readS) 7)) (eof (bufferedS readS)))).parse
      (BufState.new [.ok 7, .error "disk", .ok 7] 4)).ending = .ok ([7], [7], ()) (0 : Nat) := rfl

/-- `escaped` does not go back when the inner parser fails, so it does not notice that the buffer was too small (repeat.rs:1418-1428). -/
def lostProgram (X : Impl (iterS Nat).E) : Parser X.strm Unit Unit :=
  parserMacroUnit (skip (escaped (S := X.strm) (attempt (or (attempt («with» (token X.strm 1) («with» (token X.strm 2) (token X.strm 3))))
    (token X.strm 1))) (0 : Nat) (token X.strm 1)) (eof X.strm))

/-- **C68, negation for `escaped`.**  Through a buffer that is too small `escaped` accepts what is not accepted on the source. -/
theorem C68_escaped_fails :
    ((lostProgram (bufferedS (iterS Nat)).impl).parse (BufState.new [1, 2, 4] 1)).ending = .ok () () ∧
    ∃ e, (lostProgram (iterS Nat).impl).parse [1, 2, 4] = .err e := ⟨rfl, _, rfl⟩

end Verif
