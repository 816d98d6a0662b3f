import Verif.Proof.Tether
import Verif.Props.Recording
import Verif.Props.Grammar

/-!
# C69: without backtracking a buffer of one token is enough

`buffered::Stream` takes the number of tokens it keeps from its user.  A parser that has no `attempt`, `look_ahead` or
`not_followed_by` in it never needs more than one: with any capacity it ends exactly as with an unlimited one.
-/

namespace Verif

variable {S : Strm} {σ τ α β : Type}

private theorem new_holds (src : S.Input) (k : Nat) : BufHolds (BufState.new src k) (Tape.new src) := by
  have hw : 0 < (BufState.new (S := S) src k).cap := by
    simp only [BufState.new]; split <;> omega
  exact ⟨hw, rfl, rfl, by simp [BufState.new, Tape.new], rfl, by simp [Tape.new], by simp [Tape.new]⟩

/-- The buffered stream stands where the recording stands, no more than one token of which has to be read again. -/
def Abreast (b : BufState S) (t : Tape S) : Prop := BufHolds b t ∧ t.past.length ≤ t.head + 1

private theorem both {p : (X : Impl S.E) → Parser X.strm σ α} (hp : Program p) (hn : (tetherLeash S).Near (p (tetherS S).impl))
    {b : BufState S} {t : Tape S} (h : Abreast b t) :
    (∃ v b' t', (p (bufferedS S).impl).parse b = .ok v b' ∧ (p (tapeS S).impl).parse t = .ok v t' ∧ Abreast b' t') ∨
    (∃ e, (p (bufferedS S).impl).parse b = .err e ∧ (p (tapeS S).impl).parse t = .err e) ∨
    (∃ a, (p (bufferedS S).impl).parse b = .abort a ∧ (p (tapeS S).impl).parse t = .abort a) := by
  have h1 := hn.stream ⟨t, false⟩ ⟨rfl, h.2⟩
  have h2 := (hp (tetherBuffer S)).stream (L := []) (i := ⟨t, false⟩) (j := b) ⟨rfl, h.1, ⟨fun _ h => (List.not_mem_nil h).elim, .nil⟩⟩
  have h3 := (hp (tetherTape S)).stream (L := []) (i := ⟨t, false⟩) (j := t) ⟨rfl, rfl, fun _ h => (List.not_mem_nil h).elim⟩
  rcases h2 with ⟨_, hl⟩ | ⟨h2, h4⟩
  · exact absurd (h1.1.symm.trans hl) (by intro h; cases h)
  rcases h3 with ⟨_, hl⟩ | ⟨h3, h5⟩
  · exact absurd (h1.1.symm.trans hl) (by intro h; cases h)
  simp only [Parser.parse]
  revert h1 h2 h3 h4 h5
  generalize (p (tetherS S).impl).stream ⟨t, false⟩ = x
  generalize (p (bufferedS S).impl).stream b = y
  generalize (p (tapeS S).impl).stream t = z
  obtain ⟨r, i⟩ := x
  obtain ⟨r', j⟩ := y
  obtain ⟨r'', l⟩ := z
  rintro h1 h2 ⟨_, h4, _⟩ h3 ⟨_, h5, _⟩
  cases h2
  cases h3
  cases h5
  cases r with
  | commitOk v => exact .inl ⟨v, _, _, rfl, rfl, h4, h1.tame_commit.2⟩
  | peekOk v => exact .inl ⟨v, _, _, rfl, rfl, h4, h1.tame_peek.2⟩
  | commitErr e => exact .inr (.inl ⟨_, rfl, rfl⟩)
  | peekErr e => exact .inr (.inl ⟨_, rfl, rfl⟩)
  | abort a => exact .inr (.inr ⟨_, rfl, rfl⟩)

private theorem endings {p : (X : Impl S.E) → Parser X.strm σ α} (hp : Program p) (hn : (tetherLeash S).Near (p (tetherS S).impl))
    {b : BufState S} {t : Tape S} (h : Abreast b t) :
    ((p (bufferedS S).impl).parse b).ending = ((p (tapeS S).impl).parse t).ending := by
  rcases both hp hn h with ⟨v, b', t', h1, h2, h3⟩ | ⟨e, h1, h2⟩ | ⟨a, h1, h2⟩ <;> rw [h1, h2]
  · exact congrArg (Ending.ok v) h3.1.position_
  · rfl
  · rfl

private theorem start (src : S.Input) (k : Nat) : Abreast (BufState.new src k) (Tape.new src) := ⟨new_holds src k, Nat.zero_le _⟩

/-- The same of every program that goes back by one token at most, for whatever reason. -/
theorem ending_of_near {p : (X : Impl S.E) → Parser X.strm σ α} (hp : Program p) (hn : (tetherLeash S).Near (p (tetherS S).impl))
    (src : S.Input) (k : Nat) :
    ((p (bufferedS S).impl).parse (BufState.new src k)).ending = ((p (tapeS S).impl).parse (Tape.new src)).ending :=
  endings hp hn (start src k)

/-- **C69.**  A program without backtracking, over a buffer of any capacity: it ends exactly as on an unlimited recording of the
source. -/
theorem C69_buffer {p : (X : Impl S.E) → Parser X.strm σ α} (h : Straight p) (src : S.Input) (k : Nat) :
    ((p (bufferedS S).impl).parse (BufState.new src k)).ending = ((p (tapeS S).impl).parse (Tape.new src)).ending :=
  endings (fun M => h.same M) (h.near (X := (tetherS S).impl) (tetherLeash S)) (start src k)

/-- **C69.**  So the capacity does not matter. -/
theorem C69_capacity {p : (X : Impl S.E) → Parser X.strm σ α} (h : Straight p) (src : S.Input) (k l : Nat) :
    ((p (bufferedS S).impl).parse (BufState.new src k)).ending = ((p (bufferedS S).impl).parse (BufState.new src l)).ending :=
  (C69_buffer h src k).trans (C69_buffer h src l).symm

/-- **C69.**  And where the source can go back by itself, it ends as on the source. -/
theorem C69_source (hS : S.Rewinds) {p : (X : Impl S.E) → Parser X.strm σ α} (h : Straight p) (src : S.Input) (k : Nat) :
    ((p (bufferedS S).impl).parse (BufState.new src k)).ending = ((p S.impl).parse src).ending :=
  (C69_buffer h src k).trans (C68_source hS (h.same _) src)

/-- Parses one after the other, each from where the one before stopped, up to the first that fails. -/
def parseAll {X : Strm} : List (Parser X σ α) → X.Input → List (Ending X.Err X.Pos α)
  | [], _ => []
  | p :: ps, i =>
    (p.parse i).ending :: match p.parse i with
    | .ok _ j => parseAll ps j
    | _ => []

/-- **C69.**  So do any number of programs, one after the other on the same stream. -/
theorem C69_one_after_the_other (ps : List ((X : Impl S.E) → Parser X.strm σ α)) (h : ∀ p ∈ ps, Straight p) (src : S.Input) (k : Nat) :
    parseAll (ps.map fun p => p (bufferedS S).impl) (BufState.new src k) = parseAll (ps.map fun p => p (tapeS S).impl) (Tape.new src) := by
  have key : ∀ {b : BufState S} {t : Tape S}, Abreast b t →
      parseAll (ps.map fun p => p (bufferedS S).impl) b = parseAll (ps.map fun p => p (tapeS S).impl) t := by
    induction ps with
    | nil => intro b t _; rfl
    | cons p ps ih =>
      intro b t hbt
      have hp := h p (.head _)
      have he := endings (p := p) (fun M => hp.same M) (hp.near (X := (tetherS S).impl) (tetherLeash S)) hbt
      simp only [List.map_cons, parseAll]
      rw [he]
      rcases both (p := p) (fun M => hp.same M) (hp.near (X := (tetherS S).impl) (tetherLeash S)) hbt with ⟨v, b', t', h1, h2, h3⟩ | ⟨e, h1, h2⟩ | ⟨a, h1, h2⟩ <;>
        rw [h1, h2]
      exact congrArg _ (ih (fun q hq => h q (.tail _ hq)) h3)
  exact key (start src k)

/-! ## Grammars -/

/-- The parsers of recursive programs, at any depth. -/
theorem C69_recur {T Rg P : Type} [DecidableEq P] {E : ErrOps T Rg P} {F : (X : Impl E) → Parser X.strm σ α → Parser X.strm σ α}
    (hF : ∀ {p : (X : Impl E) → Parser X.strm σ α}, Straight p → Straight fun X => F X (p X)) (s : σ) (n : Nat) :
    Straight fun X => recur (F X) s n := by
  induction n with
  | zero => exact .bottom F s
  | succ n ih => exact hF ih

/-- The parsers of grammars. -/
theorem C69_grammar {N T Rg P : Type} [DecidableEq P] {E : ErrOps T Rg P} (rules : N → Gram N T) (d : Nat) (n : N) :
    Straight fun X : Impl E => Grammar.parser X.strm rules d n := by
  have side : ∀ (g : Gram N T) {f : N → (X : Impl E) → Parser X.strm Unit Unit}, (∀ n, Straight (f n)) →
      Straight fun X => g.parser X.strm fun n => f n X := by
    intro g f h
    induction g with
    | empty => exact .value ()
    | one f => exact .ignore (.satisfy f)
    | seq a b ha hb => exact .parserMacroUnit (.with ha hb)
    | alt a b ha hb => exact .parserMacroUnit (.or ha hb)
    | star a ha => exact .parserMacroUnit (.skipMany ha)
    | ref n => exact h n
  induction d generalizing n with
  | zero => exact .bottom (fun _ q => q) ()
  | succ d ih => exact .parserMacroUnit (side (rules n) ih)

private theorem iter_endsOnly (T : Type) : (iterS T).EndsOnly := by
  intro i e j h
  cases i <;> cases h
  rfl

/-- **C69.**  A grammar for which one token of look-ahead suffices, over a buffered iterator with any capacity: exactly the words of the
grammar are accepted. -/
theorem C69_language {N T : Type} {rules : N → Gram N T} {follow : N → T → Prop} {rank : N → Nat} {R : Nat}
    (h : Grammar.LL1 rules follow rank R) (n : N) (xs : List T) (k d : Nat) (hd : xs.length * R + R ≤ d) :
    ((∃ v b, (skip (Grammar.parser (bufferedS (iterS T)) rules d n) (eof _)).parse (BufState.new xs k) = .ok v b) ↔
      (Gram.ref n).Derives rules xs) ∧
    ((∃ e, (skip (Grammar.parser (bufferedS (iterS T)) rules d n) (eof _)).parse (BufState.new xs k) = .err e) ↔
      ¬ (Gram.ref n).Derives rules xs) := by
  have h1 := C69_source (C68_rewinds T 0).1 (.skip (C69_grammar (E := (iterS T).E) rules d n) .eof) xs k
  obtain ⟨h2, h3⟩ := C56_language (iter_lawful T) (iter_endsOnly T) h d n xs [] xs rfl hd (iter_reads.2 (by simp)) ⟨_, rfl⟩
  have h1 : ((skip (Grammar.parser (bufferedS (iterS T)) rules d n) (eof _)).parse (BufState.new xs k)).ending =
    ((skip (Grammar.parser (iterS T) rules d n) (eof _)).parse xs).ending := h1
  rw [← h3, ← h2]
  revert h1
  generalize (skip (Grammar.parser (bufferedS (iterS T)) rules d n) (eof _)).parse (BufState.new xs k) = a
  generalize (skip (Grammar.parser (iterS T) rules d n) (eof _)).parse xs = b
  intro h1
  cases a <;> cases b <;> cases h1 <;> simp

/-! ## Examples -/

/-- A list of `1`s separated by `2`s, up to the end. -/
def listProgram (X : Impl (iterS Nat).E) : Parser X.strm Unit (List Nat) :=
  parserMacroUnit (skip (sepBy (token X.strm 1) (token X.strm 2)) (eof X.strm))

theorem list_straight : Straight listProgram := .parserMacroUnit (.skip (.sepBy (.token 1) (.token 2)) .eof)

example : ((listProgram (bufferedS (iterS Nat)).impl).parse (BufState.new [1, 2, 1, 2, 1] 1)).ending = .ok [1, 1, 1] () := rfl

example (xs : List Nat) : ((listProgram (bufferedS (iterS Nat)).impl).parse (BufState.new xs 1)).ending =
    ((listProgram (iterS Nat).impl).parse xs).ending := C69_source (C68_rewinds Nat 0).1 list_straight xs 1

/-- **C69, the condition is needed.**  With `attempt` the capacity does matter. -/
theorem C69_attempt_needs_more :
    ((pairsProgram (iterS Nat).E (bufferedS (iterS Nat)).impl).parse (BufState.new [1, 2, 1, 1, 2] 2)).ending = .ok [2, 1, 2] () ∧
    ∃ e, (pairsProgram (iterS Nat).E (bufferedS (iterS Nat)).impl).parse (BufState.new [1, 2, 1, 1, 2] 1) = .err e := ⟨rfl, _, rfl⟩

end Verif
