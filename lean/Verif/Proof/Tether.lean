import Verif.Spec.Straight
import Verif.Proof.Near
import Verif.Proof.Recording

/-!
# A recording that can go back by one token only, and programs without backtracking on it
-/

namespace Verif

variable {S : Strm}

/-- A recording with a mark whether it was ever asked to go back by more than one token from its end. -/
structure Tethered (S : Strm) where
  tape : Tape S
  lost : Bool

/-- Such a recording as a stream: it refuses to go back by more than one token, and to go back at all after that. -/
abbrev tetherS (S : Strm) : Strm where
  Input := Tethered S
  Tok := S.Tok
  Rng := S.Rng
  Pos := S.Pos
  Ckpt := Nat
  decPos := S.decPos
  E := S.E
  uncons := fun t => (t.tape.read.1, ⟨t.tape.read.2, t.lost⟩)
  isPartial := fun t => S.isPartial t.tape.source
  checkpoint := fun t => t.tape.head
  reset := fun c t =>
    if t.lost = true ∨ c + 1 < t.tape.past.length then (some (S.E.empty t.tape.position), ⟨t.tape, true⟩)
    else (none, ⟨{ t.tape with head := c }, t.lost⟩)
  position := fun t => t.tape.position
  size := fun t => S.size t.tape.source + (t.tape.past.length - t.tape.head)

theorem tether_lost {c : Nat} {t : Tethered S} (h : t.lost = true) :
    ((tetherS S).reset c t).1.isSome ∧ ((tetherS S).reset c t).2.lost = true := by
  dsimp only
  rw [if_pos (.inl h)]
  exact ⟨rfl, rfl⟩

theorem tether_reset (c : Nat) {t : Tethered S} (h : t.lost = false) :
    (((tetherS S).reset c t).1.isSome ∧ ((tetherS S).reset c t).2.lost = true) ∨
    (t.tape.past.length ≤ c + 1 ∧ (tetherS S).reset c t = (none, ⟨{ t.tape with head := c }, false⟩)) := by
  dsimp only
  split
  · exact .inl ⟨rfl, rfl⟩
  · rename_i hn
    exact .inr ⟨by have := fun h => hn (.inr h); omega, by rw [h]⟩

/-- A buffered stream of any capacity does the same as long as one does not go back by more than one token. -/
def tetherBuffer (S : Strm) : Lockstep (tetherS S).impl (bufferedS S).impl where
  R L t b := t.lost = false ∧ BufHolds b t.tape ∧ Marks L t.tape.head
  Lost _ t := t.lost = true
  uncons := fun {L t b} h => by
    obtain ⟨h1, h2, _⟩ := h.2.1.uncons
    exact ⟨h1.symm, h.1, h2, h.2.2.mono t.tape.read_head⟩
  isPartial := fun {L t b} h => (congrArg S.isPartial h.2.1.source).symm
  position := fun {L t b} h => h.2.1.position_.symm
  size := fun {L t b} h => h.2.1.size.symm
  save := fun {L t b} h => ⟨h.1, h.2.1, by
    have := h.2.2.save
    rwa [show (bufferedS S).impl.checkpoint b = t.tape.head from h.2.1.head]⟩
  forget := fun {L c t b} h => ⟨h.1, h.2.1, h.2.2.forget⟩
  reset := fun {L t b c} h => by
    rcases tether_reset c.1 h.1 with h1 | ⟨h1, h2⟩
    · exact .inl h1
    · have hc := h.2.2.same c (.head _)
      rcases h.2.1.reset hc.2 with ⟨_, h3, h4⟩ | ⟨h3, e, h4⟩
      · refine .inr ?_
        rw [show (tetherS S).impl.reset c.1 t = _ from h2, ← hc.1, show (bufferedS S).impl.reset c.1 b = _ from h3]
        exact ⟨rfl, rfl, h4, h.2.2.reset⟩
      · have h5 := h.2.1.length
        have h6 := h.2.1.count
        have h7 := h.2.1.cap
        omega
  lostForget := fun h => h
  lostReset := fun h => tether_lost h

/-- So does the unlimited recording. -/
def tetherTape (S : Strm) : Lockstep (tetherS S).impl (tapeS S).impl where
  R L t u := t.lost = false ∧ t.tape = u ∧ ∀ c ∈ L, c.1 = c.2
  Lost _ t := t.lost = true
  uncons := fun {L t u} h => by obtain ⟨h1, rfl, h3⟩ := h; exact ⟨rfl, h1, rfl, h3⟩
  isPartial := fun {L t u} h => by obtain ⟨h1, rfl, h3⟩ := h; rfl
  position := fun {L t u} h => by obtain ⟨h1, rfl, h3⟩ := h; rfl
  size := fun {L t u} h => by obtain ⟨h1, rfl, h3⟩ := h; rfl
  save := fun {L t u} h => ⟨h.1, h.2.1, fun c hc => by
    obtain ⟨h1, rfl, h3⟩ := h
    rcases List.mem_cons.1 hc with rfl | hc
    · rfl
    · exact h3 c hc⟩
  forget := fun {L c t u} h => ⟨h.1, h.2.1, fun d hd => h.2.2 d (List.mem_cons_of_mem _ hd)⟩
  reset := fun {L t u c} h => by
    obtain ⟨h1, rfl, h3⟩ := h
    rcases tether_reset c.1 h1 with h1 | ⟨h1, h2⟩
    · exact .inl h1
    · refine .inr ?_
      rw [show (tetherS S).impl.reset c.1 t = _ from h2, show (tapeS S).impl.reset c.2 t.tape = (none, { t.tape with head := c.1 }) by
        rw [h3 c (.head _)]]
      exact ⟨rfl, rfl, rfl, h3⟩
  lostForget := fun h => h
  lostReset := fun h => tether_lost h

/-- The recording can go back by one token. -/
def tetherLeash (S : Strm) : Leash (tetherS S) where
  head := fun t => t.tape.head
  far := fun t => t.tape.past.length
  Good := fun t => t.lost = false
  ok := fun {i j t} h1 h2 hu => by
    cases hu' : i.tape.past[i.tape.head]? with
    | some x =>
      simp only [Tape.read, hu', Prod.mk.injEq] at hu
      obtain ⟨_, rfl⟩ := hu
      exact ⟨h1, h2, by dsimp only; omega⟩
    | none =>
      have hl := List.getElem?_eq_none_iff.1 hu'
      simp only [Tape.read, hu'] at hu
      rcases hs : S.uncons i.tape.source with ⟨e | tok, src⟩ <;> simp only [hs, Prod.mk.injEq] at hu
      · exact absurd hu.1 (by intro h; cases h)
      · obtain ⟨_, rfl⟩ := hu
        refine ⟨h1, ?_, ?_⟩ <;> dsimp only <;> rw [List.length_append, List.length_singleton] <;> omega
  error := fun {i j e} h1 h2 hu => by
    cases hu' : i.tape.past[i.tape.head]? with
    | some x =>
      simp only [Tape.read, hu', Prod.mk.injEq] at hu
      exact absurd hu.1 (by intro h; cases h)
    | none =>
      simp only [Tape.read, hu'] at hu
      rcases hs : S.uncons i.tape.source with ⟨e | tok, src⟩ <;> simp only [hs, Prod.mk.injEq] at hu
      · obtain ⟨_, rfl⟩ := hu
        exact ⟨h1, h2, rfl⟩
      · exact absurd hu.1 (by intro h; cases h)
  reset := fun {i j} h1 h2 => by
    refine ⟨⟨{ j.tape with head := i.tape.head }, j.lost⟩, ?_, h1, rfl, rfl⟩
    dsimp only
    rw [if_neg]
    rintro (h | h)
    · rw [h1] at h; cases h
    · omega

/-! ## Programs without backtracking -/

section
variable {T Rg P : Type} [DecidableEq P] {E : ErrOps T Rg P}

mutual

theorem Straight.same {X Y : Impl E} (M : Lockstep X Y) : {σ α : Type} → {p : (X : Impl E) → Parser X.strm σ α} → Straight p → M.Same (p X) (p Y)
  | _, _, _, .any => Lockstep.any (M := M)
  | _, _, _, .satisfy f => Lockstep.satisfy (M := M) f
  | _, _, _, .satisfyMap f => Lockstep.satisfyMap (M := M) f
  | _, _, _, @Straight.token _ _ _ _ _ _ c => Lockstep.token (M := M) c
  | _, _, _, @Straight.oneOf _ _ _ _ _ _ c => Lockstep.oneOf (M := M) c
  | _, _, _, @Straight.noneOf _ _ _ _ _ _ c => Lockstep.noneOf (M := M) c
  | _, _, _, .tokens cmp x ts => Lockstep.tokens (M := M) cmp x ts
  | _, _, _, .tokensCmp ts cmp => Lockstep.tokensCmp (M := M) ts cmp
  | _, _, _, .position => Lockstep.position_ (M := M)
  | _, _, _, .eof => Lockstep.eof (M := M)
  | _, _, _, .value v => Lockstep.value (M := M) v
  | _, _, _, .produce f => Lockstep.produce (M := M) f
  | _, _, _, .unexpected α x => Lockstep.unexpected (M := M) α x
  | _, _, _, .bottom F s => Lockstep.same_mode (M := M) (fun hr _ _ => Lockstep.Out.mk' hr) rfl rfl rfl
  | _, _, _, .map f h => Lockstep.map (h.same M) f
  | _, _, _, .flatMap f h => Lockstep.flatMap (h.same M) f
  | _, _, _, .ignore h => Lockstep.ignore (h.same M)
  | _, _, _, .message x h => Lockstep.message (h.same M) x
  | _, _, _, .expected x h => Lockstep.expected (h.same M) x
  | _, _, _, .silent h => Lockstep.silent (h.same M)
  | _, _, _, @Straight.spanned _ _ _ _ _ _ _ _ _ _ f g h => Lockstep.spanned f g (h.same M)
  | _, _, _, .boxed h => Lockstep.boxed (h.same M)
  | _, _, _, .opaqueP h => Lockstep.opaqueP (h.same M)
  | _, _, _, .lazyP h => Lockstep.lazyP (h.same M)
  | _, _, _, .anyPartialState h => Lockstep.anyPartialState (h.same M)
  | _, _, _, .parserMacro h => Lockstep.parserMacro (h.same M)
  | _, _, _, .parserMacroUnit h => Lockstep.parserMacroUnit (h.same M)
  | _, _, _, .tuple h hs => Lockstep.tuple (h.same M) (hs.same M)
  | _, _, _, .with h h' => Lockstep.with (h.same M) (h'.same M)
  | _, _, _, .skip h h' => Lockstep.skip (h.same M) (h'.same M)
  | _, _, _, .between h h' h'' => Lockstep.between (h.same M) (h'.same M) (h''.same M)
  | _, _, _, .thenP n h h' => Lockstep.thenP n (h.same M) fun a => (h' a).same M
  | _, _, _, .choice h => Lockstep.choice (h.same M)
  | _, _, _, .or h h' => Lockstep.or (h.same M) (h'.same M)
  | _, _, _, .optional h => Lockstep.optional (h.same M)
  | _, _, _, .many h => Lockstep.many (h.same M)
  | _, _, _, .many1 h => Lockstep.many1 (h.same M)
  | _, _, _, .skipMany h => Lockstep.skipMany (h.same M)
  | _, _, _, .skipMany1 h => Lockstep.skipMany1 (h.same M)
  | _, _, _, .countMinMax lo hi h => Lockstep.countMinMax lo hi (h.same M)
  | _, _, _, .count n h => Lockstep.count n (h.same M)
  | _, _, _, .sepBy h h' => Lockstep.sepBy (h.same M) (h'.same M)
  | _, _, _, .sepBy1 h h' => Lockstep.sepBy1 (h.same M) (h'.same M)
  | _, _, _, .sepEndBy h h' => Lockstep.sepEndBy (h.same M) (h'.same M)
  | _, _, _, .sepEndBy1 h h' => Lockstep.sepEndBy1 (h.same M) (h'.same M)
  | _, _, _, .chainl1 h h' => Lockstep.chainl1 (h.same M) (h'.same M)

theorem StraightSeq.same {X Y : Impl E} (M : Lockstep X Y) : {τ β : Type} → {ps : (X : Impl E) → Seq X.strm τ β} → StraightSeq ps →
    M.SameSeq (ps X) (ps Y)
  | _, _, _, .nil => .nil
  | _, _, _, .cons h hs => .cons (h.same M) (hs.same M)

theorem StraightAlts.same {X Y : Impl E} (M : Lockstep X Y) : {α σ : Type} → {ps : (X : Impl E) → Alts X.strm α σ} → StraightAlts ps →
    M.SameAlts (ps X) (ps Y)
  | _, _, _, .last h => .last (h.same M)
  | _, _, _, .cons h hs => .cons (h.same M) (hs.same M)

end

mutual

theorem Straight.near {X : Impl E} (W : Leash X.strm) : {σ α : Type} → {p : (X : Impl E) → Parser X.strm σ α} → Straight p → W.Near (p X)
  | _, _, _, .any => Leash.any (X := X.strm)
  | _, _, _, .satisfy f => Leash.satisfy (X := X.strm) f
  | _, _, _, .satisfyMap f => Leash.satisfyMap (X := X.strm) f
  | _, _, _, @Straight.token _ _ _ _ _ _ c => Leash.token (X := X.strm) c
  | _, _, _, @Straight.oneOf _ _ _ _ _ _ c => Leash.oneOf (X := X.strm) c
  | _, _, _, @Straight.noneOf _ _ _ _ _ _ c => Leash.noneOf (X := X.strm) c
  | _, _, _, .tokens cmp x ts => Leash.tokens (X := X.strm) cmp x ts
  | _, _, _, .tokensCmp ts cmp => Leash.tokensCmp (X := X.strm) ts cmp
  | _, _, _, .position => Leash.position (X := X.strm)
  | _, _, _, .eof => Leash.eof (X := X.strm)
  | _, _, _, .value v => Leash.value (X := X.strm) v
  | _, _, _, .produce f => Leash.produce (X := X.strm) f
  | _, _, _, .unexpected α x => Leash.unexpected (X := X.strm) x
  | _, _, _, .bottom F s => Leash.bottom (X := X.strm) _ s
  | _, _, _, .map f h => Leash.map (h.near W) f
  | _, _, _, .flatMap f h => Leash.flatMap (h.near W) f
  | _, _, _, .ignore h => Leash.ignore (h.near W)
  | _, _, _, .message x h => Leash.message (h.near W) x
  | _, _, _, .expected x h => Leash.expected (h.near W) x
  | _, _, _, .silent h => Leash.silent (h.near W)
  | _, _, _, @Straight.spanned _ _ _ _ _ _ _ _ _ _ f g h => Leash.spanned f g (h.near W)
  | _, _, _, .boxed h => Leash.boxed (h.near W)
  | _, _, _, .opaqueP h => Leash.opaqueP (h.near W)
  | _, _, _, .lazyP h => Leash.lazyP (h.near W)
  | _, _, _, .anyPartialState h => Leash.anyPartialState (h.near W)
  | _, _, _, .parserMacro h => Leash.parserMacro (h.near W)
  | _, _, _, .parserMacroUnit h => Leash.parserMacroUnit (h.near W)
  | _, _, _, .tuple h hs => Leash.tuple (h.near W) (hs.near W)
  | _, _, _, .with h h' => Leash.with (h.near W) (h'.near W)
  | _, _, _, .skip h h' => Leash.skip (h.near W) (h'.near W)
  | _, _, _, .between h h' h'' => Leash.between (h.near W) (h'.near W) (h''.near W)
  | _, _, _, .thenP n h h' => Leash.thenP (h.near W) (fun a => (h' a).near W) n
  | _, _, _, .choice h => Leash.choice (h.near W)
  | _, _, _, .or h h' => Leash.or (h.near W) (h'.near W)
  | _, _, _, .optional h => Leash.optional (h.near W)
  | _, _, _, .many h => Leash.many (h.near W)
  | _, _, _, .many1 h => Leash.many1 (h.near W)
  | _, _, _, .skipMany h => Leash.skipMany (h.near W)
  | _, _, _, .skipMany1 h => Leash.skipMany1 (h.near W)
  | _, _, _, .countMinMax lo hi h => Leash.countMinMax lo hi (h.near W)
  | _, _, _, .count n h => Leash.count n (h.near W)
  | _, _, _, .sepBy h h' => Leash.sepBy (h.near W) (h'.near W)
  | _, _, _, .sepBy1 h h' => Leash.sepBy1 (h.near W) (h'.near W)
  | _, _, _, .sepEndBy h h' => Leash.sepEndBy (h.near W) (h'.near W)
  | _, _, _, .sepEndBy1 h h' => Leash.sepEndBy1 (h.near W) (h'.near W)
  | _, _, _, .chainl1 h h' => Leash.chainl1 (h.near W) (h'.near W)

theorem StraightSeq.near {X : Impl E} (W : Leash X.strm) : {τ β : Type} → {ps : (X : Impl E) → Seq X.strm τ β} → StraightSeq ps →
    W.NearSeq (ps X)
  | _, _, _, .nil => fun _ h => h.elim
  | _, _, _, .cons h hs => fun q hq => hq.elim (fun e => e ▸ h.near W) (hs.near W q)

theorem StraightAlts.near {X : Impl E} (W : Leash X.strm) : {α σ : Type} → {ps : (X : Impl E) → Alts X.strm α σ} → StraightAlts ps →
    W.NearAlts (ps X)
  | _, _, _, .last h => fun _ hq => hq ▸ h.near W
  | _, _, _, .cons h hs => fun q hq => hq.elim (fun e => e ▸ h.near W) (hs.near W q)

end

end

end Verif
