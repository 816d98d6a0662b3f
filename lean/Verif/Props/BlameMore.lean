import Verif.Props.Blame

/-!
# C58: operator chains
-/

namespace Verif

variable {S : Strm} {N σ τ α β : Type} {rules : N → Gram N S.Tok} {a b : Gram N S.Tok} {F : S.Tok → Prop}
  {Has : S.Err → S.SErr → Prop}

/-- How `chainl1` fails: as its first operand, or as an operator and an operand after some of them. -/
theorem chainl1_fails (hS : S.Lawful) {Cp : σ → Prop} {Cs : τ → Prop} {p : Parser S σ α}
    {s : Parser S τ (α → α → α)} (hmp : Moves p) (hms : Moves s) (hkp : Keeps false Cp p) (hks : Keeps false Cs s)
    (hst : StartsAnew p) (hc : Consuming (pair (boxed s) (boxed p))) (i : S.Input) :
    (∀ e, ((chainl1 p s).run true i (chainl1 p s).init).res = .peekErr e → (p.run true i p.init).res = .peekErr e) ∧
    ∀ e, ((chainl1 p s).run true i (chainl1 p s).init).res = .commitErr e → (p.run true i p.init).res = .commitErr e ∨
      ∃ b v j vs c k, p.answer i = .ok b v j ∧ Ref.Run (pair (boxed s) (boxed p)).answer j vs c k ∧
        (pair (boxed s) (boxed p)).answer k = .hard e := by
  have hw := keeps_pair (keeps_boxed hks) (keeps_boxed hkp)
  have hwm := moves_pair hS (moves_boxed hS hms) (moves_boxed hS hmp)
  have hok := hkp.keep p.init hkp.init i
  have key : ∀ (b : Commit Unit) (v : α) (j : S.Input) (st : σ), Cp st →
      (∀ e, (chainl1Loop (pair (boxed s) (boxed p)) (S.size j + 2) true v b j
        { (pair (boxed s) (boxed p)).init with
          tail := (((pair (boxed s) (boxed p)).init.tail.1.1, st), ()) }).res ≠ .peekErr e) ∧
      ∀ e, (chainl1Loop (pair (boxed s) (boxed p)) (S.size j + 2) true v b j
        { (pair (boxed s) (boxed p)).init with
          tail := (((pair (boxed s) (boxed p)).init.tail.1.1, st), ()) }).res = .commitErr e →
        ∃ vs c k, Ref.Run (pair (boxed s) (boxed p)).answer j vs c k ∧ (pair (boxed s) (boxed p)).answer k = .hard e := by
    intro b v j st hst
    obtain ⟨vs, d, k, h1, h2, h3⟩ := chain_run hS hwm hw.reusableIn hc (S.size j + 2) v b j
      { (pair (boxed s) (boxed p)).init with
          tail := (((pair (boxed s) (boxed p)).init.tail.1.1, st), ()) } (by omega) ⟨hks.init, hst, trivial⟩
    revert h2
    generalize chainl1Loop (pair (boxed s) (boxed p)) (S.size j + 2) true v b j
      { (pair (boxed s) (boxed p)).init with tail := (((pair (boxed s) (boxed p)).init.tail.1.1, st), ()) } = o
    obtain ⟨r, l, u⟩ := o
    intro h2
    cases hk : (pair (boxed s) (boxed p)).answer k with
    | ok c v j => exact absurd hk (h3 c v j)
    | soft =>
      rw [hk] at h2
      cases r with
      | commitOk v => exact ⟨nofun, nofun⟩
      | peekOk v => exact ⟨nofun, nofun⟩
      | _ => cases h2
    | hard y => rw [hk] at h2; cases r <;> cases h2; exact ⟨nofun, fun e he => by cases he; exact ⟨vs, d, k, h1, hk⟩⟩
    | abort y => rw [hk] at h2; cases r <;> cases h2; exact ⟨nofun, nofun⟩
  revert hok key
  have hst := hst i
  simp only [Parser.answer, chainl1, Parser.ofMode]
  have e : (pair (boxed s) (boxed p)).init.tail.1.2 = p.init := rfl
  rw [e, hst]
  generalize p.run true i p.init = o
  obtain ⟨r, j, st⟩ := o
  intro hok key
  cases r with
  | commitOk v =>
    have h := key (.commit ()) v j st (hok rfl)
    refine ⟨fun e he => absurd he (h.1 e), fun e he => .inr ?_⟩
    obtain ⟨vs, c, k, h1, h2⟩ := h.2 e he
    exact ⟨true, v, j, vs, c, k, rfl, h1, h2⟩
  | peekOk v =>
    have h := key (.peek ()) v j st (hok rfl)
    refine ⟨fun e he => absurd he (h.1 e), fun e he => .inr ?_⟩
    obtain ⟨vs, c, k, h1, h2⟩ := h.2 e he
    exact ⟨false, v, j, vs, c, k, rfl, h1, h2⟩
  | commitErr e => exact ⟨fun e he => (by cases he), fun e he => .inl (by cases he; rfl)⟩
  | peekErr e => exact ⟨fun e he => (by cases he; rfl), fun e he => .inl (by cases he)⟩
  | abort a => exact ⟨fun e he => (by cases he), fun e he => .inl (by cases he)⟩

private theorem pair_shape' (s : Parser S τ (α → α → α)) (p : Parser S σ α) (i : S.Input) :
    (map (pair s p) fun x => (x.1, x.2.1)).shape i = Ref.bind s.shape (fun f => Ref.map p.shape fun x => (f, x)) i := by
  have e1 : (map (pair s p) fun x => (x.1, x.2.1)).shape i = ((pair s p).shape i).map fun x => (x.1, x.2.1) := by
    simp only [Parser.shape, Parser.answer]
    rw [show (map (pair s p) fun x => (x.1, x.2.1)).init = (pair s p).init from rfl, (C13_map _ _ true i _).1]
    cases ((pair s p).run true i (pair s p).init).answer <;> rfl
  rw [e1, pair, C12_tuple s (.cons p .nil) i]
  simp only [Ref.seq, Ref.bind, Ref.map, Ref.value]
  cases s.shape i with
  | ok c v j => dsimp only; cases p.shape j <;> cases c <;> simp [Answer.map, Answer.after]
  | _ => rfl

/-- **C58.**  `chainl1`. -/
theorem C58_chainl1 (hS : S.Lawful) (hE : S.E.Naming Has) {Cp : σ → Prop} {Cs : τ → Prop} {p : Parser S σ α}
    {s : Parser S τ (α → α → α)} (hmp : Moves p) (hms : Moves s) (hkp : Keeps false Cp p) (hks : Keeps false Cs s)
    (hst : StartsAnew p) (hp : Blames Has rules a (fun t => (b.seq a).First rules t ∨ F t) p)
    (hs : Blames Has rules b (fun t => a.First rules t) s) (ha : ¬ a.Null rules)
    (hF : Gram.Apart ((b.seq a).First rules) F) : Blames Has rules (a.sepBy1 b) F (chainl1 p s) := by
  have hn : ¬ (b.seq a).Null rules := fun h => ha (Gram.null_seq.1 h).2
  have hw : Blames Has rules (b.seq a) (fun t => (b.seq a).First rules t ∨ F t) (pair (boxed s) (boxed p)) := by
    refine C58_same (a := b.seq (a.seq .empty)) (C58_tuple hS hE (moves_boxed hS hms)
      (C58_labels hE (C58_weaken hs fun t h => ?_) (.static "")).2.2.2.1
      (.cons (moves_boxed hS hmp) (C58_labels hE (C58_weaken hp fun t h => ?_) (.static "")).2.2.2.1 .nil))
      (fun w => ?_) (fun t => ?_) ⟨hs.useful, hp.useful⟩
    · rcases h with h | h
      · rcases Gram.first_seq.1 h with h | h
        · exact h
        · cases h.2
      · exact absurd (Gram.null_seq.1 h.1).1 ha
    · rcases h with h | h
      · cases h
      · exact h.2
    · constructor
      · intro h
        cases h with
        | seq h1 h2 =>
          cases h2 with
          | seq h3 h4 => cases h4; rw [List.append_nil]; exact .seq h1 h3
      · intro h
        cases h with
        | seq h1 h2 =>
          rename_i u v
          have := Gram.Derives.seq h2 (Gram.Derives.empty (rules := rules))
          rw [List.append_nil] at this
          exact .seq h1 this
    · rw [Gram.first_seq, Gram.first_seq, Gram.first_seq]
      constructor
      · rintro (h | ⟨h, h' | h'⟩)
        · exact .inl h
        · exact .inr ⟨h, h'⟩
        · cases h'.2
      · rintro (h | ⟨h, h'⟩)
        · exact .inl h
        · exact .inr ⟨h, .inl h'⟩
  have hc := follows_consuming hw.1.1 hn
  have hmw := moves_pair hS (moves_boxed hS hms) (moves_boxed hS hmp)
  have hkw := keeps_pair (keeps_boxed hks) (keeps_boxed hkp)
  have hfail := chainl1_fails hS hmp hms hkp hks hst hc
  have hmap := C58_map hw fun x => (x.1, x.2.1)
  have hkm := (keeps_map hkw (fun x => (x.1, x.2.1))).reusable
  have hmm := moves_map hS hmw fun x => (x.1, x.2.1)
  have hmany := C58_many hS hmm hkm hmap hn hF
  have e : (chainl1 p s).shape = Ref.bind p.shape (fun v => Ref.map
      (many (map (pair (boxed s) (boxed p)) fun x => (x.1, x.2.1))).shape (List.foldl (fun l fx => fx.1 l fx.2) v)) := by
    funext i
    have h := C11_chainl1 hS hmp hms hkp hks (follows_consuming hp.1.1 ha) hst i
    simp only [Ref.IsChainl1] at h
    simp only [Ref.bind]
    cases hx : p.shape i with
    | ok c v j =>
      rw [hx] at h
      obtain ⟨x, h1, h2⟩ := h
      have h3 := isMany_shape (C07_many hS hmm hkm (follows_consuming hmap.1.1 hn) j)
      rw [show (fun i => (Parser.answer (map (pair (boxed s) (boxed p)) fun x => (x.1, x.2.1)) i).shape) =
        Ref.bind s.shape (fun f => Ref.map p.shape fun x => (f, x)) from funext (pair_shape' (boxed s) (boxed p))] at h3
      rw [h2, C07_unique h1 h3]
      rfl
    | soft => rw [hx] at h; exact h
    | hard x => rw [hx] at h; exact h
    | abort x => rw [hx] at h; exact h
  refine ⟨C56_chainl1 hS hmp hms hkp hks hst hp.toFollows hs.toFollows ha hF, ⟨hp.useful, hs.useful, hp.useful⟩, ?_,
    fun i e hpart hx => hp.soft i e hpart ((hfail i).1 e hx), fun i e hpart hx => ?_, hp.addError, adds_id⟩
  · rw [e]
    exact blame_stops hS hp hmany fun v vs => List.foldl (fun l fx => fx.1 l fx.2) v vs
  · rcases (hfail i).2 e (answer_of_hard.1 hx) with h | ⟨b', v, j, vs, c, k, h1, h2, h3⟩
    · exact blame_first hp hw.useful (answer_of_hard.2 h) hpart
    · exact blame_then_rounds hS hp hw h1 h2 h3 hpart

/-! ## Examples -/

section Examples

private abbrev cmpSource : SourcePosition → SourcePosition → Ordering :=
  fun a b => (compare a.line b.line).then (compare a.column b.column)

private abbrev Y := easySource (· = '\n') cmpSource
private abbrev tk (c : Char) : Gram Empty Char := .one fun t => (if t = c then some t else none).isSome

private theorem tk_blames (c : Char) (F : Char → Prop) :
    Blames (S := Y) (fun e y => Easy.Listed (Easy.Errors.errors e) y) Empty.elim (tk c) F (token Y c) :=
  (C58_one (source_lawful _ cmpSource) (Easy.naming cmpSource (by simp [cmpSource])) (source_plain _ cmpSource)
    (fun _ => some ()) ⟨c, rfl⟩ (fun _ => true) ⟨c, rfl⟩ c).2.2.1

/-- Sums of `x`: `chainl1(char('x'), char('+').map(...))`. -/
private abbrev sum := chainl1 (map (token Y 'x') fun _ => (1 : Nat)) (map (token Y '+') fun _ => (· + ·))

private theorem sum_blames :
    Blames (S := Y) (fun e y => Easy.Listed (Easy.Errors.errors e) y) Empty.elim ((tk 'x').sepBy1 (tk '+')) (fun _ => False) sum :=
  have hS := source_lawful (· = '\n') cmpSource
  C58_chainl1 hS (Easy.naming cmpSource (by simp [cmpSource])) (moves_map hS (moves_token hS _) _)
    (moves_map hS (moves_token hS _) _) (keeps_unit (h := false) _) (keeps_unit (h := false) _) (fun _ => rfl)
    (C58_map (tk_blames 'x' _) _) (C58_map (tk_blames '+' _) _) Gram.null_one fun _ _ h => h

/-- Every text that is no sum. -/
example (text : List Char) (e : Easy.Errors Char (List Char) SourcePosition)
    (he : (skip sum (eof Y)).parse (⟨0, text⟩, SourcePosition.start) = .err e) :
    ∃ good rest, text = good ++ rest ∧ ((tk 'x').sepBy1 (tk '+')).Viable Empty.elim good ∧
      e.position = textPosition (· = '\n') good ∧
      match rest with
      | t :: _ => ¬ ((tk 'x').sepBy1 (tk '+')).Viable Empty.elim (good ++ [t]) ∧ .unexpected (.token t) ∈ e.errors
      | [] => ¬ ((tk 'x').sepBy1 (tk '+')).Derives Empty.elim good ∧ Easy.SaysEnd e :=
  have hS := source_lawful (· = '\n') cmpSource
  C58_source _ cmpSource (by simp [cmpSource]) (moves_chainl1 hS (moves_map hS (moves_token hS _) _)
    (moves_map hS (moves_token hS _) _)) sum_blames text 0 he

private def report (text : List Char) : Option (Int × Int × List (Easy.Error Char (List Char))) :=
  match (skip sum (eof Y)).parse (⟨0, text⟩, SourcePosition.start) with
  | .err e => some (e.position.line, e.position.column, e.errors)
  | _ => none

example : report ['x', '+', '+', 'x'] = some (1, 3, [.unexpected (.token '+'), .expected (.token 'x')]) := by decide +kernel
example : report ['x', '+', 'x'] = none := by decide +kernel

end Examples

end Verif
