import Verif.Spec.StructParser
import Verif.Props.Exact
import Verif.Props.Classes
import Verif.Props.Monad
import Verif.Props.Sequence

/-!
# C77 `struct_parser!`
-/

namespace Verif

variable {S : Strm} {σ τ α β κ γ : Type}

private theorem map_shape (p : Parser S σ α) (f : α → β) (i : S.Input) : (map p f).shape i = (p.shape i).map f := by
  simp only [Parser.shape, Parser.answer]
  rw [show (map p f).init = p.init from rfl, (C13_map p f true i p.init).1]
  cases (p.run true i p.init).answer <;> rfl

private theorem pick_seq (fs : Fields S τ β κ) (i : S.Input) : (Ref.seq fs.members i).map fs.pick = Ref.fields fs i := by
  induction fs generalizing i with
  | nil => rfl
  | skip p fs ih =>
    simp only [Fields.members, Ref.seq, Ref.fields, Ref.bind, Ref.map, ← ih]
    cases p.shape i with
    | ok c v j =>
      simp only [Answer.map]
      generalize Ref.seq fs.members j = a
      cases a <;> cases c <;> rfl
    | _ => rfl
  | keep p fs ih =>
    simp only [Fields.members, Ref.seq, Ref.fields, Ref.bind, Ref.map, ← ih]
    cases p.shape i with
    | ok c v j =>
      simp only [Answer.map]
      generalize Ref.seq fs.members j = a
      cases a <;> cases c <;> rfl
    | _ => rfl

/-- **C77.**  `struct_parser!` runs the parsers of its fields in the order they are written, each where the previous one stopped,
whether the field is kept or ignored; every kept field gets the value of its own parser. -/
theorem C77_keep (p : Parser S σ α) (fs : Fields S τ β κ) (build : α × κ → γ) (i : S.Input) :
    (structKeep p fs build).shape i = Ref.map (Ref.fields (.keep p fs)) build i := by
  rw [structKeep, map_shape, C12_tuple, Ref.map, ← pick_seq]
  simp only [Fields.members]
  cases Ref.seq (.cons p fs.members) i <;> rfl

/-- **C77.**  The same when the first field is ignored. -/
theorem C77_skip (p : Parser S σ α) (fs : Fields S τ β κ) (build : κ → γ) (i : S.Input) :
    (structSkip p fs build).shape i = Ref.map (Ref.fields (.skip p fs)) build i := by
  rw [structSkip, map_shape, C12_tuple, Ref.map, ← pick_seq]
  simp only [Fields.members]
  cases Ref.seq (.cons p fs.members) i <;> rfl

/-- **C77.**  In every call, first or resumed, from every state: what the tuple of the parsers does, with the same input left, the
same state kept for resuming, and the same errors. -/
theorem C77_tuple (p : Parser S σ α) (fs : Fields S τ β κ) (build : α × κ → γ) (m : Bool) (i : S.Input) (s : SeqSt σ τ α) :
    ((structKeep p fs build).run m i s).answer = ((tuple p fs.members).run m i s).answer.map (fun t => build (t.1, fs.pick t.2)) ∧
    ((structKeep p fs build).run m i s).st = ((tuple p fs.members).run m i s).st ∧
    (∀ e, ((structKeep p fs build).run m i s).res = .peekErr e ↔ ((tuple p fs.members).run m i s).res = .peekErr e) :=
  C13_map _ _ m i s

private theorem describes {fs : Fields S τ β κ} {M : Texts S.Tok κ} (h : FieldsDescribe M fs) :
    ∃ N : Texts S.Tok β, SeqDescribes N fs.members ∧ ∀ w y o, M w y o ↔ ∃ t, N w t o ∧ fs.pick t = y := by
  induction h with
  | nil => exact ⟨_, .nil, fun w y o => ⟨fun h => ⟨(), h, rfl⟩, fun ⟨_, h, _⟩ => h⟩⟩
  | skip hp _ ih =>
    obtain ⟨N, h1, h2⟩ := ih
    refine ⟨_, .cons hp h1, fun w y o => ⟨?_, ?_⟩⟩
    · rintro ⟨u, z, v, rfl, h3, h4⟩
      obtain ⟨t, h5, h6⟩ := (h2 z y o).1 h4
      exact ⟨(v, t), ⟨u, z, rfl, h3, h5⟩, h6⟩
    · rintro ⟨t, ⟨u, z, rfl, h3, h4⟩, h5⟩
      exact ⟨u, z, t.1, rfl, h3, (h2 z y o).2 ⟨t.2, h4, h5⟩⟩
  | keep hp _ ih =>
    obtain ⟨N, h1, h2⟩ := ih
    refine ⟨_, .cons hp h1, fun w y o => ⟨?_, ?_⟩⟩
    · rintro ⟨u, z, rfl, h3, h4⟩
      obtain ⟨t, h5, h6⟩ := (h2 z y.2 o).1 h4
      exact ⟨(y.1, t), ⟨u, z, rfl, h3, h5⟩, by simp only [Fields.pick, h6]⟩
    · rintro ⟨t, ⟨u, z, rfl, h3, h4⟩, rfl⟩
      exact ⟨u, z, rfl, h3, (h2 z _ o).2 ⟨t.2, h4, rfl⟩⟩

/-- **C77.**  The texts of a struct: those of its fields in the order they are written, ignored ones too. -/
theorem C77_is_keep (hS : S.Lawful) {p : Parser S σ α} {fs : Fields S τ β κ} {L : Texts S.Tok α} {M : Texts S.Tok κ}
    (hp : Describes L p) (h : FieldsDescribe M fs) (build : α × κ → γ) :
    Describes (fun w x o => ∃ u z v y, w = u ++ z ∧ L u v (lead z o) ∧ M z y o ∧ build (v, y) = x) (structKeep p fs build) := by
  obtain ⟨N, hs, h2⟩ := describes h
  refine C63_is_iff (C63_is_map (C63_is_tuple hS hp hs) _) fun w x o => ⟨?_, ?_⟩
  · rintro ⟨t, ⟨u, z, h3, h4, h5⟩, rfl⟩
    exact ⟨u, z, t.1, _, h3, h4, (h2 z _ o).2 ⟨t.2, h5, rfl⟩, rfl⟩
  · rintro ⟨u, z, v, y, h3, h4, h5, rfl⟩
    obtain ⟨t, h6, rfl⟩ := (h2 z y o).1 h5
    exact ⟨(v, t), ⟨u, z, h3, h4, h6⟩, rfl⟩

/-- **C77.**  The same when the first field is ignored. -/
theorem C77_is_skip (hS : S.Lawful) {p : Parser S σ α} {fs : Fields S τ β κ} {L : Texts S.Tok α} {M : Texts S.Tok κ}
    (hp : Describes L p) (h : FieldsDescribe M fs) (build : κ → γ) :
    Describes (fun w x o => ∃ u z v y, w = u ++ z ∧ L u v (lead z o) ∧ M z y o ∧ build y = x) (structSkip p fs build) := by
  obtain ⟨N, hs, h2⟩ := describes h
  refine C63_is_iff (C63_is_map (C63_is_tuple hS hp hs) _) fun w x o => ⟨?_, ?_⟩
  · rintro ⟨t, ⟨u, z, h3, h4, h5⟩, rfl⟩
    exact ⟨u, z, t.1, _, h3, h4, (h2 z _ o).2 ⟨t.2, h5, rfl⟩, rfl⟩
  · rintro ⟨u, z, v, y, h3, h4, h5, rfl⟩
    obtain ⟨t, h6, rfl⟩ := (h2 z y o).1 h5
    exact ⟨(v, t), ⟨u, z, h3, h4, h6⟩, rfl⟩

/-! ## Examples -/

private abbrev B := sliceS Char 1

private structure Point where
  x : Char
  y : Char

/-- `struct_parser!(Point(any(), _: token(','), any()))`, as in the example of the documentation. -/
private def point :=
  structKeep (any B) (.skip (token B ',') (.keep (any B) .nil)) fun t => (⟨t.1, t.2.1⟩ : Point)

example : point.shape ⟨0, ['1', ',', '2', ';']⟩ = .ok true ⟨'1', '2'⟩ ⟨3, [';']⟩ := rfl
example : point.shape ⟨0, ['1', ';', '2']⟩ = .hard () := rfl
example : point.shape ⟨0, []⟩ = .soft := rfl

example (i : B.Input) : point.shape i = Ref.map (Ref.bind (any B).shape fun x => Ref.map (Ref.bind (token B ',').shape fun _ =>
    Ref.bind (any B).shape fun y => Ref.map (Ref.value ()) (y, ·)) (x, ·)) (fun t => ⟨t.1, t.2.1⟩) i :=
  C77_keep _ _ _ i

/-- The texts of `point`: two tokens with a comma between them. -/
example : Describes (S := B) (fun w v _ => w = [v.x, ',', v.y]) point := by
  refine C63_is_iff (C77_is_keep (slice_lawful Char 1) (C63_is_one (C53_any (slice_lawful Char 1)))
    (.skip (C63_is_one (C53_token (slice_lawful Char 1) ',')) (.keep (C63_is_one (C53_any (slice_lawful Char 1))) .nil)) _)
    fun w v o => ⟨?_, ?_⟩
  · rintro ⟨u, z, x, y, rfl, ⟨t, rfl, h1⟩, ⟨u2, z2, v2, rfl, ⟨t2, rfl, h2⟩, ⟨u3, z3, rfl, ⟨t3, rfl, h3⟩, rfl⟩⟩, rfl⟩
    cases h1
    cases h3
    by_cases h : t2 = ','
    · subst h; rfl
    · rw [if_neg h] at h2; exact nomatch h2
  · intro h
    exact ⟨[v.x], [',', v.y], v.x, (v.y, ()), h, ⟨v.x, rfl, rfl⟩,
      ⟨[','], [v.y], ',', rfl, ⟨',', rfl, if_pos rfl⟩, [v.y], [], rfl, ⟨v.y, rfl, rfl⟩, rfl⟩, rfl⟩

end Verif
