import Verif.Props.BlameSepEnd

/-!
# C59: parsers that hide what they expected
-/

namespace Verif

variable {S : Strm} {N σ τ α β : Type} {rules : N → Gram N S.Tok} {a b : Gram N S.Tok} {F : S.Tok → Prop}
  {Has : S.Err → S.SErr → Prop} {H : S.E.Hints} {M : Info S.Tok S.Rng → S.Tok → Prop}

/-- **C59.**  `silent`, around a parser whose soft failures do not reach over several members of a sequence. -/
theorem C59_silent (hE : S.E.Naming Has) {p : Parser S σ α} (hp : Tells Has H M rules a F p)
    (hoff : ∀ i e, (p.run true i p.init).res = .peekErr e → e.offset ≤ 1) : Tells Has H M rules a F (silent p) := by
  have hsoft : ∀ i e, ((silent p).run true i (silent p).init).res = .peekErr e →
      ∃ e', (p.run true i p.init).res = .peekErr e' ∧ e.offset = e'.offset ∧
        ∀ x, H.Lists e.error x → H.Lists e'.error x := by
    intro i e hx
    simp only [silent, Parser.ofMode] at hx
    revert hx
    generalize p.run true i p.init = o
    obtain ⟨r, j, s⟩ := o
    cases r <;> intro hx <;> cases hx
    exact ⟨_, rfl, rfl, fun _ h => H.clear _ _ h⟩
  refine ⟨(C58_labels hE hp.toBlames (.static "")).2.2.1, fun t => ⟨notes_refl t, notes_refl t⟩, fun t _ => notes_refl t,
    fun i e hpart hx => ?_, fun i e hpart hx => ?_, fun t _ _ _ => notes_refl t⟩
  · obtain ⟨e', h1, h2, h3⟩ := hsoft i e hx
    refine ⟨fun x hx => (hp.softly i e' hpart h1).1 x (h3 x hx), fun t ht => ⟨notes_refl t, ?_⟩⟩
    have h4 := hoff i e' h1
    show t.offset ≤ 1
    omega
  · rw [answer_of_hard] at hx
    have : ∃ e', (p.run true i p.init).res = .commitErr e' ∧ ∀ y, H.Lists e y → H.Lists e' y := by
      simp only [silent, Parser.ofMode] at hx
      revert hx
      generalize p.run true i p.init = o
      obtain ⟨r, j, s⟩ := o
      cases r <;> intro hx <;> cases hx
      exact ⟨_, rfl, fun y h => H.clear _ y h⟩
    obtain ⟨e', h1, h2⟩ := this
    obtain ⟨w, l, h3, h4, h5, h6⟩ := hp.hardly i e' hpart (answer_of_hard.2 h1)
    exact ⟨w, l, h3, h4, h5, fun x hx => h6 x (h2 x hx)⟩

/-- A silent parser adds nothing to errors. -/
theorem modest_silent (p : Parser S σ α) : Modest H M rules a (silent p) ∧ Closes H M rules a (silent p) :=
  ⟨fun t => notes_refl t, fun _ t => notes_refl t⟩

/-- The failures of parsers of one token do not. -/
theorem one_offset [DecidableEq S.Tok] (c : S.Tok) (i : S.Input) (e : Tracked S.Err)
    (he : ((token S c).run true i ()).res = .peekErr e) : e.offset ≤ 1 := by
  simp only [token, Parser.ofLazy, satisfyImpl, Strm.unconsP] at he
  repeat' split at he
  all_goals grind [Tracked.of, Strm.wrapStreamError]

section Examples

open Hint

private theorem hS : Y.Lawful := source_lawful _ _

private theorem hE : Y.E.Naming SaysE := Easy.naming cmpSource cmpSource_self

private theorem tells_ch (F : Char → Prop) (x : Char) :
    Tells SaysE (Easy.hints cmpSource) named lists (ch x) F (token Y x) :=
  (C59_one (S := Y) hS hE (source_plain _ _) (fun t => some t) ⟨'a', rfl⟩ (fun _ => true) ⟨'a', rfl⟩ x rfl).2.2.1

example : Tells SaysE (Easy.hints cmpSource) named lists (ch 'x') (fun _ => False) (silent (token Y 'x')) :=
  C59_silent hE (tells_ch _ 'x') (one_offset (S := Y) 'x')

/-- An element and a silent separator: `char('x').with(silent(char(';')))`. -/
private theorem hidden_tells : Tells SaysE (Easy.hints cmpSource) named lists ((ch 'x').seq (ch ';')) (fun _ => False)
    («with» (token Y 'x') (silent (token Y ';'))) :=
  C59_with hS hE (moves_token hS _) (moves_silent hS (moves_token hS _)) (tells_ch _ 'x') (fun h => absurd h Gram.null_one)
    (C59_silent hE (tells_ch _ ';') (one_offset (S := Y) ';')) (fun h => absurd h Gram.null_one)

example : Hint.reported (token Y 'x') ['y'] = some (1, 1, [.unexpected (.token 'y'), .expected (.token 'x')]) := by
  decide +kernel
example : Hint.reported (silent (token Y 'x')) ['y'] = some (1, 1, [.unexpected (.token 'y')]) := by decide +kernel

private theorem blames_ch (F : Char → Prop) (x : Char) : Blames SaysE lists (ch x) F (token Y x) := (tells_ch F x).toBlames

/-- Around a sequence that begins with something optional, `silent` does not keep the error from listing what comes after
the sequence: `silent((optional('a'), 'b'))` followed by `'c'` rejects `z` and lists `c` as expected, which cannot come. -/
theorem C59_silent_pair :
    let g := ((ch 'a').opt.seq (ch 'b')).seq (ch 'c')
    let p := «with» (silent («with» (optional (token Y 'a')) (token Y 'b'))) (token Y 'c')
    Blames SaysE lists g (fun _ => False) p ∧
    Hint.reported p ['z'] = some (1, 1, [.unexpected (.token 'z'), .expected (.token 'c')]) ∧ ¬ g.Viable lists ['c'] := by
  have ma := moves_optional hS (moves_token hS 'a')
  have mab := moves_with hS ma (moves_token hS 'b')
  refine ⟨C58_with hS hE (moves_silent hS mab) (moves_token hS _) (C58_labels hE (C58_with hS hE ma (moves_token hS _)
    (C58_optional hS (moves_token hS _) (blames_ch _ _) Gram.null_one ?_) (blames_ch _ _)) (.static "")).2.2.1
    (blames_ch _ _), by decide +kernel, fun h => ?_⟩
  · intro t h1 h2
    simp [Gram.first_one, Gram.null_one, Gram.Then] at h1 h2
    subst h1
    simp at h2
  · simpa [Gram.first_one, Gram.first_seq, Gram.first_alt, Gram.null_one, Gram.not_first_empty, Gram.null_seq, Gram.null_alt]
      using Gram.viable_first h

end Examples

end Verif
