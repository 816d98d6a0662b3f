import Verif.Props.Hints
import Verif.Props.BlameMore

/-!
# C59: operator chains
-/

namespace Verif

variable {S : Strm} {N σ τ α β : Type} {rules : N → Gram N S.Tok} {a b : Gram N S.Tok} {F : S.Tok → Prop}
  {Has : S.Err → S.SErr → Prop} {H : S.E.Hints} {M : Info S.Tok S.Rng → S.Tok → Prop}

/-- **C59.**  `chainl1`: it says nothing after a success, so that the operator need not be modest. -/
theorem C59_chainl1 (hS : S.Lawful) (hE : S.E.Naming Has) {Cp : σ → Prop} {Cs : τ → Prop} {p : Parser S σ α}
    {s : Parser S τ (α → α → α)} (hmp : Moves p) (hms : Moves s) (hkp : Keeps false Cp p) (hks : Keeps false Cs s)
    (hst : StartsAnew p) (hp : Tells Has H M rules a (fun t => (b.seq a).First rules t ∨ F t) p)
    (hs : Tells Has H M rules b (fun t => a.First rules t) s) (hl : Leads H M rules b s) (ha : ¬ a.Null rules)
    (hF : Gram.Apart ((b.seq a).First rules) F) : Tells Has H M rules (a.sepBy1 b) F (chainl1 p s) := by
  have hn : ¬ (b.seq a).Null rules := fun h => ha (Gram.null_seq.1 h).2
  have hw : Tells Has H M rules (b.seq a) (fun t => (b.seq a).First rules t ∨ F t) (pair (boxed s) (boxed p)) :=
    tells_pair hS hE (moves_boxed hS hms) (moves_boxed hS hmp)
      (C59_wrappers hE (C59_weaken hs fun t h => h.elim id fun h => absurd h.1 ha)).1 hl
      (C59_wrappers hE hp).1 (fun h => absurd h ha)
  have hc := follows_consuming hw.1.1.1 hn
  have hfail := chainl1_fails hS hmp hms hkp hks hst hc
  have hub : (b.seq a).Useful rules := ⟨hs.useful, hp.useful⟩
  refine ⟨C58_chainl1 hS hE hmp hms hkp hks hst hp.toBlames hs.toBlames ha hF,
    fun t => ⟨(hp.extends_ t).1, notes_refl t⟩, fun t ht => notes_mono (hp.first t ht) fun _ => awaits_start hub,
    fun i e hpart hx => ?_, fun i e hpart hx => ?_, fun t w _ _ => notes_refl t⟩
  · obtain ⟨h1, h2⟩ := hp.softly i e hpart ((hfail i).1 e hx)
    exact ⟨fun x hx => awaits_start hub (h1 x hx),
      fun t ht => ⟨notes_mono (h2 t ht).1 fun _ => awaits_start hub, (h2 t ht).2⟩⟩
  · rcases (hfail i).2 e (answer_of_hard.1 hx) with h | ⟨b', v, j, vs, c, k, h1, h2, h3⟩
    · exact tell_first hp hub (answer_of_hard.2 h) hpart
    · exact tell_then_rounds hS hp hw h1 h2 h3 hpart

/-! ## Examples -/

section Examples

open Hint

private theorem hS : Y.Lawful := source_lawful _ _

private theorem hE : Y.E.Naming SaysE := Easy.naming cmpSource cmpSource_self

private theorem tells_ch (F : Char → Prop) (x : Char) :
    Tells SaysE (Easy.hints cmpSource) named lists (ch x) F (token Y x) :=
  (C59_one (S := Y) hS hE (source_plain _ _) (fun t => some t) ⟨'a', rfl⟩ (fun _ => true) ⟨'a', rfl⟩ x rfl).2.2.1

/-- Sums of `x`: `chainl1(char('x'), char('+').map(...))`. -/
private abbrev sum := chainl1 (map (token Y 'x') fun _ => (1 : Nat)) (map (token Y '+') fun _ => (· + ·))

private theorem sum_tells : Tells SaysE (Easy.hints cmpSource) named lists ((ch 'x').sepBy1 (ch '+')) (fun _ => False) sum :=
  C59_chainl1 hS hE (moves_map hS (moves_token hS _) _) (moves_map hS (moves_token hS _) _) (keeps_unit (h := false) _)
    (keeps_unit (h := false) _) (fun _ => rfl) (C59_map (tells_ch _ 'x') _) (C59_map (tells_ch _ '+') _)
    (fun h => absurd h Gram.null_one) Gram.null_one fun _ _ h => h

/-- Every text that is no sum: what the error lists as expected can come there. -/
example (text : List Char) (e : Easy.Errors Char (List Char) SourcePosition)
    (he : (skip sum (eof Y)).parse (⟨0, text⟩, SourcePosition.start) = .err e) :
    ∃ good rest, text = good ++ rest ∧ ((ch 'x').sepBy1 (ch '+')).Viable lists good ∧
      e.position = textPosition (· = '\n') good ∧ ∀ x, .expected x ∈ e.errors →
        (∃ t, named x t ∧ ((ch 'x').sepBy1 (ch '+')).Viable lists (good ++ [t])) ∨
          x = .static "end of input" ∧ ((ch 'x').sepBy1 (ch '+')).Derives lists good :=
  C59_source_partial _ cmpSource cmpSource_self (moves_chainl1 hS (moves_map hS (moves_token hS _) _)
    (moves_map hS (moves_token hS _) _)) sum_tells
    (fun h => absurd (Gram.null_seq.1 h).1 Gram.null_one) text 0 he

private def report (text : List Char) : Option (Int × Int × List (Easy.Error Char (List Char))) :=
  match (skip sum (eof Y)).parse (⟨0, text⟩, SourcePosition.start) with
  | .err e => some (e.position.line, e.position.column, e.errors)
  | _ => none

/-- After `x`, an operator could come, but only the end of the input is listed. -/
example : report ['x', 'x'] = some (1, 2, [.unexpected (.token 'x'), .expected (.static "end of input")]) := by decide +kernel

end Examples

end Verif
