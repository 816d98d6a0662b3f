import Verif.Proof.JsonOnly
import Verif.Proof.JsonTotal
import Verif.Props.Json

/-!
# C61: what the JSON parser of `benches/json.rs` accepts
-/

namespace Verif

open Json

variable {S : Strm} [DecidableEq S.Tok] {U : Unicode} {C : Chars S}

private theorem coherent_value (hS : S.Lawful) (n : Nat) : Coherent (Json.value U C n) := by
  cases n with
  | zero => exact (recur_zero hS _ _).2.1
  | succ n => exact .ofMode hS (Json.moves_body hS (Json.moves_value hS n)).run

/-- **C61.**  Whatever the parser accepts and whatever it makes of it, the text it has consumed is one of `Accepted`, and the
value is the value of that text. -/
theorem C61_only (hS : S.Lawful) {n : Nat} {i k : S.Input} {v : Value} (h : (Json.value U C n).parse i = .ok v k) :
    ∃ w, S.Reads i w k ∧ Accepted U v (w.map C.chr) := by
  have hc := coherent_value (U := U) (C := C) hS n
  obtain ⟨c, ha⟩ := ((C41_parse _ hc i).1 v k).1 h
  obtain ⟨w, h1, h2⟩ := only_value (U := U) (C := C) hS n i c v k (by simp only [Parser.shape, ha]; rfl)
  exact ⟨w, h1, h2.2⟩

/-- **C61.**  On `&str`: the text is one of `Accepted`, followed by what is left. -/
theorem C61_only_str {n at' : Nat} {s : List Char} {k : Str} {v : Value}
    (h : (Json.value U Json.text n).parse ⟨at', s⟩ = .ok v k) : ∃ w, s = w ++ k.2 ∧ Accepted U v w := by
  obtain ⟨w, h1, h2⟩ := C61_only str_lawful h
  refine ⟨w, (str_reads.1 h1).1, ?_⟩
  have : w.map Json.text.chr = w := List.map_id _
  rwa [this] at h2

/-- **C61.**  The parser always comes back, with a value or an error: its calls nest at most one deeper than there are characters,
on complete and on partial input, whatever the characters are.  A larger bound changes nothing. -/
theorem C61_total (hS : S.Lawful) {n : Nat} {i : S.Input} (hn : S.size i < n) :
    (∀ a, (Json.value U C n).parse i ≠ .abort a) ∧
    ∀ m v k, n ≤ m → ((Json.value U C m).parse i = .ok v k ↔ (Json.value U C n).parse i = .ok v k) := by
  obtain ⟨h1, h2⟩ := C52_depth (b := S.isPartial i) (guarded_body (U := U) (C := C) hS) (hole_zero hS) (hole_body hS) i rfl n hn
  refine ⟨fun a hi => ?_, fun m v k hm => ?_⟩
  · have h := (coherent_value (U := U) (C := C) hS n).stream i
    have hx : (Json.value U C n).answer i = .abort a := by
      rw [← h]
      unfold Parser.parse at hi
      revert hi
      generalize (Json.value U C n).stream i = x
      obtain ⟨r, j⟩ := x
      cases r <;> intro hi <;> cases hi
      rfl
    exact h1 a (by rw [show recur (body U C) () n = Json.value U C n from rfl, Parser.shape, hx]; rfl)
  · rw [(C41_parse _ (coherent_value hS m) i).1 v k, (C41_parse _ (coherent_value hS n) i).1 v k]
    have key : ∀ (p q : Parser S Unit Value), p.shape i = q.shape i → (∃ c, p.answer i = .ok c v k) → ∃ c, q.answer i = .ok c v k := by
      rintro p q h ⟨c, hp⟩
      refine ⟨c, ?_⟩
      simp only [Parser.shape, hp] at h
      cases hq : q.answer i <;> rw [hq] at h <;> cases h
      rfl
    exact ⟨key _ _ (h2 m hm), key _ _ (h2 m hm).symm⟩

omit [DecidableEq S.Tok] in
private theorem loose (U : Unicode) {s w : List Char} (h : Spaced s w) : Loose U s w := by
  obtain ⟨sp, rfl, h⟩ := h
  exact ⟨sp, rfl, fun c hc => space_white (h c hc)⟩

private theorem loose_string (U : Unicode) {s w : List Char} (h : WritesString s w) : LooseString U s w := by
  obtain ⟨cs, h1, h2, h3⟩ := h
  exact ⟨cs, h1, h2, loose U h3⟩

/-- The parts of a number of RFC 8259. -/
private def parts (n : Numeral) : LooseNumeral :=
  ⟨n.negative, n.int, [], n.frac.isSome, n.frac.getD [], n.exp⟩

private theorem parts_valid (U : Unicode) {n : Numeral} (h : n.Valid) : (parts n).Valid U := by
  refine ⟨?_, h.digits, by simp [parts], ?_, h.exp⟩
  · rcases h.int with h | h
    · exact .inl ⟨h, rfl⟩
    · exact .inr h
  · intro d hd
    simp only [parts] at hd
    cases hf : n.frac with
    | none => rw [hf] at hd; cases hd
    | some ds => rw [hf] at hd; exact (h.frac ds hf).2 d hd

private theorem parts_text (n : Numeral) : (parts n).text = n.text := by
  obtain ⟨neg, int, frac, exp⟩ := n
  cases neg <;> cases frac <;> cases exp <;> simp [parts, LooseNumeral.text, Numeral.text]

private theorem parts_value {n : Numeral} (h : n.Valid) (hl : ¬ n.Lost) : (parts n).value = n.value := by
  rw [← numeral_value h hl]
  obtain ⟨neg, int, frac, exp⟩ := n
  have hp : ((decimal (frac.getD []) : Rat) / 10 ^ (frac.getD []).length) = pointVal frac := by
    cases frac with
    | none => show (0 : Rat) / 1 = 0; decide +kernel
    | some ds => rfl
  have he : (match exp with | none => (1 : Rat) | some (_, neg, ds) => (10 : Rat) ^ (if neg then -(decimal ds : Int) else (decimal ds : Int)))
      = powerVal exp := by cases exp <;> rfl
  simp only [parts, LooseNumeral.value, hp]
  cases exp <;> rfl

/-- **C61.**  The texts of RFC 8259 (as far as `Writes` has them) are among those, with the same values. -/
theorem C61_loose (U : Unicode) {v : Value} {w : List Char} (h : Writes v w) : Accepted U v w := by
  induction h with
  | null h => exact .null (loose U h)
  | «false» h => exact .false (loose U h)
  | «true» h => exact .true (loose U h)
  | number h1 h2 h3 =>
    rw [← parts_value h1 h2]
    exact .number (parts_valid U h1) (by rw [parts_text]; exact loose U h3)
  | string h => exact .string (loose_string U h)
  | array0 h1 h2 => exact .array0 (loose U h1) (loose U h2)
  | array h1 _ h3 _ h5 ih1 ih2 => exact .array (loose U h1) ih1 (fun y hy => loose U (h3 y hy)) ih2 (loose U h5)
  | object0 h1 h2 => exact .object0 (loose U h1) (loose U h2)
  | object h1 h2 h3 _ h5 h6 h7 _ h9 ih1 ih2 =>
    exact .object (loose U h1) (loose_string U h2) (loose U h3) ih1 (fun y hy => loose U (h5 y hy))
      (fun y hy => loose_string U (h6 y hy)) (fun y hy => loose U (h7 y hy)) ih2 (loose U h9)

/-! An array with a number that is not one of RFC 8259, and the values of two others. -/

private def noUnicode : Unicode := ⟨fun _ => false, fun _ => false, fun _ => false, fun _ => false, fun _ => false⟩

private def items (s : String) : Option (Nat × List Char) :=
  match (Json.value noUnicode Json.text 10).parse ⟨0, s.toList⟩ with
  | .ok (.array xs) k => some (xs.length, k.2)
  | _ => none

example (a : Abort) : (Json.value noUnicode Json.text 7).parse ⟨0, "[{\"[[[".toList⟩ ≠ .abort a := (C61_total str_lawful (by decide)).1 a

example : items "[1 .5e-1 , null]x" = some (2, ['x']) := by decide +kernel

example : Accepted noUnicode (.number (12 / 100)) "012".toList := by
  have h : (⟨false, [0], [], false, [1, 2], none⟩ : LooseNumeral).value = 12 / 100 := by decide +kernel
  rw [← h]
  exact .number ⟨.inl ⟨rfl, rfl⟩, by decide, by simp, by decide, by simp⟩ ⟨[], rfl, by simp⟩

example : Accepted noUnicode (.number (3 / 2)) "1 5".toList := by
  have h : (⟨false, [1], [' '], false, [5], none⟩ : LooseNumeral).value = 3 / 2 := by decide +kernel
  rw [← h]
  exact .number ⟨.inr ⟨1, [], rfl, by decide⟩, by decide, by decide, by decide, by simp⟩ ⟨[], rfl, by simp⟩

end Verif
