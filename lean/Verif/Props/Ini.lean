import Verif.Proof.Ini
import Verif.Proof.StrLaws

/-!
# C66: the `.ini` parser of `examples/ini.rs`
-/

namespace Verif

open Ini

variable {S : Strm} [DecidableEq S.Tok] {C : Chars S} {U : Unicode}

private theorem ini_coherent (hS : S.Lawful) : Coherent (ini U C) := Coherent.ofMode hS (known_ini hS).rep.moves.run

/-- **C66.**  On complete input `ini` returns `f` and leaves `k` exactly if what is before `k` is an `.ini` file with these contents. -/
theorem C66_ini (hS : S.Lawful) {i : S.Input} (hi : S.isPartial i = false) (f : File) (k : S.Input) :
    (ini U C).parse i = .ok f k ↔ ∃ w, S.Reads i (w.map C.tok) k ∧ IsFile (white U) ((S.ahead k).map C.chr) w f := by
  have hx := C63_describes (known_ini (C := C) (U := U) hS).is
  rw [(C41_parse _ (ini_coherent hS) i).1]
  constructor
  · rintro ⟨c, hv⟩
    have hs : (ini U C).shape i = .ok c f k := by simp only [Parser.shape, hv]; rfl
    obtain ⟨w, h1, _, h2⟩ := (hx i c f k hi).1 hs
    exact ⟨w.map C.chr, by rw [C.map_tok_chr]; exact h1, h2⟩
  · rintro ⟨w, h1, h2⟩
    refine ⟨_, of_shape_ok ((hx i _ f k hi).2 ⟨w.map C.tok, h1, rfl, ?_⟩)⟩
    simp only [Texts.pull, C.map_chr_tok]
    exact h2

/-- **C66.**  `ini` never panics and always ends: on any input, over any lawful stream of characters. -/
theorem C66_total (hS : S.Lawful) (i : S.Input) (a : Abort) : (ini U C).parse i ≠ .abort a :=
  (ini_calm hS).parse (ini_coherent hS) i a

/-! ## On `&str` -/

namespace Ini

abbrev Text := strS

abbrev chars : Chars Text := ⟨id, id, fun _ => rfl, fun _ => rfl⟩

end Ini

private theorem str_ahead (k : Str) : (strS.ahead k).map Ini.chars.chr = k.data.head? := by
  obtain ⟨n, d⟩ := k
  cases d <;> rfl

/-- **C66** on `&str`: `ini().parse(text)` returns `f` and `rest` exactly if `text` is an `.ini` file followed by `rest`. -/
theorem C66_str (text rest : List Char) (f : File) :
    (∃ n, (ini U chars).parse (⟨0, text⟩ : Str) = .ok f ⟨n, rest⟩) ↔ ∃ w, text = w ++ rest ∧ IsFile (white U) rest.head? w f := by
  have h := fun k : Str => C66_ini (S := Text) (U := U) (C := chars) str_lawful (i := (⟨0, text⟩ : Str)) rfl f k
  constructor
  · rintro ⟨n, hn⟩
    obtain ⟨w, h1, h2⟩ := (h ⟨n, rest⟩).1 hn
    rw [show w.map chars.tok = w from List.map_id _] at h1
    rw [str_ahead] at h2
    exact ⟨w, (str_reads.1 h1).1, h2⟩
  · rintro ⟨w, h1, h2⟩
    refine ⟨0 + Str.byteLen w, (h ⟨0 + Str.byteLen w, rest⟩).2 ⟨w, ?_, by rw [str_ahead]; exact h2⟩⟩
    rw [show w.map chars.tok = w from List.map_id _]
    exact str_reads.2 ⟨h1, rfl⟩

/-- **C66.**  A file that is written one property to a line is read back, and all of the text is read. -/
theorem C66_round_trip (f : File) (h : f.Valid (white U)) :
    ∃ n, (ini U chars).parse (⟨0, f.text⟩ : Str) = .ok f ⟨n, []⟩ := by
  refine (C66_str f.text [] f).2 ⟨f.text, by simp, file_text ?_ ?_ h⟩ <;> rfl

/-! ## Concrete cases -/

private def noTables : Unicode := ⟨fun _ => false, fun _ => false, fun _ => false, fun _ => false, fun _ => false⟩

private def run (s : String) : Parser.Parsed Text File := (ini noTables chars).parse ⟨0, s.toList⟩

private def sample : File := ⟨[("language".toList, "rust".toList)], [("section".toList, [("name".toList, "combine".toList), ("type".toList, "LL(1)".toList)])]⟩

/-- The file of the test is one that can be written. -/
example : sample.Valid (white noTables) := by
  refine ⟨?_, ?_⟩
  · intro p hp
    simp only [sample, List.mem_singleton] at hp
    subst hp
    exact ⟨⟨'l', "anguage".toList, rfl, rfl⟩, by decide, by decide, by decide⟩
  · intro s hs
    simp only [sample, List.mem_singleton] at hs
    subst hs
    refine ⟨by decide, fun p hp => ?_⟩
    simp only [List.mem_cons, List.not_mem_nil, or_false] at hp
    rcases hp with rfl | rfl
    · exact ⟨⟨'n', "ame".toList, rfl, rfl⟩, by decide, by decide, by decide⟩
    · exact ⟨⟨'t', "ype".toList, rfl, rfl⟩, by decide, by decide, by decide⟩

/-- ini.rs:94-122 the text of the test. -/
example : (match run "\nlanguage=rust\n\n[section]\nname=combine; Comment\ntype=LL(1)\n\n" with
    | .ok f ⟨_, []⟩ => decide (f = sample) | _ => false) = true := by decide +kernel

/-- ini.rs:124-146 the erroneous text of the other test. -/
example : (run "[error" matches .err _) = true := by decide +kernel

/-- A name may reach over several lines: a line without `=` becomes part of the name that follows. -/
theorem C66_name_fails : (match run "a\nb=c" with
    | .ok f ⟨_, []⟩ => decide (f.global = [("a\nb".toList, "c".toList)]) | _ => false) = true := by decide +kernel

/-- Nothing asks for the end of the text: a text that begins with `=` is an empty file. -/
theorem C66_end_fails : (match run "=1\na=b" with
    | .ok f ⟨_, r⟩ => decide (f = ⟨[], []⟩) && decide (r = "=1\na=b".toList) | _ => false) = true := by decide +kernel

end Verif
