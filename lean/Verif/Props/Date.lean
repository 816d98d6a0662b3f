import Verif.Proof.Date
import Verif.Proof.StrLaws

/-!
# C65: the date parser of `examples/date.rs`
-/

namespace Verif

open Date
open Json (digitChar decimal)

variable {S : Strm} [DecidableEq S.Tok] {C : Chars S} {U : Unicode}

private theorem coherent (hS : S.Lawful) : Coherent (dateTime U C) := Coherent.ofMode hS (dateTime_is hS).rep.moves.run

/-- **C65.**  On complete input `date_time` returns `x` and leaves `k` exactly if what is before `k` is a date and a time as they
are written, with these values (and a year of 32 bits). -/
theorem C65_date_time (hS : S.Lawful) {i : S.Input} (hi : S.isPartial i = false) (x : DateTime) (k : S.Input) :
    (dateTime U C).parse i = .ok x k ↔ ∃ w, S.Reads i (w.map C.tok) k ∧ IsDateTime ((S.ahead k).map C.chr) w x := by
  have hx := C63_describes (dateTime_is (C := C) (U := U) hS).is
  rw [(C41_parse _ (coherent hS) i).1]
  constructor
  · rintro ⟨c, hv⟩
    have hs : (dateTime U C).shape i = .ok c x k := by simp only [Parser.shape, hv]; rfl
    obtain ⟨w, h1, _, h2⟩ := (hx i c x k hi).1 hs
    exact ⟨w.map C.chr, by rw [C.map_tok_chr]; exact h1, h2⟩
  · rintro ⟨w, h1, h2⟩
    refine ⟨_, of_shape_ok ((hx i _ x k hi).2 ⟨w.map C.tok, h1, rfl, ?_⟩)⟩
    simp only [Texts.pull, C.map_chr_tok]
    exact h2

omit [DecidableEq S.Tok] in
private theorem parse_abort {σ α : Type} (p : Parser S σ α) (hc : Coherent p) (i : S.Input) (a : Abort) :
    p.parse i = .abort a ↔ p.shape i = .abort a := by
  have h := hc.stream i
  unfold Parser.parse
  simp only [Parser.shape]
  rw [← h]
  generalize p.stream i = x
  obtain ⟨r, j⟩ := x
  cases r <;> simp [Answer.of, Answer.shape]

/-- **C65.**  `date_time` panics exactly if the input begins with a date whose year is empty or does not fit into 32 bits; in
particular the `expect`s of `two_digits` never panic, and nothing else does. -/
theorem C65_panics (hS : S.Lawful) {i : S.Input} (hi : S.isPartial i = false) (a : Abort) :
    (dateTime U C).parse i = .abort a ↔
      a = .panic ∧ ∃ w year m d k, S.Reads i (w.map C.tok) k ∧ IsDay w year m d ∧ ¬ Fits year := by
  rw [parse_abort _ (coherent hS), dateTime_abort hS, date_abort hS hi]

/-! ## On `&str` -/

namespace Date

abbrev Text := strS

abbrev chars : Chars Text := ⟨id, id, fun _ => rfl, fun _ => rfl⟩

end Date

private theorem str_ahead (k : Str) : (strS.ahead k).map Date.chars.chr = k.data.head? := by
  obtain ⟨n, d⟩ := k
  cases d <;> rfl

/-- **C65** on `&str`: `date_time().parse(text)` returns `x` and `rest` exactly if `text` is a date and a time followed by `rest`. -/
theorem C65_str (text rest : List Char) (x : DateTime) :
    (∃ n, (dateTime U chars).parse (⟨0, text⟩ : Str) = .ok x ⟨n, rest⟩) ↔ ∃ w, text = w ++ rest ∧ IsDateTime rest.head? w x := by
  have h := fun k : Str => C65_date_time (S := Text) (U := U) (C := chars) str_lawful (i := (⟨0, text⟩ : Str)) rfl x k
  constructor
  · rintro ⟨n, hn⟩
    obtain ⟨w, h1, h2⟩ := (h ⟨n, rest⟩).1 hn
    rw [show w.map chars.tok = w from List.map_id _] at h1
    rw [str_ahead] at h2
    exact ⟨w, (str_reads.1 h1).1, h2⟩
  · rintro ⟨w, h1, h2⟩
    refine ⟨0 + Str.byteLen w, (h ⟨0 + Str.byteLen w, rest⟩).2 ⟨w, ?_, by rw [str_ahead]; exact h2⟩⟩
    rw [show w.map chars.tok = w from List.map_id _]
    exact str_reads.2 ⟨h1, rfl⟩

/-- **C65** on `&str`: it panics exactly on a date whose year is empty or does not fit. -/
theorem C65_str_panics (text : List Char) :
    (dateTime U chars).parse (⟨0, text⟩ : Str) = .abort .panic ↔ ∃ w rest year m d, text = w ++ rest ∧ IsDay w year m d ∧ ¬ Fits year := by
  refine (C65_panics (S := Text) (U := U) (C := chars) str_lawful (i := (⟨0, text⟩ : Str)) rfl .panic).trans ⟨?_, ?_⟩
  · rintro ⟨_, w, year, m, d, k, h1, h2, h3⟩
    rw [show w.map chars.tok = w from List.map_id _] at h1
    exact ⟨w, k.data, year, m, d, (str_reads.1 h1).1, h2, h3⟩
  · rintro ⟨w, rest, year, m, d, h1, h2, h3⟩
    refine ⟨rfl, w, year, m, d, ⟨0 + Str.byteLen w, rest⟩, ?_, h2, h3⟩
    rw [show w.map chars.tok = w from List.map_id _]
    exact str_reads.2 ⟨h1, rfl⟩

/-! ## Concrete cases -/

private theorem two {a b : Nat} (h : (decide (a < 10) && decide (b < 10)) = true) : Two [digitChar a, digitChar b] (10 * a + b : Nat) := by
  simp at h
  refine ⟨[a, b], ⟨rfl, by simpa using h⟩, rfl, ?_⟩
  simp [decimal]

/-- examples/date.rs:160 the first case of the test. -/
example : IsDateTime none "2015-08-02T18:54:42+02".toList ⟨⟨2015, 8, 2⟩, ⟨18, 54, 42, 120⟩⟩ :=
  ⟨[2, 0, 1, 5], "2015-08-02".toList, "18:54:42+02".toList,
    ⟨"2015".toList, "08".toList, "02".toList, ⟨rfl, by decide⟩, two (a := 0) (b := 8) rfl, two (a := 0) (b := 2) rfl, rfl⟩,
    ⟨by decide, by decide⟩, rfl,
    ⟨"18".toList, "54".toList, "42".toList, "+02".toList, two (a := 1) (b := 8) rfl, two (a := 5) (b := 4) rfl,
      two (a := 4) (b := 2) rfl, .east (two (a := 0) (b := 2) rfl) (fun c h => by cases h), rfl⟩, rfl⟩

private def noTables : Unicode := ⟨fun _ => false, fun _ => false, fun _ => false, fun _ => false, fun _ => false⟩

private def run (s : String) : Parser.Parsed Text DateTime := (dateTime noTables chars).parse ⟨0, s.toList⟩

example : (run "2015-08-02T18:54:42+02" matches .ok ⟨⟨2015, 8, 2⟩, ⟨18, 54, 42, 120⟩⟩ ⟨_, []⟩) = true := by decide +kernel

/-- The comment in the source says that `unwrap` is fine "since we only parsed digits"; but there may be none of them, or too
many: `-01-01T00:00:00Z` and `2147483648-01-01` panic. -/
theorem C65_unwrap_fails : (run "-01-01T00:00:00Z" matches .abort .panic) = true ∧ (run "2147483648-01-01" matches .abort .panic) = true := by
  decide +kernel

/-- Nothing checks that the numbers are in range. -/
theorem C65_range_fails : (run "2015-99-00T99:99:99Z" matches .ok ⟨⟨2015, 99, 0⟩, ⟨99, 99, 99, 0⟩⟩ ⟨_, []⟩) = true := by
  decide +kernel

end Verif
