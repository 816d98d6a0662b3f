import Verif.Proof.Examples
import Verif.Proof.StrLaws

/-!
# C73: the example programs `examples/number.rs` and `examples/readme.rs`
-/

namespace Verif

/-! ## Numbers -/

section
open Number

variable {F : Type}

private theorem number_coherent (parse : List UInt8 → Except UnexpectedParse F) : Coherent (number parse) :=
  Coherent.ofMode lawful (moves_number parse).run

private theorem bytes_ahead (k : Slice UInt8) : Bytes.ahead k = k.data.head? := by
  obtain ⟨n, d⟩ := k
  cases d <;> rfl

/-- **C73.**  The parser of `number.rs` returns `v` and `rest` exactly if the input is a number followed by `rest`, the number is as
long as possible, and `v` is what the standard library reads it as. -/
theorem C73_number (parse : List UInt8 → Except UnexpectedParse F) (a b : Nat) (input rest : List UInt8) (v : F) :
    (number parse).parse (⟨a, input⟩ : Slice UInt8) = .ok v ⟨b, rest⟩ ↔
      ∃ w, input = w ++ rest ∧ b = a + w.length ∧ Numeral w rest.head? ∧ parse w = .ok v := by
  have hx := C63_describes (number_is parse)
  rw [(C41_parse _ (number_coherent parse) _).1]
  constructor
  · rintro ⟨c, hv⟩
    have hs : (number parse).shape (⟨a, input⟩ : Slice UInt8) = .ok c v (⟨b, rest⟩ : Slice UInt8) := by
      simp only [Parser.shape, hv]; rfl
    obtain ⟨w, h1, _, h2, h3⟩ := (hx _ c v _ rfl).1 hs
    obtain ⟨h4, h5⟩ := slice_reads.1 h1
    rw [bytes_ahead] at h2
    exact ⟨w, h4, by simpa using h5, h2, h3⟩
  · rintro ⟨w, rfl, rfl, h2, h3⟩
    refine ⟨_, of_shape_ok ((hx _ _ v _ rfl).2 ⟨w, slice_reads.2 ⟨rfl, by simp⟩, rfl, ?_, h3⟩)⟩
    rw [bytes_ahead]
    exact h2

/-- **C73.**  It never panics and always ends. -/
theorem C73_number_total (parse : List UInt8 → Except UnexpectedParse F) (i : Slice UInt8) (x : Abort) :
    (number parse).parse i ≠ .abort x := (calm_number parse).parse (number_coherent parse) i x

private theorem numeral_ascii {w : List UInt8} {o : Option UInt8} (h : Numeral w o) : ∀ b ∈ w, b.toNat < 128 := by
  have hd : ∀ b, IsDigit b → b.toNat < 128 := fun b h => by have := h.2; omega
  cases h with
  | whole _ h _ => exact fun b hb => hd b (h b hb)
  | fraction _ h h' _ =>
    intro b hb
    rcases List.mem_append.1 hb with hb | hb
    · exact hd b (h b hb)
    · rcases List.mem_cons.1 hb with rfl | hb
      · decide
      · exact hd b (h' b hb)

/-- **C73.**  The closure is only called with ASCII, so that taking the bytes for a `str` without a check is sound: what it does with
other bytes makes no difference. -/
theorem C73_ascii {f g : List UInt8 → Except UnexpectedParse F} (h : ∀ w, (∀ b ∈ w, b.toNat < 128) → f w = g w) (i : Slice UInt8) :
    (number f).parse i = (number g).parse i := by
  have hr : ∀ i, (number f).run true i (number f).init = (number g).run true i (number g).init := by
    intro i
    have hv : ∀ r, (∃ c k, (recognizeRange (sliceR UInt8 1) text).shape i = .ok c r k) → f r = g r := by
      rintro r ⟨c, k, hs⟩
      obtain ⟨w, _, _, rfl, h2⟩ := recognized_is.only i c r k hs
      exact h _ (numeral_ascii h2)
    revert hv
    simp only [number, andThen, Parser.ofMode, Parser.shape, Parser.answer]
    generalize (recognizeRange (sliceR UInt8 1) text).run true i _ = o
    obtain ⟨r, k, s⟩ := o
    cases r with
    | commitOk v => intro hv; simp only [hv v ⟨_, _, rfl⟩]
    | peekOk v => intro hv; simp only [hv v ⟨_, _, rfl⟩]
    | peekErr e => intro _; rfl
    | commitErr e => intro _; rfl
    | abort a => intro _; rfl
  have hs : (number f).stream i = (number g).stream i := by
    show (let o := Strm.describing (number f).addError ((number f).run true) i (number f).init; (o.res, o.inp)) =
      (let o := Strm.describing (number g).addError ((number g).run true) i (number g).init; (o.res, o.inp))
    simp only [Strm.describing]
    rw [hr]
    rfl
  simp only [Parser.parse, hs]

/-- The number of the example. -/
example : Numeral [49, 50, 51, 46, 52, 53] none :=
  .fraction (ds := [49, 50, 51]) (es := [52, 53]) (by simp) (by simp [IsDigit]) (by simp [IsDigit]) (by simp)

/-- number.rs:31-32 the assertion: all of `123.45` is given to the standard library. -/
example : (match (number (F := List UInt8) .ok).parse (⟨0, [49, 50, 51, 46, 52, 53]⟩ : Slice UInt8) with
    | .ok v ⟨_, []⟩ => decide (v = [49, 50, 51, 46, 52, 53]) | _ => false) = true := by decide +kernel

/-- Only the text before the second dot is a number. -/
example : (number (F := List UInt8) .ok).parse (⟨0, [49, 46, 46]⟩ : Slice UInt8) = .ok [49, 46] ⟨2, [46]⟩ := by
  refine (C73_number _ _ _ _ _ _).2 ⟨[49, 46], rfl, rfl, ?_, rfl⟩
  exact .fraction (ds := [49]) (es := []) (by simp) (by simp [IsDigit]) (by simp) (by simp [IsDigit])

end

/-! ## The last word -/

section
open Readme

variable {S : Strm} {C : Chars S} {U : Unicode}

private theorem last_word_coherent (hS : S.Lawful) : Coherent (lastWord U C) := Coherent.ofMode hS (moves_last_word hS).run

/-- **C73.**  On complete input the parser of `readme.rs` returns `v` and leaves `k` exactly if what is before `k` are words, one white
space character between each two, whose last is `v`, followed by neither a letter nor white space; or if there is no word. -/
theorem C73_last_word (hS : S.Lawful) {i : S.Input} (hi : S.isPartial i = false) (v : Option (List Char)) (k : S.Input) :
    (lastWord U C).parse i = .ok v k ↔
      (∃ w ws, S.Reads i (w.map C.tok) k ∧ Sentence U.isAlphabetic U.isWhitespace w ws ∧ v = ws.getLast? ∧
        ∀ c, (S.ahead k).map C.chr = some c → U.isAlphabetic c = false ∧ U.isWhitespace c = false) ∨
      k = i ∧ v = none ∧ ∀ c, (S.ahead i).map C.chr = some c → U.isAlphabetic c = false := by
  have hx := C63_describes (last_word_is (C := C) (U := U) hS)
  rw [(C41_parse _ (last_word_coherent hS) i).1]
  constructor
  · rintro ⟨c, hv⟩
    have hs : (lastWord U C).shape i = .ok c v k := by simp only [Parser.shape, hv]; rfl
    obtain ⟨w, h1, _, ⟨ws, h2, h3, h4⟩ | ⟨h2, h3, h4⟩⟩ := (hx i c v k hi).1 hs
    · exact .inl ⟨w.map C.chr, ws, by rw [C.map_tok_chr]; exact h1, h2, h3, h4⟩
    · rw [List.map_eq_nil_iff.1 h2, Strm.reads_nil] at h1
      subst h1
      exact .inr ⟨rfl, h3, h4⟩
  · rintro (⟨w, ws, h1, h2, h3, h4⟩ | ⟨rfl, rfl, h4⟩)
    · refine ⟨_, of_shape_ok ((hx i _ v k hi).2 ⟨w.map C.tok, h1, rfl, ?_⟩)⟩
      simp only [Texts.pull, C.map_chr_tok]
      exact .inl ⟨ws, h2, h3, h4⟩
    · exact ⟨_, of_shape_ok ((hx k _ none k hi).2 ⟨[], .nil k, rfl, .inr ⟨rfl, rfl, h4⟩⟩)⟩

/-- **C73.**  It never panics and always ends: on any input, over any lawful stream of characters. -/
theorem C73_last_word_total (hS : S.Lawful) (i : S.Input) (a : Abort) : (lastWord U C).parse i ≠ .abort a :=
  (calm_never (never_last_word hS)).parse (last_word_coherent hS) i a

private abbrev chars : Chars strS := ⟨id, id, fun _ => rfl, fun _ => rfl⟩

private def noTables : Unicode := ⟨fun _ => false, fun _ => false, fun _ => false, fun _ => false, fun _ => false⟩

private def run (s : String) : Parser.Parsed strS (Option (List Char)) := (lastWord noTables chars).parse ⟨0, s.toList⟩

/-- readme.rs:16-17 the assertion. -/
example : (match run "Pick up that word!" with
    | .ok v ⟨_, r⟩ => decide (v = some "word".toList) && decide (r = "!".toList) | _ => false) = true := by decide +kernel

/-- **C73.**  A sentence that ends with white space is an error. -/
theorem C73_trailing_fails : (run "Pick up " matches .err _) = true := by decide +kernel

example : Sentence noTables.isAlphabetic noTables.isWhitespace "up to".toList ["up".toList, "to".toList] :=
  .more (w := "up".toList) (c := ' ') ⟨by decide, by decide⟩ rfl rfl (.one ⟨by decide, by decide⟩)

end

end Verif
