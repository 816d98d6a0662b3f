import Verif.Proof.HistoryLemmas
import Verif.Proof.BuiltMoves

/-!
# C20: source positions; C21: index positions
-/

namespace Verif

/-- `position::Stream` over a slice with `SourcePosition`s. -/
abbrev sourceSlice (T : Type) (sz : Nat) (isNl : T → Bool) : Strm :=
  positionS (sliceS T sz) (sourcePositioner T (List T) isNl id)
    (UnexpectedParse.ops T (List T) SourcePosition .start) id id

abbrev sourceSliceR (T : Type) (sz : Nat) (isNl : T → Bool) : RangeOps (sourceSlice T sz isNl) :=
  positionR (sourcePositioner T (List T) isNl id)
    (UnexpectedParse.ops T (List T) SourcePosition .start) id id (sliceR T sz)

/-- `position::Stream` over a `&str` with `SourcePosition`s. -/
abbrev sourceStr (isNl : Char → Bool) : Strm :=
  positionS strS (sourcePositioner Char (List Char) isNl id)
    (StringStreamError.ops Char (List Char) SourcePosition .start) id id

abbrev sourceStrR (isNl : Char → Bool) : RangeOps (sourceStr isNl) :=
  positionR (sourcePositioner Char (List Char) isNl id)
    (StringStreamError.ops Char (List Char) SourcePosition .start) id id strR

/-- `position::Stream` over a slice with an `IndexPositioner`. -/
abbrev indexSlice (T : Type) (sz : Nat) : Strm :=
  positionS (sliceS T sz) (indexPositioner T (List T) List.length)
    (UnexpectedParse.ops T (List T) Nat 0) id id

abbrev indexSliceR (T : Type) (sz : Nat) : RangeOps (indexSlice T sz) :=
  positionR (indexPositioner T (List T) List.length)
    (UnexpectedParse.ops T (List T) Nat 0) id id (sliceR T sz)

/-- `position::Stream` over a `&str` with an `IndexPositioner` (`Range::len` counts bytes). -/
abbrev indexStr : Strm :=
  positionS strS (indexPositioner Char (List Char) Str.byteLen)
    (StringStreamError.ops Char (List Char) Nat 0) id id

abbrev indexStrR : RangeOps indexStr :=
  positionR (indexPositioner Char (List Char) Str.byteLen)
    (StringStreamError.ops Char (List Char) Nat 0) id id strR

/-- **C20.**  Positions are ordered as the places of the text are: further on in the text is larger.  (So that merging
errors by position keeps the ones furthest on, C22.) -/
theorem C20_order {T : Type} (isNl : T → Bool) (text more : List T) (h : more ≠ []) :
    SourcePosition.cmp (textPosition isNl text) (textPosition isNl (text ++ more)) = .lt ∧
    SourcePosition.cmp (textPosition isNl (text ++ more)) (textPosition isNl text) = .gt := by
  have key : (textPosition isNl text).line < (textPosition isNl (text ++ more)).line ∨
      (textPosition isNl text).line = (textPosition isNl (text ++ more)).line ∧
      (textPosition isNl text).column < (textPosition isNl (text ++ more)).column := by
    simp only [textPosition, List.countP_append, List.reverse_append]
    by_cases hn : more.countP isNl = 0
    · right
      refine ⟨by omega, ?_⟩
      rw [List.takeWhile_append_of_pos]
      · have := List.length_pos_iff.2 h
        simp only [List.length_append, List.length_reverse]
        omega
      · intro t ht
        have := List.countP_eq_zero.1 hn t (List.mem_reverse.1 ht)
        simpa using this
    · left; omega
  have lt : ∀ {a b : Int}, a < b → compare a b = .lt ∧ compare b a = .gt := fun {a b} h => by
    simp only [compare, compareOfLessAndEq]
    exact ⟨if_pos h, by rw [if_neg (by omega), if_neg (by omega)]⟩
  have eq : ∀ a : Int, compare a a = .eq := fun a => by simp [compare, compareOfLessAndEq]
  unfold SourcePosition.cmp
  rcases key with h | ⟨h1, h2⟩
  · rw [(lt h).1, (lt h).2]
    exact ⟨rfl, rfl⟩
  · rw [h1, eq, (lt h2).1, (lt h2).2]
    exact ⟨rfl, rfl⟩

/-- **C20.**  Comparing source positions is a total order, as C22 asks for. -/
theorem C20_total : Std.TransCmp SourcePosition.cmp := by
  have h : SourcePosition.cmp = compareLex (compareOn SourcePosition.line) (compareOn SourcePosition.column) := rfl
  rw [h]
  infer_instance

/-- **C20** for slices: after any history of operations, the text is what was consumed followed by
what is left, and the position is the line and column of what was consumed. -/
theorem C20_slice (T : Type) (sz : Nat) (isNl : T → Bool) (ops : List (StreamOp (sourceSlice T sz isNl)))
    (text : List T) (ptr : Nat) :
    let st := after (sourceSliceR T sz isNl) ops (⟨ptr, text⟩, SourcePosition.start)
    ∃ consumed, text = consumed ++ st.1.data ∧
      (sourceSlice T sz isNl).position st = textPosition isNl consumed := by
  obtain ⟨ts, h⟩ := history_reads (R := sourceSliceR T sz isNl) (toks := id) (w := fun _ => 1)
    (position_lawful (slice_lawful T sz) (fun _ _ => rfl))
    (positionR_lawful (sliceR_lawful T sz) (sourcePositioner_lawful _ _ _ _))
    (fun _ _ => rfl) ops (⟨ptr, text⟩, SourcePosition.start)
  obtain ⟨h1, h2⟩ := position_reads.1 h
  refine ⟨ts, (slice_reads.1 h1).1, ?_⟩
  exact h2.trans (source_foldl isNl ts)

/-- **C20** for strings. -/
theorem C20_str (isNl : Char → Bool) (ops : List (StreamOp (sourceStr isNl)))
    (text : List Char) (ptr : Nat) :
    let st := after (sourceStrR isNl) ops (⟨ptr, text⟩, SourcePosition.start)
    ∃ consumed, text = consumed ++ st.1.data ∧
      (sourceStr isNl).position st = textPosition isNl consumed := by
  obtain ⟨ts, h⟩ := history_reads (R := sourceStrR isNl) (toks := id) (w := Str.charLen)
    (position_lawful str_lawful (fun _ _ => rfl))
    (positionR_lawful strR_lawful (sourcePositioner_lawful _ _ _ _))
    (fun _ _ => rfl) ops (⟨ptr, text⟩, SourcePosition.start)
  obtain ⟨h1, h2⟩ := position_reads.1 h
  refine ⟨ts, (str_reads.1 h1).1, ?_⟩
  exact h2.trans (source_foldl isNl ts)

/-- **C20** for parsers: from the start of a text, any parser composed from the library's combinators
leaves the position of the text it consumed. -/
theorem C20_parser (isNl : Char → Bool) {σ α : Type} {p : Parser (sourceStr isNl) σ α}
    (hp : Built (sourceStrR isNl) p) (first : Bool) (s : σ) (text : List Char) (ptr : Nat) :
    let j := (p.run first (⟨ptr, text⟩, SourcePosition.start) s).inp
    ∃ consumed, text = consumed ++ j.1.data ∧
      (sourceStr isNl).position j = textPosition isNl consumed := by
  obtain ⟨ts, h⟩ := (hp.moves (position_lawful str_lawful (fun _ _ => rfl))
    (positionR_lawful strR_lawful (sourcePositioner_lawful _ _ _ _))).run first
      (⟨ptr, text⟩, SourcePosition.start) s
  obtain ⟨h1, h2⟩ := position_reads.1 h
  exact ⟨ts, (str_reads.1 h1).1, h2.trans (source_foldl isNl ts)⟩

/-- **C21.**  With an `IndexPositioner` over a slice the position is the number of items consumed. -/
theorem C21_slice (T : Type) (sz : Nat) (ops : List (StreamOp (indexSlice T sz)))
    (text : List T) (ptr : Nat) :
    let st := after (indexSliceR T sz) ops (⟨ptr, text⟩, (0 : Nat))
    ∃ consumed, text = consumed ++ st.1.data ∧
      (indexSlice T sz).position st = consumed.length := by
  obtain ⟨ts, h⟩ := history_reads (R := indexSliceR T sz) (toks := id) (w := fun _ => 1)
    (position_lawful (slice_lawful T sz) (fun _ _ => rfl))
    (positionR_lawful (sliceR_lawful T sz) (indexPositioner_lawful _ _ _ _ (fun _ => rfl)))
    (fun _ _ => rfl) ops (⟨ptr, text⟩, (0 : Nat))
  obtain ⟨h1, h2⟩ := position_reads.1 h
  refine ⟨ts, (slice_reads.1 h1).1, ?_⟩
  exact h2.trans ((index_foldl ts 0).trans (Nat.zero_add _))

/-- **C21** for parsers. -/
theorem C21_parser {T : Type} [DecidableEq T] {sz : Nat} {σ α : Type}
    {p : Parser (indexSlice T sz) σ α}
    (hp : Built (indexSliceR T sz) p) (first : Bool) (s : σ) (text : List T) (ptr : Nat) :
    let j := (p.run first (⟨ptr, text⟩, (0 : Nat)) s).inp
    ∃ consumed, text = consumed ++ j.1.data ∧
      (indexSlice T sz).position j = consumed.length := by
  obtain ⟨ts, h⟩ := (hp.moves (position_lawful (slice_lawful T sz) (fun _ _ => rfl))
    (positionR_lawful (sliceR_lawful T sz) (indexPositioner_lawful _ _ _ _ (fun _ => rfl)))).run first
      (⟨ptr, text⟩, (0 : Nat)) s
  obtain ⟨h1, h2⟩ := position_reads.1 h
  exact ⟨ts, (slice_reads.1 h1).1, h2.trans ((index_foldl ts 0).trans (Nat.zero_add _))⟩

/-- Deviation: over a `&str` an index position depends on how the text was consumed: a character
counts 1 when read alone, its bytes when taken as part of a range. -/
theorem C21_str_depends_on_history :
    indexStr.position (after indexStrR [.read] (⟨0, ['é']⟩, (0 : Nat))) = (1 : Nat) ∧
    indexStr.position (after indexStrR [.range 2] (⟨0, ['é']⟩, (0 : Nat))) = (2 : Nat) := ⟨rfl, rfl⟩

/-- A history mixing all operations: two characters, a checkpoint, a scan over the newline, back, and
a range. -/
example :
    let st := after (sourceStrR (· = '\n'))
      [.read, .read, .save, .scan (fun (n : Nat) c => (c ≠ 'e', n + 1)) 0, .restore 0, .range 2]
      (⟨0, ['a', 'b', '\n', 'd', 'e']⟩, SourcePosition.start)
    st.1.data = ['e'] ∧ (sourceStr (· = '\n')).position st = (⟨2, 2⟩ : SourcePosition) := ⟨rfl, rfl⟩

end Verif
