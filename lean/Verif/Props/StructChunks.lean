import Verif.Props.Chunks
import Verif.Props.StructParser

/-!
# C77 and C14: `struct_parser!` and `from_str` on an input that arrives in pieces
-/

namespace Verif

variable {S : Strm} [DecidableEq S.Tok] [DecidableEq S.Rng] {V : Ranges S} {σ τ α β κ γ : Type} {D : Den S.Tok α} {k r : Bool}
  {mk : Nat → List S.Tok → Bool → S.Input}

/-- Every field, kept or ignored, has a parser of the resumable fragment. -/
inductive FragFields (V : Ranges S) : {τ β κ : Type} → Fields S τ β κ → Den S.Tok β → (k : Bool) → Prop where
  | nil {k : Bool} : FragFields V .nil (.pure ()) k
  | skip {σ τ α β κ : Type} {p : Parser S σ α} {fs : Fields S τ β κ} {D : Den S.Tok α} {E : Den S.Tok β} {k r : Bool} :
      Frag V p D k r → FragFields V fs E k → FragFields V (.skip p fs) (D.seq E) k
  | keep {σ τ α β κ : Type} {p : Parser S σ α} {fs : Fields S τ β κ} {D : Den S.Tok α} {E : Den S.Tok β} {k r : Bool} :
      Frag V p D k r → FragFields V fs E k → FragFields V (.keep p fs) (D.seq E) k

private theorem fields_seq {fs : Fields S τ β κ} {E : Den S.Tok β} (h : FragFields V fs E k) : FragSeq V fs.members E k := by
  induction h with
  | nil => exact .nil
  | skip hp _ ih => exact .cons hp ih
  | keep hp _ ih => exact .cons hp ih

/-- **C77.**  A struct that arrives in pieces is the struct of the whole: whatever field the input is interrupted in, the fields
that were there are kept and none is parsed again. -/
theorem C77_keep_chunks {p : Parser S σ α} {fs : Fields S τ β κ} {E : Den S.Tok β} (build : α × κ → γ) (hF : S.Feedable)
    (hM : S.Source mk) (hp : Frag V p D k r) (hfs : FragFields V fs E k) (chunks : List (List S.Tok)) (hne : chunks ≠ [])
    (i : S.Input) (hi : S.left i = chunks.flatten) {c : Bool} {v : γ} {j : S.Input}
    (h : (structKeep p fs build).answer i = .ok c v j) :
    feed (structKeep p fs build) mk (S.isPartial i) 0 (structKeep p fs build).init [] chunks = .ok v (S.left j) :=
  C14_chunks hF hM (V := V) (Frag.map _ (Frag.tuple (r' := false) hp (fields_seq hfs) (fun h => by cases h))) chunks hne i hi h

theorem C77_skip_chunks {p : Parser S σ α} {fs : Fields S τ β κ} {E : Den S.Tok β} (build : κ → γ) (hF : S.Feedable)
    (hM : S.Source mk) (hp : Frag V p D k r) (hfs : FragFields V fs E k) (chunks : List (List S.Tok)) (hne : chunks ≠ [])
    (i : S.Input) (hi : S.left i = chunks.flatten) {c : Bool} {v : γ} {j : S.Input}
    (h : (structSkip p fs build).answer i = .ok c v j) :
    feed (structSkip p fs build) mk (S.isPartial i) 0 (structSkip p fs build).init [] chunks = .ok v (S.left j) :=
  C14_chunks hF hM (V := V) (Frag.map _ (Frag.tuple (r' := false) hp (fields_seq hfs) (fun h => by cases h))) chunks hne i hi h

/-- **C14** for `from_str`: the text is converted when all of it is there, in whatever pieces it came. -/
theorem C14_from_str {p : Parser S σ α} (utf8 : α → Option String) (conv : String → Except String β) (hF : S.Feedable)
    (hM : S.Source mk) (hp : Frag V p D k r) (hD : D.Consuming) (chunks : List (List S.Tok)) (hne : chunks ≠ [])
    (i : S.Input) (hi : S.left i = chunks.flatten) {c : Bool} {v : β} {j : S.Input}
    (h : (fromStr p utf8 conv).answer i = .ok c v j) :
    feed (fromStr p utf8 conv) mk (S.isPartial i) 0 (fromStr p utf8 conv).init [] chunks = .ok v (S.left j) :=
  C14_chunks hF hM (V := V) (Frag.parserMacro (Frag.andThen _ hp hD)) chunks hne i hi h

/-! ## The hypotheses can be met -/

private abbrev B := maybeS (sliceS Char 1)
private abbrev R : RangeOps B := maybeR (sliceR Char 1)
private def mkB (n : Nat) (ts : List Char) (more : Bool) : B.Input := (⟨100 * n, ts⟩, more)
private def VB : Ranges B := ⟨R, id, fun _ => 1, id, fun _ => [], fun _ => 0⟩
private theorem feedable_B : B.Feedable := maybe_feedable (slice_feedable Char (by decide))
private theorem source_B : B.Source mkB :=
  ⟨fun _ _ _ => (maybe_left _).trans (slice_left _ _), fun _ _ _ => rfl⟩
private theorem lawful_VB : VB.Lawful := ⟨(maybeR_units (sliceR_units Char 1)).lawful, fun _ => rfl⟩

/-- Two numbers with a comma between them. -/
private def point :=
  structKeep (takeWhile1 R Char.isDigit) (.skip (token B ',') (.keep (takeWhile1 R Char.isDigit) .nil)) fun t => (t.1, t.2.1)

example (chunks : List (List Char)) (hne : chunks ≠ []) (h : chunks.flatten = "12,345;".toList) :
    feed point mkB false 0 point.init [] chunks = .ok ("12".toList, "345".toList) [';'] :=
  C77_keep_chunks (V := VB) (i := (⟨0, "12,345;".toList⟩, false)) _ feedable_B source_B (Frag.takeWhile1 _ lawful_VB)
    (.skip (Frag.token (S := B) ',') (.keep (Frag.takeWhile1 _ lawful_VB) .nil)) chunks hne
    (((maybe_left _).trans (slice_left _ _)).trans h.symm) (c := true) (j := (⟨6, [';']⟩, false)) (by rfl)

example : feed point mkB false 0 point.init [] [['1'], ['2', ',', '3'], [], ['4', '5', ';']] =
    .ok ("12".toList, "345".toList) [';'] := by rfl

/-- A field in brackets: the first one is ignored. -/
private def bracketed := structSkip (token B '[') (.keep (takeWhile1 R Char.isDigit) (.skip (token B ']') .nil)) fun t => t.1

example (chunks : List (List Char)) (hne : chunks ≠ []) (h : chunks.flatten = "[12];".toList) :
    feed bracketed mkB false 0 bracketed.init [] chunks = .ok "12".toList [';'] :=
  C77_skip_chunks (V := VB) (i := (⟨0, "[12];".toList⟩, false)) _ feedable_B source_B (Frag.token (S := B) '[')
    (.keep (Frag.takeWhile1 _ lawful_VB) (.skip (Frag.token (S := B) ']') .nil)) chunks hne
    (((maybe_left _).trans (slice_left _ _)).trans h.symm) (c := true) (j := (⟨4, [';']⟩, false)) (by rfl)

/-- A number as text; the conversion here is its length. -/
private def number := fromStr (takeWhile1 R Char.isDigit) (fun l => some (String.ofList l)) fun s => .ok s.length

example (chunks : List (List Char)) (hne : chunks ≠ []) (h : chunks.flatten = "123;".toList) :
    feed number mkB false 0 number.init [] chunks = .ok 3 [';'] :=
  C14_from_str (V := VB) (i := (⟨0, "123;".toList⟩, false)) _ _ feedable_B source_B (Frag.takeWhile1 _ lawful_VB)
    (Den.consuming_span1 _ _) chunks hne
    (((maybe_left _).trans (slice_left _ _)).trans h.symm) (c := true) (j := (⟨3, [';']⟩, false)) (by rfl)

end Verif
