import Verif.Model.Report
import Verif.Spec.Report
import Verif.Props.ErrorMerge
import Verif.Props.Places

/-!
# C50: the text of an error says all that was recorded; C47: pointer positions are offsets into the input
-/

namespace Verif.Easy

variable {T R P : Type} (dt : T → String) (dr : R → String)

private theorem join_cons (x : String) (xs : List String) : String.join (x :: xs) = x ++ String.join xs :=
  String.join_cons

private theorem display_quoted (i : Info T R) : Info.display dt dr i = quoted dt dr i := by cases i <;> rfl

private theorem lines_nil : lines [] = "" := rfl

private theorem lines_cons (x : String) (xs : List String) : lines (x :: xs) = x ++ "\n" ++ lines xs := by
  unfold lines
  rw [List.map_cons, join_cons]

private theorem writeAll_eq (es : List (Error T R)) (f : String) :
    writeAll dt dr f es = f ++ lines (es.map (Error.display dt dr)) := by
  induction es generalizing f with
  | nil => exact (String.append_empty).symm
  | cons e es ih =>
    change writeAll dt dr (f ++ e.display dt dr ++ "\n") es = _
    rw [ih, List.map_cons, lines_cons]
    simp only [String.append_assoc]

/-- The items after the first. -/
private def more : List String → String
  | [] => ""
  | [b] => " or " ++ b
  | b :: c :: rest => ", " ++ b ++ more (c :: rest)

private theorem enumeration_more (a : String) (rest : List String) :
    enumeration (a :: rest) = a ++ more rest := by
  induction rest generalizing a with
  | nil => exact (String.append_empty).symm
  | cons b rest ih =>
    cases rest with
    | nil => rw [enumeration, more, String.append_assoc]
    | cons c rest => rw [enumeration, ih b, more]; simp only [String.append_assoc]

private theorem writeExpected_more (count : Nat) (is : List (Info T R)) (f : String) (i : Nat) (hi : i ≠ 0)
    (hc : i + is.length = count) :
    writeExpected dt dr count f i is = f ++ more (is.map (quoted dt dr)) := by
  induction is generalizing f i with
  | nil => exact (String.append_empty).symm
  | cons b rest ih =>
    unfold writeExpected
    dsimp only
    rw [if_neg hi, ih _ _ (Nat.succ_ne_zero _) (by rw [← hc, List.length_cons]; omega), display_quoted]
    cases rest with
    | nil =>
      rw [if_neg (by rw [← hc]; simp)]
      simp only [List.map_cons, List.map_nil, more, String.append_assoc, String.append_empty]
      rw [← String.append_assoc (s₁ := " or")]
      rfl
    | cons c rest =>
      rw [if_pos (by rw [← hc]; simp only [List.length_cons]; omega)]
      simp only [List.map_cons, more, String.append_assoc]
      rw [← String.append_assoc (s₁ := ",")]
      rfl

private theorem writeExpected_line (is : List (Info T R)) (f : String) :
    (if is.length ≠ 0 then writeExpected dt dr is.length f 0 is ++ "\n" else writeExpected dt dr is.length f 0 is) =
      f ++ expectedLine (is.map (quoted dt dr)) := by
  cases is with
  | nil => exact (String.append_empty).symm
  | cons a rest =>
    rw [if_pos (by simp)]
    unfold writeExpected
    dsimp only
    rw [if_pos rfl, writeExpected_more _ _ _ _ _ _ (Nat.succ_ne_zero _) (by simp; omega), display_quoted, List.map_cons, expectedLine,
      enumeration_more]
    simp only [String.append_assoc]
    rw [← String.append_assoc (s₁ := "Expected")]
    rfl

private theorem parts_found (es : List (Error T R)) :
    (es.filter Error.isUnexpected).map (Error.display dt dr) = (parts dt dr es).found := by
  induction es with
  | nil => rfl
  | cons e es ih =>
    cases e with
    | unexpected i =>
      rw [List.filter_cons_of_pos rfl, List.map_cons, ih, Error.display, display_quoted]
      rfl
    | _ => exact ih

private theorem parts_expected (es : List (Error T R)) :
    (es.filterMap Error.expectation).map (quoted dt dr) = (parts dt dr es).expected := by
  induction es with
  | nil => rfl
  | cons e es ih =>
    cases e with
    | expected i => exact congrArg (quoted dt dr i :: ·) ih
    | _ => exact ih

private theorem parts_messages (es : List (Error T R)) :
    (es.filter Error.isMessage).map (Error.display dt dr) = (parts dt dr es).messages := by
  induction es with
  | nil => rfl
  | cons e es ih =>
    cases e with
    | message i =>
      rw [List.filter_cons_of_pos rfl, List.map_cons, ih, Error.display, display_quoted]
      rfl
    | other s =>
      rw [List.filter_cons_of_pos rfl, List.map_cons, ih]
      rfl
    | _ => exact ih

/-- **C50.**  Formatting a list of errors writes what was not expected, each on a line; then one line enumerating
everything that was expected, once each and in the order recorded, if there is anything; then the messages. -/
theorem C50_errors (es : List (Error T R)) (f : String) :
    fmtErrors dt dr es f = f ++ (parts dt dr es).text := by
  unfold fmtErrors Parts.text
  dsimp only
  rw [writeAll_eq, writeExpected_line, writeAll_eq, parts_found, parts_expected, parts_messages]
  simp only [String.append_assoc]

/-- **C50.**  The text of an error: its position, and then what it has to say. -/
theorem C50_display (dp : P → String) (e : Errors T R P) :
    e.display dt dr dp = "Parse error at " ++ dp e.position ++ "\n" ++ (parts dt dr e.errors).text := by
  unfold Errors.display
  rw [C50_errors, String.empty_append]

/-- **C50.**  Errors that count as duplicates are shown alike, so leaving one out loses nothing. -/
theorem C50_same {a b : Error T R} (h : Same a b) : a.display dt dr = b.display dt dr := by
  have key : ∀ {i j : Info T R}, contentOf i = contentOf j → Info.display dt dr i = Info.display dt dr j := by
    intro i j h
    cases i <;> cases j <;> simp only [contentOf, Content.token.injEq, Content.range.injEq, Content.text.injEq,
      reduceCtorEq] at h <;> subst h <;> rfl
  cases h with
  | unexpected h => exact congrArg ("Unexpected " ++ ·) (key h)
  | expected h => exact congrArg ("Expected " ++ ·) (key h)
  | message h => exact key h

private theorem parts_append (a b : List (Error T R)) :
    (parts dt dr (a ++ b)).found = (parts dt dr a).found ++ (parts dt dr b).found ∧
    (parts dt dr (a ++ b)).expected = (parts dt dr a).expected ++ (parts dt dr b).expected ∧
    (parts dt dr (a ++ b)).messages = (parts dt dr a).messages ++ (parts dt dr b).messages := by
  simp only [← parts_found, ← parts_expected, ← parts_messages, List.filter_append, List.filterMap_append,
    List.map_append, and_self]

private theorem parts_mem (es : List (Error T R)) :
    (∀ x, x ∈ (parts dt dr es).found ↔ ∃ i, .unexpected i ∈ es ∧ x = "Unexpected " ++ quoted dt dr i) ∧
    (∀ x, x ∈ (parts dt dr es).expected ↔ ∃ i, .expected i ∈ es ∧ x = quoted dt dr i) ∧
    (∀ x, x ∈ (parts dt dr es).messages ↔
      (∃ i, .message i ∈ es ∧ x = quoted dt dr i) ∨ .other x ∈ es) := by
  induction es with
  | nil => simp [parts]
  | cons e es ih =>
    obtain ⟨h1, h2, h3⟩ := ih
    cases e <;> simp [parts, h1, h2, h3, or_assoc, exists_or, or_and_right]
    grind

/-- **C50.**  When the errors of two alternatives that failed at the same place are merged, the text shows exactly
what the two would have shown. -/
theorem C50_merge [DecidableEq T] [DecidableEq R] (cmp : P → P → Ordering) (a b : Errors T R P)
    (h : cmp a.position b.position = .eq) (x : String) :
    let m := parts dt dr (a.merge cmp b).errors
    let pa := parts dt dr a.errors
    let pb := parts dt dr b.errors
    (x ∈ m.found ↔ x ∈ pa.found ∨ x ∈ pb.found) ∧
    (x ∈ m.expected ↔ x ∈ pa.expected ∨ x ∈ pb.expected) ∧
    (x ∈ m.messages ↔ x ∈ pa.messages ∨ x ∈ pb.messages) := by
  obtain ⟨-, added, h1, h2, h3, -, -⟩ := C22_same_position cmp a b h
  dsimp only
  have key : ∀ {i j : Info T R}, contentOf i = contentOf j → quoted dt dr i = quoted dt dr j := by
    intro i j h
    cases i <;> cases j <;> simp only [contentOf, Content.token.injEq, Content.range.injEq, Content.text.injEq,
      reduceCtorEq] at h <;> subst h <;> rfl
  have hmem : ∀ e, e ∈ (a.merge cmp b).errors → e ∈ a.errors ∨ e ∈ b.errors := by
    intro e he
    rw [h1, List.mem_append] at he
    exact he.imp id fun h => h2.subset h
  have ha : ∀ e ∈ a.errors, e ∈ (a.merge cmp b).errors := fun e he => by
    rw [h1]; exact List.mem_append_left _ he
  refine ⟨?_, ?_, ?_⟩
  · simp only [(parts_mem dt dr _).1]
    constructor
    · rintro ⟨i, hi, rfl⟩
      exact (hmem _ hi).imp (fun h => ⟨i, h, rfl⟩) fun h => ⟨i, h, rfl⟩
    · rintro (⟨i, hi, rfl⟩ | ⟨i, hi, rfl⟩)
      · exact ⟨i, ha _ hi, rfl⟩
      · rcases h3 _ hi with h | ⟨y, hy, hs⟩
        · exact ⟨i, h, rfl⟩
        · cases hs with
          | @unexpected j _ hs => exact ⟨j, hy, congrArg ("Unexpected " ++ ·) (key hs).symm⟩
  · simp only [(parts_mem dt dr _).2.1]
    constructor
    · rintro ⟨i, hi, rfl⟩
      exact (hmem _ hi).imp (fun h => ⟨i, h, rfl⟩) fun h => ⟨i, h, rfl⟩
    · rintro (⟨i, hi, rfl⟩ | ⟨i, hi, rfl⟩)
      · exact ⟨i, ha _ hi, rfl⟩
      · rcases h3 _ hi with h | ⟨y, hy, hs⟩
        · exact ⟨i, h, rfl⟩
        · cases hs with
          | @expected j _ hs => exact ⟨j, hy, (key hs).symm⟩
  · simp only [(parts_mem dt dr _).2.2]
    constructor
    · rintro (⟨i, hi, rfl⟩ | hi)
      · exact (hmem _ hi).imp (fun h => .inl ⟨i, h, rfl⟩) fun h => .inl ⟨i, h, rfl⟩
      · exact (hmem _ hi).imp .inr .inr
    · rintro ((⟨i, hi, rfl⟩ | hi) | (⟨i, hi, rfl⟩ | hi))
      · exact .inl ⟨i, ha _ hi, rfl⟩
      · exact .inr (ha _ hi)
      · rcases h3 _ hi with h | ⟨y, hy, hs⟩
        · exact .inl ⟨i, h, rfl⟩
        · cases hs with
          | @message j _ hs => exact .inl ⟨j, hy, (key hs).symm⟩
      · rcases h3 _ hi with h | ⟨y, hy, hs⟩
        · exact .inr h
        · cases hs

/-- **C50.**  Without duplicates among the errors no expectation is listed twice: two entries of the enumeration
always stand for different tokens, ranges or texts. -/
theorem C50_once (es : List (Error T R)) (h : NoDuplicates es) :
    ∃ is : List (Info T R), (parts dt dr es).expected = is.map (quoted dt dr) ∧
      (is.map contentOf).Nodup ∧ ∀ i, i ∈ is ↔ .expected i ∈ es := by
  refine ⟨es.filterMap Error.expectation, (parts_expected dt dr es).symm, ?_, ?_⟩
  · rw [List.Nodup, List.pairwise_map, List.pairwise_filterMap]
    refine h.imp ?_
    intro a b hab i hi j hj he
    cases a <;> cases hi
    cases b <;> cases hj
    exact hab (.expected he)
  · intro i
    rw [List.mem_filterMap]
    constructor
    · rintro ⟨e, he, hi⟩
      cases e <;> cases hi
      exact he
    · exact fun hi => ⟨_, hi, rfl⟩

/-- **C50.**  `map_token`, `map_range` and `map_position` change how the items and the position are shown, and
nothing else. -/
theorem C50_map {U V Q : Type} (f : T → U) (g : R → V) (k : P → Q) (du : U → String) (dv : V → String)
    (dq : Q → String) (e : Errors T R P) :
    (((e.mapToken f).mapRange g).mapPosition k).display du dv dq = e.display (du ∘ f) (dv ∘ g) (dq ∘ k) := by
  rw [C50_display, C50_display]
  change "Parse error at " ++ dq (k e.position) ++ "\n" ++
    (parts du dv ((e.errors.map (Errors.mapError f id)).map (Errors.mapError id g))).text = _
  suffices h : parts du dv ((e.errors.map (Errors.mapError f id)).map (Errors.mapError id g)) =
      parts (du ∘ f) (dv ∘ g) e.errors by rw [h]; rfl
  induction e.errors with
  | nil => rfl
  | cons x xs ih =>
    have key : ∀ i : Info T R, quoted du dv (Errors.mapInfo id g (Errors.mapInfo f id i)) =
        quoted (du ∘ f) (dv ∘ g) i := fun i => by cases i <;> rfl
    rw [List.map_cons, List.map_cons]
    cases x <;> simp only [Errors.mapError, parts, key, ih]

/-- The errors of `choice` between two tokens at the same place are shown together. -/
example : parts (fun c : Char => c.toString) id
    (Errors.merge compare ⟨3, [.unexpected (.token 'x'), .expected (.token 'a')]⟩
      ⟨3, [.unexpected (.token 'x'), .expected (.token 'b')]⟩ : Errors Char String Nat).errors =
    ⟨["Unexpected `x`"], ["`a`", "`b`"], []⟩ := by rfl

/-! ## Examples -/

private abbrev found : List (Error Char String) :=
  [.expected (.token 'a'), .message (.static "sorry"), .unexpected (.token 'x'), .expected (.range "let"),
    .expected (.static "digit"), .other "io"]

example : Errors.display (fun c => c.toString) id toString (⟨3, found⟩ : Errors Char String Nat) =
    "Parse error at 3\nUnexpected `x`\nExpected `a`, `let` or digit\nsorry\nio\n" := by decide

example : (⟨3, []⟩ : Errors Char String Nat).display (fun c => c.toString) id toString = "Parse error at 3\n" := by
  decide

example : NoDuplicates found := by
  have h : found.Pairwise fun a b => ¬ a.eqv b = true := by decide
  exact h.imp fun h h' => h ((eqv_iff _ _).2 h')

end Verif.Easy

namespace Verif

variable {σ α : Type}

/-- `easy::Stream` over a `&str`, as used by `easy_parse`. -/
abbrev easyStrS : Strm :=
  convertS strS inferInstance id (Easy.Errors.ops Char (List Char) Nat compare)
    (StringStreamError.intoOtherS (Easy.Errors.ops Char (List Char) Nat compare))
    (StringStreamError.intoOther (Easy.Errors.ops Char (List Char) Nat compare) (0 : Nat))

abbrev easyStrR : RangeOps easyStrS :=
  convertR inferInstance id (Easy.Errors.ops Char (List Char) Nat compare)
    (StringStreamError.intoOtherS (Easy.Errors.ops Char (List Char) Nat compare))
    (StringStreamError.intoOther (Easy.Errors.ops Char (List Char) Nat compare) (0 : Nat)) strR

abbrev easySliceR (T : Type) [DecidableEq T] (sz : Nat) : RangeOps (easySliceS T sz) :=
  convertR inferInstance id (Easy.Errors.ops T (List T) Nat compare)
    (UnexpectedParse.intoOtherS (Easy.Errors.ops T (List T) Nat compare))
    (UnexpectedParse.intoOther (Easy.Errors.ops T (List T) Nat compare) (0 : Nat)) (sliceR T sz)

/-- **C47.**  Translating the position of an error of `easy_parse` on a `&str` never overflows, and gives the byte
offset at which some suffix of the text starts: slicing the text there is safe. -/
theorem C47_str_offset {p : Parser easyStrS σ α} (hp : Placed easyStrR noOwn p) (text : List Char) (ptr : Nat)
    {e : Easy.Errors Char (List Char) Nat} (h : p.parse (⟨ptr, text⟩ : Str) = .err e) :
    ∃ consumed rest, text = consumed ++ rest ∧ translatePosition e.position ptr = some (Str.byteLen consumed) := by
  rcases C47_parse (A := strS) (Q := strR) str_lawful strR_lawful hp _ h with h | ⟨ts, k, hk, he⟩
  · cases h
  · obtain ⟨h1, h2⟩ := str_reads.1 hk
    refine ⟨ts, k.data, h1, ?_⟩
    have h3 : e.position = ptr + Str.byteLen ts := he.symm.trans h2
    rw [h3, translatePosition, if_pos (Nat.le_add_right _ _), Nat.add_sub_cancel_left]

/-- **C47.**  Translating the position of an error of `easy_parse` on a slice never overflows, and gives the offset
in bytes of an element of the slice, or of its end. -/
theorem C47_slice_offset (T : Type) [DecidableEq T] (sz : Nat) {p : Parser (easySliceS T sz) σ α}
    (hp : Placed (easySliceR T sz) noOwn p) (data : List T) (ptr : Nat) {e : Easy.Errors T (List T) Nat}
    (h : p.parse (⟨ptr, data⟩ : Slice T) = .err e) :
    ∃ n, n ≤ data.length ∧ translatePosition e.position ptr = some (sz * n) := by
  rcases C47_parse (A := sliceS T sz) (Q := sliceR T sz) (slice_lawful T sz) (sliceR_lawful T sz) hp _ h with
    h | ⟨ts, k, hk, he⟩
  · cases h
  · obtain ⟨h1, h2⟩ := slice_reads.1 hk
    refine ⟨ts.length, ?_, ?_⟩
    · have h1 : data = ts ++ k.data := h1
      rw [h1, List.length_append]
      exact Nat.le_add_right _ _
    · have h3 : e.position = ptr + sz * ts.length := he.symm.trans h2
      rw [h3, translatePosition, if_pos (Nat.le_add_right _ _), Nat.add_sub_cancel_left]

/-- **C47** for slices of single bytes: the translated position is an index into the slice. -/
theorem C47_byte_index (T : Type) [DecidableEq T] {p : Parser (easySliceS T 1) σ α}
    (hp : Placed (easySliceR T 1) noOwn p) (data : List T) (ptr : Nat) {e : Easy.Errors T (List T) Nat}
    (h : p.parse (⟨ptr, data⟩ : Slice T) = .err e) :
    ∃ n, n ≤ data.length ∧ translatePosition e.position ptr = some n := by
  obtain ⟨n, h1, h2⟩ := C47_slice_offset T 1 hp data ptr h
  exact ⟨n, h1, by rw [h2, Nat.one_mul]⟩

private abbrev W := easySliceS Nat 4

/-- Deviation: on slices of larger elements, such as `&[u32]`, the translated position is not "an indexed position"
(as its documentation says) but a number of bytes, and may be past the end of the slice. -/
theorem C47_offset_not_index :
    Placed (easySliceR Nat 4) noOwn (pair (token W 7) (token W 9)) ∧
    ∃ e, (pair (token W 7) (token W 9)).parse (⟨100, [7, 8]⟩ : Slice Nat) = .err e ∧
      translatePosition e.position 100 = some 4 :=
  ⟨.pair (S := W) (.token (S := W) _) (.token (S := W) _), _, rfl, rfl⟩

example : (match (pair (token easyStrS 'é') (token easyStrS 'a')).parse (⟨100, ['é', 'b']⟩ : Str) with
    | .err e => some (translatePosition e.position 100)
    | _ => none) = some (some 2) := rfl

example {e} (h : (pair (token easyStrS 'é') (token easyStrS 'a')).parse (⟨100, ['é', 'b']⟩ : Str) = .err e) :
    ∃ consumed rest, ['é', 'b'] = consumed ++ rest ∧
      translatePosition e.position 100 = some (Str.byteLen consumed) :=
  C47_str_offset (.pair (.token _) (.token _)) _ _ h

/-! ## Converting errors -/

/-- **C50.**  An `easy` error that is converted to an `easy` error reads the same, unless it is a message, which then reads as something
expected. -/
theorem C50_into_other {T R P : Type} [DecidableEq T] [DecidableEq R] (cmp : P → P → Ordering) (dt : T → String) (dr : R → String)
    (x : Easy.Error T R) :
    Easy.Error.display dt dr (x.intoOtherS (Easy.Errors.ops T R P cmp)) =
      match x with
      | .message m => "Expected " ++ Easy.Info.display dt dr m
      | x => Easy.Error.display dt dr x := by
  cases x <;> rfl

example : Easy.Error.display (fun c : Char => c.toString) (fun s : List Char => String.ofList s)
    ((Easy.Error.other "no such file" : Easy.Error Char (List Char)).intoOtherS (Easy.Errors.ops Char (List Char) Nat compare)) = "no such file" := rfl

end Verif
