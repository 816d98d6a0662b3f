import Verif.Proof.KnownChars
import Verif.Proof.Calm
import Verif.Proof.SliceLaws
import Verif.Props.ExactRanges
import Verif.Spec.Examples

/-!
# Lemmas about the example programs `number.rs` and `readme.rs`
-/

namespace Verif

namespace Number

theorem lawful : Bytes.Lawful := slice_lawful _ _
theorem lawfulR : (sliceR UInt8 1).Lawful id (fun _ => 1) := sliceR_lawful _ _

theorem isDigit_iff (b : UInt8) : TokenClass.digit.byte.1 b = true ↔ IsDigit b := by
  simp [TokenClass.byte, isAsciiDigit, IsDigit, UInt8.le_iff_toNat_le]

theorem known_digit : Known (S := Bytes) id (fun w v _ => w = [v] ∧ IsDigit v) (fun o => ∀ b, o = some b → ¬ IsDigit b) digit := by
  refine (known_one (S := Bytes) (f := id) (g := fun b => if TokenClass.digit.byte.1 b = true then some b else none)
    (moves_satisfyNamed lawful _ _) fun i => C53_named lawful (fun t => TokenClass.digit.byte.1 (id t)) TokenClass.digit.byte.2 i).iff ?_ ?_
  · intro w v o
    constructor
    · rintro ⟨b, rfl, hb⟩
      split at hb
      · next h => cases hb; exact ⟨rfl, (isDigit_iff _).1 h⟩
      · cases hb
    · rintro ⟨rfl, h⟩
      exact ⟨v, rfl, by rw [if_pos ((isDigit_iff v).2 h)]⟩
  · intro o
    constructor
    · intro h b hb hd
      have := h b hb
      rw [if_pos ((isDigit_iff b).2 hd)] at this
      cases this
    · intro h b hb
      rw [if_neg (fun hd => h b hb ((isDigit_iff b).1 hd))]

theorem known_dot : Known (S := Bytes) id (fun w v _ => w = [46] ∧ v = 46) (fun o => o ≠ some 46) (token Bytes 46) := by
  refine (known_one (S := Bytes) (f := id) (g := fun b => if b = 46 then some b else none)
    (moves_token lawful _) fun i => C53_token lawful (46 : UInt8) i).iff ?_ ?_
  · intro w v o
    constructor
    · rintro ⟨b, rfl, hb⟩
      split at hb
      · next h => cases hb; subst h; exact ⟨rfl, rfl⟩
      · cases hb
    · rintro ⟨rfl, rfl⟩
      exact ⟨46, rfl, rfl⟩
  · intro o
    cases o <;> simp

private theorem digits {w vs : List UInt8} {o : Option UInt8} :
    Texts.Many (fun w v _ => w = [v] ∧ IsDigit v) w vs o ↔ vs = w ∧ ∀ d ∈ w, IsDigit d := by
  constructor
  · intro h
    induction h with
    | nil => simp
    | cons _ h2 _ ih =>
      obtain ⟨rfl, h3⟩ := h2
      obtain ⟨rfl, h4⟩ := ih
      exact ⟨rfl, by simpa [h3] using h4⟩
  · rintro ⟨rfl, h⟩
    induction vs with
    | nil => exact .nil
    | cons c w ih => exact .cons (w := [c]) (by simp) ⟨rfl, h c (by simp)⟩ (ih fun c hc => h c (by simp [hc]))

theorem known_text : ∃ P, Known (S := Bytes) id P (fun o => ∀ b, o = some b → ¬ IsDigit b) text ∧
    ∀ w o, (∃ v, P w v o) ↔ Numeral w o := by
  have hn : ∀ (v : UInt8) (o : Option UInt8), ¬ ([] = [v] ∧ IsDigit v) := by simp
  have h1 := known_skip_many1 lawful known_digit hn
  have h2 := known_skip_many lawful known_digit hn
  have h3 := known_tuple lawful known_dot (.cons h2.later .nil) (by simp)
  have h4 := known_optional lawful h3
  have h5 := known_tuple lawful h1 (.cons h4.later .nil) (by simp [digits])
  refine ⟨_, h5, fun w o => ?_⟩
  constructor
  · rintro ⟨v, u, z, rfl, ⟨⟨vs, h1, h2⟩, h3⟩, z1, z2, rfl, h4, rfl⟩
    obtain ⟨rfl, hd⟩ := digits.1 h1
    rw [List.append_nil] at h3 ⊢
    rcases h4 with ⟨x, _, y1, y2, rfl, ⟨rfl, _⟩, es, e0, rfl, ⟨⟨us, h5⟩, h6⟩, rfl⟩ | ⟨_, rfl, h4⟩
    · obtain ⟨rfl, h5⟩ := digits.1 h5
      rw [List.append_nil]
      exact .fraction h2 hd h5 h6
    · rw [List.append_nil]
      refine .whole h2 hd fun b hb => ⟨h3 b hb, fun h => h4 ?_⟩
      rw [← h]
      exact hb
  · intro h
    cases h with
    | whole h1 h2 h3 =>
      refine ⟨((), none, ()), w, [], by simp, ⟨⟨w, digits.2 ⟨rfl, h2⟩, h1⟩, fun b hb => (h3 b hb).1⟩, [], [], rfl,
        .inr ⟨rfl, rfl, fun ho => (h3 46 ho).2 rfl⟩, rfl⟩
    | @fraction ds es _ h1 h2 h3 h4 =>
      refine ⟨((), some (46, (), ()), ()), ds, 46 :: es, rfl, ⟨⟨ds, digits.2 ⟨rfl, h2⟩, h1⟩, fun b hb => ?_⟩, 46 :: es, [], by simp,
        .inl ⟨_, rfl, [46], es, rfl, ⟨rfl, rfl⟩, es, [], by simp, ⟨⟨es, digits.2 ⟨rfl, h3⟩⟩, h4⟩, rfl⟩, rfl⟩
      cases hb
      simp [IsDigit]

theorem moves_text : Moves text := by
  obtain ⟨P, h, _⟩ := known_text
  exact h.rep.moves

theorem moves_recognized : Moves (recognizeRange (sliceR UInt8 1) text) := moves_recognizeRange lawful lawfulR moves_text

theorem recognized_is : Describes (S := Bytes) (fun w r o => r = w ∧ Numeral w o) (recognizeRange (sliceR UInt8 1) text) := by
  obtain ⟨P, h, h'⟩ := known_text
  refine C63_is_iff (C63_is_recognize_range lawful lawfulR h.rep.moves h.is) fun w r o => ?_
  simp only [Texts.pull, List.map_id, Option.map_id, id, h']

theorem recognized_fails : FailsBy (S := Bytes) (fun o => ∀ b, o = some b → ¬ IsDigit b) (recognizeRange (sliceR UInt8 1) text) := by
  obtain ⟨P, h, h'⟩ := known_text
  refine C63_fails_iff (C63_is_recognize_range_fails lawful lawfulR h.rep.moves h.fails) fun o => ?_
  simp only [Option.map_id, id]

theorem moves_number {F : Type} (parse : List UInt8 → Except UnexpectedParse F) : Moves (number parse) :=
  moves_andThen lawful moves_recognized parse

theorem number_is {F : Type} (parse : List UInt8 → Except UnexpectedParse F) :
    Describes (S := Bytes) (fun w y o => Numeral w o ∧ parse w = .ok y) (number parse) :=
  C63_is_iff (C63_is_and_then lawful moves_recognized recognized_is parse) fun w y o => by
    constructor
    · rintro ⟨_, ⟨rfl, h⟩, h'⟩; exact ⟨h, h'⟩
    · rintro ⟨h, h'⟩; exact ⟨w, ⟨rfl, h⟩, h'⟩

/-! ### It always comes back -/

private theorem calm_andThen {S : Strm} (hS : S.Lawful) {σ α β : Type} {p : Parser S σ α} (hm : Moves p) (hp : Calm p) (f : α → Except S.SErr β) :
    Calm (andThen p f) := by
  rw [calm_answer] at hp ⊢
  intro i a
  have h := hp i a
  have hr := hm.run true i p.init
  revert h hr
  simp only [Parser.answer, andThen, Parser.ofMode]
  generalize p.run true i p.init = o
  obtain ⟨r, k, s⟩ := o
  intro h hr
  have he := hS.inputAtEof_eq k
  cases r with
  | commitOk v =>
    cases hv : f v with
    | ok z => simp [Out.answer, Answer.of, hv]
    | error e =>
      simp only [hv]
      rw [he]
      split
      · cases (S.inputAtEof k).1
        · simp [Out.answer, Answer.of]
        · simp [hS.tryReset_eq hr, Out.answer, Answer.of]
      · simp [Out.answer, Answer.of]
  | peekOk v =>
    cases hv : f v with
    | ok z => simp [Out.answer, Answer.of, hv]
    | error e =>
      simp only [hv]
      rw [he]
      split
      · cases (S.inputAtEof k).1
        · simp [Out.answer, Answer.of]
        · simp [hS.tryReset_eq hr, Out.answer, Answer.of]
      · simp [Out.answer, Answer.of]
  | peekErr e => simp [Out.answer, Answer.of]
  | commitErr e => simp [Out.answer, Answer.of]
  | abort b =>
    intro h2
    exact h (by simpa [Out.answer, Answer.of] using h2)

private theorem calm_recognizeRange {S : Strm} {R : RangeOps S} {toks : S.Rng → List S.Tok} {wt : S.Tok → Nat} (hS : S.Lawful)
    (hR : R.Lawful toks wt) {σ α : Type} {p : Parser S σ α} (hm : Moves p) (hp : Calm p) : Calm (recognizeRange R p) := by
  rw [calm_answer] at hp ⊢
  intro i a
  obtain ⟨x, h1, h2⟩ := C18_recognize_range hS hR hm i
  rw [h2]
  unfold Strm.IsRecognized at h1
  have h := hp i
  cases ha : p.answer i with
  | ok c v j => rw [ha] at h1; obtain ⟨r, _, rfl⟩ := h1; simp [Answer.map]
  | soft => rw [ha] at h1; subst h1; simp [Answer.map]
  | hard e => rw [ha] at h1; subst h1; simp [Answer.map]
  | abort b => exact absurd ha (h b)

theorem calm_number {F : Type} (parse : List UInt8 → Except UnexpectedParse F) : Calm (number parse) := by
  have hd : Calm digit := calm_never (never_expected (never_satisfy _) _)
  have hc := consuming_of known_digit.is (by simp)
  refine calm_andThen lawful moves_recognized (calm_recognizeRange lawful lawfulR moves_text ?_) parse
  refine calm_tuple (calm_skipMany1 lawful known_digit.rep hc hd) ?_
  rintro q (rfl | hq)
  · have h2 := known_skip_many lawful known_digit (by simp)
    have h3 := known_tuple lawful known_dot (.cons h2.later .nil) (by simp)
    refine calm_optional lawful h3.rep.moves (calm_tuple (calm_never (never_token _)) ?_)
    rintro q (rfl | hq)
    · exact calm_skipMany lawful known_digit.rep hc hd
    · exact hq.elim
  · exact hq.elim

end Number

namespace Readme

variable {S : Strm} {C : Chars S} {U : Unicode}

abbrev letter (U : Unicode) (c : Char) : Bool := (TokenClass.letter.char U).1 c
abbrev white (U : Unicode) (c : Char) : Bool := (TokenClass.space.char U).1 c

theorem known_word (hS : S.Lawful) : Known C.chr (fun w v o => v = w ∧ IsWord (letter U) w ∧ ∀ c, o = some c → letter U c = false)
    (fun o => ∀ c, o = some c → letter U c = false) (word U C) := by
  refine (known_map hS (known_many_sat hS (known_charClass (C := C) (U := U) hS .letter)).2.1 _).iff ?_ fun _ => Iff.rfl
  intro w v o
  constructor
  · rintro ⟨x, ⟨rfl, h1, h2, h3⟩, rfl⟩
    exact ⟨C.map_chr_tok _, ⟨h1, h2⟩, h3⟩
  · rintro ⟨rfl, ⟨h1, h2⟩, h3⟩
    exact ⟨_, ⟨rfl, h1, h2, h3⟩, C.map_chr_tok _⟩

theorem known_space (hS : S.Lawful) : Known C.chr (fun w v _ => ∃ c, w = [c] ∧ white U c = true ∧ v = C.tok c)
    (fun o => ∀ c, o = some c → white U c = false) (charClass S U C.chr .space) := known_charClass hS .space

variable (U) in
/-- A separator and a word. -/
private abbrev Next : Texts Char (List Char) := fun w v o =>
  ∃ c, w = c :: v ∧ white U c = true ∧ IsWord (letter U) v ∧ ∀ c, o = some c → letter U c = false

private theorem sentence_of {o : Option Char} (u : List Char) (hu : IsWord (letter U) u) {w : List Char} {vs : List (List Char)}
    (h : Texts.Many (Next U) w vs o) (hl : ∀ c, lead w o = some c → letter U c = false) :
    Sentence (letter U) (white U) (u ++ w) (u :: vs) ∧ ∀ c, o = some c → letter U c = false := by
  induction h generalizing u with
  | nil => rw [List.append_nil]; exact ⟨.one hu, hl⟩
  | cons _ h1 _ ih =>
    obtain ⟨c, rfl, h2, h3, h4⟩ := h1
    exact ⟨.more hu h2 (hl c rfl) (ih _ h3 h4).1, (ih _ h3 h4).2⟩

private theorem of_sentence {o : Option Char} {w : List Char} {ws : List (List Char)} (ho : ∀ c, o = some c → letter U c = false)
    (h : Sentence (letter U) (white U) w ws) : ∃ u z vs, w = u ++ z ∧ ws = u :: vs ∧ IsWord (letter U) u ∧
      (∀ c, lead z o = some c → letter U c = false) ∧ Texts.Many (Next U) z vs o := by
  induction h with
  | @one w h => exact ⟨w, [], [], by simp, rfl, h, ho, .nil⟩
  | @more w u c ws h1 h2 h3 _ ih =>
    obtain ⟨u', z, vs, rfl, rfl, h4, h5, h6⟩ := ih
    refine ⟨w, c :: (u' ++ z), u' :: vs, rfl, rfl, h1, ?_, ?_⟩
    · intro d hd
      cases hd
      exact h3
    · exact .cons (w := c :: u') (by simp) ⟨c, rfl, h2, h4, h5⟩ h6

theorem last_word_is (hS : S.Lawful) : Describes (Texts.pull C.chr fun w v o =>
    (∃ ws, Sentence (letter U) (white U) w ws ∧ v = ws.getLast? ∧ ∀ c, o = some c → letter U c = false ∧ white U c = false) ∨
    w = [] ∧ v = none ∧ ∀ c, o = some c → letter U c = false) (lastWord U C) := by
  have hw := known_word (C := C) (U := U) hS
  have hs := known_space (C := C) (U := U) hS
  have hn : ∀ (v : List Char) (o : Option Char), ¬ (v = [] ∧ IsWord (letter U) [] ∧ ∀ c, o = some c → letter U c = false) := by
    rintro v o ⟨_, h, _⟩
    exact h.1 rfl
  have hn' : ∀ (v : S.Tok) (o : Option Char), ¬ ∃ c, [] = [c] ∧ white U c = true ∧ v = C.tok c := by simp
  obtain ⟨_, hkw⟩ := hw.rep.keeps
  obtain ⟨_, hks⟩ := hs.rep.keeps
  refine C63_is_iff (C63_is_map (C63_is_sep_by hS hw.rep.moves hs.rep.moves hkw hks (consuming_of hw.is hn) hw.is hs.is hs.fails
    (pull_nonempty hn') (pull_nonempty hn) hw.fails) _) ?_
  have hnext : ∀ w v (o : Option S.Tok), ((Texts.pull C.chr fun w v _ => ∃ c, w = [c] ∧ white U c = true ∧ v = C.tok c).bind fun _ =>
      Texts.pull C.chr fun w v o => v = w ∧ IsWord (letter U) w ∧ ∀ c, o = some c → letter U c = false) w v o ↔
      (Next U).pull C.chr w v o := by
    intro w v o
    rw [pull_bind (Q := fun _ => fun w v o => v = w ∧ IsWord (letter U) w ∧ ∀ c, o = some c → letter U c = false)]
    constructor
    · rintro ⟨_, _, _, h, ⟨c, rfl, h1, _⟩, rfl, h2, h3⟩
      exact ⟨c, h, h1, h2, h3⟩
    · rintro ⟨c, h, h1, h2, h3⟩
      exact ⟨[c], v, C.tok c, h, ⟨c, rfl, h1, rfl⟩, rfl, h2, h3⟩
  have hmany : ∀ w vs (o : Option S.Tok), Texts.Many ((Texts.pull C.chr fun w v _ => ∃ c, w = [c] ∧ white U c = true ∧ v = C.tok c).bind fun _ =>
      Texts.pull C.chr fun w v o => v = w ∧ IsWord (letter U) w ∧ ∀ c, o = some c → letter U c = false) w vs o ↔
      Texts.Many (Next U) (w.map C.chr) vs (o.map C.chr) := by
    intro w vs o
    have := funext fun w => funext fun v => funext fun o => propext (hnext w v o)
    rw [this]
    exact pull_many _ _ _
  intro w v o
  constructor
  · rintro ⟨ws, ⟨u, z, x, rfl, ⟨rfl, h1, h2⟩, vs, ⟨h3, h4⟩, rfl⟩ | ⟨h1, rfl, rfl⟩, rfl⟩
    · have h := sentence_of _ h1 ((hmany _ _ _).1 h3) (by rw [lead_map]; exact h2)
      exact .inl ⟨u.map C.chr :: vs, by rw [List.map_append]; exact h.1, rfl, fun c hc => ⟨h.2 c hc, h4 c hc⟩⟩
    · exact .inr ⟨rfl, rfl, h1⟩
  · rintro (⟨ws, h1, rfl, h2⟩ | ⟨h1, rfl, h2⟩)
    · obtain ⟨u, z, vs, h3, rfl, h4, h5, h6⟩ := of_sentence (fun c hc => (h2 c hc).1) h1
      obtain ⟨u, z, rfl, rfl, rfl⟩ := List.map_eq_append_iff.1 h3
      rw [lead_map] at h5
      exact ⟨_, .inl ⟨u, z, u.map C.chr, rfl, ⟨rfl, h4, h5⟩, vs, ⟨(hmany _ _ _).2 h6, fun c hc => (h2 c hc).2⟩, rfl⟩, rfl⟩
    · refine ⟨[], .inr ⟨h2, List.map_eq_nil_iff.1 h1, rfl⟩, rfl⟩

theorem moves_last_word (hS : S.Lawful) : Moves (lastWord U C) :=
  moves_map hS (repeatable_sepBy hS (known_word hS).rep.moves (known_space hS).rep.moves).moves _

theorem never_last_word (hS : S.Lawful) : NeverAborts (lastWord U C) :=
  have hl := never_expected (never_satisfy (S := S) fun t => letter U (C.chr t)) (.static (TokenClass.letter.char U).2)
  have hp := progress_expected (progress_satisfy (S := S) fun t => letter U (C.chr t)) (.static (TokenClass.letter.char U).2)
  have hm := (known_charClass (C := C) (U := U) hS .letter).rep.moves
  never_map (C36_sep_by hS (known_word hS).rep.moves (known_space hS).rep.moves (never_map (C36_many1 hS hm hl hp) _)
    (never_expected (never_satisfy _) _) (.inl (progress_map (C36_many1_progress hS hm hp) _))) _

end Readme

end Verif
