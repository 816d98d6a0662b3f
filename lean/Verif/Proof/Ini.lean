import Verif.Proof.KnownChars
import Verif.Proof.Calm
import Verif.Spec.Ini

/-!
# Lemmas about the parser of `.ini` files
-/

namespace Verif

namespace Ini

open Json (char)

variable {S : Strm} [DecidableEq S.Tok] {C : Chars S} {U : Unicode}

/-- White space. -/
abbrev white (U : Unicode) (c : Char) : Bool := (TokenClass.space.char U).1 c

/-! ## White space -/

theorem known_comment (hS : S.Lawful) :
    Known C.chr (fun w _ o => (∃ u, w = ';' :: u ∧ ∀ c ∈ u, c ≠ '\n') ∧ AtLineEnd o) (fun o => o ≠ some ';') (comment C) := by
  refine (known_map hS (known_tuple hS (known_char hS ';') (.cons (known_many_sat hS (known_satisfy hS (fun c => c != '\n'))).2.2.1.later .nil)
    (by simp)) _).iff ?_ fun _ => Iff.rfl
  intro w v o
  have ho : (∀ c, o = some c → (c != '\n') = false) ↔ AtLineEnd o := by
    cases o <;> simp [AtLineEnd]
  constructor
  · rintro ⟨x, ⟨_, _, rfl, ⟨rfl, _⟩, u, _, rfl, ⟨h1, h2⟩, rfl⟩, _⟩
    refine ⟨⟨u, by simp, by simpa using h1⟩, ho.1 h2⟩
  · rintro ⟨⟨u, rfl, h1⟩, h2⟩
    exact ⟨(C.tok ';', (), ()), ⟨[';'], u, rfl, ⟨rfl, rfl⟩, u, [], by simp, ⟨by simpa using h1, ho.2 h2⟩, rfl⟩, rfl⟩

theorem blank_spaces {sp : Char → Bool} {o : Option Char} {w u : List Char} (h : ∀ c ∈ w, sp c = true) (hu : Blank sp o u) :
    Blank sp o (w ++ u) := by
  induction w with
  | nil => exact hu
  | cons c w ih => exact .space (h c (by simp)) (ih fun c hc => h c (by simp [hc]))

theorem known_whitespace (hS : S.Lawful) :
    Known C.chr (fun w _ o => AllBlank (white U) o w) (fun _ => False) (whitespace U C) := by
  have hsp := known_many_sat hS (known_charClass (C := C) (U := U) hS .space)
  have hor := known_or hS hsp.2.2.2 (known_comment (C := C) hS)
  refine (known_skip_many hS hor ?_).iff ?_ fun _ => Iff.rfl
  · rintro v o (⟨h, _⟩ | ⟨_, ⟨u, h, _⟩, _⟩)
    · exact h rfl
    · cases h
  · intro w v o
    have hG : ((∀ c, o = some c → white U c = false) ∧ o ≠ some ';') ↔ NoBlank (white U) o := by
      constructor
      · rintro ⟨h1, h2⟩ c rfl
        exact ⟨h1 c rfl, fun h => h2 (by rw [h])⟩
      · intro h
        exact ⟨fun c hc => (h c hc).1, fun hc => (h _ hc).2 rfl⟩
    constructor
    · rintro ⟨⟨vs, hm⟩, ho⟩
      refine ⟨?_, hG.1 ho⟩
      clear ho hG
      induction hm with
      | nil => exact .nil
      | cons _ h1 _ ih =>
        rcases h1 with ⟨_, h2, _⟩ | ⟨_, ⟨u, rfl, h2⟩, h3⟩
        · exact blank_spaces h2 ih
        · exact .comment h2 h3 ih
    · rintro ⟨hb, ho⟩
      refine ⟨?_, hG.2 ho⟩
      induction hb with
      | nil => exact ⟨[], .nil⟩
      | @space c w hc _ ih =>
        obtain ⟨vs, hm⟩ := ih
        generalize ho' : o = o' at hm
        cases hm with
        | nil =>
          subst ho'
          exact ⟨[()], .cons (w := [c]) (by simp) (.inl ⟨by simp, by simpa using hc, fun d hd => (ho d hd).1⟩) .nil⟩
        | @cons w1 u v vs _ h1 h2 h3 =>
          subst ho'
          rcases h2 with ⟨h4, h5, h6⟩ | ⟨_, ⟨u', rfl, h4⟩, h5⟩
          · refine ⟨() :: vs, .cons (w := c :: w1) (by simp) (.inl ⟨by simp, ?_, h6⟩) h3⟩
            intro d hd
            rcases List.mem_cons.1 hd with rfl | hd
            · exact hc
            · exact h5 d hd
          · refine ⟨() :: () :: vs, .cons (w := [c]) (by simp) (.inl ⟨by simp, by simpa using hc, ?_⟩) (.cons (w := ';' :: u') h1 (.inr ⟨?_, ⟨u', rfl, h4⟩, h5⟩) h3)⟩
            · intro d hd
              cases hd
              rfl
            · intro d hd
              cases hd
              rfl
      | @comment u w h1 h2 _ ih =>
        obtain ⟨vs, hm⟩ := ih
        refine ⟨() :: vs, .cons (w := ';' :: u) (by simp) (.inr ⟨?_, ⟨u, rfl, h1⟩, h2⟩) hm⟩
        intro d hd
        cases hd
        rfl

/-! ## Properties -/

theorem known_property (hS : S.Lawful) :
    Known C.chr (fun w p o => IsProperty o w p.1 p.2) NoProperty (property C) := by
  have hG : ∀ o : Option Char, (∀ c, o = some c → isKey c = false) ↔ NoProperty o := by
    intro o
    cases o with
    | none => simp [NoProperty]
    | some c =>
      simp only [isKey, NoProperty, Option.some.injEq, reduceCtorEq, false_or]
      constructor
      · intro h
        have := h c rfl
        simp only [Bool.and_eq_false_iff, bne_eq_false_iff_eq, or_assoc] at this
        exact this
      · rintro h d rfl
        simpa only [Bool.and_eq_false_iff, bne_eq_false_iff_eq, or_assoc] using h
  have hV : ∀ o : Option Char, (∀ c, o = some c → isValue c = false) ↔ (AtLineEnd o ∨ o = some ';') := by
    intro o
    cases o with
    | none => simp [AtLineEnd]
    | some c =>
      simp only [isValue, AtLineEnd, Option.some.injEq, reduceCtorEq, false_or]
      constructor
      · intro h
        have := h c rfl
        simpa only [Bool.and_eq_false_iff, bne_eq_false_iff_eq] using this
      · rintro h d rfl
        simpa only [Bool.and_eq_false_iff, bne_eq_false_iff_eq] using h
  refine (known_message hS (known_map hS (known_tuple hS (known_many_sat hS (known_satisfy hS (isKey))).2.1 (.cons (known_char hS '=').later
    (.cons (known_many_sat hS (known_satisfy hS (isValue))).2.1.later .nil)) (by simp)) _) _).iff ?_ hG
  intro w p o
  constructor
  · rintro ⟨x, ⟨k, _, rfl, ⟨h1, h2, h3, h4⟩, _, _, rfl, ⟨rfl, _⟩, v, _, rfl, ⟨h5, h6, h7, h8⟩, rfl⟩, rfl⟩
    dsimp only
    rw [h1, h5, C.map_chr_tok, C.map_chr_tok]
    refine ⟨by simp, h2, h6, ?_, ?_, (hV _).1 h8⟩
    · intro c hc
      simpa [isKey, and_assoc] using h3 c hc
    · intro c hc
      simpa [isValue] using h7 c hc
  · rintro ⟨rfl, h1, h2, h3, h4, h5⟩
    obtain ⟨k, v⟩ := p
    dsimp only at h1 h2 h3 h4 h5 ⊢
    refine ⟨(k.map C.tok, C.tok '=', v.map C.tok, ()), ⟨k, '=' :: v, rfl, ⟨rfl, h1, ?_, ?_⟩, ['='], v, rfl, ⟨rfl, rfl⟩, v, [], by simp,
      ⟨rfl, h2, ?_, (hV _).2 h5⟩, rfl⟩, ?_⟩
    · intro c hc
      simpa [isKey, and_assoc] using h3 c hc
    · intro c hc
      cases hc
      rfl
    · intro c hc
      simpa [isValue] using h4 c hc
    · simp only [C.map_chr_tok]

theorem property_ne {o : Option Char} {w k v : List Char} (h : IsProperty o w k v) : w ≠ [] := by
  rw [h.1]; simp

theorem known_properties (hS : S.Lawful) :
    Known C.chr (fun w ps o => AllProperties (white U) o w ps) (fun _ => False) (properties U C) := by
  refine (known_many hS (known_skip hS (known_property hS) (known_whitespace hS).later fun v o h => property_ne h rfl) ?_).iff ?_ fun _ => Iff.rfl
  · rintro v o ⟨u, z, x, h, h1, _⟩
    obtain ⟨rfl, _⟩ := List.append_eq_nil_iff.1 h.symm
    exact property_ne h1 rfl
  · intro w ps o
    refine and_congr ?_ Iff.rfl
    constructor
    · intro h
      induction h with
      | nil => exact .nil
      | cons _ h1 _ ih =>
        obtain ⟨u, z, x, rfl, h2, _, h3, rfl⟩ := h1
        rw [List.append_assoc]
        exact .cons (by rw [lead_append]; exact h2) h3 ih
    · intro h
      induction h with
      | nil => exact .nil
      | @cons w b u k v ps h1 h2 _ ih =>
        rw [← List.append_assoc]
        refine .cons ?_ ⟨w, b, (k, v), rfl, ?_, (), h2, rfl⟩ ih
        · intro h
          exact property_ne h1 (List.append_eq_nil_iff.1 h).1
        · rw [← lead_append]; exact h1

/-! ## Sections -/

theorem known_section (hS : S.Lawful) :
    Known C.chr (fun w s o => IsSection (white U) o w s.1 s.2) (fun o => o ≠ some '[') («section» U C) := by
  have hne : ∀ (v : List S.Tok) (o : Option Char), ¬ (Texts.bind (fun w v _ => w = ['['] ∧ v = C.tok '[') fun _ =>
      Texts.bind (fun w vs o => vs = w.map C.tok ∧ (∀ c ∈ w, (c != ']') = true) ∧ ∀ c, o = some c → (c != ']') = false) fun v =>
        Texts.map (fun w v _ => w = [']'] ∧ v = C.tok ']') fun _ => v) [] v o := by
    rintro v o ⟨u, z, x, h, ⟨rfl, _⟩, _⟩
    cases h
  refine (known_message hS (known_map hS (known_tuple hS (known_between hS (known_char hS '[')
    (known_many_sat hS (known_satisfy hS fun c => c != ']')).1.later (known_char hS ']').later (by simp))
    (.cons (known_whitespace hS).later (.cons (known_properties hS).later .nil)) hne) _) _).iff ?_ fun _ => Iff.rfl
  intro w s o
  constructor
  · rintro ⟨x, ⟨_, _, rfl, ⟨_, _, _, rfl, ⟨rfl, _⟩, name, _, _, rfl, ⟨h1, h2, _⟩, _, ⟨rfl, _⟩, h3⟩, b, _, rfl, h4, u, _, rfl, h5, rfl⟩, rfl⟩
    dsimp only
    rw [← h3, h1, C.map_chr_tok]
    exact ⟨b, u, by simp, by simpa using h2, by simpa [lead_append] using h4, h5⟩
  · rintro ⟨b, u, rfl, h1, h2, h3⟩
    refine ⟨(s.1.map C.tok, (), s.2, ()), ⟨'[' :: (s.1 ++ [']']), b ++ u, by simp, ⟨['['], s.1 ++ [']'], C.tok '[', rfl, ⟨rfl, rfl⟩,
      s.1, [']'], s.1.map C.tok, rfl, ⟨rfl, by simpa using h1, ?_⟩, C.tok ']', ⟨rfl, rfl⟩, rfl⟩, b, u, rfl, h2, u, [], by simp, h3, rfl⟩, ?_⟩
    · intro c hc
      cases hc
      rfl
    · simp only [C.map_chr_tok]

theorem section_ne {sp : Char → Bool} {o : Option Char} {w n : List Char} {ps : Properties} (h : IsSection sp o w n ps) : w ≠ [] := by
  obtain ⟨b, u, rfl, _⟩ := h
  simp

theorem known_sections (hS : S.Lawful) :
    Known C.chr (fun w ss o => AreSections (white U) o w ss ∧ o ≠ some '[') (fun _ => False) (many («section» U C)) := by
  refine (known_many hS (known_section hS) fun v o h => section_ne h rfl).iff ?_ fun _ => Iff.rfl
  intro w ss o
  refine and_congr ?_ Iff.rfl
  constructor
  · intro h
    induction h with
    | nil => exact .nil
    | cons _ h1 _ ih => exact .cons h1 ih
  · intro h
    induction h with
    | nil => exact .nil
    | cons h1 _ ih => exact .cons (section_ne h1) h1 ih

theorem known_ini (hS : S.Lawful) : Later C.chr (fun w f o => IsFile (white U) o w f) (ini U C) := by
  refine (later_map hS (later_tuple hS (known_whitespace hS).later (.cons (known_properties hS).later (.cons (known_sections hS).later .nil))) _).iff ?_
  intro w f o
  constructor
  · rintro ⟨x, ⟨b, _, rfl, h1, u, _, rfl, h2, z, _, rfl, ⟨h3, h4⟩, rfl⟩, rfl⟩
    exact ⟨b, u, z, by simp, by simpa using h1, by simpa using h2, h3, h4⟩
  · rintro ⟨b, u, z, rfl, h1, h2, h3, h4⟩
    exact ⟨((), f.global, f.sections, ()), ⟨b, u ++ z, rfl, h1, u, z, rfl, h2, z, [], by simp, ⟨h3, h4⟩, rfl⟩, rfl⟩

/-! ## Nothing panics -/

omit [DecidableEq S.Tok] in
private theorem sat_consuming {p : Parser S Unit S.Tok} {g : Char → Bool} {G : Option Char → Prop}
    (h : Known C.chr (fun w v _ => ∃ c, w = [c] ∧ g c = true ∧ v = C.tok c) G p) : Consuming p :=
  consuming_of h.is (by simp)

theorem whitespace_calm (hS : S.Lawful) : Calm (whitespace U C) := by
  have hsp := known_charClass (C := C) (U := U) hS .space
  have hsm := known_many_sat hS hsp
  have hco := known_comment (C := C) hS
  have h1 : Calm (comment C) := calm_map (calm_tuple (calm_never (never_token _)) (by
    rintro q (rfl | hq)
    · exact calm_skipMany hS (known_satisfy (C := C) hS (fun c => c != '\n')).rep (sat_consuming (known_satisfy hS (fun c => c != '\n'))) (calm_never (never_satisfy _))
    · exact hq.elim)) _
  have h2 : Calm (skipMany1 (space U C)) := calm_skipMany1 hS hsp.rep (sat_consuming hsp) (calm_expected (calm_never (never_satisfy _)) _)
  refine calm_skipMany hS (known_or hS hsm.2.2.2 hco).rep (consuming_of (known_or hS hsm.2.2.2 hco).is ?_)
    (calm_or hS hsm.2.2.2.rep.moves hco.rep.moves h2 h1)
  rintro v o (⟨h, _⟩ | ⟨_, ⟨u, h, _⟩, _⟩)
  · exact h rfl
  · cases h

theorem properties_calm (hS : S.Lawful) : Calm (properties U C) := by
  have hs : ∀ g : Char → Bool, Calm (many1 (satisfy S fun t => g (C.chr t))) := fun g =>
    calm_many1 hS (known_satisfy (C := C) hS g).rep (sat_consuming (known_satisfy hS g)) (calm_never (never_satisfy _))
  have hp : Calm (property C) := calm_message (calm_map (calm_tuple (hs _) (by
    rintro q (rfl | rfl | hq)
    · exact calm_never (never_token _)
    · exact hs _
    · exact hq.elim)) _) _
  have hk := known_skip hS (known_property (C := C) hS) (known_whitespace (U := U) hS).later fun v o h => property_ne h rfl
  refine calm_many hS hk.rep (consuming_of hk.is ?_) (calm_skip hp (whitespace_calm hS))
  rintro v o ⟨u, z, x, h, h1, _⟩
  obtain ⟨rfl, _⟩ := List.append_eq_nil_iff.1 h.symm
  exact property_ne h1 rfl

theorem ini_calm (hS : S.Lawful) : Calm (ini U C) := by
  have hn : Calm (many (satisfy S fun t => C.chr t != ']')) := calm_many hS (known_satisfy (C := C) hS (fun c => c != ']')).rep
    (sat_consuming (known_satisfy hS (fun c => c != ']'))) (calm_never (never_satisfy _))
  have hsec : Calm («section» U C) := calm_message (calm_map (calm_tuple (calm_between (calm_never (never_token _)) (calm_never (never_token _)) hn) (by
    rintro q (rfl | rfl | hq)
    · exact whitespace_calm hS
    · exact properties_calm hS
    · exact hq.elim)) _) _
  have hk := known_section (C := C) (U := U) hS
  refine calm_map (calm_tuple (whitespace_calm hS) ?_) _
  rintro q (rfl | rfl | hq)
  · exact properties_calm hS
  · exact calm_many hS hk.rep (consuming_of hk.is fun v o h => section_ne h rfl) hsec
  · exact hq.elim

/-! ## Files as they are usually written -/

variable {sp : Char → Bool}

theorem newline (hn : sp '\n' = true) (o : Option Char) : Blank sp o ['\n'] := .space hn .nil

theorem valid_lead {p : List Char × List Char} (h : ValidProperty sp p) (u : List Char) (o : Option Char) :
    NoBlank sp (lead (propertyText p ++ u) o) := by
  obtain ⟨⟨c, k, hk, h1⟩, _, h2, _⟩ := h
  intro d hd
  rw [propertyText, hk] at hd
  cases hd
  exact ⟨h1, (h2 c (by rw [hk]; simp)).2.2⟩

theorem properties_text (hn : sp '\n' = true) {ps : Properties} (h : ∀ p ∈ ps, ValidProperty sp p) {o : Option Char} (ho : NoBlank sp o) :
    AreProperties sp o (ps.flatMap propertyText) ps := by
  induction ps with
  | nil => exact .nil
  | cons p ps ih =>
    have ih := ih fun q hq => h q (by simp [hq])
    obtain ⟨⟨c, k, hk, h1⟩, h2, h3, h4⟩ := h p (by simp)
    have e : (p :: ps).flatMap propertyText = (p.1 ++ '=' :: p.2) ++ (['\n'] ++ ps.flatMap propertyText) := by
      simp [propertyText]
    rw [e]
    refine .cons (k := p.1) (v := p.2) ⟨rfl, by rw [hk]; simp, h2, h3, h4, .inl (.inr rfl)⟩ ⟨newline hn _, ?_⟩ ih
    cases ps with
    | nil => exact ho
    | cons q qs => exact valid_lead (h q (by simp)) _ _

theorem sections_lead {ss : List (List Char × Properties)} : lead (ss.flatMap sectionText) none = none ∨ lead (ss.flatMap sectionText) none = some '[' := by
  cases ss with
  | nil => exact .inl rfl
  | cons s ss => exact .inr rfl

theorem sections_noBlank (hb : sp '[' = false) {ss : List (List Char × Properties)} : NoBlank sp (lead (ss.flatMap sectionText) none) := by
  intro c hc
  rcases sections_lead (ss := ss) with h | h
  · rw [h] at hc; cases hc
  · rw [h] at hc; cases hc; exact ⟨hb, by decide⟩

theorem sections_noProperty {ss : List (List Char × Properties)} : NoProperty (lead (ss.flatMap sectionText) none) := by
  rcases sections_lead (ss := ss) with h | h <;> rw [h] <;> simp [NoProperty]

theorem properties_noBlank {ps : Properties} (h : ∀ p ∈ ps, ValidProperty sp p) {u : List Char} {o : Option Char} (ho : NoBlank sp (lead u o)) :
    NoBlank sp (lead (ps.flatMap propertyText ++ u) o) := by
  cases ps with
  | nil => exact ho
  | cons p ps =>
    rw [List.flatMap_cons, List.append_assoc]
    exact valid_lead (h p (by simp)) _ _

theorem sections_text (hn : sp '\n' = true) (hb : sp '[' = false) {ss : List (List Char × Properties)}
    (h : ∀ s ∈ ss, (∀ c ∈ s.1, c ≠ ']') ∧ ∀ p ∈ s.2, ValidProperty sp p) : AreSections sp none (ss.flatMap sectionText) ss := by
  induction ss with
  | nil => exact .nil
  | cons s ss ih =>
    have ih := ih fun q hq => h q (by simp [hq])
    obtain ⟨h1, h2⟩ := h s (by simp)
    rw [List.flatMap_cons]
    refine .cons (name := s.1) (ps := s.2) ⟨['\n'], s.2.flatMap propertyText, rfl, h1, ⟨newline hn _, ?_⟩, properties_text hn h2 ?_, ?_⟩ ih
    · rw [← lead_append]
      exact properties_noBlank h2 (sections_noBlank hb)
    · exact sections_noBlank hb
    · exact sections_noProperty

theorem file_text (hn : sp '\n' = true) (hb : sp '[' = false) {f : File} (h : f.Valid sp) : IsFile sp none f.text f := by
  refine ⟨[], f.global.flatMap propertyText, f.sections.flatMap sectionText, rfl, ⟨.nil, ?_⟩, ⟨properties_text hn h.1 (sections_noBlank hb),
    sections_noProperty⟩, sections_text hn hb h.2, by simp⟩
  exact properties_noBlank h.1 (sections_noBlank hb)

end Ini

end Verif
