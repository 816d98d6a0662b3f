import Verif.Proof.Json
import Verif.Proof.Calm

/-!
# The JSON parser always comes back
-/

namespace Verif

namespace Json

variable {S : Strm} [DecidableEq S.Tok] {σ α : Type} {U : Unicode} {C : Chars S} {b : Bool}

theorem calm_char (hS : S.Lawful) (c : Char) : Calm (char C c) := calm_one (C53_token hS (C.tok c))

theorem calm_digit (hS : S.Lawful) : Calm (digit U C) := calm_one (digit_one hS)

theorem calm_spaces (hS : S.Lawful) : Calm (charSpaces S U C.chr) :=
  calm_expected (calm_skipMany hS (.unit (moves_satisfyNamed hS _ _)) (consuming_satisfy _) (calm_one (C53_named hS _ _))) _

theorem calm_lex (hS : S.Lawful) {p : Parser S σ α} (hp : Calm p) : Calm (lex U C p) := calm_skip hp (calm_spaces hS)

theorem calm_integer (hS : S.Lawful) : Calm (integer U C) :=
  calm_expected (calm_map (calm_lex hS (calm_many1 hS (repeatable_digit hS) (consuming_satisfy _) (calm_digit hS))) _) _

theorem calm_pair {τ β : Type} {p : Parser S σ α} {q : Parser S τ β} (hp : Calm p) (hq : Calm q) : Calm (pair p q) := by
  refine calm_tuple hp ?_
  rintro r (rfl | hr)
  · exact hq
  · cases hr

theorem calm_number (hS : S.Lawful) : Calm (number U C) := by
  have hm : ∀ c, Calm (optional (char C c)) := fun c => calm_optional hS (moves_token hS _) (calm_char hS c)
  have hi : Calm (intPart U C) := calm_or hS (moves_map hS (moves_token hS _) _) (moves_map hS (repeatable_integer hS).moves _)
    (calm_map (calm_char hS '0') _) (calm_map (calm_integer hS) _)
  have hf : Calm (fractional U C) := calm_map (calm_many hS (repeatable_digit hS) (consuming_satisfy _) (calm_digit hS)) _
  have he : Calm (exp U C) := calm_with (calm_one (C53_satisfy hS _)) (calm_pair (hm '-') (calm_integer hS))
  have hs : Calm (signed U C) := calm_map (calm_pair (hm '-') hi) _
  have ht : Calm (mantissa U C) := calm_map (calm_pair hs (calm_with (hm '.') hf)) _
  exact calm_expected (calm_lex hS (calm_map (calm_pair ht (calm_optional hS (repeatable_exp hS).moves he)) _)) _

theorem calm_jsonChar (hS : S.Lawful) : Calm (jsonChar C) := by
  intro i a h
  rcases jsonChar_shape (C := C) hS i with ⟨t, j, _, h1⟩ | ⟨_, h1⟩
  · rw [h] at h1
    split at h1
    · have hb : Calm (backSlashChar C) := calm_never (never_satisfyMap _)
      cases hx : (backSlashChar C).shape j <;> rw [hx] at h1 <;> cases h1
      exact hb _ _ hx
    · split at h1 <;> cases h1
  · rw [h] at h1
    split at h1 <;> cases h1

theorem calm_jsonString (hS : S.Lawful) : Calm (jsonString U C) :=
  calm_expected (calm_between (calm_char hS _) (calm_lex hS (calm_char hS _))
    (calm_many hS (.unit (moves_jsonChar hS)) (consuming_jsonChar hS) (calm_jsonChar hS))) _

theorem calm_word (hS : S.Lawful) (s : List Char) (v : Value) : Calm (lex U C (map (str C s) fun _ => v)) := by
  refine calm_lex hS (calm_map (fun i a h => ?_) _)
  rcases C40_string hS (fun c t => c == C.chr t) (.static (String.ofList s)) s () i with
    ⟨j, _, h1⟩ | ⟨pre, c, post, j, _, _, ⟨t, k, _, _, h1⟩ | ⟨_, h1⟩⟩
  · exact absurd (h.symm.trans h1) (by simp)
  · have := h.symm.trans h1
    split at this <;> cases this
  · have := h.symm.trans h1
    split at this <;> cases this

/-- What is known about the parser called recursively. -/
def Hole (q : Parser S Unit Value) : Prop := Moves q ∧ Consuming q

theorem hole_zero (hS : S.Lawful) : Hole (recur (body U C) () 0) := ⟨(recur_zero hS _ _).1, (recur_zero hS _ _).2.2⟩

theorem hole_body (hS : S.Lawful) (q : Parser S Unit Value) (h : Hole q) : Hole (body U C q) := ⟨moves_body hS h.1, consuming_body hS h.1⟩

theorem guarded_body (hS : S.Lawful) : Guarded b 1 Hole (body U C) := by
  have hl : ∀ c, Calm (lex U C (char C c)) := fun c => calm_lex hS (calm_char hS c)
  have hml : ∀ c, Repeatable (lex U C (char C c)) := fun c => repeatable_lex hS (repeatable_char hS _)
  have hcl : ∀ c, Consuming (lex U C (char C c)) := fun c => consuming_lex hS (consuming_token _)
  have hms : Moves (jsonString U C) := (repeatable_jsonString hS).moves
  have hfield : Guarded b 0 Hole (field U C) := by
    refine C52_map (f := fun q => tuple (jsonString U C) (.cons (lex U C (char C ':')) (.cons q .nil))) ?_ _
    exact C52_tuple hS (C52_fixed _ (calm_jsonString hS)) (fun q _ => hms) (.inl (Nat.le_refl 0))
      (.cons (f := fun _ => lex U C (char C ':')) (C52_fixed _ (hl _)) (fun q _ => (hml _).moves) (.inl (Nat.le_refl 0))
        (.cons (f := fun q => q) C52_call (fun q h => h.1) (.inl (Nat.le_refl 0)) .nil))
  have hobj : Guarded b 1 Hole (object U C) := by
    refine (C52_labels (f := fun q => map (between (lex U C (char C '{')) (lex U C (char C '}'))
      (sepBy (field U C q) (lex U C (char C ',')))) Value.object) ?_ _).1
    refine C52_map (f := fun q => between (lex U C (char C '{')) (lex U C (char C '}')) (sepBy (field U C q) (lex U C (char C ',')))) ?_ _
    exact C52_between hS (o := fun _ => lex U C (char C '{')) (c := fun _ => lex U C (char C '}'))
      (f := fun q => sepBy (field U C q) (lex U C (char C ','))) (r := 0) (r' := 0) (C52_fixed _ (hl _))
      (C52_sepBy hS (g := fun _ => lex U C (char C ',')) hfield (C52_fixed _ (hl _)) (fun q h => (repeatable_field hS h.1).moves)
        (fun _ _ => (hml _).moves) (fun q h => (repeatable_field hS h.1).keeps) (fun _ _ => (hml _).keeps)
        (fun q h => consuming_field hS h.1)) (C52_fixed _ (hl _)) (fun _ _ => (hml _).moves)
      (fun q h => (repeatable_sepBy hS (repeatable_field hS h.1).moves (hml _).moves).moves)
      (.inr ⟨Nat.le_refl 1, fun _ _ => hcl _⟩) (.inl (Nat.le_refl 0))
  have harr : Guarded b 1 Hole (array U C) := by
    refine C52_map (f := fun q => between (lex U C (char C '[')) (lex U C (char C ']')) (sepBy q (lex U C (char C ',')))) ?_ _
    exact C52_between hS (o := fun _ => lex U C (char C '[')) (c := fun _ => lex U C (char C ']'))
      (f := fun q => sepBy q (lex U C (char C ','))) (r := 0) (r' := 0) (C52_fixed _ (hl _))
      (C52_sepBy hS (f := fun q => q) (g := fun _ => lex U C (char C ',')) C52_call (C52_fixed _ (hl _)) (fun q h => h.1)
        (fun _ _ => (hml _).moves) (fun q h => (Repeatable.unit h.1).keeps) (fun _ _ => (hml _).keeps)
        (fun q h => h.2)) (C52_fixed _ (hl _)) (fun _ _ => (hml _).moves)
      (fun q h => (repeatable_sepBy hS h.1 (hml _).moves).moves) (.inr ⟨Nat.le_refl 1, fun _ _ => hcl _⟩) (.inl (Nat.le_refl 0))
  have hw : ∀ s v, Guarded b 1 Hole (fun _ => lex U C (map (str C s) fun _ => v)) := fun s v => C52_fixed _ (calm_word hS s v)
  refine (C52_parser (f := fun q => choice (alternatives U C q)) (C52_choice hS ?_)).1
  exact .cons (f := fun _ => map (jsonString U C) Value.string) (C52_fixed _ (calm_map (calm_jsonString hS) _)) (fun _ _ => moves_map hS hms _)
    (.cons hobj (fun q h => moves_object hS h.1) (.cons harr (fun q h => moves_array hS h.1)
    (.cons (f := fun _ => map (number U C) Value.number) (C52_fixed _ (calm_map (calm_number hS) _)) (fun _ _ => moves_map hS (repeatable_number hS).moves _)
    (.cons (hw _ _) (fun _ _ => moves_word hS _ _) (.cons (hw _ _) (fun _ _ => moves_word hS _ _) (.last (hw _ _) (fun _ _ => moves_word hS _ _)))))))

end Json

end Verif
