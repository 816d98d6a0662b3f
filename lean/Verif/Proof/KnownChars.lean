import Verif.Proof.Known
import Verif.Proof.Json

/-!
# Known languages of parsers of characters
-/

namespace Verif

open Json (char digit digitChar IsDigit)

variable {S : Strm} [DecidableEq S.Tok] {C : Chars S} {U : Unicode}

omit [DecidableEq S.Tok] in
theorem Chars.map_tok_chr (C : Chars S) (w : List S.Tok) : (w.map C.chr).map C.tok = w := by
  simp [Function.comp_def, C.tok_chr]

omit [DecidableEq S.Tok] in
theorem Chars.map_chr_tok (C : Chars S) (w : List Char) : (w.map C.tok).map C.chr = w := by
  simp [Function.comp_def, C.chr_tok]

omit [DecidableEq S.Tok] in
/-- One character of a class. -/
theorem known_sat {p : Parser S Unit S.Tok} {g : Char → Bool} (hm : Moves p)
    (h : ∀ i, S.IsOne (fun t => if g (C.chr t) then some t else none) i (p.shape i)) :
    Known C.chr (fun w v _ => ∃ c, w = [c] ∧ g c = true ∧ v = C.tok c) (fun o => ∀ c, o = some c → g c = false) p := by
  refine (known_one (f := C.chr) (g := fun c => if g c then some (C.tok c) else none) hm fun i => ?_).iff ?_ ?_
  · have := h i
    simp only [C.tok_chr]
    exact this
  · intro w v o
    constructor
    · rintro ⟨b, rfl, hb⟩
      split at hb
      · next hc => cases hb; exact ⟨b, rfl, hc, rfl⟩
      · cases hb
    · rintro ⟨c, rfl, h, rfl⟩
      exact ⟨c, rfl, by simp [h]⟩
  · intro o
    constructor
    · intro h c hc
      have := h c hc
      split at this
      · cases this
      · next hx => simpa using hx
    · intro h c hc
      simp [h c hc]

theorem known_char (hS : S.Lawful) (c : Char) :
    Known C.chr (fun w v _ => w = [c] ∧ v = C.tok c) (fun o => o ≠ some c) (char C c) := by
  refine (known_sat (C := C) (g := fun x => x == c) (moves_token hS (C.tok c)) fun i => ?_).iff ?_ ?_
  · have h := C53_token hS (C.tok c) i
    have e' : (fun t => if t = C.tok c then some t else none) = fun t => if (C.chr t == c) = true then some t else none := by
      funext t
      by_cases hb : C.chr t = c
      · rw [if_pos (show t = C.tok c by rw [← hb, C.tok_chr]), if_pos (by simpa using hb)]
      · rw [if_neg (show ¬ t = C.tok c from fun h => hb (by rw [h, C.chr_tok])), if_neg (by simpa using hb)]
    rw [e'] at h
    exact h
  · intro w v o
    constructor
    · rintro ⟨b, rfl, hb, rfl⟩
      cases eq_of_beq hb
      exact ⟨rfl, rfl⟩
    · rintro ⟨rfl, rfl⟩
      exact ⟨c, rfl, by simp, rfl⟩
  · intro o
    cases o <;> simp

omit [DecidableEq S.Tok] in
theorem known_satisfy (hS : S.Lawful) (g : Char → Bool) :
    Known C.chr (fun w v _ => ∃ c, w = [c] ∧ g c = true ∧ v = C.tok c) (fun o => ∀ c, o = some c → g c = false)
      (satisfy S fun t => g (C.chr t)) :=
  known_sat (moves_satisfy hS _) (C53_satisfy hS _)

omit [DecidableEq S.Tok] in
theorem known_charClass (hS : S.Lawful) (k : TokenClass) :
    Known C.chr (fun w v _ => ∃ c, w = [c] ∧ (k.char U).1 c = true ∧ v = C.tok c)
      (fun o => ∀ c, o = some c → (k.char U).1 c = false) (charClass S U C.chr k) :=
  known_sat (moves_satisfyNamed hS _ _) (C53_char hS U C.chr k)

omit [DecidableEq S.Tok] in
private theorem many_sat {g : Char → Bool} {w : List Char} {vs : List S.Tok} {o : Option Char} :
    Texts.Many (fun w v _ => ∃ c, w = [c] ∧ g c = true ∧ v = C.tok c) w vs o ↔ vs = w.map C.tok ∧ ∀ c ∈ w, g c = true := by
  constructor
  · intro h
    induction h with
    | nil => simp
    | cons _ h2 _ ih =>
      obtain ⟨c, rfl, h3, rfl⟩ := h2
      obtain ⟨rfl, h4⟩ := ih
      exact ⟨rfl, by simpa [h3] using h4⟩
  · rintro ⟨rfl, h⟩
    induction w with
    | nil => exact .nil
    | cons c w ih => exact .cons (w := [c]) (by simp) ⟨c, rfl, h c (by simp), rfl⟩ (ih fun c hc => h c (by simp [hc]))

omit [DecidableEq S.Tok] in
/-- All the characters of a class that come next. -/
theorem known_many_sat (hS : S.Lawful) {p : Parser S Unit S.Tok} {g : Char → Bool}
    (hp : Known C.chr (fun w v _ => ∃ c, w = [c] ∧ g c = true ∧ v = C.tok c) (fun o => ∀ c, o = some c → g c = false) p) :
    Known C.chr (fun w vs o => vs = w.map C.tok ∧ (∀ c ∈ w, g c = true) ∧ ∀ c, o = some c → g c = false) (fun _ => False) (many p) ∧
    Known C.chr (fun w vs o => vs = w.map C.tok ∧ w ≠ [] ∧ (∀ c ∈ w, g c = true) ∧ ∀ c, o = some c → g c = false)
      (fun o => ∀ c, o = some c → g c = false) (many1 p) ∧
    Known C.chr (fun w _ o => (∀ c ∈ w, g c = true) ∧ ∀ c, o = some c → g c = false) (fun _ => False) (skipMany p) ∧
    Known C.chr (fun w _ o => w ≠ [] ∧ (∀ c ∈ w, g c = true) ∧ ∀ c, o = some c → g c = false)
      (fun o => ∀ c, o = some c → g c = false) (skipMany1 p) := by
  have hn : ∀ (v : S.Tok) (o : Option Char), ¬ ∃ c, [] = [c] ∧ g c = true ∧ v = C.tok c := by simp
  refine ⟨(known_many hS hp hn).iff (fun w v o => by rw [many_sat, and_assoc]) fun _ => Iff.rfl,
    (known_many1 hS hp hn).iff (fun w v o => ?_) fun _ => Iff.rfl,
    (known_skip_many hS hp hn).iff (fun w v o => ?_) fun _ => Iff.rfl,
    (known_skip_many1 hS hp hn).iff (fun w v o => ?_) fun _ => Iff.rfl⟩
  · rw [many_sat]
    constructor
    · rintro ⟨⟨rfl, h1⟩, h2, h3⟩
      exact ⟨rfl, by simpa using h2, h1, h3⟩
    · rintro ⟨rfl, h1, h2, h3⟩
      exact ⟨⟨rfl, h2⟩, by simpa using h1, h3⟩
  · simp only [many_sat]
    constructor
    · rintro ⟨⟨vs, _, h1⟩, h2⟩; exact ⟨h1, h2⟩
    · rintro ⟨h1, h2⟩; exact ⟨⟨_, rfl, h1⟩, h2⟩
  · simp only [many_sat]
    constructor
    · rintro ⟨⟨vs, ⟨rfl, h1⟩, h3⟩, h2⟩; exact ⟨by simpa using h3, h1, h2⟩
    · rintro ⟨h3, h1, h2⟩; exact ⟨⟨_, ⟨rfl, h1⟩, by simpa using h3⟩, h2⟩

/-! ## Digits -/

theorem isDigit_iff {c : Char} : IsDigit c ↔ ∃ d < 10, c = digitChar d := by
  constructor
  · intro h
    refine ⟨c.toNat - 48, by have := h.2; omega, ?_⟩
    rw [digitChar, Nat.add_sub_cancel' h.1]
    exact (Char.ofNat_toNat c).symm
  · rintro ⟨d, h, rfl⟩
    exact Json.digitChar_isDigit h

theorem known_digit (hS : S.Lawful) :
    Known C.chr (fun w v _ => ∃ c, w = [c] ∧ decide (IsDigit c) = true ∧ v = C.tok c)
      (fun o => ∀ c, o = some c → decide (IsDigit c) = false) (digit U C) :=
  known_sat (Json.repeatable_digit hS).moves fun i => by simpa using Json.digit_one (U := U) hS i

end Verif
