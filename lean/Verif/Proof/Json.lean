import Verif.Spec.Json
import Verif.Props.Recover
import Verif.Props.Recursion
import Verif.Proof.Repeatable

/-!
# The parts of the JSON parser
-/

set_option linter.unusedSectionVars false

namespace Verif

namespace Json

variable {S : Strm} [DecidableEq S.Tok] {σ τ α β : Type} {U : Unicode} {C : Chars S} {F G : Option S.Tok → Prop}

/-! ## What comes next -/

theorem before_all {u : List Char} {P : Char → Prop} (hu : ∀ c, u.head? = some c → P c)
    (hF : ∀ t, F (some t) → P (C.chr t)) : ∀ t, Before (u.map C.tok) F (some t) → P (C.chr t) := by
  intro t ht
  cases u with
  | nil => exact hF t (before_nil.1 ht)
  | cons c cs =>
    cases before_cons ht
    rw [C.chr_tok]
    exact hu c rfl

theorem head_append {a b : List Char} {c : Char} (h : (a ++ b).head? = some c) :
    a.head? = some c ∨ (a = [] ∧ b.head? = some c) := by
  cases a with
  | nil => exact .inr ⟨rfl, h⟩
  | cons x xs => exact .inl h

theorem head_mem {a : List Char} {c : Char} (h : a.head? = some c) : c ∈ a := by
  cases a with
  | nil => cases h
  | cons x xs => cases h; simp

/-! ## Whitespace -/

theorem space_white {c : Char} (h : IsSpace c) : U.isWhitespace c = true := by
  rcases h with rfl | rfl | rfl | rfl <;> rfl

theorem spaces_recovers (hS : S.Lawful) {sp : List Char} (h : ∀ c ∈ sp, IsSpace c)
    (hF : ∀ t, F (some t) → U.isWhitespace (C.chr t) = false) :
    Recovers F (charSpaces S U C.chr) (sp.map C.tok) () := by
  refine (C60_labels (C60_skip_tokens hS (moves_satisfyNamed hS _ _) (keeps_unit (h := false) _).reusable
    (consuming_satisfy _) (C53_named hS _ _) ?_ ?_) _).1
  · intro t ht
    obtain ⟨c, hc, rfl⟩ := List.mem_map.1 ht
    simp [C.chr_tok, space_white (h c hc)]
  · intro t ht
    simp [hF t ht]

/-- A parser before whitespace. -/
def OrSpace (C : Chars S) (F : Option S.Tok → Prop) (o : Option S.Tok) : Prop :=
  F o ∨ ∃ c, IsSpace c ∧ o = some (C.tok c)

theorem before_spaces {sp : List Char} (h : ∀ c ∈ sp, IsSpace c) {o : Option S.Tok} (ho : Before (sp.map C.tok) F o) :
    OrSpace C F o := by
  cases sp with
  | nil => exact .inl (before_nil.1 ho)
  | cons c cs => exact .inr ⟨c, h c (by simp), before_cons ho⟩

theorem lex_recovers (hS : S.Lawful) {p : Parser S σ α} {s w : List Char} {v : α} (hp : Recovers (OrSpace C F) p (s.map C.tok) v)
    (hw : Spaced s w) (hF : ∀ t, F (some t) → U.isWhitespace (C.chr t) = false) :
    Recovers F (lex U C p) (w.map C.tok) v := by
  obtain ⟨sp, rfl, hsp⟩ := hw
  rw [List.map_append]
  exact C60_skip hS (C60_weaken hp fun o ho => before_spaces hsp ho) (spaces_recovers hS hsp hF)

theorem lex_declines {p : Parser S σ α} (hp : Declines F p) : Declines F (lex U C p) := C60_skip_declines _ hp

theorem char_recovers (hS : S.Lawful) (c : Char) : Recovers F (char C c) [C.tok c] (C.tok c) :=
  C60_one (C53_token hS _) (by simp)

theorem char_declines (hS : S.Lawful) {c : Char} (hF : ∀ t, F (some t) → C.chr t ≠ c) : Declines F (char C c) := by
  refine C60_one_declines (C53_token hS _) fun t ht => ?_
  rw [if_neg]
  rintro rfl
  exact hF _ ht (C.chr_tok c)

/-! ## How the parts move -/

theorem repeatable_char (hS : S.Lawful) (c : Char) : Repeatable (char C c) := .unit (moves_token hS _)

theorem repeatable_spaces (hS : S.Lawful) : Repeatable (charSpaces S U C.chr) :=
  ⟨moves_spaces hS _ _, _, keeps_expected (keeps_skipMany (keeps_unit (h := false) _)) _⟩

theorem repeatable_lex (hS : S.Lawful) {p : Parser S σ α} (h : Repeatable p) : Repeatable (lex U C p) := by
  obtain ⟨_, hk⟩ := h.keeps
  obtain ⟨_, hs⟩ := (repeatable_spaces (U := U) (C := C) hS).keeps
  exact ⟨moves_skip hS h.moves (repeatable_spaces hS).moves, _, keeps_skip hk hs⟩

theorem repeatable_digit (hS : S.Lawful) : Repeatable (digit U C) := .unit (moves_satisfyNamed hS _ _)

theorem repeatable_integer (hS : S.Lawful) : Repeatable (integer U C) :=
  repeatable_expected hS (repeatable_map hS (repeatable_lex hS (repeatable_many1 hS (repeatable_digit hS))) _) _

theorem repeatable_intPart (hS : S.Lawful) : Repeatable (intPart U C) :=
  repeatable_or hS (repeatable_map hS (repeatable_char hS _) _) (repeatable_map hS (repeatable_integer hS) _)

theorem repeatable_signed (hS : S.Lawful) : Repeatable (signed U C) :=
  repeatable_map hS (repeatable_pair hS (repeatable_optional hS (repeatable_char hS _)) (repeatable_intPart hS)) _

theorem repeatable_mantissa (hS : S.Lawful) : Repeatable (mantissa U C) :=
  repeatable_map hS (repeatable_pair hS (repeatable_signed hS) (repeatable_with hS (repeatable_optional hS (repeatable_char hS _))
    (repeatable_map hS (repeatable_many hS (repeatable_digit hS)) _))) _

theorem repeatable_exp (hS : S.Lawful) : Repeatable (exp U C) :=
  repeatable_with hS (.unit (moves_satisfy hS _)) (repeatable_pair hS (repeatable_optional hS (repeatable_char hS _)) (repeatable_integer hS))

theorem repeatable_number (hS : S.Lawful) : Repeatable (number U C) :=
  repeatable_expected hS (repeatable_lex hS (repeatable_map hS (repeatable_pair hS (repeatable_mantissa hS) (repeatable_optional hS (repeatable_exp hS))) _)) _

/-! ## Digits -/

def IsDigit (c : Char) : Prop := 48 ≤ c.toNat ∧ c.toNat ≤ 57

instance (c : Char) : Decidable (IsDigit c) := inferInstanceAs (Decidable (_ ∧ _))

theorem toDigit_ten (c : Char) : toDigit 10 c = if IsDigit c then some (c.toNat - 48) else none := by
  by_cases h : IsDigit c
  · rw [if_pos h]
    have h1 : (decide (48 ≤ c.toNat) && decide (c.toNat ≤ 57)) = true := by
      simpa [IsDigit] using h
    simp only [toDigit, h1, if_true, Option.filter_some]
    rw [if_pos (by have := h.2; simp; omega)]
  · rw [if_neg h]
    have h1 : (decide (48 ≤ c.toNat) && decide (c.toNat ≤ 57)) = false := by simpa [IsDigit] using h
    simp only [toDigit, h1, Bool.false_eq_true, if_false]
    split
    · rw [Option.filter_some, if_neg (by simp)]
    · split
      · rw [Option.filter_some, if_neg (by simp)]
      · rfl

theorem digit_class (c : Char) : (TokenClass.digit.char U).1 c = decide (IsDigit c) := by
  show isDigit 10 c = _
  rw [isDigit, toDigit_ten]
  by_cases h : IsDigit c <;> simp [h]

theorem digitChar_toNat {d : Nat} (h : d < 10) : (digitChar d).toNat = 48 + d :=
  (by decide : ∀ d < 10, (digitChar d).toNat = 48 + d) d h

theorem digitChar_isDigit {d : Nat} (h : d < 10) : IsDigit (digitChar d) := by
  rw [IsDigit, digitChar_toNat h]; omega

theorem digitChar_zero {d : Nat} (h : d < 10) (h0 : d ≠ 0) : digitChar d ≠ '0' := by
  intro h1
  have := congrArg Char.toNat h1
  rw [digitChar_toNat h] at this
  have h2 : '0'.toNat = 48 := rfl
  omega

theorem digit_one (hS : S.Lawful) (i : S.Input) :
    S.IsOne (fun t => if IsDigit (C.chr t) then some t else none) i ((digit U C).shape i) := by
  have h := C53_char hS U C.chr .digit i
  simp only [digit_class, decide_eq_true_eq] at h
  exact h

theorem digits_texts {ds : List Nat} (h : ∀ d ∈ ds, d < 10) :
    ((ds.map digitChar).map C.tok).map (fun t => if IsDigit (C.chr t) then some t else none) =
      ((ds.map digitChar).map C.tok).map some := by
  rw [List.map_map, List.map_map, List.map_map, List.map_map]
  refine List.map_congr_left fun d hd => ?_
  simp [C.chr_tok, digitChar_isDigit (h d hd)]

theorem many_digit_recovers (hS : S.Lawful) {ds : List Nat} (h : ∀ d ∈ ds, d < 10)
    (hF : ∀ t, F (some t) → ¬ IsDigit (C.chr t)) :
    Recovers F (many (digit U C)) ((ds.map digitChar).map C.tok) ((ds.map digitChar).map C.tok) :=
  C60_many_tokens hS (repeatable_digit hS).moves (repeatable_digit hS).reusable (consuming_satisfy _) (digit_one hS)
    (digits_texts h) fun t ht => by simp [hF t ht]

theorem many1_digit_recovers (hS : S.Lawful) {ds : List Nat} (h : ∀ d ∈ ds, d < 10) (hne : ds ≠ [])
    (hF : ∀ t, F (some t) → ¬ IsDigit (C.chr t)) :
    Recovers F (many1 (digit U C)) ((ds.map digitChar).map C.tok) ((ds.map digitChar).map C.tok) :=
  C60_many1_tokens hS (repeatable_digit hS).moves (repeatable_digit hS).reusable (consuming_satisfy _) (digit_one hS)
    (digits_texts h) (by simpa using hne) fun t ht => by simp [hF t ht]

theorem many1_digit_declines (hS : S.Lawful) (hF : ∀ t, F (some t) → ¬ IsDigit (C.chr t)) :
    Declines F (many1 (digit U C)) :=
  C60_many1_declines hS (repeatable_digit hS).moves (repeatable_digit hS).reusable (consuming_satisfy _)
    (C60_one_declines (digit_one hS) fun t ht => by simp [hF t ht])

theorem foldl_decimal (ds : List Nat) (n : Nat) :
    ds.foldl (fun n d => 10 * n + d) n = n * 10 ^ ds.length + decimal ds := by
  induction ds generalizing n with
  | nil => simp [decimal]
  | cons d ds ih =>
    rw [decimal, List.foldl_cons, List.foldl_cons, ih, ih (10 * 0 + d), List.length_cons]
    grind

theorem decimal_cons (d : Nat) (ds : List Nat) : decimal (d :: ds) = d * 10 ^ ds.length + decimal ds := by
  rw [decimal, List.foldl_cons, foldl_decimal]
  simp

theorem intVal_digits {ds : List Nat} (h : ∀ d ∈ ds, d < 10) :
    intVal C ((ds.map digitChar).map C.tok) = (decimal ds : Int) := by
  have key : ∀ (n : Nat), ((ds.map digitChar).map C.tok).foldl
      (fun n c => n * 10 + (((C.chr c).toNat : Int) - 48)) (n : Int) = ((ds.foldl (fun n d => 10 * n + d) n : Nat) : Int) := by
    induction ds with
    | nil => intro n; rfl
    | cons d ds ih =>
      intro n
      simp only [List.map_cons, List.foldl_cons, C.chr_tok, digitChar_toNat (h d (by simp))]
      rw [← ih (fun x hx => h x (by simp [hx])) (10 * n + d)]
      congr 1
      grind
  exact key 0

theorem fracVal_digits {ds : List Nat} (h : ∀ d ∈ ds, d < 10) :
    fracVal C ((ds.map digitChar).map C.tok) = (decimal ds : Rat) / 10 ^ ds.length := by
  have key : ∀ (a m : Rat), (((ds.map digitChar).map C.tok).foldl
      (fun (x : Rat × Rat) c => (x.1 + (((toDigit 10 (C.chr c)).getD 0 : Nat) : Rat) * (x.2 / 10), x.2 / 10)) (a, m)).1 =
      a + m * ((decimal ds : Rat) / 10 ^ ds.length) := by
    induction ds with
    | nil => intro a m; simp [decimal]; grind
    | cons d ds ih =>
      intro a m
      have e : toDigit 10 (digitChar d) = some d := by
        rw [toDigit_ten, if_pos (digitChar_isDigit (h d (by simp))), digitChar_toNat (h d (by simp))]
        simp
      simp only [List.map_cons, List.foldl_cons, C.chr_tok, e, Option.getD_some]
      rw [ih (fun x hx => h x (by simp [hx])), decimal_cons, List.length_cons]
      have hp : (10 : Rat) ^ ds.length ≠ 0 := by
        have := Rat.pow_pos (show (0 : Rat) < 10 by decide) (n := ds.length)
        grind
      simp only [Rat.natCast_add, Rat.natCast_mul, Rat.natCast_pow, Rat.natCast_ofNat]
      grind
  have := key 0 1
  rw [fracVal, this]
  grind

/-! ## Numbers -/

theorem before_char {u : List Char} {c : Char} {cs : List Char} (hu : u = c :: cs) {o : Option S.Tok}
    (ho : Before (u.map C.tok) F o) : o = some (C.tok c) := by
  subst hu
  exact before_cons ho

theorem integer_recovers (hS : S.Lawful) {ds : List Nat} (h : ∀ d ∈ ds, d < 10) (hne : ds ≠ []) {sp : List Char}
    (hsp : ∀ c ∈ sp, IsSpace c) (hF : ∀ t, F (some t) → U.isWhitespace (C.chr t) = false)
    (hd : ∀ t, F (some t) → ¬ IsDigit (C.chr t)) :
    Recovers F (integer U C) ((ds.map digitChar ++ sp).map C.tok) (decimal ds : Int) := by
  have h1 : Recovers (OrSpace C F) (many1 (digit U C)) ((ds.map digitChar).map C.tok) ((ds.map digitChar).map C.tok) := by
    refine many1_digit_recovers hS h hne fun t ht => ?_
    rcases ht with ht | ⟨c, hc, ht⟩
    · exact hd t ht
    · cases ht
      rw [C.chr_tok]
      rcases hc with rfl | rfl | rfl | rfl <;> decide
  have h2 := C60_map (lex_recovers (U := U) hS h1 ⟨sp, rfl, hsp⟩ hF) (intVal C)
  rw [intVal_digits h] at h2
  exact (C60_labels h2 _).1

theorem integer_declines (hS : S.Lawful) (hd : ∀ t, F (some t) → ¬ IsDigit (C.chr t)) : Declines F (integer U C) :=
  (C60_labels_declines (C60_map_declines (lex_declines (many1_digit_declines hS hd)) _) _).1

theorem intPart_recovers (hS : S.Lawful) {int : List Nat} (hi : int = [0] ∨ ∃ d ds, int = d :: ds ∧ d ≠ 0)
    (h : ∀ d ∈ int, d < 10) {sp : List Char} (hsp : ∀ c ∈ sp, IsSpace c) (h0 : int = [0] → sp = [])
    (hF : int ≠ [0] → ∀ t, F (some t) → U.isWhitespace (C.chr t) = false ∧ ¬ IsDigit (C.chr t)) :
    Recovers F (intPart U C) ((int.map digitChar ++ sp).map C.tok) (decimal int : Rat) := by
  have hz := (repeatable_map hS (repeatable_char (C := C) hS '0') fun _ => (0 : Rat)).moves
  have hn := (repeatable_map hS (repeatable_integer (U := U) (C := C) hS) fun x => (x : Rat)).moves
  rcases hi with rfl | ⟨d, ds, rfl, hd⟩
  · rw [h0 rfl]
    exact C60_or_left hS hz hn (C60_map (char_recovers hS '0') _)
  · have hne : d :: ds ≠ [0] := by
      rintro h1
      cases h1
      exact hd rfl
    refine C60_or_right hS hz hn (C60_map_declines (char_declines hS fun t ht => ?_) _) ?_
    · rw [List.map_cons, List.cons_append] at ht
      cases before_char rfl ht
      rw [C.chr_tok]
      exact digitChar_zero (h d (by simp)) hd
    · have := C60_map (integer_recovers (U := U) (C := C) (F := F) hS h (by simp) hsp (fun t ht => (hF hne t ht).1)
        fun t ht => (hF hne t ht).2) fun x => (x : Rat)
      rw [Rat.intCast_natCast] at this
      exact this

theorem intPart_declines (hS : S.Lawful) (hd : ∀ t, F (some t) → ¬ IsDigit (C.chr t)) : Declines F (intPart U C) := by
  refine C60_or_declines hS (repeatable_map hS (repeatable_char hS '0') _).moves
    (repeatable_map hS (repeatable_integer hS) _).moves (C60_map_declines (char_declines hS fun t ht h => hd t ht ?_) _)
    (C60_map_declines (integer_declines hS hd) _)
  rw [h]
  decide

/-- `-` or nothing. -/
def minus (b : Bool) : List Char := if b then ['-'] else []

theorem optional_minus (hS : S.Lawful) (b : Bool) (hF : b = false → ∀ t, F (some t) → C.chr t ≠ '-') :
    ∃ v, v.isSome = b ∧ Recovers F (optional (char C '-')) ((minus b).map C.tok) v := by
  cases b with
  | true => exact ⟨_, rfl, C60_optional_some hS (repeatable_char hS _).moves (char_recovers hS '-')⟩
  | false => exact ⟨_, rfl, C60_optional_none hS (repeatable_char hS _).moves (char_declines hS (hF rfl))⟩

theorem int_head {int : List Nat} (hi : int = [0] ∨ ∃ d ds, int = d :: ds ∧ d ≠ 0) (h : ∀ d ∈ int, d < 10) (sp : List Char) :
    ∃ c cs, int.map digitChar ++ sp = c :: cs ∧ IsDigit c := by
  rcases hi with rfl | ⟨d, ds, rfl, _⟩
  · exact ⟨_, _, rfl, digitChar_isDigit (h 0 (by simp))⟩
  · exact ⟨_, _, rfl, digitChar_isDigit (h d (by simp))⟩

theorem signed_recovers (hS : S.Lawful) (b : Bool) {int : List Nat} (hi : int = [0] ∨ ∃ d ds, int = d :: ds ∧ d ≠ 0)
    (h : ∀ d ∈ int, d < 10) {sp : List Char} (hsp : ∀ c ∈ sp, IsSpace c) (h0 : int = [0] → sp = [])
    (hF : int ≠ [0] → ∀ t, F (some t) → U.isWhitespace (C.chr t) = false ∧ ¬ IsDigit (C.chr t)) :
    Recovers F (signed U C) ((minus b ++ (int.map digitChar ++ sp)).map C.tok)
      (if b then -(decimal int : Rat) else (decimal int : Rat)) := by
  obtain ⟨c, cs, hc, hcd⟩ := int_head hi h sp
  obtain ⟨v, hv, h1⟩ := optional_minus (C := C) (F := Before ((int.map digitChar ++ sp).map C.tok) F) hS b (by
    intro _ t ht
    cases before_char hc ht
    rw [C.chr_tok]
    rintro rfl
    exact absurd hcd (by decide))
  have h2 : SeqRecovers F (.cons (intPart U C) .nil) ((int.map digitChar ++ sp).map C.tok ++ []) ((decimal int : Rat), ()) :=
    .cons (C60_weaken (intPart_recovers hS hi h hsp h0 hF) fun o => before_nil.1) .nil
  rw [List.append_nil] at h2
  have h3 := C60_map (C60_tuple hS h1 h2) fun x => if x.1.isSome then -x.2.1 else x.2.1
  rw [List.map_append]
  simp only [hv] at h3
  exact h3

theorem signed_declines (hS : S.Lawful) (hm : ∀ t, F (some t) → C.chr t ≠ '-')
    (hd : ∀ t, F (some t) → ¬ IsDigit (C.chr t)) : Declines F (signed U C) :=
  C60_map_declines (C60_tuple_declines_next _ (C60_optional_none hS (repeatable_char hS _).moves (char_declines hS hm))
    (intPart_declines hS hd)) _

/-- `.` and digits, or nothing. -/
def point : Option (List Nat) → List Char
  | none => []
  | some ds => '.' :: ds.map digitChar

/-- The value of what `point` writes. -/
def pointVal : Option (List Nat) → Rat
  | none => 0
  | some ds => (decimal ds : Rat) / 10 ^ ds.length

theorem fraction_recovers (hS : S.Lawful) {frac : Option (List Nat)} (h : ∀ ds, frac = some ds → ∀ d ∈ ds, d < 10)
    (hd : ∀ t, F (some t) → ¬ IsDigit (C.chr t)) (hp : frac = none → ∀ t, F (some t) → C.chr t ≠ '.') :
    Recovers F («with» (optional (char C '.')) (fractional U C)) ((point frac).map C.tok)
      (pointVal frac) := by
  cases frac with
  | none =>
    have h1 := C60_map (many_digit_recovers (U := U) (C := C) (F := F) hS (ds := []) (by simp) hd) (fracVal C)
    have h2 := C60_with (u := []) hS (C60_optional_none (F := Before [] F) hS (repeatable_char hS '.').moves
      (char_declines hS fun t ht => hp rfl t (before_nil.1 ht))) h1
    exact h2
  | some ds =>
    have h1 := C60_map (many_digit_recovers (U := U) (C := C) (F := F) hS (h ds rfl) hd) (fracVal C)
    rw [fracVal_digits (h ds rfl)] at h1
    exact C60_with hS (C60_optional_some hS (repeatable_char hS '.').moves (char_recovers hS '.')) h1

/-- `e`, a sign and digits. -/
def power : Option (Bool × Bool × List Nat) → List Char
  | none => []
  | some (E, neg, ds) => (if E then 'E' else 'e') :: (minus neg ++ ds.map digitChar)

theorem exp_recovers (hS : S.Lawful) (E b : Bool) {ds : List Nat} (h : ∀ d ∈ ds, d < 10) (hne : ds ≠ []) {sp : List Char}
    (hsp : ∀ c ∈ sp, IsSpace c) (hF : ∀ t, F (some t) → U.isWhitespace (C.chr t) = false)
    (hd : ∀ t, F (some t) → ¬ IsDigit (C.chr t)) :
    ∃ v, v.isSome = b ∧ Recovers F (exp U C) ((power (some (E, b, ds)) ++ sp).map C.tok) (v, (decimal ds : Int), ()) := by
  obtain ⟨d, ds', rfl⟩ := List.exists_cons_of_ne_nil hne
  obtain ⟨v, hv, h1⟩ := optional_minus (C := C) (F := Before (((d :: ds').map digitChar ++ sp).map C.tok) F) hS b (by
    intro _ t ht
    rw [List.map_cons, List.cons_append] at ht
    cases before_char rfl ht
    rw [C.chr_tok]
    intro h2
    have := digitChar_isDigit (h d (by simp))
    rw [h2] at this
    exact absurd this (by decide))
  have h2 : SeqRecovers F (.cons (integer U C) .nil) (((d :: ds').map digitChar ++ sp).map C.tok ++ [])
      ((decimal (d :: ds') : Int), ()) :=
    .cons (C60_weaken (integer_recovers hS h hne hsp hF hd) fun o => before_nil.1) .nil
  rw [List.append_nil] at h2
  refine ⟨v, hv, ?_⟩
  have h3 := C60_with (w := [C.tok (if E then 'E' else 'e')]) hS (C60_one
    (C53_satisfy hS (fun c => C.chr c = 'e' || C.chr c = 'E')) (v := C.tok (if E then 'E' else 'e')) (by cases E <;> simp [C.chr_tok])) (C60_tuple hS h1 h2)
  simp only [power, List.cons_append, List.append_assoc, List.map_cons, List.map_append] at h3 ⊢
  exact h3

theorem exp_declines (hS : S.Lawful) (hd : ∀ t, F (some t) → C.chr t ≠ 'e' ∧ C.chr t ≠ 'E') : Declines F (exp U C) :=
  C60_with_declines _ (C60_one_declines (C53_satisfy hS _) fun t ht => by simp [hd t ht])

/-- What the exponent multiplies by. -/
def powerVal : Option (Bool × Bool × List Nat) → Rat
  | none => 1
  | some (_, neg, ds) => (10 : Rat) ^ (if neg then -(decimal ds : Int) else (decimal ds : Int))

theorem space_not {c : Char} (h : IsSpace c) : ¬ IsDigit c ∧ c ≠ '.' ∧ c ≠ 'e' ∧ c ≠ 'E' := by
  rcases h with rfl | rfl | rfl | rfl <;> decide

theorem power_head {x : Option (Bool × Bool × List Nat)} {c : Char} (h : (power x).head? = some c) :
    c = 'e' ∨ c = 'E' := by
  cases x with
  | none => cases h
  | some x =>
    obtain ⟨E, neg, ds⟩ := x
    cases E <;> cases h <;> decide

theorem point_head {x : Option (List Nat)} {c : Char} (h : (point x).head? = some c) : c = '.' := by
  cases x with
  | none => cases h
  | some x => cases h; rfl

/-- A number and the whitespace after it, wherever it is: `s₁` is taken by `integer` before the point, `s₂` by `integer` in
the exponent and `s₃` at the end. -/
theorem number_parts (hS : S.Lawful) {n : Numeral} (hn : n.Valid) {s1 s2 s3 : List Char} (h1 : ∀ c ∈ s1, IsSpace c)
    (h2 : ∀ c ∈ s2, IsSpace c) (h3 : ∀ c ∈ s3, IsSpace c) (h4 : n.int = [0] → s1 = []) (h5 : n.exp = none → s2 = [])
    (h6 : n.exp ≠ none → s3 = []) (h7 : n.int ≠ [0] → n.frac = none → n.exp = none → s3 = [])
    (hF : ∀ o, F o → Stop U (o.map C.chr)) :
    Recovers F (number U C)
      ((((minus n.negative ++ (n.int.map digitChar ++ s1)) ++ point n.frac) ++ (power n.exp ++ s2) ++ s3).map C.tok)
      ((let x := if n.negative then -(decimal n.int : Rat) else (decimal n.int : Rat)
        if x ≥ 0 then x + pointVal n.frac else x - pointVal n.frac) * powerVal n.exp) := by
  have hF1 : ∀ t, F (some t) → U.isWhitespace (C.chr t) = false := fun t ht => (hF _ ht).1
  have hF2 : ∀ t, F (some t) → C.chr t ≠ '.' := fun t ht => (hF _ ht).2.1
  have hF3 : ∀ t, F (some t) → C.chr t ≠ 'e' ∧ C.chr t ≠ 'E' := fun t ht => ⟨(hF _ ht).2.2.1, (hF _ ht).2.2.2.1⟩
  have hF4 : ∀ t, F (some t) → ¬ IsDigit (C.chr t) := fun t ht => (hF _ ht).2.2.2.2
  -- the exponent
  have he : ∃ x : Option (Option S.Tok × Int × Unit),
      (match x with | some (sign, e, _) => (10 : Rat) ^ (if sign.isSome then -e else e) | none => 1) = powerVal n.exp ∧
      Recovers (Before (s3.map C.tok) F) (optional (exp U C)) ((power n.exp ++ s2).map C.tok) x := by
    cases hx : n.exp with
    | none =>
      rw [h5 hx]
      refine ⟨none, rfl, C60_optional_none hS (repeatable_exp hS).moves (exp_declines hS ?_)⟩
      exact before_all (fun c hc => (space_not (h3 c (head_mem hc))).2.2) hF3
    | some x =>
      obtain ⟨E, b, ds⟩ := x
      obtain ⟨hne, hds⟩ := hn.exp _ hx
      rw [h6 (by simp [hx])]
      obtain ⟨v, hv, h8⟩ := exp_recovers (U := U) (C := C) (F := F) hS E b hds hne h2 hF1 hF4
      refine ⟨_, ?_, C60_weaken (C60_optional_some hS (repeatable_exp hS).moves h8) fun o => before_nil.1⟩
      simp [powerVal, hv]
  obtain ⟨x, hx, he⟩ := he
  -- what is before it
  have hfr : Recovers (Before ((power n.exp ++ s2 ++ s3).map C.tok) F) («with» (optional (char C '.')) (fractional U C))
      ((point n.frac).map C.tok) (pointVal n.frac) := by
    have hh : ∀ c, (power n.exp ++ s2 ++ s3).head? = some c → ¬ IsDigit c ∧ c ≠ '.' := by
      intro c hc
      rw [List.append_assoc] at hc
      rcases head_append hc with hc | ⟨_, hc⟩
      · rcases power_head hc with rfl | rfl <;> decide
      · have : IsSpace c := by
          rcases head_append hc with hc | ⟨_, hc⟩
          · exact h2 c (head_mem hc)
          · exact h3 c (head_mem hc)
        exact ⟨(space_not this).1, (space_not this).2.1⟩
    exact fraction_recovers (U := U) (C := C) (F := Before ((power n.exp ++ s2 ++ s3).map C.tok) F) (frac := n.frac) hS
      (fun ds h => (hn.frac ds h).2) (before_all (fun c hc => (hh c hc).1) hF4)
      (fun _ => before_all (fun c hc => (hh c hc).2) hF2)
  have hsg : Recovers (Before ((point n.frac ++ (power n.exp ++ s2 ++ s3)).map C.tok) F) (signed U C)
      ((minus n.negative ++ (n.int.map digitChar ++ s1)).map C.tok)
      (if n.negative then -(decimal n.int : Rat) else (decimal n.int : Rat)) := by
    refine signed_recovers hS _ hn.int hn.digits h1 h4 fun hne => ?_
    refine before_all (P := fun c => U.isWhitespace c = false ∧ ¬ IsDigit c) (fun c hc => ?_) fun t ht => ⟨hF1 t ht, hF4 t ht⟩
    rcases head_append hc with hc | ⟨hp, hc⟩
    · cases point_head hc
      exact ⟨rfl, by decide⟩
    · rw [List.append_assoc] at hc
      rcases head_append hc with hc | ⟨hq, hc⟩
      · rcases power_head hc with rfl | rfl <;> exact ⟨rfl, by decide⟩
      · have hfn : n.frac = none := by
          cases hx : n.frac with
          | none => rfl
          | some ds => rw [hx] at hp; cases hp
        have hen : n.exp = none := by
          cases hx : n.exp with
          | none => rfl
          | some ds => obtain ⟨E, b, ds⟩ := ds; rw [hx] at hq; cases hq
        rw [h5 hen, h7 hne hfn hen] at hc
        cases hc
  have hmt := C60_map (C60_tuple (F := Before ((power n.exp ++ s2 ++ s3).map C.tok) F) hS
    (C60_weaken hsg fun o ho => by
      rw [List.map_append]
      exact before_append.2 (by simpa using ho))
    (.cons (C60_weaken hfr fun o => before_nil.1) .nil)) fun x => if x.1 ≥ 0 then x.1 + x.2.1 else x.1 - x.2.1
  have hall := C60_map (C60_tuple (F := Before (s3.map C.tok) F) hS
    (C60_weaken hmt fun o ho => by
      rw [List.map_append]
      exact before_append.2 (by simpa using ho))
    (.cons (C60_weaken he fun o => before_nil.1) .nil)) fun x =>
      match x.2.1 with
      | some (sign, e, _) => x.1 * (10 : Rat) ^ (if sign.isSome then -e else e)
      | none => x.1
  have hsp := (C60_labels (C60_skip hS hall (spaces_recovers (U := U) hS h3 hF1)) (.static "number")).1
  have hval : (match x with
      | some (sign, e, _) => (if (if n.negative then -(decimal n.int : Rat) else (decimal n.int : Rat)) ≥ 0 then
          (if n.negative then -(decimal n.int : Rat) else (decimal n.int : Rat)) + pointVal n.frac
          else (if n.negative then -(decimal n.int : Rat) else (decimal n.int : Rat)) - pointVal n.frac) *
          (10 : Rat) ^ (if sign.isSome then -e else e)
      | none => (if (if n.negative then -(decimal n.int : Rat) else (decimal n.int : Rat)) ≥ 0 then
          (if n.negative then -(decimal n.int : Rat) else (decimal n.int : Rat)) + pointVal n.frac
          else (if n.negative then -(decimal n.int : Rat) else (decimal n.int : Rat)) - pointVal n.frac)) =
      ((let x := if n.negative then -(decimal n.int : Rat) else (decimal n.int : Rat)
        if x ≥ 0 then x + pointVal n.frac else x - pointVal n.frac) * powerVal n.exp) := by
    rw [← hx]
    cases x with
    | none => simp only [Rat.mul_one]
    | some x => rfl
  dsimp only at hsp
  rw [hval] at hsp
  simp only [List.map_append, List.append_assoc, List.append_nil] at hsp ⊢
  exact hsp

theorem decimal_pos {d : Nat} {ds : List Nat} (h : d ≠ 0) : 0 < decimal (d :: ds) := by
  rw [decimal_cons]
  have := Nat.mul_pos (Nat.pos_of_ne_zero h) (Nat.pow_pos (n := ds.length) (show 0 < 10 by decide))
  omega

theorem numeral_value {n : Numeral} (hn : n.Valid) (hl : ¬ n.Lost) :
    ((let x := if n.negative then -(decimal n.int : Rat) else (decimal n.int : Rat)
        if x ≥ 0 then x + pointVal n.frac else x - pointVal n.frac) * powerVal n.exp) = n.value := by
  have hm : n.magnitude = (decimal n.int : Rat) + pointVal n.frac := by
    unfold Numeral.magnitude pointVal
    cases n.frac <;> rfl
  have hv : n.value = (if n.negative then -n.magnitude else n.magnitude) * powerVal n.exp := by
    unfold Numeral.value powerVal
    cases n.exp <;> rfl
  rw [hv, hm]
  congr 1
  dsimp only
  have h0 : (0 : Rat) ≤ (decimal n.int : Rat) := Rat.natCast_nonneg
  cases hneg : n.negative with
  | false => simp only [Bool.false_eq_true, if_false, ge_iff_le, h0, if_true]
  | true =>
    simp only [if_true]
    rcases hn.int with h1 | ⟨d, ds, h1, h2⟩
    · have hy : pointVal n.frac = 0 := by
        cases hf : n.frac with
        | none => rfl
        | some ds =>
          by_cases hd : decimal ds = 0
          · simp only [pointVal, hd]
            rw [Rat.div_def]
            simp
          · exact absurd ⟨hneg, h1, ds, hf, hd⟩ hl
      have hz : (decimal n.int : Rat) = 0 := by rw [h1]; rfl
      rw [hy, hz]
      grind
    · have hp : (0 : Rat) < (decimal n.int : Rat) := by
        rw [h1]
        exact Rat.natCast_pos.2 (decimal_pos h2)
      rw [if_neg (by grind)]
      grind

theorem number_recovers (hS : S.Lawful) {n : Numeral} (hn : n.Valid) (hl : ¬ n.Lost) {w : List Char} (hw : Spaced n.text w)
    (hF : ∀ o, F o → Stop U (o.map C.chr)) : Recovers F (number U C) (w.map C.tok) n.value := by
  obtain ⟨sp, rfl, hsp⟩ := hw
  have hval := numeral_value hn hl
  have ht : n.text = minus n.negative ++ (n.int.map digitChar ++ (point n.frac ++ power n.exp)) := by
    unfold Numeral.text minus point power minus
    cases n.frac <;> cases n.exp <;> rfl
  rw [ht, ← hval]
  by_cases he : n.exp = none
  · by_cases hi : n.int ≠ [0] ∧ n.frac = none
    · have := number_parts (U := U) (C := C) (F := F) hS hn (s1 := sp) (s2 := []) (s3 := []) hsp (by simp) (by simp)
        (fun h => absurd h hi.1) (fun _ => rfl) (fun _ => rfl) (fun _ _ _ => rfl) hF
      simp only [he, hi.2, point, power, List.append_nil, List.append_assoc] at this ⊢
      exact this
    · have := number_parts (U := U) (C := C) (F := F) hS hn (s1 := []) (s2 := []) (s3 := sp) (by simp) (by simp) hsp
        (fun h => rfl) (fun _ => rfl) (fun h => absurd he h) (fun h1 h2 _ => absurd ⟨h1, h2⟩ hi) hF
      simp only [List.append_nil, List.append_assoc] at this ⊢
      exact this
  · have := number_parts (U := U) (C := C) (F := F) hS hn (s1 := []) (s2 := sp) (s3 := []) (by simp) hsp (by simp)
      (fun h => rfl) (fun h => absurd h he) (fun _ => rfl) (fun _ _ h => absurd h he) hF
    simp only [List.append_nil, List.append_assoc] at this ⊢
    exact this

theorem number_declines (hS : S.Lawful) (hm : ∀ t, F (some t) → C.chr t ≠ '-')
    (hd : ∀ t, F (some t) → ¬ IsDigit (C.chr t)) : Declines F (number U C) :=
  (C60_labels_declines (lex_declines (C60_map_declines (C60_tuple_declines _ (C60_map_declines (C60_tuple_declines _
    (signed_declines hS hm hd)) _)) _)) _).1


/-! ## Strings -/

/-- What `json_char` answers. -/
theorem jsonChar_shape (hS : S.Lawful) (i : S.Input) :
    (∃ t j, S.uncons i = (.ok t, j) ∧ (jsonChar C).shape i =
      if C.chr t = '\\' then
        (match (backSlashChar C).shape j with
          | .ok _ v k => .ok true v k
          | .soft => .hard ()
          | .hard e => .hard e
          | .abort a => .abort a)
      else if C.chr t = '"' then .soft else .ok true (C.chr t) j) ∨
    (S.AtEnd i ∧ (jsonChar C).shape i = if S.isPartial i then .hard () else .soft) := by
  have ha := C53_any hS i
  rcases ha with ⟨t, j, hu, _⟩ | ⟨hu, h2⟩
  · refine .inl ⟨t, j, hu, ?_⟩
    have hl : (any S).lazy i = (.commitOk t, j) := by
      simp only [any, Parser.ofLazy, Strm.unconsP, hu]
    simp only [Parser.shape, Parser.answer, Out.answer, jsonChar, fnParser, Parser.ofLazy, hl, ParseResult.toStd]
    by_cases h1 : C.chr t = '\\'
    · simp only [h1, if_true]
      have hcb : Coherent (backSlashChar C) := Coherent.ofLazy hS (moves_satisfyMap (α := Char) hS _).lazy
      have hb := hcb.stream j
      simp only [Parser.answer, Out.answer] at hb
      rw [← hb]
      generalize (backSlashChar C).stream j = o
      obtain ⟨r, k⟩ := o
      cases r <;> rfl
    · simp only [h1, if_false]
      by_cases h2 : C.chr t = '"'
      · simp only [h2, if_true]; rfl
      · simp only [h2, if_false]; rfl
  · refine .inr ⟨hu, ?_⟩
    obtain ⟨e, he⟩ := hu
    have e1 : (any S).shape i = (if S.isPartial i then .hard () else .soft) → (jsonChar C).shape i =
        (if S.isPartial i then .hard () else .soft) := by
      simp only [Parser.shape, Parser.answer, Out.answer, jsonChar, fnParser, any, Parser.ofLazy, Strm.unconsP]
      cases hx : S.uncons i with
      | mk x j =>
        rw [hx] at he
        cases he
        dsimp only
        cases S.wrapStreamError j e with
        | commitOk v => intro h; split at h <;> cases h
        | peekOk v => intro h; split at h <;> cases h
        | commitErr e => intro h; cases hp : S.isPartial i <;> rw [hp] at h <;> first | cases h; done | rfl
        | peekErr e => intro h; cases hp : S.isPartial i <;> rw [hp] at h <;> first | cases h; done | rfl
        | abort a => intro h; split at h <;> cases h
    exact e1 h2

theorem moves_jsonChar (hS : S.Lawful) : Moves (jsonChar C) := by
  refine moves_fnParser hS _ fun i => ?_
  have h1 := (moves_any hS).lazy i
  generalize (any S).lazy i = x at h1
  obtain ⟨r, j⟩ := x
  dsimp only at h1 ⊢
  cases r.toStd with
  | ok t c =>
    dsimp only
    by_cases h2 : C.chr t = '\\'
    · simp only [h2, if_true]
      exact h1.trans ((moves_satisfyMap hS _).stream j)
    · simp only [h2, if_false]
      by_cases h3 : C.chr t = '"'
      · simp only [h3, if_true]; exact h1
      · simp only [h3, if_false]; exact h1
  | err e => exact h1
  | abort a => exact h1

theorem consuming_jsonChar (hS : S.Lawful) : Consuming (jsonChar C) := by
  refine consuming_shape fun i c v j h => ?_
  rcases jsonChar_shape (C := C) hS i with ⟨t, k, hu, h1⟩ | ⟨_, h1⟩
  · rw [h1] at h
    by_cases h2 : C.chr t = '\\'
    · simp only [h2, if_true] at h
      cases hb : (backSlashChar C).shape k with
      | ok d x l =>
        rw [hb] at h
        cases h
        obtain ⟨t', ts, hr⟩ := shape_consuming (consuming_satisfyMap _) hb
        exact ⟨t, t' :: ts, .cons hu hr⟩
      | soft => rw [hb] at h; cases h
      | hard e => rw [hb] at h; cases h
      | abort e => rw [hb] at h; cases h
    · simp only [h2, if_false] at h
      by_cases h3 : C.chr t = '"'
      · simp only [h3, if_true] at h; cases h
      · simp only [h3, if_false] at h
        cases h
        exact ⟨t, [], .cons hu (.nil _)⟩
  · rw [h1] at h
    split at h <;> cases h

theorem jsonChar_recovers (hS : S.Lawful) {c : Char} {w : List Char} (h : WritesChar c w) :
    Recovers F (jsonChar C) (w.map C.tok) c := by
  intro i k hi hr _
  rcases h with ⟨rfl, h1, h2⟩ | ⟨e, h1, rfl⟩
  · obtain ⟨j, hj⟩ := reads_head hr
    obtain ⟨j', hj', hr'⟩ := Strm.reads_cons.1 hr
    cases Strm.reads_nil.1 hr'
    rcases jsonChar_shape (C := C) hS i with ⟨t, l, hu, h3⟩ | ⟨⟨e, he⟩, _⟩
    · rw [hj'] at hu
      cases hu
      rw [h3, C.chr_tok, if_neg h2, if_neg h1]
      rfl
    · rw [hj'] at he
      cases he
  · obtain ⟨j, hj, hr'⟩ := Strm.reads_cons.1 hr
    rcases jsonChar_shape (C := C) hS i with ⟨t, l, hu, h3⟩ | ⟨⟨e, he⟩, _⟩
    · rw [hj] at hu
      cases hu
      have h4 : Recovers (fun _ => True) (backSlashChar C) [C.tok e] c := by
        refine C60_one (C53_satisfy_map hS _) ?_
        rw [C.chr_tok]
        simp only [escapes, List.mem_cons, Prod.mk.injEq, List.not_mem_nil, or_false] at h1
        rcases h1 with ⟨rfl, rfl⟩ | ⟨rfl, rfl⟩ | ⟨rfl, rfl⟩ | ⟨rfl, rfl⟩ | ⟨rfl, rfl⟩ | ⟨rfl, rfl⟩ | ⟨rfl, rfl⟩ | ⟨rfl, rfl⟩ <;> rfl
      have h5 := h4 j k (by rw [hS.reads_isPartial (.cons hj (.nil _)), hi]) hr' trivial
      rw [h3, C.chr_tok, if_pos rfl, h5]
      rfl
    · rw [hj] at he
      cases he

theorem jsonChar_declines (hS : S.Lawful) : Declines (fun o => o = some (C.tok '"')) (jsonChar C) := by
  intro i hi ho
  obtain ⟨k, hk⟩ := ahead_of_some ho
  rcases jsonChar_shape (C := C) hS i with ⟨t, l, hu, h3⟩ | ⟨⟨e, he⟩, _⟩
  · rw [hk] at hu
    cases hu
    rw [h3, C.chr_tok, if_neg (by decide), if_pos rfl]
  · rw [hk] at he
    cases he

theorem jsonString_recovers (hS : S.Lawful) {s w : List Char} (h : WritesString s w)
    (hF : ∀ t, F (some t) → U.isWhitespace (C.chr t) = false) : Recovers F (jsonString U C) (w.map C.tok) s := by
  obtain ⟨cs, rfl, hcs, sp, rfl, hsp⟩ := h
  have h1 : Recovers (Before (('"' :: sp).map C.tok) F) (many (jsonChar C)) (cs.flatMap fun x => x.2.map C.tok)
      (cs.map (·.1)) := by
    refine C60_weaken (C60_many_list (F := fun o => o = some (C.tok '"')) (G := fun _ => True) hS (moves_jsonChar hS)
      (keeps_unit (h := false) _).reusable (consuming_jsonChar hS) cs _ _ (fun x hx => ⟨?_, jsonChar_recovers hS (hcs x hx)⟩)
      (fun _ _ => trivial) (fun _ _ _ _ => trivial) (jsonChar_declines hS)) fun o ho => before_cons ho
    rcases hcs x hx with ⟨h, _⟩ | ⟨e, _, h⟩ <;> rw [h] <;> simp
  have h2 := C60_between hS (char_recovers (C := C) hS '"') h1 (lex_recovers (U := U) (C := C) (s := ['"']) hS (char_recovers hS '"')
    ⟨sp, rfl, hsp⟩ hF)
  have h3 := (C60_labels h2 (.static "string")).1
  simp only [List.map_append, List.map_cons, List.cons_append, List.append_assoc, List.map_flatMap,
    List.nil_append] at h3 ⊢
  exact h3

theorem jsonString_declines (hS : S.Lawful) (hF : ∀ t, F (some t) → C.chr t ≠ '"') : Declines F (jsonString U C) :=
  (C60_labels_declines (C60_between_declines _ _ (char_declines hS hF)) _).1

theorem repeatable_jsonString (hS : S.Lawful) : Repeatable (jsonString U C) :=
  repeatable_expected hS (repeatable_between hS (repeatable_char hS _) (repeatable_lex hS (repeatable_char hS _))
    (repeatable_many hS (.unit (moves_jsonChar hS)))) _

/-! ## Arrays and objects -/

/-- What comes after an item of a list: a comma or what closes the list. -/
def Sep (C : Chars S) (close : Char) (o : Option S.Tok) : Prop := o = some (C.tok ',') ∨ o = some (C.tok close)

/-- A text that does not begin with whitespace. -/
def Starts (U : Unicode) (w : List Char) : Prop := ∃ c cs, w = c :: cs ∧ U.isWhitespace c = false

theorem starts_before {w : List Char} (h : Starts U w) : ∀ t, Before (w.map C.tok) F (some t) → U.isWhitespace (C.chr t) = false := by
  obtain ⟨c, cs, rfl, hc⟩ := h
  intro t ht
  cases before_cons ht
  rw [C.chr_tok]
  exact hc

theorem spaced_cons {c : Char} {w : List Char} (h : Spaced [c] w) : ∃ cs, w = c :: cs := by
  obtain ⟨sp, rfl, _⟩ := h
  exact ⟨sp, rfl⟩

theorem listed_recovers (hS : S.Lawful) {q : Parser S τ β} (hq : Repeatable q) (hc : Consuming q) {op cl : Char}
    (hcc : cl ≠ ',') {a b : List Char} (ha : Spaced [op] a) (hb : Spaced [cl] b)
    {x : β × List Char} {xs : List (List Char × β × List Char)} (hx : Recovers (Sep C cl) q (x.2.map C.tok) x.1)
    (hxs : ∀ y ∈ xs, Recovers (Sep C cl) q (y.2.2.map C.tok) y.2.1) (hh : Starts U x.2) (hhs : ∀ y ∈ xs, Starts U y.2.2)
    (hcs : ∀ y ∈ xs, Spaced [','] y.1) (hF : ∀ t, F (some t) → U.isWhitespace (C.chr t) = false) :
    Recovers F (between (lex U C (char C op)) (lex U C (char C cl)) (sepBy q (lex U C (char C ','))))
      ((a ++ ((x.2 ++ xs.flatMap fun y => y.1 ++ y.2.2) ++ b)).map C.tok) (x.1 :: xs.map (·.2.1)) := by
  obtain ⟨_, hk⟩ := hq.keeps
  have hsep := repeatable_lex (U := U) (C := C) hS (repeatable_char (C := C) hS ',')
  obtain ⟨_, hs⟩ := hsep.keeps
  obtain ⟨b', hb'⟩ := spaced_cons hb
  have hB : ∀ o, Before (b.map C.tok) F o → Sep C cl o := by
    intro o ho
    exact .inr (before_char hb' ho)
  have h1 : Recovers (Before ((xs.flatMap fun y => y.1 ++ y.2.2).map C.tok) (Before (b.map C.tok) F)) q (x.2.map C.tok) x.1 := by
    refine C60_weaken hx fun o ho => ?_
    cases xs with
    | nil => exact hB o (before_nil.1 ho)
    | cons y ys =>
      obtain ⟨sp, h2⟩ := spaced_cons (hcs y (by simp))
      rw [List.flatMap_cons, h2] at ho
      exact .inl (before_char rfl ho)
  have h2 : Pieces (Before (b.map C.tok) F) («with» (lex U C (char C ',')) q).shape
      ((xs.flatMap fun y => y.1 ++ y.2.2).map C.tok) (xs.map (·.2.1)) := by
    rw [List.map_flatMap]
    refine pieces_of_list (G := Sep C cl) xs (fun y => (y.1 ++ y.2.2).map C.tok) (·.2.1) (fun y hy => ⟨?_, ?_⟩) hB ?_
    · obtain ⟨sp, h3⟩ := spaced_cons (hcs y hy)
      simp [h3]
    · rw [List.map_append]
      exact C60_with hS (lex_recovers hS (s := [',']) (char_recovers hS ',') (hcs y hy) (starts_before (hhs y hy))) (hxs y hy)
    · intro y hy t ht
      obtain ⟨sp, h3⟩ := spaced_cons (hcs y hy)
      rw [h3] at ht
      cases ht
      exact .inl rfl
  have h3 := C60_sep_by hS hq.moves hsep.moves hk hs hc h1 h2 (lex_declines (char_declines hS fun t ht => by
    cases before_char hb' ht
    rw [C.chr_tok]
    exact hcc))
  have h4 : Recovers (Before ((x.2.map C.tok ++ (xs.flatMap fun y => y.1 ++ y.2.2).map C.tok) ++ b.map C.tok) F)
      (lex U C (char C op)) (a.map C.tok) (C.tok op) :=
    lex_recovers hS (s := [op]) (char_recovers hS op) ha (fun t ht => by
      rw [← List.map_append, ← List.map_append] at ht
      obtain ⟨c, cs, h5, h6⟩ := hh
      rw [h5] at ht
      cases before_char rfl ht
      rw [C.chr_tok]
      exact h6)
  have h5 : Recovers F (lex U C (char C cl)) (b.map C.tok) (C.tok cl) :=
    lex_recovers hS (s := [cl]) (char_recovers hS cl) hb hF
  have h6 := C60_between hS h4 h3 h5
  simp only [List.map_append] at h6 ⊢
  exact h6

theorem unlisted_recovers (hS : S.Lawful) {q : Parser S τ β} (hq : Repeatable q) (hc : Consuming q) {op cl : Char}
    (hcl : U.isWhitespace cl = false) {a b : List Char} (ha : Spaced [op] a) (hb : Spaced [cl] b)
    (hd : Declines (fun o => o = some (C.tok cl)) q) (hF : ∀ t, F (some t) → U.isWhitespace (C.chr t) = false) :
    Recovers F (between (lex U C (char C op)) (lex U C (char C cl)) (sepBy q (lex U C (char C ','))))
      ((a ++ b).map C.tok) [] := by
  obtain ⟨_, hk⟩ := hq.keeps
  have hsep := repeatable_lex (U := U) (C := C) hS (repeatable_char (C := C) hS ',')
  obtain ⟨_, hs⟩ := hsep.keeps
  obtain ⟨b', hb'⟩ := spaced_cons hb
  have h3 := C60_sep_by_nil (F := Before (b.map C.tok) F) hS hq.moves hsep.moves hk hs hc
    (C60_weaken_decline hd fun o ho => before_char hb' ho)
  have h4 : Recovers (Before ([] ++ b.map C.tok) F) (lex U C (char C op)) (a.map C.tok) (C.tok op) :=
    lex_recovers hS (s := [op]) (char_recovers hS op) ha (fun t ht => by
      cases before_char hb' ht
      rw [C.chr_tok]
      exact hcl)
  have h5 : Recovers F (lex U C (char C cl)) (b.map C.tok) (C.tok cl) :=
    lex_recovers hS (s := [cl]) (char_recovers hS cl) hb hF
  have h6 := C60_between hS h4 h3 h5
  rw [List.map_append]
  exact h6

theorem repeatable_field (hS : S.Lawful) {p : Parser S Unit Value} (hp : Moves p) : Repeatable (field U C p) := by
  refine repeatable_map hS (repeatable_tuple hS (repeatable_jsonString hS) fun q hq => ?_) _
  rcases hq with rfl | rfl | hq
  · exact repeatable_lex hS (repeatable_char hS _)
  · exact .unit hp
  · exact hq.elim

theorem consuming_lex (hS : S.Lawful) {p : Parser S σ α} (hp : Consuming p) : Consuming (lex U C p) :=
  consuming_skip hp (repeatable_spaces hS).moves

theorem consuming_jsonString (hS : S.Lawful) : Consuming (jsonString U C) :=
  consuming_between hS (moves_token hS _) (repeatable_lex hS (repeatable_char hS _)).moves
    (repeatable_many hS (.unit (moves_jsonChar hS))).moves (consuming_token _)

theorem consuming_first {p : Parser S σ α} {ps : Seq S τ β} (hm : ∀ q, (Seq.cons p ps).Mem q → Moves q.2.2)
    (hc : Consuming p) : Consuming (tuple p ps) := consuming_tuple hm ⟨⟨_, _, p⟩, .inl rfl, hc⟩

theorem consuming_second {υ γ : Type} {p : Parser S σ α} {q : Parser S υ γ} {ps : Seq S τ β}
    (hm : ∀ r, (Seq.cons p (Seq.cons q ps)).Mem r → Moves r.2.2) (hc : Consuming q) : Consuming (tuple p (.cons q ps)) :=
  consuming_tuple hm ⟨⟨_, _, q⟩, .inr (.inl rfl), hc⟩

theorem consuming_field (hS : S.Lawful) {p : Parser S Unit Value} (hp : Moves p) : Consuming (field U C p) := by
  refine consuming_map (consuming_first ?_ (consuming_jsonString hS)) _
  intro q hq
  rcases hq with rfl | rfl | rfl | hq
  · exact (repeatable_jsonString hS).moves
  · exact (repeatable_lex hS (repeatable_char hS _)).moves
  · exact hp
  · exact hq.elim

theorem field_recovers (hS : S.Lawful) {p : Parser S Unit Value} {m : Member} (hk : WritesString m.key m.keyText)
    (hc : Spaced [':'] m.colon) (ht : Starts U m.text) (hp : Recovers G p (m.text.map C.tok) m.value) :
    Recovers G (field U C p) (m.written.map C.tok) (m.key, m.value) := by
  obtain ⟨sp, hs⟩ := spaced_cons hc
  have h1 : Recovers (Before ((m.colon ++ m.text).map C.tok) G) (jsonString U C) (m.keyText.map C.tok) m.key :=
    jsonString_recovers hS hk fun t ht => by
      rw [hs] at ht
      cases before_char rfl ht
      rw [C.chr_tok]
      rfl
  have h2 : Recovers (Before (m.text.map C.tok) G) (lex U C (char C ':')) (m.colon.map C.tok) (C.tok ':') :=
    lex_recovers hS (s := [':']) (char_recovers hS ':') hc (starts_before ht)
  have h3 : SeqRecovers G (.cons (lex U C (char C ':')) (.cons p .nil)) ((m.colon ++ m.text).map C.tok)
      (C.tok ':', m.value, ()) := by
    have := SeqRecovers.cons (F := G) (C60_weaken h2 fun o ho => by rwa [List.append_nil] at ho)
      (.cons (C60_weaken hp fun o => before_nil.1) .nil)
    rw [List.append_nil] at this
    rw [List.map_append]
    exact this
  have h4 := C60_map (C60_tuple hS h1 h3) fun t => (t.1, t.2.2.1)
  rw [Member.written, List.map_append]
  exact h4

theorem field_declines (hS : S.Lawful) (p : Parser S Unit Value) (hF : ∀ t, F (some t) → C.chr t ≠ '"') :
    Declines F (field U C p) := C60_map_declines (C60_tuple_declines _ (jsonString_declines hS hF)) _

/-! ## Values -/

theorem string_starts {s w : List Char} (h : WritesString s w) : ∃ cs, w = '"' :: cs := by
  obtain ⟨cs, _, _, sp, rfl, _⟩ := h
  exact ⟨_, rfl⟩

theorem number_starts {n : Numeral} (hn : n.Valid) {w : List Char} (h : Spaced n.text w) :
    ∃ c cs, w = c :: cs ∧ (c = '-' ∨ IsDigit c) := by
  obtain ⟨sp, rfl, _⟩ := h
  cases hneg : n.negative with
  | true => exact ⟨'-', _, by rw [Numeral.text, hneg]; rfl, .inl rfl⟩
  | false =>
    rcases hn.int with h1 | ⟨d, ds, h1, _⟩
    · exact ⟨_, _, by rw [Numeral.text, hneg, h1]; rfl, .inr (digitChar_isDigit (hn.digits 0 (by simp [h1])))⟩
    · exact ⟨_, _, by rw [Numeral.text, hneg, h1]; rfl, .inr (digitChar_isDigit (hn.digits d (by simp [h1])))⟩

theorem not_white {c : Char} (h : IsDigit c) : U.isWhitespace c = false := by
  obtain ⟨h1, h2⟩ := h
  simp only [Unicode.isWhitespace, Bool.or_eq_false_iff, Bool.and_eq_false_iff, decide_eq_false_iff_not, beq_eq_false_iff_ne]
  refine ⟨⟨?_, ?_⟩, ?_⟩
  · rintro rfl
    exact absurd h1 (by decide)
  · omega
  · omega

theorem writes_starts {v : Value} {w : List Char} (h : Writes v w) : Starts U w := by
  cases h with
  | null h => obtain ⟨sp, rfl, _⟩ := h; exact ⟨_, _, rfl, rfl⟩
  | false h => obtain ⟨sp, rfl, _⟩ := h; exact ⟨_, _, rfl, rfl⟩
  | true h => obtain ⟨sp, rfl, _⟩ := h; exact ⟨_, _, rfl, rfl⟩
  | number hn _ h =>
    obtain ⟨c, cs, h1, h2⟩ := number_starts hn h
    refine ⟨c, cs, h1, ?_⟩
    rcases h2 with rfl | h2
    · rfl
    · exact not_white h2
  | string h => obtain ⟨cs, rfl⟩ := string_starts h; exact ⟨_, _, rfl, rfl⟩
  | array0 h => obtain ⟨sp, rfl⟩ := spaced_cons h; exact ⟨_, _, rfl, rfl⟩
  | array h => obtain ⟨sp, rfl⟩ := spaced_cons h; exact ⟨_, _, rfl, rfl⟩
  | object0 h => obtain ⟨sp, rfl⟩ := spaced_cons h; exact ⟨_, _, rfl, rfl⟩
  | object h => obtain ⟨sp, rfl⟩ := spaced_cons h; exact ⟨_, _, rfl, rfl⟩

section Choice

variable {p : Parser S Unit Value}

theorem moves_object (hS : S.Lawful) (hp : Moves p) : Moves (object U C p) :=
  (repeatable_expected hS (repeatable_map hS (repeatable_between hS (repeatable_lex hS (repeatable_char hS _))
    (repeatable_lex hS (repeatable_char hS _)) (repeatable_sepBy hS (repeatable_field hS hp).moves
      (repeatable_lex hS (repeatable_char hS _)).moves)) _) _).moves

theorem moves_array (hS : S.Lawful) (hp : Moves p) : Moves (array U C p) :=
  (repeatable_map hS (repeatable_between hS (repeatable_lex hS (repeatable_char hS _))
    (repeatable_lex hS (repeatable_char hS _)) (repeatable_sepBy hS hp
      (repeatable_lex hS (repeatable_char hS _)).moves)) _).moves

theorem moves_word (hS : S.Lawful) (s : List Char) (v : Value) : Moves (lex U C (map (str C s) fun _ => v)) :=
  (repeatable_lex hS (repeatable_map hS (.unit (moves_stringCmp hS _ _ _ _)) _)).moves

theorem moves_alternatives (hS : S.Lawful) (hp : Moves p) : ∀ q, (alternatives U C p).Mem q → Moves q.2 := by
  intro q hq
  rcases hq with rfl | rfl | rfl | rfl | rfl | rfl | rfl
  · exact moves_map hS (repeatable_jsonString hS).moves _
  · exact moves_object hS hp
  · exact moves_array hS hp
  · exact moves_map hS (repeatable_number hS).moves _
  · exact moves_word hS _ _
  · exact moves_word hS _ _
  · exact moves_word hS _ _

theorem moves_body (hS : S.Lawful) (hp : Moves p) : Moves (body U C p) :=
  moves_parserMacroUnit hS (moves_choice hS (moves_alternatives hS hp))

theorem consuming_word (hS : S.Lawful) (c : Char) (s : List Char) (v : Value) :
    Consuming (lex U C (map (str C (c :: s)) fun _ => v)) := by
  refine consuming_lex hS (consuming_map ?_ _)
  refine consuming_shape fun i b x j h => ?_
  rcases C40_string hS (fun c t => c == C.chr t) (.static (String.ofList (c :: s))) (c :: s) () i with
    ⟨k, ⟨ts, hr, he⟩, h1⟩ | ⟨pre, c', post, k, _, _, ⟨t, l, _, _, h1⟩ | ⟨_, h1⟩⟩
  · rw [str, h1] at h
    cases h
    cases ts with
    | nil => exact he.elim
    | cons t ts => exact ⟨t, ts, hr⟩
  · rw [str, h1] at h
    split at h <;> cases h
  · rw [str, h1] at h
    split at h <;> cases h

theorem consuming_number (hS : S.Lawful) : Consuming (number U C) := by
  refine consuming_lex hS (consuming_map (consuming_first ?_ ?_) _)
  · intro q hq
    rcases hq with rfl | rfl | hq
    · exact (repeatable_mantissa hS).moves
    · exact (repeatable_optional hS (repeatable_exp hS)).moves
    · exact hq.elim
  · refine consuming_map (consuming_first ?_ ?_) _
    · intro q hq
      rcases hq with rfl | rfl | hq
      · exact (repeatable_signed hS).moves
      · exact (repeatable_with hS (repeatable_optional hS (repeatable_char hS _))
          (repeatable_map hS (repeatable_many hS (repeatable_digit hS)) _)).moves
      · exact hq.elim
    · refine consuming_map (consuming_second ?_ ?_) _
      · intro q hq
        rcases hq with rfl | rfl | hq
        · exact (repeatable_optional hS (repeatable_char hS _)).moves
        · exact (repeatable_intPart hS).moves
        · exact hq.elim
      · exact consuming_or hS (repeatable_map hS (repeatable_char hS _) _).moves
          (repeatable_map hS (repeatable_integer hS) _).moves (consuming_map (consuming_token _) _)
          (consuming_map (consuming_map (consuming_lex hS (consuming_many1 hS (repeatable_digit hS).moves
            (repeatable_digit hS).reusable (consuming_satisfy _))) _) _)

theorem consuming_alternatives (hS : S.Lawful) (hp : Moves p) : ∀ q, (alternatives U C p).Mem q → Consuming q.2 := by
  have hl : ∀ c, Moves (lex U C (char C c)) := fun c => (repeatable_lex hS (repeatable_char hS _)).moves
  intro q hq
  rcases hq with rfl | rfl | rfl | rfl | rfl | rfl | rfl
  · exact consuming_map (consuming_jsonString hS) _
  · exact consuming_map (consuming_between hS (hl _) (hl _)
      (repeatable_sepBy hS (repeatable_field hS hp).moves (hl _)).moves (consuming_lex hS (consuming_token _))) _
  · exact consuming_map (consuming_between hS (hl _) (hl _)
      (repeatable_sepBy hS hp (hl _)).moves (consuming_lex hS (consuming_token _))) _
  · exact consuming_map (consuming_number hS) _
  · exact consuming_word hS _ _ _
  · exact consuming_word hS _ _ _
  · exact consuming_word hS _ _ _

theorem consuming_body (hS : S.Lawful) (hp : Moves p) : Consuming (body U C p) :=
  consuming_choice hS (moves_alternatives hS hp) (consuming_alternatives hS hp)

/-! What the alternatives begin with. -/

theorem object_declines (hS : S.Lawful) (hF : ∀ t, F (some t) → C.chr t ≠ '{') : Declines F (object U C p) :=
  (C60_labels_declines (C60_map_declines (C60_between_declines _ _ (lex_declines (char_declines hS hF))) _) _).1

theorem array_declines (hS : S.Lawful) (hF : ∀ t, F (some t) → C.chr t ≠ '[') : Declines F (array U C p) :=
  C60_map_declines (C60_between_declines _ _ (lex_declines (char_declines hS hF))) _

theorem word_declines (hS : S.Lawful) (c : Char) (s : List Char) (v : Value) (hF : ∀ t, F (some t) → C.chr t ≠ c) :
    Declines F (lex U C (map (str C (c :: s)) fun _ => v)) := by
  refine lex_declines (C60_map_declines (C60_tokens_declines (C40_string hS (fun c t => c == C.chr t)
    (.static (String.ofList (c :: s))) (c :: s) ()) fun t ht => ?_) _)
  simpa using (hF t ht).symm

theorem word_recovers (hS : S.Lawful) {s w : List Char} (v : Value) (hw : Spaced s w)
    (hF : ∀ t, F (some t) → U.isWhitespace (C.chr t) = false) :
    Recovers F (lex U C (map (str C s) fun _ => v)) (w.map C.tok) v := by
  refine lex_recovers hS (C60_map (C60_tokens (C40_string hS (fun c t => c == C.chr t)
    (.static (String.ofList s)) s ()) ?_) fun _ => v) hw hF
  clear hw hF
  induction s with
  | nil => trivial
  | cons c s ih => exact ⟨by simp [C.chr_tok], ih⟩

/-- The choice, for a text that begins with `c`: the alternatives that begin otherwise decline. -/
theorem body_recovers (hS : S.Lawful) (hp : Moves p) {w : List Char} {c : Char} {cs : List Char} (hw : w = c :: cs) {v : Value}
    (h : (∃ s, v = .string s ∧ Recovers F (jsonString U C) (w.map C.tok) s ∧ c = '"') ∨
      (Recovers F (object U C p) (w.map C.tok) v ∧ c = '{') ∨
      (Recovers F (array U C p) (w.map C.tok) v ∧ c = '[') ∨
      (∃ x, v = .number x ∧ Recovers F (number U C) (w.map C.tok) x ∧ (c = '-' ∨ IsDigit c)) ∨
      (Recovers F (lex U C (map (str C "false".toList) fun _ => Value.bool false)) (w.map C.tok) v ∧ c = 'f') ∨
      (Recovers F (lex U C (map (str C "true".toList) fun _ => Value.bool true)) (w.map C.tok) v ∧ c = 't') ∨
      (Recovers F (lex U C (map (str C "null".toList) fun _ => Value.null)) (w.map C.tok) v ∧ c = 'n')) :
    Recovers F (body U C p) (w.map C.tok) v := by
  have hb : ∀ x, c ≠ x → ∀ t, Before (w.map C.tok) F (some t) → C.chr t ≠ x := by
    intro x hx t ht
    cases before_char hw ht
    rwa [C.chr_tok]
  have hd : ¬ IsDigit c → ∀ t, Before (w.map C.tok) F (some t) → ¬ IsDigit (C.chr t) := by
    intro hx t ht
    cases before_char hw ht
    rwa [C.chr_tok]
  have d1 : c ≠ '"' → Declines (Before (w.map C.tok) F) (map (jsonString U C) Value.string) :=
    fun h => C60_map_declines (jsonString_declines hS (hb _ h)) _
  have d2 : c ≠ '{' → Declines (Before (w.map C.tok) F) (object U C p) := fun h => object_declines hS (hb _ h)
  have d3 : c ≠ '[' → Declines (Before (w.map C.tok) F) (array U C p) := fun h => array_declines hS (hb _ h)
  have d4 : c ≠ '-' → ¬ IsDigit c → Declines (Before (w.map C.tok) F) (map (number U C) Value.number) :=
    fun h h' => C60_map_declines (number_declines hS (hb _ h) (hd h')) _
  have d5 : c ≠ 'f' → Declines (Before (w.map C.tok) F) (lex U C (map (str C "false".toList) fun _ => Value.bool false)) :=
    fun h => word_declines hS _ _ _ (hb _ h)
  have d6 : c ≠ 't' → Declines (Before (w.map C.tok) F) (lex U C (map (str C "true".toList) fun _ => Value.bool true)) :=
    fun h => word_declines hS _ _ _ (hb _ h)
  refine (C60_labels (C60_choice hS (moves_alternatives hS hp) ?_) (.static "")).2.2.2.2.2.2
  rcases h with ⟨s, rfl, h, rfl⟩ | ⟨h, rfl⟩ | ⟨h, rfl⟩ | ⟨x, rfl, h, hc⟩ | ⟨h, rfl⟩ | ⟨h, rfl⟩ | ⟨h, rfl⟩
  · exact .here (C60_map h _)
  · exact .there (d1 (by decide)) (.here h)
  · exact .there (d1 (by decide)) (.there (d2 (by decide)) (.here h))
  · have hn : ∀ x, ¬ IsDigit x → x ≠ '-' → c ≠ x := by
      rintro x h1 h2 rfl
      rcases hc with hc | hc
      · exact h2 hc
      · exact h1 hc
    exact .there (d1 (hn _ (by decide) (by decide))) (.there (d2 (hn _ (by decide) (by decide)))
      (.there (d3 (hn _ (by decide) (by decide))) (.here (C60_map h _))))
  · exact .there (d1 (by decide)) (.there (d2 (by decide)) (.there (d3 (by decide)) (.there (d4 (by decide) (by decide))
      (.here h))))
  · exact .there (d1 (by decide)) (.there (d2 (by decide)) (.there (d3 (by decide)) (.there (d4 (by decide) (by decide))
      (.there (d5 (by decide)) (.here h)))))
  · exact .there (d1 (by decide)) (.there (d2 (by decide)) (.there (d3 (by decide)) (.there (d4 (by decide) (by decide))
      (.there (d5 (by decide)) (.there (d6 (by decide)) (.last h))))))

/-- No value begins with `]`. -/
theorem body_declines (hS : S.Lawful) (hp : Moves p) : Declines (fun o => o = some (C.tok ']')) (body U C p) := by
  have hb : ∀ x, ']' ≠ x → ∀ t, some t = some (C.tok ']') → C.chr t ≠ x := by
    intro x hx t ht
    cases ht
    rwa [C.chr_tok]
  refine (C60_labels_declines (C60_choice_declines hS (moves_alternatives hS hp) ?_) (.static "")).2.2.2.2.2.2
  refine ⟨C60_map_declines (jsonString_declines hS (hb _ (by decide))) _, object_declines hS (hb _ (by decide)),
    array_declines hS (hb _ (by decide)), C60_map_declines (number_declines hS (hb _ (by decide)) ?_) _,
    word_declines hS _ _ _ (hb _ (by decide)), word_declines hS _ _ _ (hb _ (by decide)),
    word_declines hS _ _ _ (hb _ (by decide))⟩
  intro t ht
  cases ht
  rw [C.chr_tok]
  decide

end Choice

theorem moves_value (hS : S.Lawful) (n : Nat) : Moves (value U C n) := moves_recur hS (fun _ => moves_body hS) () n

theorem consuming_value (hS : S.Lawful) (n : Nat) : Consuming (value U C n) := by
  cases n with
  | zero => exact (recur_zero hS _ _).2.2
  | succ n => exact consuming_body hS (moves_value hS n)

theorem stop_sep {cl : Char} (h : Stop U (some cl)) {o : Option S.Tok} (ho : Sep C cl o) : Stop U (o.map C.chr) := by
  rcases ho with rfl | rfl
  · simp only [Option.map_some, C.chr_tok]
    exact ⟨rfl, by decide, by decide, by decide, by decide⟩
  · simp only [Option.map_some, C.chr_tok]
    exact h

theorem spaced_length {s w : List Char} (h : Spaced s w) : s.length ≤ w.length := by
  obtain ⟨sp, rfl, _⟩ := h
  simp

theorem flatMap_length {X : Type} {xs : List X} {f : X → List Char} {y : X} (h : y ∈ xs) :
    (f y).length ≤ (xs.flatMap f).length := by
  induction xs with
  | nil => cases h
  | cons x xs ih =>
    rw [List.flatMap_cons, List.length_append]
    cases h with
    | head => omega
    | tail _ h => have := ih h; omega

theorem value_recovers (hS : S.Lawful) {v : Value} {w : List Char} (h : Writes v w) :
    ∀ {F : Option S.Tok → Prop} {n : Nat}, w.length ≤ n → (∀ o, F o → Stop U (o.map C.chr)) →
      Recovers F (value U C n) (w.map C.tok) v := by
  induction h with
  | null h =>
    intro F n hn hF
    obtain ⟨sp, hw, hsp⟩ := id h
    cases n with
    | zero => rw [hw] at hn; simp at hn
    | succ n => exact body_recovers hS (moves_value hS n) hw (.inr (.inr (.inr (.inr (.inr (.inr
        ⟨word_recovers hS _ h fun t ht => (hF _ ht).1, rfl⟩))))))
  | false h =>
    intro F n hn hF
    obtain ⟨sp, hw, hsp⟩ := id h
    cases n with
    | zero => rw [hw] at hn; simp at hn
    | succ n => exact body_recovers hS (moves_value hS n) hw (.inr (.inr (.inr (.inr (.inl
        ⟨word_recovers hS _ h fun t ht => (hF _ ht).1, rfl⟩)))))
  | true h =>
    intro F n hn hF
    obtain ⟨sp, hw, hsp⟩ := id h
    cases n with
    | zero => rw [hw] at hn; simp at hn
    | succ n => exact body_recovers hS (moves_value hS n) hw (.inr (.inr (.inr (.inr (.inr (.inl
        ⟨word_recovers hS _ h fun t ht => (hF _ ht).1, rfl⟩))))))
  | number hv hl h =>
    intro F n hn hF
    obtain ⟨c, cs, hw, hc⟩ := number_starts hv h
    cases n with
    | zero => rw [hw] at hn; simp at hn
    | succ n => exact body_recovers hS (moves_value hS n) hw (.inr (.inr (.inr (.inl
        ⟨_, rfl, number_recovers hS hv hl h hF, hc⟩))))
  | string h =>
    intro F n hn hF
    obtain ⟨cs, hw⟩ := string_starts h
    cases n with
    | zero => rw [hw] at hn; simp at hn
    | succ n => exact body_recovers hS (moves_value hS n) hw (.inl
        ⟨_, rfl, jsonString_recovers hS h fun t ht => (hF _ ht).1, rfl⟩)
  | @array0 a b ha hb =>
    intro F n hn hF
    have h1 := spaced_length ha
    have h2 := spaced_length hb
    rw [List.length_append] at hn
    obtain ⟨n, rfl⟩ : ∃ m, n = m + 2 := ⟨n - 2, by simp at h1 h2; omega⟩
    obtain ⟨cs, hw⟩ := spaced_cons ha
    refine body_recovers hS (moves_value hS _) (c := '[') (cs := cs ++ b) (by rw [hw]; rfl) (.inr (.inr (.inl ⟨?_, rfl⟩)))
    exact C60_map (unlisted_recovers hS (.unit (moves_value hS (n + 1))) (consuming_value hS (n + 1)) rfl ha hb
      (body_declines hS (moves_value hS n)) fun t ht => (hF _ ht).1) Value.array
  | @array a b x xs ha hx hcs hxs hb ihx ihxs =>
    intro F n hn hF
    have h1 := spaced_length ha
    have h2 := spaced_length hb
    simp only [List.length_append, List.length_cons, List.length_nil] at hn h1 h2
    obtain ⟨n, rfl⟩ : ∃ m, n = m + 1 := ⟨n - 1, by omega⟩
    obtain ⟨cs, hw⟩ := spaced_cons ha
    have hst : ∀ o, Sep C ']' o → Stop U (o.map C.chr) :=
      fun o ho => stop_sep ⟨rfl, by decide, by decide, by decide, by decide⟩ ho
    refine body_recovers hS (moves_value hS _) (c := '[') (cs := _) (by rw [hw]; rfl) (.inr (.inr (.inl ⟨?_, rfl⟩)))
    refine C60_map (listed_recovers hS (.unit (moves_value hS n)) (consuming_value hS n) (by decide) ha hb
      (ihx (by omega) hst) (fun y hy => ihxs y hy ?_ hst) (writes_starts hx) (fun y hy => writes_starts (hxs y hy)) hcs
      fun t ht => (hF _ ht).1) Value.array
    have h3 := flatMap_length (f := fun y : List Char × Value × List Char => y.1 ++ y.2.2) hy
    simp only [List.length_append] at h3
    omega
  | @object0 a b ha hb =>
    intro F n hn hF
    have h1 := spaced_length ha
    simp only [List.length_append, List.length_cons, List.length_nil] at hn h1
    obtain ⟨n, rfl⟩ : ∃ m, n = m + 1 := ⟨n - 1, by omega⟩
    obtain ⟨cs, hw⟩ := spaced_cons ha
    refine body_recovers hS (moves_value hS _) (c := '{') (cs := cs ++ b) (by rw [hw]; rfl) (.inr (.inl ⟨?_, rfl⟩))
    refine (C60_labels (C60_map (unlisted_recovers hS (repeatable_field hS (moves_value hS n))
      (consuming_field hS (moves_value hS n)) rfl ha hb (field_declines hS _ fun t ht => ?_) fun t ht => (hF _ ht).1)
      Value.object) _).1
    cases ht
    rw [C.chr_tok]
    decide
  | @object a b x xs ha hk hco hx hcs hks hcos hxs hb ihx ihxs =>
    intro F n hn hF
    have h1 := spaced_length ha
    have h2 := spaced_length hb
    simp only [List.length_append, List.length_cons, List.length_nil, Member.written] at hn h1 h2
    obtain ⟨n, rfl⟩ : ∃ m, n = m + 1 := ⟨n - 1, by omega⟩
    obtain ⟨cs, hw⟩ := spaced_cons ha
    have hst : ∀ o, Sep C '}' o → Stop U (o.map C.chr) :=
      fun o ho => stop_sep ⟨rfl, by decide, by decide, by decide, by decide⟩ ho
    refine body_recovers hS (moves_value hS _) (c := '{') (cs := _) (by rw [hw]; rfl) (.inr (.inl ⟨?_, rfl⟩))
    have hm : ∀ y ∈ xs, y.2.text.length ≤ n := by
      intro y hy
      have h3 := flatMap_length (f := fun y : List Char × Member => y.1 ++ y.2.written) hy
      simp only [List.length_append, Member.written] at h3
      omega
    have key := listed_recovers (U := U) (C := C) (F := F) hS (q := field U C (value U C n))
      (repeatable_field hS (moves_value hS n)) (consuming_field hS (moves_value hS n))
      (by decide) ha hb (x := ((x.key, x.value), x.written)) (xs := xs.map fun y => (y.1, (y.2.key, y.2.value), y.2.written))
      (field_recovers hS hk hco (writes_starts hx) (ihx (by omega) hst)) ?_ ?_ ?_ ?_ fun t ht => (hF _ ht).1
    · have := (C60_labels (C60_map key Value.object) (.static "object")).1
      simp only [List.flatMap_map, List.map_map] at this
      exact this
    · intro z hz
      obtain ⟨y, hy, rfl⟩ := List.mem_map.1 hz
      exact field_recovers hS (hks y hy) (hcos y hy) (writes_starts (hxs y hy)) (ihxs y hy (hm y hy) hst)
    · obtain ⟨cs, h⟩ := string_starts hk
      exact ⟨'"', cs ++ (x.colon ++ x.text), by rw [Member.written, h]; rfl, rfl⟩
    · intro z hz
      obtain ⟨y, hy, rfl⟩ := List.mem_map.1 hz
      obtain ⟨cs, h⟩ := string_starts (hks y hy)
      exact ⟨'"', cs ++ (y.2.colon ++ y.2.text), by dsimp only; rw [Member.written, h]; rfl, rfl⟩
    · intro z hz
      obtain ⟨y, hy, rfl⟩ := List.mem_map.1 hz
      exact hcs y hy

end Json

end Verif
