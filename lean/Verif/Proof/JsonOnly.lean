import Verif.Proof.KnownChars
import Verif.Spec.JsonLoose

/-!
# The JSON parser accepts nothing else
-/

namespace Verif

namespace Json

set_option linter.unusedSectionVars false

variable {S : Strm} [DecidableEq S.Tok] {U : Unicode} {C : Chars S} {σ τ υ α β γ : Type}

/-- Whatever `p` accepts is one of `P`. -/
def Gives (C : Chars S) (P : Texts Char α) (p : Parser S σ α) : Prop := OnlyReads (P.pull C.chr) p

section
variable {P : Texts Char α} {Q : Texts Char β} {p : Parser S σ α} {q : Parser S τ β}

theorem anywhere (p : Parser S σ α) : OnlyFails (fun _ => True) p := fun _ _ => trivial

theorem Gives.mono {P' : Texts Char α} (h : Gives C P p) (hP : ∀ w v o, P w v o → P' w v o) : Gives C P' p :=
  C63_mono h fun _ _ _ => hP _ _ _

theorem Gives.map (h : Gives C P p) (f : α → β) : Gives C (P.map f) (Verif.map p f) := C63_map h f

theorem Gives.expected (h : Gives C P p) (x : Info S.Tok S.Rng) : Gives C P (Verif.expected p x) := (C63_labels h (anywhere p) x).1.1

theorem Gives.with (hp : Gives C P p) (hq : Gives C Q q) : Gives C (P.bind fun _ => Q) («with» p q) :=
  C63_mono (C63_with hp hq) fun w v o h => (pull_bind w v o).1 h

theorem Gives.skip (hp : Gives C P p) (hq : Gives C Q q) : Gives C (P.bind fun v => Q.map fun _ => v) (Verif.skip p q) :=
  C63_mono (C63_skip hp hq) fun w v o h => (pull_bind (Q := fun v => Q.map fun _ => v) w v o).1 h

theorem Gives.between {N : Texts Char γ} {o : Parser S υ γ} {c : Parser S σ α} {p : Parser S τ β} (ho : Gives C N o) (hp : Gives C Q p)
    (hc : Gives C P c) : Gives C (N.bind fun _ => Q.bind fun v => P.map fun _ => v) (Verif.between o c p) := by
  refine C63_mono (C63_between ho hp hc) fun w v o h => ?_
  obtain ⟨u, z, x, rfl, h1, h2⟩ := h
  refine (pull_bind (Q := fun _ => Q.bind fun v => P.map fun _ => v) _ v o).1 ⟨u, z, x, rfl, h1, ?_⟩
  exact (pull_bind (Q := fun v => P.map fun _ => v) z v o).1 h2

theorem Gives.pair (hp : Gives C P p) (hq : Gives C Q q) :
    Gives C (P.seq (Q.seq fun w _ _ => w = [])) (Verif.pair p q) := by
  refine C63_mono (C63_tuple hp (.cons hq .nil)) fun w v o h => (pull_seq w v o).1 ?_
  obtain ⟨u, z, rfl, h1, u', z', rfl, h2, h3⟩ := h
  exact ⟨u, u' ++ z', rfl, h1, (pull_seq _ _ _).1 ⟨u', z', rfl, h2, by simp [Texts.pull, h3]⟩⟩

theorem Gives.or (hS : S.Lawful) {Q : Texts Char α} {q : Parser S τ α} {G : Option Char → Prop} (hmp : Moves p) (hmq : Moves q)
    (hp : Gives C P p) (hg : OnlyFails (fun o => G (o.map C.chr)) p) (hq : Gives C Q q) :
    Gives C (fun w v o => P w v o ∨ G (lead w o) ∧ Q w v o) (Verif.or p q) := by
  refine C63_mono (C63_or hS hmp hmq hp hg hq) fun w v o h => ?_
  rcases h with h | ⟨h1, h2⟩
  · exact .inl h
  · exact .inr ⟨by rw [lead_map]; exact h1, h2⟩

theorem Gives.optional (hS : S.Lawful) (hm : Moves p) (hp : Gives C P p) :
    Gives C (fun w v o => (∃ x, v = some x ∧ P w x o) ∨ v = none ∧ w = []) (Verif.optional p) := by
  refine C63_mono (C63_optional hS hm hp (anywhere p)) fun w v o h => ?_
  rcases h with h | ⟨h1, h2, _⟩
  · exact .inl h
  · exact .inr ⟨h1, by simp [h2]⟩

end

/-! ## Tokens -/

theorem only_char (hS : S.Lawful) (c : Char) : Gives C (fun w _ _ => w = [c]) (char C c) :=
  (show Gives C _ _ from (known_char hS c).is.only).mono fun _ _ _ h => h.1

theorem only_spaces (hS : S.Lawful) : Gives C (fun w _ _ => ∀ c ∈ w, U.isWhitespace c = true) (charSpaces S U C.chr) := by
  have h := (known_many_sat (C := C) hS (known_sat (C := C) (g := U.isWhitespace) (moves_satisfyNamed hS _ _)
    (C53_named (S := S) hS (fun t => U.isWhitespace (C.chr t)) "whitespace"))).2.2.1
  exact Gives.mono (Gives.expected (C := C) h.is.only _) fun _ _ _ h => h.1

theorem only_lex (hS : S.Lawful) {P : Texts Char α} {p : Parser S σ α} (hp : Gives C P p) :
    Gives C (fun w v _ => ∃ s o, P s v o ∧ Loose U s w) (lex U C p) := by
  refine (hp.skip (only_spaces (U := U) hS)).mono fun w v o h => ?_
  obtain ⟨u, z, x, rfl, h1, _, h2, rfl⟩ := h
  exact ⟨u, _, h1, z, rfl, h2⟩

/-! ## Numbers -/

theorem digits_of {w : List Char} (h : ∀ c ∈ w, decide (IsDigit c) = true) :
    ∃ ds : List Nat, w = ds.map digitChar ∧ ∀ d ∈ ds, d < 10 := by
  induction w with
  | nil => exact ⟨[], rfl, by simp⟩
  | cons c w ih =>
    obtain ⟨ds, rfl, h1⟩ := ih fun c hc => h c (by simp [hc])
    obtain ⟨d, hd, rfl⟩ := isDigit_iff.1 (of_decide_eq_true (h c (by simp)))
    exact ⟨d :: ds, rfl, by simpa [hd] using h1⟩

theorem only_many_digit (hS : S.Lawful) :
    Gives C (fun w v _ => ∃ ds : List Nat, w = ds.map digitChar ∧ v = w.map C.tok ∧ ∀ d ∈ ds, d < 10) (many (digit U C)) := by
  refine (show Gives C _ _ from (known_many_sat (C := C) hS (known_digit (U := U) hS)).1.is.only).mono ?_
  rintro w v o ⟨rfl, h, _⟩
  obtain ⟨ds, rfl, h1⟩ := digits_of h
  exact ⟨ds, rfl, rfl, h1⟩

theorem only_integer (hS : S.Lawful) :
    Gives C (fun w v _ => ∃ ds : List Nat, ds ≠ [] ∧ (∀ d ∈ ds, d < 10) ∧ v = (decimal ds : Int) ∧ Loose U (ds.map digitChar) w)
      (integer U C) := by
  have h := (known_many_sat (C := C) hS (known_digit (U := U) hS)).2.1.is.only
  refine ((only_lex (U := U) hS h).map (intVal C)).expected _ |>.mono ?_
  rintro w v o ⟨x, ⟨s, o', ⟨rfl, h1, h2, _⟩, h3⟩, rfl⟩
  obtain ⟨ds, rfl, h4⟩ := digits_of h2
  exact ⟨ds, by simpa using h1, h4, intVal_digits h4, h3⟩

/-- The digits before the point, and the whitespace after them. -/
def IntText (U : Unicode) (w : List Char) (int : List Nat) (gap : List Char) : Prop :=
  w = int.map digitChar ++ gap ∧ ((int = [0] ∧ gap = []) ∨ ∃ d ds, int = d :: ds ∧ d ≠ 0) ∧ (∀ d ∈ int, d < 10) ∧
    ∀ c ∈ gap, U.isWhitespace c = true

theorem only_intPart (hS : S.Lawful) :
    Gives C (fun w v _ => ∃ int gap, IntText U w int gap ∧ v = (decimal int : Rat)) (intPart U C) := by
  have h1 : Gives C _ (map (char C '0') fun _ => (0 : Rat)) := (only_char hS '0').map _
  have h2 : Gives C _ (map (integer U C) fun x => (x : Rat)) := (only_integer hS).map _
  refine (Gives.or hS (repeatable_map hS (repeatable_char hS _) _).moves (repeatable_map hS (repeatable_integer hS) _).moves
    h1 (G := fun o => o ≠ some '0') (C63_map_fails (known_char hS '0').fails.only _) h2).mono ?_
  rintro w v o (⟨x, rfl, rfl⟩ | ⟨h3, x, ⟨ds, h4, h5, rfl, sp, rfl, h6⟩, rfl⟩)
  · exact ⟨[0], [], ⟨rfl, .inl ⟨rfl, rfl⟩, by simp, by simp⟩, show (0 : Rat) = (decimal [0] : Rat) by decide +kernel⟩
  · refine ⟨ds, sp, ⟨rfl, .inr ?_, h5, h6⟩, Rat.intCast_natCast _⟩
    obtain ⟨d, ds, rfl⟩ := List.exists_cons_of_ne_nil h4
    refine ⟨d, ds, rfl, ?_⟩
    rintro rfl
    exact h3 rfl

theorem only_minus (hS : S.Lawful) :
    Gives C (fun w v _ => w = if v.isSome then ['-'] else []) (optional (char C '-')) := by
  refine ((only_char hS '-').optional hS (repeatable_char hS _).moves).mono ?_
  rintro w v o (⟨x, rfl, rfl⟩ | ⟨rfl, rfl⟩) <;> rfl

theorem only_signed (hS : S.Lawful) :
    Gives C (fun w v _ => ∃ (neg : Bool) (int : List Nat) (gap u : List Char), IntText U u int gap ∧
      w = (if neg then ['-'] else []) ++ u ∧ v = if neg then -(decimal int : Rat) else (decimal int : Rat)) (signed U C) := by
  refine (((only_minus hS).pair (only_intPart (U := U) hS)).map _).mono ?_
  rintro w v o ⟨x, ⟨u, z, rfl, h1, z1, z2, rfl, ⟨int, gap, h2, h3⟩, rfl⟩, rfl⟩
  exact ⟨x.1.isSome, int, gap, z1, h2, by rw [h1, List.append_nil], by dsimp only; rw [h3]⟩

theorem only_mantissa (hS : S.Lawful) :
    Gives C (fun w v _ => ∃ (neg : Bool) (int : List Nat) (gap : List Char) (point : Bool) (frac : List Nat),
      LooseNumeral.Valid U ⟨neg, int, gap, point, frac, none⟩ ∧ w = LooseNumeral.text ⟨neg, int, gap, point, frac, none⟩ ∧
      v = LooseNumeral.value ⟨neg, int, gap, point, frac, none⟩) (mantissa U C) := by
  have hf : Gives C _ (fractional U C) := (only_many_digit (U := U) hS).map (fracVal C)
  have ho := (only_char (C := C) hS '.').optional hS (repeatable_char hS _).moves
  refine (((only_signed (U := U) hS).pair (ho.with hf)).map _).mono ?_
  rintro w v o ⟨x, ⟨u, z, rfl, ⟨neg, int, gap, u', ⟨h1, h2, h3, h4⟩, h5, h6⟩, z1, z2, rfl, ⟨a, b, y, rfl, h7, fs, ⟨ds, rfl, rfl, h8⟩, h9⟩, rfl⟩, rfl⟩
  refine ⟨neg, int, gap, y.isSome, ds, ⟨h2, h3, h4, h8, by simp⟩, ?_, ?_⟩
  · subst h5; subst h1
    rcases h7 with ⟨t, rfl, rfl⟩ | ⟨rfl, rfl⟩ <;> simp [LooseNumeral.text]
  · rw [fracVal_digits h8] at h9
    dsimp only
    rw [← h9, h6]
    simp only [LooseNumeral.value, Rat.mul_one]

theorem only_exp (hS : S.Lawful) :
    Gives C (fun w v _ => ∃ (E neg : Bool) (ds : List Nat), ds ≠ [] ∧ (∀ d ∈ ds, d < 10) ∧ v.1.isSome = neg ∧ v.2.1 = (decimal ds : Int) ∧
      Loose U ((if E then 'E' else 'e') :: ((if neg then ['-'] else []) ++ ds.map digitChar)) w) (exp U C) := by
  have h := (known_satisfy (C := C) hS fun c => c = 'e' || c = 'E').is.only
  refine (Gives.with (C := C) h ((only_minus hS).pair (only_integer (U := U) hS))).mono ?_
  rintro w v o ⟨u, z, x, rfl, ⟨c, rfl, h1, _⟩, a, b, rfl, h2, d, e, rfl, ⟨ds, h3, h4, h5, sp, rfl, h6⟩, rfl⟩
  refine ⟨decide (c = 'E'), v.1.isSome, ds, h3, h4, rfl, h5, sp, ?_, h6⟩
  subst h2
  by_cases hc : c = 'E'
  · simp [hc]
  · have : c = 'e' := by simpa [hc] using h1
    simp [this]

theorem Loose.append {s t w z : List Char} (h : Loose U s w) (hz : Loose U w z) (ht : t = s) : Loose U t z := by
  obtain ⟨a, rfl, h1⟩ := h
  obtain ⟨b, rfl, h2⟩ := hz
  subst ht
  refine ⟨a ++ b, by simp, fun c hc => ?_⟩
  rcases List.mem_append.1 hc with h | h
  · exact h1 c h
  · exact h2 c h

theorem only_number (hS : S.Lawful) :
    Gives C (fun w v _ => ∃ n : LooseNumeral, n.Valid U ∧ Loose U n.text w ∧ v = n.value) (number U C) := by
  have he := (only_exp (U := U) (C := C) hS).optional hS (repeatable_exp hS).moves
  refine ((only_lex (U := U) hS (((only_mantissa (U := U) hS).pair he).map _)).expected _).mono ?_
  rintro w v o ⟨s, o', ⟨x, ⟨u, z, rfl, ⟨neg, int, gap, point, frac, h1, rfl, h2⟩, z1, z2, rfl, h3, rfl⟩, rfl⟩, h4⟩
  rw [List.append_nil] at h4
  rcases h3 with ⟨y, hy, E, m, ds, h5, h6, h7, h8, sp, rfl, h9⟩ | ⟨hy, rfl⟩
  · refine ⟨⟨neg, int, gap, point, frac, some (E, m, ds)⟩, ⟨h1.int, h1.digits, h1.gap, h1.frac, ?_⟩, ?_, ?_⟩
    · rintro _ ⟨⟩; exact ⟨h5, h6⟩
    · refine Loose.append (s := LooseNumeral.text ⟨neg, int, gap, point, frac, some (E, m, ds)⟩) ⟨sp, ?_, h9⟩ h4 rfl
      simp [LooseNumeral.text]
    · obtain ⟨y1, y2, y3⟩ := y
      obtain ⟨x1, x2, x3⟩ := x
      dsimp only at hy h7 h8 h2
      subst hy; subst h2; subst h8; subst h7
      simp only [LooseNumeral.value, Rat.mul_one]
  · refine ⟨⟨neg, int, gap, point, frac, none⟩, h1, by simpa using h4, ?_⟩
    obtain ⟨x1, x2, x3⟩ := x
    dsimp only at hy h2
    subst hy; subst h2
    rfl

/-! ## Strings -/

theorem only_jsonChar (hS : S.Lawful) : Gives C (fun w c _ => WritesChar c w) (jsonChar C) := by
  intro i c v k hi
  rcases jsonChar_shape (C := C) hS i with ⟨t, j, hu, h1⟩ | ⟨_, h1⟩
  · rw [hi] at h1
    split at h1
    · next ht =>
      have hb := C63_one (C53_satisfy_map hS (fun t => match C.chr t with
        | '"' => some '"' | '\\' => some '\\' | '/' => some '/' | 'b' => some '\x08' | 'f' => some '\x0c' | 'n' => some '\n'
        | 'r' => some '\r' | 't' => some '\t' | _ => none)) j
      cases hs : (backSlashChar C).shape j with
      | ok c' v' k' =>
        rw [hs] at h1
        cases h1
        obtain ⟨w, h2, _, t', rfl, h3⟩ := hb c' v k hs
        refine ⟨[t, t'], .cons hu h2, rfl, .inr ⟨C.chr t', ?_, by simp [ht]⟩⟩
        revert h3
        generalize C.chr t' = x
        intro h3
        split at h3 <;> cases h3 <;> simp [escapes]
      | soft => rw [hs] at h1; cases h1
      | hard e => rw [hs] at h1; cases h1
      | abort a => rw [hs] at h1; cases h1
    · next h2 =>
      split at h1
      · cases h1
      · next h3 =>
        cases h1
        exact ⟨[t], .cons hu (.nil _), rfl, .inl ⟨rfl, h3, h2⟩⟩
  · rw [hi] at h1
    split at h1 <;> cases h1

theorem writesChar_ne {c : Char} : ¬ WritesChar c [] := by
  rintro (⟨h, _⟩ | ⟨e, _, h⟩) <;> cases h

theorem many_texts {P : Texts Char α} {w : List Char} {vs : List α} {o : Option Char} (h : Texts.Many P w vs o) :
    ∃ xs : List (α × List Char), vs = xs.map (·.1) ∧ w = xs.flatMap (·.2) ∧ ∀ x ∈ xs, ∃ o, P x.2 x.1 o := by
  induction h with
  | nil => exact ⟨[], rfl, rfl, by simp⟩
  | @cons w u v vs o _ h1 _ ih =>
    obtain ⟨xs, rfl, rfl, h2⟩ := ih
    refine ⟨(v, w) :: xs, rfl, rfl, ?_⟩
    rintro x (_ | ⟨_, hx⟩)
    · exact ⟨_, h1⟩
    · exact h2 x hx

theorem only_string (hS : S.Lawful) : Gives C (fun w v _ => LooseString U v w) (jsonString U C) := by
  have hm : Gives C (fun w vs o => Texts.Many (fun w c _ => WritesChar c w) w vs o) (many (jsonChar C)) := by
    refine C63_mono (C63_many hS (moves_jsonChar hS) (keeps_unit (h := false) _).reusable (consuming_jsonChar hS) (only_jsonChar hS)
      (anywhere _)) fun w v o h => (pull_many w v o).1 h.1
  refine (((only_char (C := C) hS '"').between hm (only_lex (U := U) hS (only_char (C := C) hS '"'))).expected _).mono ?_
  rintro w v o ⟨u, z, x, rfl, rfl, z1, z2, y, rfl, h1, t, ⟨s, o', rfl, sp, rfl, h2⟩, rfl⟩
  obtain ⟨cs, rfl, rfl, h3⟩ := many_texts h1
  exact ⟨cs, rfl, fun x hx => (h3 x hx).elim fun _ h => h, sp, by simp, h2⟩

theorem loose_ne {c : Char} {s : List Char} : ¬ Loose U (c :: s) [] := by
  rintro ⟨sp, h, _⟩; cases h

/-! ## Lists -/

theorem many_list {μ : Type} {f : μ → α} {g : μ → List Char} {Good : μ → Prop} {L : Texts Char α} {M : Texts Char β}
    (hL : ∀ w v o, L w v o → ∃ m, v = f m ∧ w = g m ∧ Good m) {w : List Char} {vs : List α} {o : Option Char}
    (h : Texts.Many (M.bind fun _ => L) w vs o) :
    ∃ xs : List (List Char × μ), vs = xs.map (fun y => f y.2) ∧ w = xs.flatMap (fun y => y.1 ++ g y.2) ∧
      (∀ y ∈ xs, ∃ v o, M y.1 v o) ∧ ∀ y ∈ xs, Good y.2 := by
  induction h with
  | nil => exact ⟨[], rfl, rfl, by simp, by simp⟩
  | @cons w u v vs o _ h1 _ ih =>
    obtain ⟨xs, rfl, rfl, h2, h3⟩ := ih
    obtain ⟨a, b, x, rfl, h4, h5⟩ := h1
    obtain ⟨m, rfl, rfl, h6⟩ := hL _ _ _ h5
    refine ⟨(a, m) :: xs, rfl, by simp, ?_, ?_⟩
    · rintro y (_ | ⟨_, hy⟩)
      · exact ⟨_, _, h4⟩
      · exact h2 y hy
    · rintro y (_ | ⟨_, hy⟩)
      · exact h6
      · exact h3 y hy

theorem only_list (hS : S.Lawful) {μ : Type} {f : μ → α} {g : μ → List Char} {Good : μ → Prop} {L : Texts Char α} {p : Parser S σ α}
    (hr : Repeatable p) (hc : Consuming p) (hp : Gives C L p) (hL : ∀ w v o, L w v o → ∃ m, v = f m ∧ w = g m ∧ Good m)
    (hne : ∀ v o, ¬ L [] v o) (a b : Char) :
    Gives C (fun w vs _ => ∃ s t, Loose U [a] s ∧ Loose U [b] t ∧ ((vs = [] ∧ w = s ++ t) ∨
        ∃ m, ∃ xs : List (List Char × μ), Good m ∧ (∀ y ∈ xs, Loose U [','] y.1) ∧ (∀ y ∈ xs, Good y.2) ∧
          vs = f m :: xs.map (fun y => f y.2) ∧ w = s ++ ((g m ++ xs.flatMap fun y => y.1 ++ g y.2) ++ t)))
      (between (lex U C (char C a)) (lex U C (char C b)) (sepBy p (lex U C (char C ',')))) := by
  have hl : ∀ c : Char, Gives C (fun w _ _ => Loose U [c] w) (lex U C (char C c)) := fun c =>
    (only_lex hS (only_char hS c)).mono fun w v o ⟨s, _, h1, h2⟩ => by subst h1; exact h2
  let M : Texts Char S.Tok := fun w _ _ => Loose U [','] w
  obtain ⟨_, hkp⟩ := hr.keeps
  obtain ⟨_, hks⟩ := (repeatable_lex (U := U) hS (repeatable_char (C := C) hS ',')).keeps
  have hs : Gives C (fun w vs _ => (vs = [] ∧ w = []) ∨ ∃ m, ∃ xs : List (List Char × μ), Good m ∧ (∀ y ∈ xs, Loose U [','] y.1) ∧
      (∀ y ∈ xs, Good y.2) ∧ vs = f m :: xs.map (fun y => f y.2) ∧ w = g m ++ xs.flatMap fun y => y.1 ++ g y.2)
      (sepBy p (lex U C (char C ','))) := by
    refine C63_mono (C63_sep_by hS hr.moves (repeatable_lex hS (repeatable_char hS _)).moves hkp hks hc hp (hl ',') (anywhere _)
      (fun v o h => loose_ne h) (fun v o h => hne _ _ h) (anywhere _)) fun w vs o h => ?_
    rcases h with ⟨u, z, v, rfl, h1, vs', ⟨h2, _⟩, rfl⟩ | ⟨_, rfl, rfl⟩
    · obtain ⟨m, rfl, h3, h4⟩ := hL _ _ _ h1
      have h6 : Texts.Many (M.bind fun _ => L) (z.map C.chr) vs' (o.map C.chr) := by
        refine (pull_many z vs' o).1 ?_
        have e : ((M.pull C.chr).bind fun _ => L.pull C.chr) = Texts.pull C.chr (M.bind fun _ => L) := by
          funext w v o
          exact propext (pull_bind w v o)
        rw [← e]
        exact h2
      obtain ⟨xs, rfl, h7, h8, h9⟩ := many_list hL h6
      refine .inr ⟨m, xs, h4, fun y hy => ?_, h9, rfl, by rw [List.map_append, h3, h7]⟩
      obtain ⟨_, _, h⟩ := h8 y hy
      exact h
    · exact .inl ⟨rfl, rfl⟩
  refine ((hl a).between hs (hl b)).mono ?_
  rintro w v o ⟨u, z, x, rfl, h1, z1, z2, y, rfl, h2, t, h3, rfl⟩
  refine ⟨u, z2, h1, h3, ?_⟩
  rcases h2 with ⟨rfl, rfl⟩ | ⟨m, xs, h4, h5, h6, rfl, rfl⟩
  · exact .inl ⟨rfl, by simp⟩
  · exact .inr ⟨m, xs, h4, h5, h6, rfl, rfl⟩

/-! ## Values -/

theorem accepted_ne {v : Value} : ¬ Accepted U v [] := by
  intro h
  generalize hw : ([] : List Char) = w at h
  cases h with
  | null h => subst hw; exact loose_ne h
  | false h => subst hw; exact loose_ne h
  | true h => subst hw; exact loose_ne h
  | @number n w hv h =>
    subst hw
    obtain ⟨sp, h, _⟩ := h
    have h1 := List.append_eq_nil_iff.1 h.symm
    have h2 := List.append_eq_nil_iff.1 (List.append_eq_nil_iff.1 h1.1).2
    rcases hv.int with ⟨h3, _⟩ | ⟨d, ds, h3, _⟩ <;> rw [h3] at h2 <;> cases h2.1
  | string h =>
    subst hw
    obtain ⟨cs, _, _, h⟩ := h
    exact loose_ne h
  | array0 h _ => exact loose_ne ((List.append_eq_nil_iff.1 hw.symm).1 ▸ h)
  | array h => exact loose_ne ((List.append_eq_nil_iff.1 hw.symm).1 ▸ h)
  | object0 h _ => exact loose_ne ((List.append_eq_nil_iff.1 hw.symm).1 ▸ h)
  | object h => exact loose_ne ((List.append_eq_nil_iff.1 hw.symm).1 ▸ h)

section
variable {p : Parser S Unit Value}

theorem only_field (hS : S.Lawful) (hp : Gives C (fun w v _ => Accepted U v w) p) :
    Gives C (fun w v _ => ∃ m : Member, v = (m.key, m.value) ∧ w = m.written ∧ LooseString U m.key m.keyText ∧ Loose U [':'] m.colon ∧
      Accepted U m.value m.text) (field U C p) := by
  have hl : Gives C (fun w _ _ => Loose U [':'] w) (lex U C (char C ':')) :=
    (only_lex hS (only_char hS ':')).mono fun w v o ⟨s, _, h1, h2⟩ => by subst h1; exact h2
  refine C63_mono (C63_map (C63_tuple (only_string (U := U) hS) (.cons hl (.cons hp .nil))) _) fun w v o h => ?_
  obtain ⟨x, ⟨u, z, rfl, h1, z1, z2, rfl, h2, z3, z4, rfl, h3, rfl⟩, rfl⟩ := h
  exact ⟨⟨x.1, u.map C.chr, z1.map C.chr, x.2.2.1, z3.map C.chr⟩, rfl, by simp [Member.written], h1, h2, h3⟩

theorem only_word (hS : S.Lawful) (s : List Char) (v : Value) :
    Gives C (fun w x _ => Loose U s w ∧ x = v) (lex U C (map (str C s) fun _ => v)) := by
  have h : Gives C (fun w _ _ => w = s) (str C s) := by
    refine C63_mono (C63_tokens (C40_string hS (fun c t => c == C.chr t) (.static (String.ofList s)) s ())) fun w v o h => ?_
    have h1 := h.1
    show w.map C.chr = s
    clear h
    induction s generalizing w with
    | nil => cases w with
      | nil => rfl
      | cons t w => cases h1
    | cons c s ih => cases w with
      | nil => cases h1
      | cons t w =>
        obtain ⟨h2, h3⟩ := h1
        rw [List.map_cons, ih w h3, eq_of_beq h2]
  refine (only_lex hS (h.map _)).mono ?_
  rintro w x o ⟨s', o', ⟨_, rfl, rfl⟩, h2⟩
  exact ⟨h2, rfl⟩

theorem only_body (hS : S.Lawful) (hm : Moves p) (hr : Repeatable p) (hc : Consuming p) (hp : Gives C (fun w v _ => Accepted U v w) p) :
    Gives C (fun w v _ => Accepted U v w) (body U C p) := by
  have hs : Gives C (fun w v _ => Accepted U v w) (map (jsonString U C) Value.string) := by
    refine ((only_string hS).map _).mono ?_
    rintro w v o ⟨s, h, rfl⟩
    exact .string h
  have ho : Gives C (fun w v _ => Accepted U v w) (object U C p) := by
    refine (((only_list (U := U) hS (repeatable_field hS hm) (consuming_field hS hm) (only_field hS hp)
      (f := fun m : Member => (m.key, m.value)) (g := Member.written) (fun w v o h => h) ?_ '{' '}').map Value.object).expected _).mono ?_
    · rintro v o ⟨m, _, h1, ⟨cs, _, _, h2⟩, _⟩
      have := (List.append_eq_nil_iff.1 h1.symm).1
      rw [this] at h2
      exact loose_ne h2
    · rintro w v o ⟨vs, ⟨s, t, h1, h2, ⟨rfl, rfl⟩ | ⟨m, xs, h3, h4, h5, rfl, rfl⟩⟩, rfl⟩
      · exact .object0 h1 h2
      · exact .object h1 h3.1 h3.2.1 h3.2.2 h4 (fun y hy => (h5 y hy).1) (fun y hy => (h5 y hy).2.1) (fun y hy => (h5 y hy).2.2) h2
  have ha : Gives C (fun w v _ => Accepted U v w) (array U C p) := by
    refine ((only_list (U := U) hS hr hc hp (f := fun m : Value × List Char => m.1) (g := fun m => m.2)
      (Good := fun m => Accepted U m.1 m.2) (fun w v o h => ⟨(v, w), rfl, rfl, h⟩) (fun v o h => accepted_ne h) '[' ']').map Value.array).mono ?_
    rintro w v o ⟨vs, ⟨s, t, h1, h2, ⟨rfl, rfl⟩ | ⟨m, xs, h3, h4, h5, rfl, rfl⟩⟩, rfl⟩
    · exact .array0 h1 h2
    · exact .array h1 h3 h4 h5 h2
  have hn : Gives C (fun w v _ => Accepted U v w) (map (number U C) Value.number) := by
    refine ((only_number hS).map _).mono ?_
    rintro w v o ⟨x, ⟨n, h1, h2, rfl⟩, rfl⟩
    exact .number h1 h2
  have hf : Gives C (fun w v _ => Accepted U v w) (lex U C (map (str C "false".toList) fun _ => Value.bool false)) :=
    (only_word hS _ _).mono fun w v o h => by rw [h.2]; exact .false h.1
  have ht : Gives C (fun w v _ => Accepted U v w) (lex U C (map (str C "true".toList) fun _ => Value.bool true)) :=
    (only_word hS _ _).mono fun w v o h => by rw [h.2]; exact .true h.1
  have hu : Gives C (fun w v _ => Accepted U v w) (lex U C (map (str C "null".toList) fun _ => Value.null)) :=
    (only_word hS _ _).mono fun w v o h => by rw [h.2]; exact .null h.1
  have hch := C63_choice hS (moves_alternatives hS hm) (.cons hs (anywhere _) (.cons ho (anywhere _) (.cons ha (anywhere _)
    (.cons hn (anywhere _) (.cons hf (anywhere _) (.cons ht (anywhere _) (.last hu)))))))
  refine C63_mono (show OnlyReads _ (body U C p) from (C63_labels hch (anywhere _) (.static "")).1.2.2.2.2.2.2) ?_
  rintro w v o (h | ⟨_, h | ⟨_, h | ⟨_, h | ⟨_, h | ⟨_, h | ⟨_, h⟩⟩⟩⟩⟩⟩) <;> exact h

end

theorem only_value (hS : S.Lawful) (n : Nat) : Gives C (fun w v _ => Accepted U v w) (value U C n) := by
  induction n with
  | zero =>
    intro i c v k h
    cases h
  | succ n ih => exact only_body hS (moves_value hS n) (.unit (moves_value hS n)) (consuming_value hS n) ih

end Json

end Verif
