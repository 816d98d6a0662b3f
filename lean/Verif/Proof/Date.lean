import Verif.Proof.KnownChars
import Verif.Proof.Calm
import Verif.Spec.Date

/-!
# Lemmas about the date parser
-/

namespace Verif

variable {S : Strm} {σ τ υ α β γ : Type} {T : Type}

/-! ## Closures that panic -/

theorem shape_mapOrPanic (p : Parser S σ α) (g : α → Option β) (i : S.Input) :
    (mapOrPanic p g).shape i = match p.shape i with
      | .ok c v k => (match g v with | some y => .ok c y k | none => .abort .panic)
      | .soft => .soft
      | .hard e => .hard e
      | .abort a => .abort a := by
  simp only [Parser.shape, Parser.answer, mapOrPanic, Parser.ofMode]
  generalize p.run true i p.init = o
  obtain ⟨r, j, s⟩ := o
  cases r with
  | commitOk x => dsimp only; cases hg : g x <;> simp [Out.answer, Answer.of, Answer.shape, hg]
  | peekOk x => dsimp only; cases hg : g x <;> simp [Out.answer, Answer.of, Answer.shape, hg]
  | _ => rfl

theorem moves_mapOrPanic (hS : S.Lawful) {p : Parser S σ α} (h : Moves p) (g : α → Option β) : Moves (mapOrPanic p g) :=
  .ofMode hS fun m i s => by
    have := h.run m i s
    dsimp only
    cases (p.run m i s).res <;> exact this

theorem keeps_mapOrPanic {h : Bool} {Clean : σ → Prop} {p : Parser S σ α} (hp : Keeps h Clean p) (g : α → Option β) :
    Keeps h Clean (mapOrPanic p g) := by
  have e : ∀ i s, ((mapOrPanic p g).run true i s).res = (match (p.run true i s).res with
        | .commitOk x => (match g x with | some y => .commitOk y | none => .abort .panic)
        | .peekOk x => (match g x with | some y => .peekOk y | none => .abort .panic)
        | .commitErr e => .commitErr e
        | .peekErr e => .peekErr e
        | .abort a => .abort a) ∧ ((mapOrPanic p g).run true i s).inp = (p.run true i s).inp ∧
      ((mapOrPanic p g).run true i s).st = (p.run true i s).st := by
    intro i s
    simp only [mapOrPanic, Parser.ofMode]
    cases (p.run true i s).res <;> exact ⟨rfl, rfl, rfl⟩
  refine ⟨hp.init, fun s s' h1 h2 i => ?_, fun s h1 i hk => ?_⟩
  · obtain ⟨a1, a2⟩ := hp.same s s' h1 h2 i
    rw [(e i s).1, (e i s').1, (e i s).2.1, (e i s').2.1, a1, a2]
    exact ⟨rfl, rfl⟩
  · rw [(e i s).2.2]
    refine hp.keep s h1 i ?_
    rw [(e i s).1] at hk
    cases hr : (p.run true i s).res <;> rw [hr] at hk <;> first | rfl | exact hk

theorem known_mapOrPanic (hS : S.Lawful) {f : S.Tok → T} {P : Texts T α} {G : Option T → Prop} {p : Parser S σ α} (h : Known f P G p)
    (g : α → Option β) : Known f (fun w y o => ∃ v, P w v o ∧ g v = some y) G (mapOrPanic p g) := by
  obtain ⟨_, hk⟩ := h.rep.keeps
  refine ⟨⟨moves_mapOrPanic hS h.rep.moves g, _, keeps_mapOrPanic hk g⟩, ⟨?_, ?_⟩, ⟨?_, ?_⟩⟩
  · rintro w y i k h1 h2 ⟨v, h3, h4⟩
    have := h.is.back w v i k h1 h2 h3
    rw [shape_mapOrPanic, this]
    simp only [h4]
  · intro i c y k hi
    rw [shape_mapOrPanic] at hi
    cases hp : p.shape i with
    | ok c' v k' =>
      rw [hp] at hi
      dsimp only at hi
      cases hg : g v with
      | none => rw [hg] at hi; cases hi
      | some y' =>
        rw [hg] at hi
        cases hi
        obtain ⟨w, h1, h2, h3⟩ := h.is.only i c v k hp
        exact ⟨w, h1, h2, v, h3, hg⟩
    | _ => rw [hp] at hi; cases hi
  · intro i h1 h2
    rw [shape_mapOrPanic, h.fails.back i h1 h2]
  · intro i hi
    rw [shape_mapOrPanic] at hi
    refine h.fails.only i ?_
    cases hp : p.shape i with
    | soft => rfl
    | ok c' v k' =>
      rw [hp] at hi
      dsimp only at hi
      cases hg : g v <;> rw [hg] at hi <;> cases hi
    | _ => rw [hp] at hi; cases hi

theorem later_mapOrPanic (hS : S.Lawful) {f : S.Tok → T} {P : Texts T α} {p : Parser S σ α} (h : Later f P p)
    (g : α → Option β) : Later f (fun w y o => ∃ v, P w v o ∧ g v = some y) (mapOrPanic p g) := by
  obtain ⟨_, hk⟩ := h.rep.keeps
  refine ⟨⟨moves_mapOrPanic hS h.rep.moves g, _, keeps_mapOrPanic hk g⟩, ⟨?_, ?_⟩⟩
  · rintro w y i k h1 h2 ⟨v, h3, h4⟩
    have := h.is.back w v i k h1 h2 h3
    rw [shape_mapOrPanic, this]
    simp only [h4]
  · intro i c y k hi
    rw [shape_mapOrPanic] at hi
    cases hp : p.shape i with
    | ok c' v k' =>
      rw [hp] at hi
      dsimp only at hi
      cases hg : g v with
      | none => rw [hg] at hi; cases hi
      | some y' =>
        rw [hg] at hi
        cases hi
        obtain ⟨w, h1, h2, h3⟩ := h.is.only i c v k hp
        exact ⟨w, h1, h2, v, h3, hg⟩
    | _ => rw [hp] at hi; cases hi

theorem calm_mapOrPanic {P : Texts S.Tok α} {p : Parser S σ α} (h : Calm p) (hp : OnlyReads P p) {g : α → Option β}
    (hg : ∀ w v o, P w v o → (g v).isSome = true) : Calm (mapOrPanic p g) := by
  intro i a hi
  rw [shape_mapOrPanic] at hi
  cases hx : p.shape i with
  | ok c v k =>
    rw [hx] at hi
    obtain ⟨w, _, _, h1⟩ := hp i c v k hx
    have := hg _ _ _ h1
    dsimp only at hi
    cases hy : g v with
    | none => rw [hy] at this; cases this
    | some y => rw [hy] at hi; cases hi
  | abort b => exact h i _ hx
  | _ => rw [hx] at hi; cases hi

namespace Date

open Json (char digit digitChar decimal IsDigit)

variable [DecidableEq S.Tok] {C : Chars S} {U : Unicode}

/-! ## Two digits -/

theorem toDigit_digitChar {d : Nat} (h : d < 10) : toDigit 10 (digitChar d) = some d := by
  rw [Json.toDigit_ten, if_pos (Json.digitChar_isDigit h), Json.digitChar_toNat h]
  congr 1
  omega

theorem digits_two {w : List Char} {n : Int} :
    Two w n ↔ ∃ a b, a < 10 ∧ b < 10 ∧ w = [digitChar a, digitChar b] ∧ n = ((a * 10 + b : Nat) : Int) := by
  constructor
  · rintro ⟨ds, ⟨rfl, h1⟩, h2, rfl⟩
    match ds, h2 with
    | [a, b], _ =>
      refine ⟨a, b, h1 a (by simp), h1 b (by simp), rfl, ?_⟩
      simp [decimal]
      omega
  · rintro ⟨a, b, h1, h2, rfl, rfl⟩
    refine ⟨[a, b], ⟨rfl, by simp [h1, h2]⟩, rfl, ?_⟩
    simp [decimal]
    omega

theorem known_pair (hS : S.Lawful) :
    Known C.chr (fun w x _ => ∃ a b, a < 10 ∧ b < 10 ∧ w = [digitChar a, digitChar b] ∧ x = (C.tok (digitChar a), C.tok (digitChar b), ()))
      (fun o => ∀ d < 10, o ≠ some (digitChar d)) (pair (digit U C) (digit U C)) := by
  refine (known_tuple hS (known_digit hS) (.cons (known_digit hS).later .nil) (by simp)).iff ?_ ?_
  · intro w x o
    constructor
    · rintro ⟨_, _, rfl, ⟨a, rfl, h1, h2⟩, _, _, rfl, ⟨b, rfl, h3, h4⟩, rfl⟩
      obtain ⟨a, ha, rfl⟩ := isDigit_iff.1 (of_decide_eq_true h1)
      obtain ⟨b, hb, rfl⟩ := isDigit_iff.1 (of_decide_eq_true h3)
      obtain ⟨x1, x2, _⟩ := x
      dsimp only at h2 h4
      subst h2
      subst h4
      exact ⟨a, b, ha, hb, rfl, rfl⟩
    · rintro ⟨a, b, ha, hb, rfl, rfl⟩
      exact ⟨[digitChar a], [digitChar b], rfl, ⟨_, rfl, by simpa using isDigit_iff.2 ⟨a, ha, rfl⟩, rfl⟩, [digitChar b], [], rfl,
        ⟨_, rfl, by simpa using isDigit_iff.2 ⟨b, hb, rfl⟩, rfl⟩, rfl⟩
  · intro o
    constructor
    · intro h d hd ho
      have := h _ ho
      simp [Json.digitChar_isDigit hd] at this
    · intro h c hc
      have : ¬ IsDigit c := fun hx => by
        obtain ⟨d, hd, rfl⟩ := isDigit_iff.1 hx
        exact h d hd hc
      simp [this]

omit [DecidableEq S.Tok] in
theorem twoVal_digits {a b : Nat} (ha : a < 10) (hb : b < 10) :
    twoVal C (C.tok (digitChar a), C.tok (digitChar b), ()) = some ((a * 10 + b : Nat) : Int) := by
  simp [twoVal, C.chr_tok, toDigit_digitChar ha, toDigit_digitChar hb]

theorem known_two_digits (hS : S.Lawful) :
    Known C.chr (fun w n _ => Two w n) (fun o => ∀ d < 10, o ≠ some (digitChar d)) (twoDigits U C) := by
  refine (known_mapOrPanic hS (known_pair hS) (twoVal C)).iff ?_ fun _ => Iff.rfl
  intro w n o
  rw [digits_two]
  constructor
  · rintro ⟨_, ⟨a, b, ha, hb, rfl, rfl⟩, h⟩
    rw [twoVal_digits ha hb] at h
    cases h
    exact ⟨a, b, ha, hb, rfl, rfl⟩
  · rintro ⟨a, b, ha, hb, rfl, rfl⟩
    exact ⟨_, ⟨a, b, ha, hb, rfl, rfl⟩, twoVal_digits ha hb⟩

theorem two_ne {w : List Char} {n : Int} (h : Two w n) : w ≠ [] := by
  obtain ⟨a, b, _, _, rfl, _⟩ := digits_two.1 h
  simp

theorem two_lead {w u : List Char} {n : Int} (h : Two w n) (o : Option Char) : ∃ d < 10, lead (w ++ u) o = some (digitChar d) := by
  obtain ⟨a, b, ha, _, rfl, _⟩ := digits_two.1 h
  exact ⟨a, ha, rfl⟩

theorem digit_calm (hS : S.Lawful) : Calm (digit U C) := calm_one (Json.digit_one hS)

theorem char_calm (hS : S.Lawful) (c : Char) : Calm (char C c) := calm_one (C53_token hS (C.tok c))

theorem two_calm (hS : S.Lawful) : Calm (twoDigits U C) :=
  calm_mapOrPanic (calm_tuple (digit_calm hS) (by
    rintro q (rfl | hq)
    · exact digit_calm hS
    · exact hq.elim)) (known_pair (C := C) hS).is.only (by
    rintro w v o ⟨a, b, ha, hb, _, rfl⟩
    rw [twoVal_digits ha hb]
    rfl)

/-! ## Time zones -/

theorem sign_one (hS : S.Lawful) :
    Known C.chr (fun w v _ => (w = ['-'] ∨ w = ['+']) ∧ w = [C.chr v]) (fun o => o ≠ some '-' ∧ o ≠ some '+') (sign C) ∧ Calm (sign C) := by
  have e : ∀ c : Char, (fun t => if t = C.tok c then some t else none) = fun t => if C.chr t = c then some (C.tok (C.chr t)) else none := by
    intro c
    funext t
    rw [C.tok_chr]
    by_cases hb : C.chr t = c
    · rw [if_pos hb, if_pos (show t = C.tok c by rw [← hb, C.tok_chr])]
    · rw [if_neg hb, if_neg (show ¬ t = C.tok c from fun h => hb (by rw [h, C.chr_tok]))]
  have h := known_two (f := C.chr) (g := fun c => if c = '-' then some (C.tok c) else none)
    (h := fun c => if c = '+' then some (C.tok c) else none) hS (moves_token hS (C.tok '-')) (moves_token hS (C.tok '+'))
    (fun i => by have := C53_token hS (C.tok '-') i; rw [e] at this; exact this)
    (fun i => by have := C53_token hS (C.tok '+') i; rw [e] at this; exact this)
  refine ⟨h.1.iff ?_ ?_, calm_one h.2⟩
  · intro w v o
    constructor
    · rintro ⟨b, rfl, h⟩
      by_cases h1 : b = '-'
      · subst h1
        simp at h
        subst h
        simp [C.chr_tok]
      · by_cases h2 : b = '+'
        · subst h2
          simp at h
          subst h
          simp [C.chr_tok]
        · simp [h1, h2] at h
    · rintro ⟨h1, rfl⟩
      refine ⟨_, rfl, ?_⟩
      rcases h1 with h1 | h1 <;> simp at h1 <;> simp [h1] <;> rw [← h1, C.tok_chr]
  · intro o
    constructor
    · intro h
      constructor
      · rintro rfl
        simpa using h _ rfl
      · rintro rfl
        simpa using h _ rfl
    · rintro ⟨h1, h2⟩ b rfl
      simp at h1 h2
      simp [h1, h2]

theorem known_minutes (hS : S.Lawful) :
    Known C.chr (fun w v o => (∃ n, v = some n ∧ (Two w n ∨ ∃ u, w = ':' :: u ∧ Two u n)) ∨ v = none ∧ w = [] ∧ NoMinutes o)
      (fun _ => False) (offsetMinutes U C) := by
  refine (known_optional hS (known_with_empty hS (known_optional hS (known_char hS ':')) (known_two_digits hS))).iff ?_ fun _ => Iff.rfl
  have hx : ∀ (w : List Char) (n : Int) (o : Option Char),
      (Texts.bind (fun w v o => (∃ x, v = some x ∧ w = [':'] ∧ x = C.tok ':') ∨ v = none ∧ w = [] ∧ o ≠ some ':')
        fun _ w n _ => Two w n) w n o ↔ (Two w n ∨ ∃ u, w = ':' :: u ∧ Two u n) := by
    intro w n o
    constructor
    · rintro ⟨u, z, v, rfl, (⟨x, rfl, rfl, _⟩ | ⟨rfl, rfl, _⟩), h⟩
      · exact .inr ⟨z, rfl, h⟩
      · exact .inl h
    · rintro (h | ⟨u, rfl, h⟩)
      · refine ⟨[], w, none, rfl, .inr ⟨rfl, rfl, ?_⟩, h⟩
        obtain ⟨d, hd, h1⟩ := two_lead h (u := []) o
        rw [List.append_nil] at h1
        rw [h1]
        intro e
        injection e with e
        revert e
        exact (by decide : ∀ d < 10, digitChar d ≠ ':') d hd
      · exact ⟨[':'], u, some (C.tok ':'), rfl, .inl ⟨_, rfl, rfl, rfl⟩, h⟩
  intro w v o
  simp only [hx]
  refine or_congr Iff.rfl (and_congr Iff.rfl (and_congr Iff.rfl ?_))
  constructor
  · rintro (h | ⟨v, h1 | ⟨_, _, h1⟩, h⟩)
    · exact h.elim
    · obtain ⟨x, _, h1, _⟩ := h1
      cases h1
    · rintro c rfl
      exact ⟨fun hc => h1 (by rw [hc]), fun d hd hc => h d hd (by rw [hc])⟩
  · intro h
    refine .inr ⟨none, .inr ?_, fun d hd ho => (h _ ho).2 d hd rfl⟩
    simpa using fun ho => (h _ ho).1 rfl

theorem minutes_calm (hS : S.Lawful) : Calm (offsetMinutes U C) :=
  calm_optional hS (moves_with hS (moves_optional hS (known_char (C := C) hS ':').rep.moves) (known_two_digits (C := C) hS).rep.moves)
    (calm_with (calm_optional hS (known_char (C := C) hS ':').rep.moves (char_calm hS ':')) (two_calm hS))

theorem known_zone (hS : S.Lawful) :
    Known C.chr (fun w z o => IsZone o w z) (fun o => o ≠ some 'Z' ∧ o ≠ some '-' ∧ o ≠ some '+') (timeZone U C) := by
  refine (known_or hS (known_map hS (known_char hS 'Z') _) (known_map hS (known_tuple hS (sign_one hS).1
    (.cons (known_two_digits hS).later (.cons (known_minutes hS).later .nil)) (by simp)) _)).iff ?_ fun _ => Iff.rfl
  intro w z o
  constructor
  · rintro (⟨v, ⟨rfl, _⟩, rfl⟩ | ⟨_, ⟨s, h, m, u⟩, ⟨_, _, rfl, ⟨h1, rfl⟩, hh, _, rfl, h2, mm, _, rfl, h3, rfl⟩, rfl⟩)
    · exact .utc
    · dsimp only at h1 h2 h3
      simp only [lead, List.append_nil, List.cons_append, List.nil_append] at h3 ⊢
      simp only [offsetVal, Int.mul_comm h 60]
      rcases h1 with h1 | h1 <;> injection h1 with h1 <;> rw [h1] <;>
        rcases h3 with ⟨n, rfl, h3 | ⟨u, rfl, h3⟩⟩ | ⟨rfl, rfl, h3⟩ <;> simp only [Option.getD, Int.add_zero]
      · exact .westMin h2 h3
      · exact .westColon h2 h3
      · rw [List.append_nil]; exact .west h2 h3
      · exact .eastMin h2 h3
      · exact .eastColon h2 h3
      · rw [List.append_nil]; exact .east h2 h3
  · have key : ∀ (c : Char) (hh mm : List Char) (n : Int) (v : Option Int), c = '-' ∨ c = '+' → Two hh n →
        ((∃ k, v = some k ∧ (Two mm k ∨ ∃ u, mm = ':' :: u ∧ Two u k)) ∨ v = none ∧ mm = [] ∧ NoMinutes o) →
        (Texts.seq (fun w v _ => (w = ['-'] ∨ w = ['+']) ∧ w = [C.chr v]) (Texts.seq (fun w n _ => Two w n) (Texts.seq
          (fun w v o => (∃ n, v = some n ∧ (Two w n ∨ ∃ u, w = ':' :: u ∧ Two u n)) ∨ v = none ∧ w = [] ∧ NoMinutes o)
          (fun w (_ : Unit) _ => w = [])))) (c :: (hh ++ mm)) (C.tok c, n, v, ()) o := by
      intro c hh mm n v hc h1 h2
      exact ⟨[c], hh ++ mm, rfl, ⟨by rcases hc with rfl | rfl <;> simp, by rw [C.chr_tok]⟩, hh, mm, rfl, h1, mm, [], by simp, h2, rfl⟩
    have neZ : ∀ (c : Char) (u : List Char), c = '-' ∨ c = '+' → lead (c :: u) o ≠ some 'Z' := by
      rintro c u (rfl | rfl) h <;> cases h
    intro h
    cases h with
    | utc => exact .inl ⟨_, ⟨rfl, rfl⟩, rfl⟩
    | @east hh n h1 h2 =>
      refine .inr ⟨neZ _ _ (.inr rfl), (C.tok '+', n, none, ()), ?_, ?_⟩
      · have := key '+' hh [] n none (.inr rfl) h1 (.inr ⟨rfl, rfl, h2⟩)
        rw [List.append_nil] at this
        exact this
      · simp [offsetVal, C.chr_tok, Int.mul_comm]
    | @west hh n h1 h2 =>
      refine .inr ⟨neZ _ _ (.inl rfl), (C.tok '-', n, none, ()), ?_, ?_⟩
      · have := key '-' hh [] n none (.inl rfl) h1 (.inr ⟨rfl, rfl, h2⟩)
        rw [List.append_nil] at this
        exact this
      · simp [offsetVal, C.chr_tok, Int.mul_comm]
    | @eastMin hh m n k h1 h2 =>
      exact .inr ⟨neZ _ _ (.inr rfl), _, key '+' hh m n (some k) (.inr rfl) h1 (.inl ⟨k, rfl, .inl h2⟩), by
        simp [offsetVal, C.chr_tok, Int.mul_comm]⟩
    | @westMin hh m n k h1 h2 =>
      exact .inr ⟨neZ _ _ (.inl rfl), _, key '-' hh m n (some k) (.inl rfl) h1 (.inl ⟨k, rfl, .inl h2⟩), by
        simp [offsetVal, C.chr_tok, Int.mul_comm]⟩
    | @eastColon hh m n k h1 h2 =>
      exact .inr ⟨neZ _ _ (.inr rfl), _, key '+' hh (':' :: m) n (some k) (.inr rfl) h1 (.inl ⟨k, rfl, .inr ⟨m, rfl, h2⟩⟩), by
        simp [offsetVal, C.chr_tok, Int.mul_comm]⟩
    | @westColon hh m n k h1 h2 =>
      exact .inr ⟨neZ _ _ (.inl rfl), _, key '-' hh (':' :: m) n (some k) (.inl rfl) h1 (.inl ⟨k, rfl, .inr ⟨m, rfl, h2⟩⟩), by
        simp [offsetVal, C.chr_tok, Int.mul_comm]⟩

theorem zone_calm (hS : S.Lawful) : Calm (timeZone U C) :=
  calm_or hS (moves_map hS (known_char (C := C) hS 'Z').rep.moves _)
    (known_map hS (known_tuple hS (sign_one hS).1 (.cons (known_two_digits (U := U) hS).later (.cons (known_minutes (U := U) hS).later .nil))
      (by simp)) (offsetVal C)).rep.moves
    (calm_map (char_calm hS 'Z') _) (calm_map (calm_tuple (sign_one hS).2 (by
      rintro q (rfl | rfl | hq)
      · exact two_calm hS
      · exact minutes_calm hS
      · exact hq.elim)) _)

/-! ## Times -/

theorem known_time (hS : S.Lawful) :
    Known C.chr (fun w t o => IsTime o w t) (fun o => ∀ d < 10, o ≠ some (digitChar d)) (time U C) := by
  refine (known_map hS (known_tuple hS (known_two_digits hS) (.cons (known_char hS ':').later (.cons (known_two_digits hS).later
    (.cons (known_char hS ':').later (.cons (known_two_digits hS).later (.cons (known_zone hS).later .nil)))))
    fun v o h => two_ne h rfl) _).iff ?_ fun _ => Iff.rfl
  intro w t o
  constructor
  · rintro ⟨x, ⟨h, _, rfl, h1, _, _, rfl, ⟨rfl, _⟩, m, _, rfl, h2, _, _, rfl, ⟨rfl, _⟩, s, _, rfl, h3, z, _, rfl, h4, rfl⟩, rfl⟩
    exact ⟨h, m, s, z, h1, h2, h3, h4, by simp⟩
  · rintro ⟨h, m, s, z, h1, h2, h3, h4, rfl⟩
    exact ⟨(t.hour, C.tok ':', t.minute, C.tok ':', t.second, t.zone, ()), ⟨h, _, rfl, h1, [':'], _, rfl, ⟨rfl, rfl⟩, m, _, rfl, h2,
      [':'], _, rfl, ⟨rfl, rfl⟩, s, z, rfl, h3, z, [], by simp, h4, rfl⟩, rfl⟩

theorem time_calm (hS : S.Lawful) : Calm (time U C) :=
  calm_map (calm_tuple (two_calm hS) (by
    rintro q (rfl | rfl | rfl | rfl | rfl | hq)
    · exact char_calm hS _
    · exact two_calm hS
    · exact char_calm hS _
    · exact two_calm hS
    · exact zone_calm hS
    · exact hq.elim)) _

/-! ## Dates -/

private theorem year_digits {w : List Char} (h : ∀ c ∈ w, decide (IsDigit c) = true) : ∃ ds, Digits w ds := by
  induction w with
  | nil => exact ⟨[], rfl, by simp⟩
  | cons c w ih =>
    obtain ⟨ds, rfl, h2⟩ := ih fun c hc => h c (by simp [hc])
    obtain ⟨d, hd, rfl⟩ := isDigit_iff.1 (of_decide_eq_true (h c (by simp)))
    exact ⟨d :: ds, rfl, by simpa [hd] using h2⟩

theorem parts_is (hS : S.Lawful) :
    Later C.chr (fun w x _ => ∃ year, IsDay w year x.2.2.1 x.2.2.2.2.1 ∧ x.1.map C.chr = year.map digitChar ∧
      x.2.1 = C.tok '-' ∧ x.2.2.2.1 = C.tok '-') (dateParts U C) := by
  refine (later_tuple hS (known_many_sat hS (known_digit hS)).1.later (.cons (known_char hS '-').later (.cons (known_two_digits hS).later
    (.cons (known_char hS '-').later (.cons (known_two_digits hS).later .nil))))).iff ?_
  intro w x o
  constructor
  · rintro ⟨y, _, rfl, ⟨h1, h2, h3⟩, _, _, rfl, ⟨rfl, h4⟩, m, _, rfl, h5, _, _, rfl, ⟨rfl, h6⟩, d, _, rfl, h7, rfl⟩
    obtain ⟨year, rfl, hy⟩ := year_digits h2
    exact ⟨year, ⟨_, m, d, ⟨rfl, hy⟩, h5, h7, by simp⟩, by rw [h1, C.map_chr_tok], h4, h6⟩
  · rintro ⟨year, ⟨y, m, d, ⟨rfl, hy⟩, h2, h3, rfl⟩, h4, h5, h6⟩
    refine ⟨year.map digitChar, _, rfl, ⟨?_, ?_, ?_⟩, ['-'], _, rfl, ⟨rfl, h5⟩, m, _, rfl, h2, ['-'], _, rfl, ⟨rfl, h6⟩, d, [], by simp, h3, rfl⟩
    · rw [← h4, C.map_tok_chr]
    · intro c hc
      obtain ⟨a, ha, rfl⟩ := List.mem_map.1 hc
      simpa using Json.digitChar_isDigit (hy a ha)
    · rintro c hc
      cases hc
      rfl

theorem parts_calm (hS : S.Lawful) : Calm (dateParts U C) :=
  calm_tuple (calm_never (C36_many hS (Json.repeatable_digit hS).moves (never_expected (never_satisfy _) _) (progress_expected (progress_satisfy _) _))) (by
    rintro q (rfl | rfl | rfl | rfl | hq)
    · exact char_calm hS _
    · exact two_calm hS
    · exact char_calm hS _
    · exact two_calm hS
    · exact hq.elim)

private theorem decimal_ge (n : Nat) (ds : List Nat) : n ≤ ds.foldl (fun n d => 10 * n + d) n := by
  induction ds generalizing n with
  | nil => exact Nat.le_refl n
  | cons d ds ih => exact Nat.le_trans (by omega) (ih (10 * n + d))

private theorem parse_fold {ds : List Nat} (h : ∀ d ∈ ds, d < 10) (n : Nat) (hn : n ≤ 2147483647) :
    (ds.map digitChar).foldlM (fun (n : Int) c => do
      let d ← toDigit 10 c
      if n * 10 + (d : Int) ≤ 2147483647 then some (n * 10 + (d : Int)) else none) (n : Int) =
      if ds.foldl (fun n d => 10 * n + d) n ≤ 2147483647 then some ((ds.foldl (fun n d => 10 * n + d) n : Nat) : Int) else none := by
  induction ds generalizing n with
  | nil => simp [hn]
  | cons d ds ih =>
    have hd := toDigit_digitChar (h d (by simp))
    rw [List.map_cons, List.foldlM_cons, List.foldl_cons, hd, Option.bind_eq_bind, Option.bind_eq_bind, Option.bind_some]
    have e : (n : Int) * 10 + (d : Int) = ((10 * n + d : Nat) : Int) := by omega
    by_cases hx : 10 * n + d ≤ 2147483647
    · have hx' : (n : Int) * 10 + (d : Int) ≤ 2147483647 := by omega
      rw [if_pos hx', Option.bind_some, e]
      exact ih (fun d hd => h d (by simp [hd])) _ hx
    · have hx' : ¬ (n : Int) * 10 + (d : Int) ≤ 2147483647 := by omega
      have := decimal_ge (10 * n + d) ds
      rw [if_neg hx', Option.bind_none, if_neg (by omega)]

theorem parseI32_digits {ds : List Nat} (h : ∀ d ∈ ds, d < 10) (hf : Fits ds) :
    parseI32 (ds.map digitChar) = some (decimal ds : Int) := by
  have hn : (ds.map digitChar).isEmpty = false := by simpa using hf.1
  simp only [parseI32, hn, Bool.false_eq_true, if_false]
  rw [show (0 : Int) = ((0 : Nat) : Int) from rfl, parse_fold h 0 (by omega)]
  exact if_pos hf.2

theorem parseI32_none {ds : List Nat} (h : ∀ d ∈ ds, d < 10) (hf : ¬ Fits ds) : parseI32 (ds.map digitChar) = none := by
  cases ds with
  | nil => rfl
  | cons d ds =>
    simp only [parseI32, List.map_cons, List.isEmpty_cons, Bool.false_eq_true, if_false]
    rw [show (0 : Int) = ((0 : Nat) : Int) from rfl, ← List.map_cons, parse_fold h 0 (by omega)]
    exact if_neg fun hx => hf ⟨by simp, hx⟩

omit [DecidableEq S.Tok] in
theorem dateVal_some {x : List S.Tok × S.Tok × Int × S.Tok × Int × Unit} {year : List Nat} (hx : x.1.map C.chr = year.map digitChar)
    (h : ∀ d ∈ year, d < 10) {y : Day} : dateVal C x = some y ↔ Fits year ∧ y = ⟨decimal year, x.2.2.1, x.2.2.2.2.1⟩ := by
  rw [dateVal, hx]
  by_cases hf : Fits year
  · rw [parseI32_digits h hf]
    simp [hf, eq_comm]
  · rw [parseI32_none h hf]
    simp [hf]

omit [DecidableEq S.Tok] in
theorem dateVal_none {x : List S.Tok × S.Tok × Int × S.Tok × Int × Unit} {year : List Nat} (hx : x.1.map C.chr = year.map digitChar)
    (h : ∀ d ∈ year, d < 10) : dateVal C x = none ↔ ¬ Fits year := by
  rw [dateVal, hx]
  by_cases hf : Fits year
  · rw [parseI32_digits h hf]
    simp [hf]
  · rw [parseI32_none h hf]
    simp [hf]

theorem date_is (hS : S.Lawful) :
    Later C.chr (fun w (y : Day) _ => ∃ year, IsDay w year y.month y.day ∧ Fits year ∧ y.year = decimal year) (date U C) := by
  refine (later_mapOrPanic hS (parts_is hS) (dateVal C)).iff ?_
  intro w y o
  constructor
  · rintro ⟨x, ⟨year, h1, h2, _, _⟩, h3⟩
    have h1' := h1
    obtain ⟨_, _, _, hd, _⟩ := h1'
    obtain ⟨hf, rfl⟩ := (dateVal_some h2 hd.2).1 h3
    exact ⟨year, h1, hf, rfl⟩
  · rintro ⟨year, h1, hf, h2⟩
    refine ⟨((year.map digitChar).map C.tok, C.tok '-', y.month, C.tok '-', y.day, ()), ⟨year, h1, by rw [C.map_chr_tok], rfl, rfl⟩, ?_⟩
    obtain ⟨_, _, _, hd, _⟩ := h1
    refine (dateVal_some (by rw [C.map_chr_tok]) hd.2).2 ⟨hf, ?_⟩
    rw [← h2]

theorem dateTime_is (hS : S.Lawful) : Later C.chr (fun w x o => IsDateTime o w x) (dateTime U C) := by
  refine (later_map hS (later_tuple hS (date_is hS) (.cons (known_char hS 'T').later (.cons (known_time hS).later .nil))) _).iff ?_
  intro w x o
  constructor
  · rintro ⟨x, ⟨d, _, rfl, ⟨year, h1, h2, h3⟩, _, _, rfl, ⟨rfl, _⟩, t, _, rfl, h4, rfl⟩, rfl⟩
    exact ⟨year, d, t, h1, h2, h3, h4, by simp⟩
  · rintro ⟨year, d, t, h1, h2, h3, h4, rfl⟩
    exact ⟨(x.date, C.tok 'T', x.time, ()), ⟨d, 'T' :: t, rfl, ⟨year, h1, h2, h3⟩, ['T'], t, rfl, ⟨rfl, rfl⟩, t, [], by simp, h4, rfl⟩, rfl⟩

theorem date_abort (hS : S.Lawful) {i : S.Input} (hi : S.isPartial i = false) (a : Abort) :
    (date U C).shape i = .abort a ↔ a = .panic ∧ ∃ w year m d k, S.Reads i (w.map C.tok) k ∧ IsDay w year m d ∧ ¬ Fits year := by
  have hd := C63_describes (parts_is (U := U) (C := C) hS).is
  rw [date, shape_mapOrPanic]
  constructor
  · intro h
    cases hx : (dateParts U C).shape i with
    | ok c v k =>
      rw [hx] at h
      dsimp only at h
      cases hg : dateVal C v with
      | some y => rw [hg] at h; cases h
      | none =>
        rw [hg] at h
        cases h
        obtain ⟨w, h1, _, year, h2, h3, _⟩ := (hd i c v k hi).1 hx
        refine ⟨rfl, w.map C.chr, year, _, _, k, by rw [C.map_tok_chr]; exact h1, h2, ?_⟩
        obtain ⟨_, _, _, hy, _⟩ := h2
        exact (dateVal_none h3 hy.2).1 hg
    | abort b => exact (parts_calm hS i b hx).elim
    | _ => rw [hx] at h; cases h
  · rintro ⟨rfl, w, year, m, d, k, h1, h2, h3⟩
    have hv : dateVal C ((year.map digitChar).map C.tok, C.tok '-', m, C.tok '-', d, ()) = none := by
      obtain ⟨_, _, _, hy, _⟩ := h2
      exact (dateVal_none (by rw [C.map_chr_tok]) hy.2).2 h3
    rw [(hd i _ ((year.map digitChar).map C.tok, C.tok '-', m, C.tok '-', d, ()) k hi).2 ⟨w.map C.tok, h1, rfl, year,
      by rw [C.map_chr_tok]; exact h2, by rw [C.map_chr_tok], rfl, rfl⟩]
    simp only [hv]

theorem dateTime_abort (hS : S.Lawful) (i : S.Input) (a : Abort) : (dateTime U C).shape i = .abort a ↔ (date U C).shape i = .abort a := by
  have e : (dateTime U C).shape i = ((tuple (date U C) (.cons (char C 'T') (.cons (time U C) .nil))).shape i).map _ :=
    mapShape (τ := Unit) ((tuple (date U C) (.cons (char C 'T') (.cons (time U C) .nil))).run true i _) _
  rw [e, ← tuple_abort (p := date U C) (ps := .cons (char C 'T') (.cons (time U C) .nil)) (by
    rintro q (rfl | rfl | hq)
    · exact char_calm hS _
    · exact time_calm hS
    · exact hq.elim)]
  cases (tuple (date U C) (.cons (char C 'T') (.cons (time U C) .nil))).shape i <;> simp [Answer.map]

end Date

end Verif
