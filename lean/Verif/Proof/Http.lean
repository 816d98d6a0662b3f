import Verif.Spec.Http
import Verif.Proof.Known

/-!
# The HTTP parser, function by function
-/

namespace Verif.Http

variable {S : Strm} [DecidableEq S.Tok] [DecidableEq S.Rng] {R : RangeOps S} {B : Octets S} {wt : S.Tok → Nat}

/-- The tokens of a slice. -/
abbrev toks (B : Octets S) (r : S.Rng) : List S.Tok := (B.slice r).map B.tok

omit [DecidableEq S.Tok] [DecidableEq S.Rng] in
theorem toks_iff {r : S.Rng} {w : List S.Tok} : toks B r = w ↔ B.slice r = w.map B.byte := by
  constructor
  · rintro rfl
    simp [toks, B.byte_tok, Function.comp_def]
  · intro h
    simp [toks, h, B.tok_byte, Function.comp_def]

omit [DecidableEq S.Tok] [DecidableEq S.Rng] in
theorem known_while1 (hS : S.Lawful) (hR : R.Lawful (toks B) wt) (hE : S.EndsOnly) (f : UInt8 → Bool) :
    Known B.byte (fun w r o => B.slice r = w ∧ Some1 f w ∧ ∀ b, o = some b → f b = false) (fun o => ∀ b, o = some b → f b = false)
      (while1 R B f) := by
  refine ⟨⟨moves_takeWhile1 hS hR _, _, keeps_takeWhile1 (h := false) R _⟩, C63_is_iff (C63_is_take_while1 hS hR hE _) ?_,
    C63_fails_iff (C63_is_take_while1_fails hS hR hE _) ?_⟩
  · intro w r o
    simp only [toks_iff, Texts.pull, Some1]
    cases o <;> simp [and_assoc]
  · intro o
    cases o <;> simp

omit [DecidableEq S.Rng] in
theorem known_token (hS : S.Lawful) (b : UInt8) :
    Known B.byte (fun w v _ => w = [b] ∧ v = B.tok b) (fun o => o ≠ some b) (token S (B.tok b)) := by
  have e : ∀ t, t = B.tok b ↔ B.byte t = b := fun t => by
    constructor
    · rintro rfl; exact B.byte_tok b
    · rintro rfl; exact (B.tok_byte t).symm
  have h := known_one (f := B.byte) (g := fun c => if c = b then some (B.tok b) else none) (moves_token hS (B.tok b)) fun i => by
    have h := C53_token hS (B.tok b) i
    have e' : (fun t => if t = B.tok b then some t else none) = fun t => if B.byte t = b then some (B.tok b) else none := by
      funext t
      by_cases hb : B.byte t = b
      · rw [if_pos hb, if_pos ((e t).2 hb), (e t).2 hb]
      · rw [if_neg hb, if_neg (fun h => hb ((e t).1 h))]
    rw [e'] at h
    exact h
  refine h.iff ?_ ?_
  · intro w v o
    constructor
    · rintro ⟨c, rfl, h⟩
      split at h
      · next hc => subst hc; cases h; exact ⟨rfl, rfl⟩
      · cases h
    · rintro ⟨rfl, rfl⟩
      exact ⟨b, rfl, by simp⟩
  · intro o
    cases o with
    | none => simp
    | some c => simp

/-- The value `end_of_line` returns. -/
def EolValue (w : List UInt8) (v : UInt8) : Prop := w = [13, 10] ∧ v = 13 ∨ w = [10] ∧ v = 10

omit [DecidableEq S.Rng] in
theorem known_endOfLine (hS : S.Lawful) :
    Known B.byte (fun w v _ => EolValue w v) (fun o => o ≠ some 13 ∧ o ≠ some 10) (endOfLine B) := by
  have h13 := known_token (B := B) hS 13
  have h10 := known_token (B := B) hS 10
  have h1 := known_map hS (known_tuple hS h13 (.cons h10.later .nil) (by simp)) fun _ => (13 : UInt8)
  have h2 := known_map hS h10 B.byte
  refine (known_or hS h1 h2).iff ?_ fun o => Iff.rfl
  intro w v o
  constructor
  · rintro (⟨x, ⟨u, z, rfl, ⟨rfl, _⟩, u', z', rfl, ⟨rfl, _⟩, rfl⟩, rfl⟩ | ⟨_, x, ⟨rfl, rfl⟩, rfl⟩)
    · exact .inl ⟨rfl, rfl⟩
    · exact .inr ⟨rfl, B.byte_tok _⟩
  · rintro (⟨rfl, rfl⟩ | ⟨rfl, rfl⟩)
    · exact .inl ⟨(_, _, ()), ⟨[13], [10], rfl, ⟨rfl, rfl⟩, [10], [], rfl, ⟨rfl, rfl⟩, rfl⟩, rfl⟩
    · exact .inr ⟨by simp [lead], _, ⟨rfl, rfl⟩, B.byte_tok _⟩

theorem lead_some1 {f : UInt8 → Bool} {w u : List UInt8} (h : Some1 f w) (o : Option UInt8) :
    ∃ b, lead (w ++ u) o = some b ∧ f b = true ∧ w.head? = some b := by
  cases w with
  | nil => exact (h.1 rfl).elim
  | cons b w => exact ⟨b, rfl, h.2 b (by simp), rfl⟩

theorem lead_eol {e u : List UInt8} {v : UInt8} (h : EolValue e v) (o : Option UInt8) : lead (e ++ u) o = some 13 ∨ lead (e ++ u) o = some 10 := by
  rcases h with ⟨rfl, _⟩ | ⟨rfl, _⟩
  · exact .inl rfl
  · exact .inr rfl

theorem isEol_iff {e : List UInt8} : IsEol e ↔ ∃ v, EolValue e v := by
  constructor
  · rintro (h | h)
    · exact ⟨_, .inl ⟨h, rfl⟩⟩
    · exact ⟨_, .inr ⟨h, rfl⟩⟩
  · rintro ⟨_, ⟨h, _⟩ | ⟨h, _⟩⟩
    · exact .inl h
    · exact .inr h

omit [DecidableEq S.Rng] in
theorem known_line (hS : S.Lawful) (hR : R.Lawful (toks B) wt) (hE : S.EndsOnly) :
    Known B.byte (fun w r _ => IsLine w (B.slice r)) (fun o => ∀ b, o = some b → isHorizontalSpace b = false)
      (messageHeaderLine R B) := by
  refine (known_map hS (known_tuple hS (known_while1 hS hR hE isHorizontalSpace) (.cons (known_while1 hS hR hE isContent).later
    (.cons (known_endOfLine hS).later .nil)) (by rintro v o ⟨_, ⟨h, _⟩, _⟩; exact h rfl)) _).iff ?_ fun _ => Iff.rfl
  intro w r o
  constructor
  · rintro ⟨⟨x, y, e, _⟩, ⟨_, _, rfl, ⟨rfl, h1, h2⟩, _, _, rfl, ⟨rfl, h3, h4⟩, u, z, rfl, h5, rfl⟩, rfl⟩
    refine ⟨B.slice x, u, by simp, h1, h3, ?_, isEol_iff.2 ⟨_, h5⟩⟩
    intro c hc
    obtain ⟨b, k1, _, k2⟩ := lead_some1 h3 (u := u ++ []) o
    have := h2 b k1
    rw [hc] at k2
    cases k2
    exact this
  · rintro ⟨sp, e, rfl, h1, h2, h3, h4⟩
    obtain ⟨v, h4⟩ := isEol_iff.1 h4
    refine ⟨(B.lit sp, r, v, ()), ⟨sp, B.slice r ++ e, by simp, ⟨B.slice_lit _, h1, ?_⟩, B.slice r, e, rfl, ⟨rfl, h2, ?_⟩, e, [], by simp, h4, rfl⟩, rfl⟩
    · intro b hb
      obtain ⟨b', k1, _, k2⟩ := lead_some1 h2 (u := e) o
      rw [k1] at hb
      cases hb
      exact h3 _ k2
    · intro b hb
      rcases lead_eol (u := []) h4 o with h | h <;> rw [List.append_nil, hb] at h <;> cases h <;> rfl

theorem isLine_nonempty {w v : List UInt8} (h : IsLine w v) : w ≠ [] := by
  obtain ⟨sp, e, rfl, h1, _⟩ := h
  have := h1.1
  cases sp <;> simp_all

theorem many_each {α : Type} {P : List UInt8 → α → Prop} (hP : ∀ w v, P w v → w ≠ []) {w : List UInt8} {vs : List α} {o : Option UInt8} :
    Texts.Many (fun w v _ => P w v) w vs o ↔ Each P w vs := by
  constructor
  · intro h
    induction h with
    | nil => exact .nil
    | cons _ h2 _ ih => exact .cons h2 ih
  · intro h
    induction h with
    | nil => exact .nil
    | cons h2 _ ih => exact .cons (hP _ _ h2) h2 ih

theorem each_map {α β : Type} {P : List UInt8 → β → Prop} (g : α → β) {w : List UInt8} {vs : List α} :
    Each (fun w v => P w (g v)) w vs ↔ Each P w (vs.map g) := by
  constructor
  · intro h
    induction h with
    | nil => exact .nil
    | cons h _ ih => exact .cons h ih
  · intro h
    generalize hx : vs.map g = xs at h
    induction h generalizing vs with
    | nil => cases List.map_eq_nil_iff.1 hx; exact .nil
    | cons h _ ih =>
      obtain ⟨v, vs, rfl, rfl, rfl⟩ := List.map_eq_cons_iff.1 hx
      exact .cons h (ih rfl)

/-- After a header no line of it goes on. -/
def Ended (o : Option UInt8) : Prop := ∀ b, o = some b → isHorizontalSpace b = false

omit [DecidableEq S.Rng] in
theorem known_header (hS : S.Lawful) (hR : R.Lawful (toks B) wt) (hE : S.EndsOnly) :
    Known B.byte (fun w h o => IsHeader w (h.map B.slice) ∧ Ended o) (fun o => ∀ b, o = some b → isToken b = false)
      (messageHeader R B) := by
  refine (known_map hS (known_tuple hS (known_while1 hS hR hE isToken) (.cons (known_token hS 58).later
    (.cons (known_many1 hS (known_line hS hR hE) (by intro v o h; exact isLine_nonempty h rfl)).later .nil))
    (by rintro v o ⟨_, ⟨h, _⟩, _⟩; exact h rfl)) _).iff ?_ fun _ => Iff.rfl
  intro w h o
  constructor
  · rintro ⟨⟨x, y, vs, _⟩, ⟨_, _, rfl, ⟨rfl, h1, h2⟩, _, _, rfl, ⟨rfl, h3⟩, u, z, rfl, ⟨h4, h5, h6⟩, rfl⟩, rfl⟩
    refine ⟨⟨u, by simp [Header.map], h1, (each_map _).1 ((many_each fun _ _ => isLine_nonempty).1 h4), by simpa [Header.map] using h5⟩, h6⟩
  · rintro ⟨⟨u, rfl, h1, h2, h3⟩, h4⟩
    refine ⟨(h.name, B.tok 58, h.value, ()), ⟨B.slice h.name, 58 :: u, rfl, ⟨rfl, h1, ?_⟩, [58], u, rfl, ⟨rfl, rfl⟩, u, [], by simp,
      ⟨(many_each fun _ _ => isLine_nonempty).2 ((each_map _).2 h2), by simpa [Header.map] using h3, h4⟩, rfl⟩, rfl⟩
    intro b hb
    cases hb
    rfl

theorem isHeader_some1 {w : List UInt8} {h : Header (List UInt8)} (hw : IsHeader w h) : ∃ n u, w = n ++ u ∧ Some1 isToken n := by
  obtain ⟨u, rfl, h1, _⟩ := hw
  exact ⟨_, _, rfl, h1⟩

theorem isHeader_nonempty {w : List UInt8} {h : Header (List UInt8)} (hw : IsHeader w h) : w ≠ [] := by
  obtain ⟨n, u, rfl, h1⟩ := isHeader_some1 hw
  have := h1.1
  cases n <;> simp_all

theorem not_space_of_token {b : UInt8} (h : isToken b = true) : isHorizontalSpace b = false := by
  cases hb : isHorizontalSpace b with
  | false => rfl
  | true =>
    simp only [isHorizontalSpace, Bool.or_eq_true, beq_iff_eq] at hb
    rcases hb with rfl | rfl <;> cases h

omit [DecidableEq S.Tok] [DecidableEq S.Rng] in
theorem many_headers {w : List UInt8} {hs : List (Header S.Rng)} {o : Option UInt8} (ho : Ended o) :
    Texts.Many (fun w h o => IsHeader w (Header.map B.slice h) ∧ Ended o) w hs o ↔ Each IsHeader w (hs.map (Header.map B.slice)) := by
  rw [← each_map]
  constructor
  · intro h
    induction h with
    | nil => exact .nil
    | cons _ h2 _ ih => exact .cons h2.1 (ih ho)
  · intro h
    induction h with
    | nil => exact .nil
    | @cons w u v vs h2 h3 ih =>
      refine .cons (isHeader_nonempty h2) ⟨h2, ?_⟩ ih
      cases h3 with
      | nil => exact ho
      | @cons w' u' _ _ h4 _ =>
        obtain ⟨n, z, rfl, h5⟩ := isHeader_some1 h4
        obtain ⟨b, k1, k2, _⟩ := lead_some1 h5 (u := z ++ u') o
        intro c hc
        rw [List.append_assoc, k1] at hc
        cases hc
        exact not_space_of_token k2

omit [DecidableEq S.Tok] in
theorem version_is (hS : S.Lawful) (hR : R.Lawful (toks B) wt) (hE : S.EndsOnly) :
    Later B.byte (fun w r o => w = label ++ B.slice r ∧ Some1 isHttpVersion (B.slice r) ∧ ∀ b, o = some b → isHttpVersion b = false)
      (httpVersion R B) := by
  have hne : toks B (B.lit label) ≠ [] := by simp [toks, B.slice_lit, label]
  have h1 : Later B.byte (fun w x _ => w = label ∧ x = B.lit label) (range R (B.lit label)) := by
    refine ⟨.unit (moves_range hS hR _), C63_is_iff (C63_is_range hR _ hne) fun w v o => ?_⟩
    rw [eq_comm (a := w), toks_iff, B.slice_lit, eq_comm (a := label)]
    rfl
  refine (later_with hS h1 (known_while1 hS hR hE isHttpVersion).later).iff fun w r o => ?_
  constructor
  · rintro ⟨u, z, x, rfl, ⟨rfl, _⟩, rfl, h2, h3⟩
    exact ⟨rfl, h2, h3⟩
  · rintro ⟨rfl, h2, h3⟩
    exact ⟨label, _, _, rfl, ⟨rfl, rfl⟩, rfl, h2, h3⟩

omit [DecidableEq S.Tok] in
theorem known_requestLine (hS : S.Lawful) (hR : R.Lawful (toks B) wt) (hE : S.EndsOnly) :
    Known B.byte (fun w r o => IsRequestLine w (r.map B.slice) ∧ ∀ b, o = some b → isHttpVersion b = false)
      (fun o => ∀ b, o = some b → isToken b = false) (requestLine R B) := by
  refine (known_map hS (known_tuple hS (known_while1 hS hR hE isToken) (.cons (known_while1 hS hR hE isSpace).later
    (.cons (known_while1 hS hR hE isNotSpace).later (.cons (known_while1 hS hR hE isSpace).later (.cons (version_is hS hR hE) .nil))))
    (by rintro v o ⟨_, ⟨h, _⟩, _⟩; exact h rfl)) _).iff ?_ fun _ => Iff.rfl
  intro w r o
  constructor
  · rintro ⟨⟨m, x, u, y, v, _⟩, ⟨_, _, rfl, ⟨rfl, a1, _⟩, _, _, rfl, ⟨rfl, a2, _⟩, _, _, rfl, ⟨rfl, a3, _⟩, _, _, rfl, ⟨rfl, a4, _⟩,
      _, _, rfl, ⟨rfl, a5, a6⟩, rfl⟩, rfl⟩
    exact ⟨⟨B.slice x, B.slice y, by simp [Request.map], a1, a2, a3, a4, a5⟩, by simpa [lead] using a6⟩
  · rintro ⟨⟨s1, s2, rfl, a1, a2, a3, a4, a5⟩, a6⟩
    have key : ∀ {f g : UInt8 → Bool} (u z : List UInt8), Some1 g u → (∀ b, g b = true → f b = false) →
        ∀ b, lead (u ++ z) o = some b → f b = false := by
      intro f g u z h1 h2 b hb
      obtain ⟨b', k1, k2, _⟩ := lead_some1 h1 (u := z) o
      rw [k1] at hb
      cases hb
      exact h2 _ k2
    refine ⟨(r.method, B.lit s1, r.uri, B.lit s2, r.version, ()), ⟨B.slice r.method, _, ?_, ⟨rfl, a1, ?_⟩, s1, _, rfl,
      ⟨B.slice_lit _, a2, ?_⟩, B.slice r.uri, _, rfl, ⟨rfl, a3, ?_⟩, s2, label ++ B.slice r.version, rfl,
      ⟨B.slice_lit _, a4, ?_⟩, label ++ B.slice r.version, [], by simp, ⟨rfl, a5, a6⟩, rfl⟩, rfl⟩
    · simp [Request.map]
    · refine key _ _ a2 fun b hb => ?_
      simp only [isSpace, beq_iff_eq] at hb
      subst hb
      rfl
    · refine key _ _ a3 fun b hb => ?_
      simpa [isNotSpace, isSpace] using hb
    · refine key _ _ a4 fun b hb => ?_
      simpa [isNotSpace, isSpace] using hb
    · intro b hb
      cases hb
      rfl

theorem known_request (hS : S.Lawful) (hR : R.Lawful (toks B) wt) (hE : S.EndsOnly) :
    Known B.byte (fun w r _ => IsRequest w (r.1.map B.slice, r.2.map (Header.map B.slice)))
      (fun o => ∀ b, o = some b → isToken b = false) (request R B) := by
  have hne : ∀ (v : Request S.Rng) (o : Option UInt8),
      ¬ (IsRequestLine [] (v.map B.slice) ∧ ∀ b, o = some b → isHttpVersion b = false) := by
    rintro v o ⟨⟨s1, s2, h, h1, _⟩, _⟩
    have := h1.1
    simp at h
    exact this h.1
  refine (known_map hS (known_tuple hS (known_requestLine hS hR hE) (.cons (known_endOfLine hS).later
    (.cons (known_many hS (known_header hS hR hE) (by rintro v o ⟨h, _⟩; exact isHeader_nonempty h rfl)).later
    (.cons (known_endOfLine hS).later .nil))) hne) _).iff ?_ fun _ => Iff.rfl
  intro w r o
  have ended : ∀ {e : List UInt8} {v : UInt8}, EolValue e v → Ended (lead e o) := by
    intro e v h b hb
    rcases lead_eol (u := []) h o with h | h <;> rw [List.append_nil, hb] at h <;> cases h <;> rfl
  constructor
  · rintro ⟨⟨l, x, hs, y, _⟩, ⟨_, _, rfl, ⟨a1, _⟩, e, _, rfl, a2, u, _, rfl, ⟨a3, _⟩, e', _, rfl, a4, rfl⟩, rfl⟩
    refine ⟨_, e, u, e', by simp, a1, isEol_iff.2 ⟨_, a2⟩, (many_headers ?_).1 a3, isEol_iff.2 ⟨_, a4⟩⟩
    have := ended a4
    simpa using this
  · rintro ⟨l, e, u, e', rfl, a1, a2, a3, a4⟩
    obtain ⟨x, a2⟩ := isEol_iff.1 a2
    obtain ⟨y, a4⟩ := isEol_iff.1 a4
    refine ⟨(r.1, x, r.2, y, ()), ⟨l, _, by simp only [List.append_assoc], ⟨a1, ?_⟩, e, _, rfl, a2, u, e', rfl,
      ⟨(many_headers (ended a4)).2 a3, ?_⟩, e', [], by simp, a4, rfl⟩, rfl⟩
    · intro b hb
      rcases lead_eol a2 o with h | h <;> rw [hb] at h <;> cases h <;> rfl
    · intro b hb
      rcases lead_eol (u := []) a4 o with h | h <;> rw [List.append_nil, hb] at h <;> cases h <;> rfl

end Verif.Http
