import Verif.Spec.Classes
import Verif.Props.Tokens
import Verif.Props.Repeat
import Verif.Proof.SliceLaws
import Verif.Proof.StrLaws

/-!
# C53: parsers of one token, and the named classes of characters and bytes
-/

namespace Verif

variable {S : Strm} {α : Type}

private theorem one_of_impl (hS : S.Lawful) {p : Parser S Unit α} {f : S.Tok → Option α} (i : S.Input)
    (h1 : (p.run true i p.init).res = (satisfyImpl S f i).1) (h2 : (p.run true i p.init).inp = (satisfyImpl S f i).2) :
    S.IsOne f i (p.shape i) := by
  unfold Parser.shape Parser.answer Out.answer
  rw [h1, h2]
  cases hu : S.uncons i with
  | mk x j =>
    cases x with
    | ok t =>
      refine .inl ⟨t, j, hu, ?_⟩
      cases hf : f t with
      | some v =>
        simp only [satisfyImpl, Strm.unconsP, hu, hf]
        rfl
      | none =>
        simp only [satisfyImpl, Strm.unconsP, hu, hf]
        rfl
    | error e =>
      obtain rfl := hS.uncons_error hu
      refine .inr ⟨⟨e, by rw [hu]⟩, ?_⟩
      simp only [satisfyImpl, Strm.unconsP, hu, Strm.wrapStreamError]
      cases S.isPartial j with
      | true =>
        rfl
      | false =>
        rfl

/-- **C53.**  `satisfy_map`. -/
theorem C53_satisfy_map (hS : S.Lawful) (f : S.Tok → Option α) (i : S.Input) :
    S.IsOne f i ((satisfyMap S f).shape i) :=
  one_of_impl hS i rfl rfl

/-- **C53.**  `satisfy`. -/
theorem C53_satisfy (hS : S.Lawful) (f : S.Tok → Bool) (i : S.Input) :
    S.IsOne (fun t => if f t then some t else none) i ((satisfy S f).shape i) := C53_satisfy_map hS _ i

/-- **C53.**  `any`. -/
theorem C53_any (hS : S.Lawful) (i : S.Input) : S.IsOne some i ((any S).shape i) := by
  refine one_of_impl hS i ?_ ?_
  all_goals
    simp only [any, Parser.ofLazy, satisfyImpl, Strm.unconsP]
    cases S.uncons i with
    | mk x j =>
      cases x with
      | ok t => rfl
      | error e => simp only [Strm.wrapStreamError]; cases S.isPartial j <;> rfl

/-- **C53.**  `token`. -/
theorem C53_token (hS : S.Lawful) [DecidableEq S.Tok] (c : S.Tok) (i : S.Input) :
    S.IsOne (fun t => if t = c then some t else none) i ((token S c).shape i) := C53_satisfy_map hS _ i

/-- **C53.**  `one_of`. -/
theorem C53_one_of (hS : S.Lawful) [DecidableEq S.Tok] (cs : List S.Tok) (i : S.Input) :
    S.IsOne (fun t => if t ∈ cs then some t else none) i ((oneOf S cs).shape i) := by
  have h := C53_satisfy hS (fun c => cs.any fun t => t = c) i
  have e : ∀ t, (cs.any fun x => decide (x = t)) = decide (t ∈ cs) := by
    intro t
    rw [Bool.eq_iff_iff]
    simp
  simp only [e, decide_eq_true_eq] at h
  have e' : (oneOf S cs).shape i = (satisfy S fun c => cs.any fun t => decide (t = c)).shape i := rfl
  rw [e']
  simp only [e]
  exact h

/-- **C53.**  `none_of`. -/
theorem C53_none_of (hS : S.Lawful) [DecidableEq S.Tok] (cs : List S.Tok) (i : S.Input) :
    S.IsOne (fun t => if t ∈ cs then none else some t) i ((noneOf S cs).shape i) := by
  have h := C53_satisfy hS (fun c => cs.all fun t => t ≠ c) i
  have e : ∀ t, (cs.all fun x => decide (x ≠ t)) = !decide (t ∈ cs) := by
    intro t
    rw [Bool.eq_iff_iff]
    simp only [List.all_eq_true, decide_eq_true_eq, Bool.not_eq_true', decide_eq_false_iff_not]
    exact ⟨fun h hm => h t hm rfl, fun h x hx hxt => h (hxt ▸ hx)⟩
  have e' : (noneOf S cs).shape i = (satisfy S fun c => cs.all fun t => decide (t ≠ c)).shape i := rfl
  rw [e']
  simp only [e] at h ⊢
  have : (fun t => if t ∈ cs then none else some t) = fun t => if (!decide (t ∈ cs)) = true then some t else none := by
    funext t
    by_cases hm : t ∈ cs <;> simp [hm]
  rw [this]
  exact h

/-- **C53.**  A labelled class. -/
theorem C53_named (hS : S.Lawful) (f : S.Tok → Bool) (n : String) (i : S.Input) :
    S.IsOne (fun t => if f t then some t else none) i ((satisfyNamed S f n).shape i) := by
  have : (satisfyNamed S f n).shape i = (satisfy S f).shape i := by
    simp only [satisfyNamed, expected, Parser.shape, Parser.answer, Parser.ofMode, Parser.ofLazy, satisfy]
  rw [this]
  exact C53_satisfy hS f i

/-- **C53.**  There is one answer. -/
theorem C53_unique (f : S.Tok → Option α) (i : S.Input) (a b : Answer S.Input Unit α) (ha : S.IsOne f i a)
    (hb : S.IsOne f i b) : a = b := by
  rcases ha with ⟨t, j, h1, h2⟩ | ⟨⟨e, h1⟩, h2⟩ <;> rcases hb with ⟨t', j', h1', h2'⟩ | ⟨⟨e', h1'⟩, h2'⟩
  · rw [h1] at h1'
    cases h1'
    rw [h2, h2']
  · rw [h1] at h1'; cases h1'
  · rw [h1'] at h1; cases h1
  · rw [h2, h2']

/-! ## The classes -/

/-- **C53.**  Which bytes the classes of `parser::byte` are for. -/
theorem C53_byte_members (k : TokenClass) (b : UInt8) : k.byte.1 b = true ↔ ∃ c ∈ k.ascii, c.toNat = b.toNat := by
  have h : ∀ n < 256, k.byte.1 (UInt8.ofNat n) = (k.ascii.map Char.toNat).contains n := by
    cases k <;> decide +kernel
  have := h b.toNat b.toNat_lt
  rw [UInt8.ofNat_toNat] at this
  rw [this]
  simp

private def noTables : Unicode := ⟨fun _ => false, fun _ => false, fun _ => false, fun _ => false, fun _ => false⟩

private theorem char_tables (U : Unicode) (k : TokenClass) (c : Char) (hc : c.toNat < 128) :
    (k.char U).1 c = (k.char noTables).1 c := by
  have : decide (c.toNat > 127) = false := decide_eq_false (by omega)
  cases k <;> simp [TokenClass.char, Unicode.isWhitespace, Unicode.isUppercase, Unicode.isLowercase, Unicode.isAlphabetic,
    Unicode.isAlphanumeric, Unicode.isNumeric, this]

/-- **C53.**  Which ASCII characters the classes of `parser::char` are for: the same, but for the vertical tab, which is
white space there. -/
theorem C53_char_members (U : Unicode) (k : TokenClass) (c : Char) (hc : c.toNat < 128) :
    (k.char U).1 c = true ↔ c ∈ k.ascii ∨ (c = '\x0b' ∧ k = .space) := by
  rw [char_tables U k c hc]
  have h : ∀ n < 128, (k.char noTables).1 (Char.ofNat n) = (k.ascii.contains (Char.ofNat n) || (n == 11 && k matches .space)) := by
    cases k <;> decide +kernel
  have h := h c.toNat hc
  rw [Char.ofNat_toNat] at h
  rw [h]
  have hv : c.toNat = 11 ↔ c = '\x0b' := by
    constructor
    · intro h
      rw [← Char.ofNat_toNat c, h]
    · rintro rfl; rfl
  cases k <;> simp [hv]

/-- **C53.**  Digits, octal and hexadecimal digits, newline and tab are ASCII. -/
theorem C53_char_ascii (U : Unicode) (k : TokenClass) (hk : k.asciiOnly = true) (c : Char) (h : (k.char U).1 c = true) :
    c.toNat < 128 := by
  have key : ∀ r, isDigit r c = true → c.toNat < 128 := by
    intro r
    simp only [isDigit, toDigit]
    split
    · intro _; simp_all; omega
    · split
      · intro _; simp_all; omega
      · split
        · intro _; simp_all; omega
        · intro h; cases h
  cases k with
  | digit => exact key _ h
  | octDigit => exact key _ h
  | hexDigit => exact key _ h
  | newline => simp only [TokenClass.char, beq_iff_eq] at h; subst h; decide
  | tab => simp only [TokenClass.char, beq_iff_eq] at h; subst h; decide
  | _ => cases hk

/-- **C53.**  `to_digit(16)` knows the usual digits, with their values. -/
theorem C53_to_digit (c : Char) (n : Nat) : toDigit 16 c = some n ↔ (c, n) ∈ digits := by
  by_cases hc : c.toNat < 128
  · have h : ∀ m < 128, ∀ n < 16, (toDigit 16 (Char.ofNat m) == some n) = digits.contains (Char.ofNat m, n) := by
      decide +kernel
    by_cases hn : n < 16
    · have := h c.toNat hc n hn
      rw [Char.ofNat_toNat] at this
      rw [← beq_iff_eq (a := toDigit 16 c), this]
      simp
    · constructor
      · intro h
        simp only [toDigit] at h
        have := Option.filter_eq_some_iff.1 h
        simp at this
        omega
      · intro h
        simp only [digits, List.mem_cons, Prod.mk.injEq, List.not_mem_nil, or_false] at h
        omega
  · constructor
    · intro h
      exact absurd (C53_char_ascii noTables .hexDigit rfl c (by simp [TokenClass.char, isDigit, h])) hc
    · intro h
      have : ∀ x ∈ digits, x.1.toNat < 128 := by decide
      exact absurd (this _ h) hc

/-- **C53.**  The classes of `parser::byte`. -/
theorem C53_byte (hS : S.Lawful) (byte : S.Tok → UInt8) (k : TokenClass) (i : S.Input) :
    S.IsOne (fun t => if ∃ c ∈ k.ascii, c.toNat = (byte t).toNat then some t else none) i ((byteClass S byte k).shape i) := by
  have h := C53_named hS (fun t => k.byte.1 (byte t)) k.byte.2 i
  have e : (fun t => if k.byte.1 (byte t) = true then some t else none) =
      fun t => if ∃ c ∈ k.ascii, c.toNat = (byte t).toNat then some t else none := by
    funext t
    by_cases hm : ∃ c ∈ k.ascii, c.toNat = (byte t).toNat
    · rw [if_pos hm, if_pos ((C53_byte_members k _).2 hm)]
    · rw [if_neg hm, if_neg (fun x => hm ((C53_byte_members k _).1 x))]
  rw [← e]
  exact h

/-- **C53.**  The classes of `parser::char`. -/
theorem C53_char (hS : S.Lawful) (U : Unicode) (chr : S.Tok → Char) (k : TokenClass) (i : S.Input) :
    S.IsOne (fun t => if (k.char U).1 (chr t) then some t else none) i ((charClass S U chr k).shape i) :=
  C53_named hS (fun t => (k.char U).1 (chr t)) (k.char U).2 i

/-- **C53.**  On ASCII the two modules agree, but for the vertical tab. -/
theorem C53_agree (U : Unicode) (k : TokenClass) (c : Char) (b : UInt8) (hb : b.toNat < 128) (hc : c.toNat = b.toNat)
    (hv : k = .space → b ≠ 11) : (k.char U).1 c = k.byte.1 b := by
  rw [Bool.eq_iff_iff, C53_char_members U k c (by omega), C53_byte_members]
  constructor
  · rintro (h | ⟨rfl, h⟩)
    · exact ⟨c, h, hc⟩
    · exact absurd (UInt8.toNat_inj.1 hc.symm) (hv h)
  · rintro ⟨c', h1, h2⟩
    have : c' = c := by rw [← Char.ofNat_toNat c', ← Char.ofNat_toNat c, h2, hc]
    exact .inl (this ▸ h1)

/-- **C53.**  `crlf` is for carriage return and line feed; it commits to the former. -/
theorem C53_crlf (hS : S.Lawful) [DecidableEq S.Tok] (cr lf : S.Tok) (i : S.Input) :
    S.IsTokens (fun c t => decide (t = c)) [cr, lf] lf i ((crlf S cr lf).shape i) := by
  have e : (crlf S cr lf).shape i = («with» (satisfy S fun c => c = cr) (newline S lf)).shape i := by
    have := (coherent_with hS (moves_satisfy hS fun c => decide (c = cr)) (moves_newline hS lf)).lazy i
    exact congrArg Answer.shape this
  rw [e, C12_with, Ref.bind]
  rcases C53_satisfy hS (fun c => decide (c = cr)) i with ⟨t, j, h1, h2⟩ | ⟨h1, h2⟩
  · rw [h2]
    by_cases ht : t = cr
    · subst ht
      simp only [decide_true, if_true]
      have hn := C53_named hS (fun c => decide (c = lf)) "lf newline" j
      have hb : S.StartsWith (fun c t => decide (t = c)) [t] i j := ⟨[t], .cons h1 (.nil _), by simp [EqualBy]⟩
      rcases hn with ⟨u, k, h3, h4⟩ | ⟨h3, h4⟩
      · rw [newline, h4]
        by_cases hu : u = lf
        · subst hu
          simp only [decide_true, if_true]
          exact .inl ⟨k, ⟨[t, u], .cons h1 (.cons h3 (.nil _)), by simp [EqualBy]⟩, rfl⟩
        · simp only [hu, decide_false, Bool.false_eq_true, if_false]
          exact .inr ⟨[t], lf, [], j, rfl, hb, .inl ⟨u, k, h3, by simp [hu], rfl⟩⟩
      · rw [newline, h4]
        refine .inr ⟨[t], lf, [], j, rfl, hb, .inr ⟨h3, ?_⟩⟩
        cases S.isPartial j <;> simp [Answer.after]
    · simp only [ht, decide_false, Bool.false_eq_true, if_false]
      exact .inr ⟨[], cr, [lf], i, rfl, ⟨[], .nil _, trivial⟩, .inl ⟨t, j, h1, by simp [ht], rfl⟩⟩
  · rw [h2]
    refine .inr ⟨[], cr, [lf], i, rfl, ⟨[], .nil _, trivial⟩, .inr ⟨h1, ?_⟩⟩
    cases S.isPartial i <;> rfl

private theorem run_reads {f : S.Tok → Bool} {p : Parser S Unit S.Tok}
    (hp : ∀ i, S.IsOne (fun t => if f t then some t else none) i (p.shape i)) {i k : S.Input} {vs : List S.Tok} {c : Bool}
    (h : Ref.Run p.answer i vs c k) : S.Reads i vs k ∧ (∀ t ∈ vs, f t = true) ∧ c = !vs.isEmpty := by
  induction h with
  | nil i => exact ⟨.nil i, by simp, rfl⟩
  | @cons i j k c d v vs h _ ih =>
    obtain ⟨h1, h2, h3⟩ := ih
    have hi := hp i
    rw [show p.shape i = .ok c v j from congrArg Answer.shape h] at hi
    rcases hi with ⟨t, j, h4, h5⟩ | ⟨_, h5⟩
    · by_cases ht : f t = true
      · simp only [ht, if_true] at h5
        cases h5
        exact ⟨.cons h4 h1, by simpa [ht] using h2, rfl⟩
      · simp only [ht] at h5
        cases h5
    · split at h5 <;> cases h5

/-- **C53.**  `spaces`. -/
theorem C53_spaces (hS : S.Lawful) (f : S.Tok → Bool) (n : String) (i : S.Input) :
    S.IsSkip f i ((spaces S f n).shape i) := by
  have hc : Consuming (satisfyNamed S f n) := consuming_satisfy f
  obtain ⟨a, ⟨vs, c, k, h1, h2⟩, h3⟩ := C07_skip_many hS (p := satisfyNamed S f n) (moves_satisfyNamed hS f n)
    (keeps_unit (h := false) _).reusable hc i
  have e : (spaces S f n).shape i = (a.map fun _ => ()).shape := congrArg Answer.shape h3
  have hp := C53_named hS f n
  obtain ⟨r1, r2, r3⟩ := run_reads hp h1
  refine ⟨vs, k, r1, r2, ?_⟩
  rw [e]
  have hk := hp k
  simp only [Parser.shape] at hk
  have hpart := hS.reads_isPartial r1
  cases ha : (satisfyNamed S f n).answer k with
  | ok c v j => rw [ha] at h2; exact h2.elim
  | soft =>
    rw [ha] at h2 hk
    simp only at h2
    subst h2 r3
    rcases hk with ⟨t, j, h4, h5⟩ | ⟨h4, h5⟩
    · by_cases ht : f t = true
      · simp only [ht, if_true] at h5
        cases h5
      · exact .inl ⟨t, j, h4, by simpa using ht, rfl⟩
    · refine .inr ⟨h4, ?_⟩
      rw [← hpart]
      cases hb : S.isPartial k with
      | true => rw [hb] at h5; cases h5
      | false => rfl
  | hard e' =>
    rw [ha] at h2 hk
    simp only at h2
    subst h2
    rcases hk with ⟨t, j, h4, h5⟩ | ⟨h4, h5⟩
    · by_cases ht : f t = true <;> simp only [ht] at h5 <;> cases h5
    · refine .inr ⟨h4, ?_⟩
      rw [← hpart]
      cases hb : S.isPartial k with
      | true => rfl
      | false => rw [hb] at h5; cases h5
  | abort x =>
    rw [ha] at hk
    rcases hk with ⟨t, j, h4, h5⟩ | ⟨h4, h5⟩
    · by_cases ht : f t = true <;> simp only [ht] at h5 <;> cases h5
    · split at h5 <;> cases h5

/-- **C53.**  `parser::byte::spaces` skips what `parser::byte::space` is for (`C53_byte_members` says what that is). -/
theorem C53_byte_spaces (hS : S.Lawful) (byte : S.Tok → UInt8) (i : S.Input) :
    S.IsSkip (fun t => TokenClass.space.byte.1 (byte t)) i ((byteSpaces S byte).shape i) := C53_spaces hS _ _ i

/-- **C53.**  `parser::char::spaces` skips what `parser::char::space` is for. -/
theorem C53_char_spaces (hS : S.Lawful) (U : Unicode) (chr : S.Tok → Char) (i : S.Input) :
    S.IsSkip (fun t => (TokenClass.space.char U).1 (chr t)) i ((charSpaces S U chr).shape i) := C53_spaces hS _ _ i

/-! ## Examples -/

private abbrev B := sliceS UInt8 1
private abbrev T := strS

example : (byteClass B id .hexDigit).answer ⟨0, [102, 103]⟩ = .ok true 102 ⟨1, [103]⟩ := by rfl
example : (byteClass B id .hexDigit).answer ⟨0, [103]⟩ = .soft := by rfl
example : (charClass T noTables id .octDigit).answer ⟨0, ['7', '8']⟩ = .ok true '7' ⟨1, ['8']⟩ := by rfl
example : (crlf B 13 10).answer ⟨0, [13, 10, 1]⟩ = .ok true 10 ⟨2, [1]⟩ := by rfl
example : (byteSpaces B id).answer ⟨0, [32, 9, 65]⟩ = .ok true () ⟨2, [65]⟩ := by rfl
example : (charSpaces T noTables id).answer ⟨0, [' ', 'a']⟩ = .ok true () ⟨1, ['a']⟩ := by rfl

/-- Deviation from the agreement of `parser::char` and `parser::byte`: a vertical tab is white space only for the former. -/
theorem C53_vertical_tab (U : Unicode) :
    (charClass T U id .space).answer ⟨0, ['\x0b']⟩ = .ok true '\x0b' ⟨1, []⟩ ∧
    (byteClass B id .space).answer ⟨0, [11]⟩ = .soft := ⟨by rfl, by rfl⟩

end Verif
