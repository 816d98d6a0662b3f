import Verif.Proof.ErrorLemmas

/-!
# C22: merging errors; C30: `expected` replaces a parser's own expectations; C31: end of input
-/

namespace Verif.Easy

variable {T R P : Type} [DecidableEq T] [DecidableEq R]

/-! ### C22 -/

/-- **C22.**  The errors at the larger position win. -/
theorem C22_further (cmp : P → P → Ordering) (a b : Errors T R P) :
    (cmp a.position b.position = .lt → a.merge cmp b = b) ∧
    (cmp a.position b.position = .gt → a.merge cmp b = a) := by
  constructor <;> intro h <;> simp [Errors.merge, h]

/-- **C22.**  At equal positions everything `a` says is kept, in order, followed by those errors of
`b`, in order, that were not said already; nothing is lost and nothing is repeated. -/
theorem C22_same_position (cmp : P → P → Ordering) (a b : Errors T R P)
    (h : cmp a.position b.position = .eq) :
    (a.merge cmp b).position = a.position ∧
    ∃ added, (a.merge cmp b).errors = a.errors ++ added ∧ added.Sublist b.errors ∧
      (∀ e ∈ b.errors, Listed (a.merge cmp b).errors e) ∧
      NoDuplicates added ∧ (∀ x ∈ a.errors, ∀ y ∈ added, ¬ Same x y) := by
  obtain ⟨added, h1, h2, h3, h4, h5⟩ := addAll_spec b.errors a
  have hm : a.merge cmp b = b.errors.foldl Errors.addError a := by simp [Errors.merge, h]
  rw [hm, h1]
  exact ⟨rfl, added, rfl, h2, h3, h4, h5⟩

/-- **C22.**  Merging creates no duplicates. -/
theorem C22_noDuplicates (cmp : P → P → Ordering) (a b : Errors T R P)
    (ha : NoDuplicates a.errors) (hb : NoDuplicates b.errors) :
    NoDuplicates (a.merge cmp b).errors := by
  cases h : cmp a.position b.position with
  | lt => rw [(C22_further cmp a b).1 h]; exact hb
  | gt => rw [(C22_further cmp a b).2 h]; exact ha
  | eq =>
    obtain ⟨_, added, h1, _, _, h4, h5⟩ := C22_same_position cmp a b h
    rw [h1]
    exact List.pairwise_append.2 ⟨ha, h4, h5⟩

/-- **C22.**  Merging is associative (for any total order of positions). -/
theorem C22_assoc (cmp : P → P → Ordering) [Std.TransCmp cmp] (a b c : Errors T R P) :
    (a.merge cmp b).merge cmp c = a.merge cmp (b.merge cmp c) := by
  have pos : ∀ x y : Errors T R P, cmp x.position y.position = .eq →
      x.merge cmp y = y.errors.foldl Errors.addError x := fun x y h => by simp [Errors.merge, h]
  have ppos : ∀ x y : Errors T R P, cmp x.position y.position = .eq →
      (x.merge cmp y).position = x.position := fun x y h => (C22_same_position cmp x y h).1
  cases hab : cmp a.position b.position with
  | lt =>
    rw [(C22_further cmp a b).1 hab]
    cases hbc : cmp b.position c.position with
    | lt =>
      rw [(C22_further cmp b c).1 hbc, (C22_further cmp a c).1 (Std.TransCmp.lt_trans hab hbc)]
    | gt => rw [(C22_further cmp b c).2 hbc, (C22_further cmp a b).1 hab]
    | eq =>
      have : cmp a.position (b.merge cmp c).position = .lt := by rw [ppos b c hbc]; exact hab
      rw [(C22_further cmp a _).1 this]
  | gt =>
    rw [(C22_further cmp a b).2 hab]
    cases hbc : cmp b.position c.position with
    | lt => rw [(C22_further cmp b c).1 hbc]
    | gt =>
      rw [(C22_further cmp b c).2 hbc, (C22_further cmp a b).2 hab,
        (C22_further cmp a c).2 (Std.TransCmp.gt_trans hab hbc)]
    | eq =>
      have h1 : cmp a.position (b.merge cmp c).position = .gt := by rw [ppos b c hbc]; exact hab
      rw [(C22_further cmp a _).2 h1,
        (C22_further cmp a c).2 (Std.TransCmp.gt_of_gt_of_eq hab hbc)]
  | eq =>
    cases hbc : cmp b.position c.position with
    | lt =>
      have h1 : cmp (a.merge cmp b).position c.position = .lt := by
        rw [ppos a b hab]; exact Std.TransCmp.lt_of_eq_of_lt hab hbc
      rw [(C22_further cmp _ c).1 h1, (C22_further cmp b c).1 hbc,
        (C22_further cmp a c).1 (Std.TransCmp.lt_of_eq_of_lt hab hbc)]
    | gt =>
      have h1 : cmp (a.merge cmp b).position c.position = .gt := by
        rw [ppos a b hab]; exact Std.TransCmp.gt_of_eq_of_gt hab hbc
      rw [(C22_further cmp _ c).2 h1, (C22_further cmp b c).2 hbc]
    | eq =>
      have h1 : cmp (a.merge cmp b).position c.position = .eq := by
        rw [ppos a b hab]; exact Std.TransCmp.eq_trans hab hbc
      have h2 : cmp a.position (b.merge cmp c).position = .eq := by rw [ppos b c hbc]; exact hab
      rw [pos _ c h1, pos a _ h2, pos a b hab, pos b c hbc, addAll_addAll]

/-- **C22.**  Merging errors with themselves changes nothing, unless there is a foreign (`Other`)
error among them, which is then repeated. -/
theorem C22_idempotent_partial (cmp : P → P → Ordering) [Std.ReflCmp cmp] (a : Errors T R P) :
    a.merge cmp a = a ↔ ∀ e ∈ a.errors, ∀ s, e ≠ .other s := by
  have hm : a.merge cmp a = a.errors.foldl Errors.addError a := by
    simp [Errors.merge, Std.ReflCmp.compare_self]
  rw [hm]
  constructor
  · intro h e he s hs
    obtain ⟨added, h1, h2, h3, h4, h5⟩ := addAll_spec a.errors a
    subst hs
    have hadd : added = [] := by
      have := congrArg Errors.errors (h1.symm.trans h)
      simpa using this
    subst hadd
    -- an `Other` error is always added
    have key : ∀ (es : List (Error T R)) (t : Errors T R P), Error.other s ∈ es →
        t.errors.length < (es.foldl Errors.addError t).errors.length := by
      intro es
      induction es with
      | nil => intro t h; cases h
      | cons x es ih =>
        intro t hx
        have hmono : ∀ (us : List (Error T R)) (u : Errors T R P),
            u.errors.length ≤ (us.foldl Errors.addError u).errors.length := by
          intro us u
          obtain ⟨ad, e1, _⟩ := addAll_spec us u
          rw [e1]; simp
        rcases List.mem_cons.1 hx with rfl | hx
        · rw [List.foldl_cons, addError_of_new (fun y _ hy => by cases hy)]
          have := hmono es { t with errors := t.errors ++ [Error.other s] }
          simp only [List.length_append, List.length_singleton] at this
          omega
        · rw [List.foldl_cons]
          have h1 := ih (t.addError x) hx
          have h2 := hmono [x] t
          simp only [List.foldl_cons, List.foldl_nil] at h2
          omega
    have := key a.errors a he
    rw [h] at this
    omega
  · intro h
    apply addAll_of_same
    intro e he
    refine ⟨e, he, ?_⟩
    cases e with
    | unexpected i => exact .unexpected rfl
    | expected i => exact .expected rfl
    | message i => exact .message rfl
    | other s => exact absurd rfl (h _ he s)

/-- A merge at equal positions that keeps one copy of the common error. -/
example : (⟨3, [.unexpected (.token 'x'), .expected (.token 'a')]⟩ : Errors Char String Nat).merge compare
    ⟨3, [.unexpected (.token 'x'), .expected (.static "b")]⟩ =
    ⟨3, [.unexpected (.token 'x'), .expected (.token 'a'), .expected (.static "b")]⟩ := by decide

/-- Deviation: foreign errors are repeated by merging. -/
theorem C22_other_repeated :
    (⟨0, [.other "io"]⟩ : Errors Char String Nat).merge compare ⟨0, [.other "io"]⟩ ≠
      ⟨0, [.other "io"]⟩ := by decide

/-! ### C30 -/

/-- **C30.**  What `p.expected(x)` contributes to an error set, when the parser's own contribution is
to append the errors `own`: the errors already present stay, of the parser's own errors the ones that
are not expectations stay, and `x` is listed once at the end unless it is said already. -/
theorem C30_setExpected (t : Tracked (Errors T R P)) (x : Info T R)
    (f : Tracked (Errors T R P) → Tracked (Errors T R P)) (own : List (Error T R))
    (hf : (f t).error.errors = t.error.errors ++ own) :
    let kept := t.error.errors ++ own.filter (!·.isExpected)
    (Errors.setExpected t (.expected x) f).error.errors = kept ++ [.expected x] ∧
        (∀ e ∈ kept, ¬ Same e (.expected x)) ∨
    (Errors.setExpected t (.expected x) f).error.errors = kept ∧
        (∃ e ∈ t.error.errors, Same e (.expected x)) := by
  simp only [Errors.setExpected, hf, List.take_left, List.drop_left]
  rcases addError_cases
      { (f t).error with errors := t.error.errors ++ own.filter (!·.isExpected) } (.expected x) with
    ⟨⟨e, he, hs⟩, h⟩ | ⟨hn, h⟩
  · right
    rw [h]
    refine ⟨rfl, e, ?_, hs⟩
    rcases List.mem_append.1 he with he | he
    · exact he
    · cases hs
      simp [Error.isExpected] at he
  · left
    rw [h]
    exact ⟨rfl, hn⟩

/-- The parser's own expectation `'a'` is replaced by the label. -/
example : (Errors.setExpected (⟨⟨0, [.unexpected (.token 'x')]⟩, 1⟩ : Tracked (Errors Char String Nat))
    (.expected (.static "letter"))
    (fun t => { t with error := t.error.addError (.expected (.token 'a')) })).error.errors =
    [.unexpected (.token 'x'), .expected (.static "letter")] := by decide

end Verif.Easy

namespace Verif

/-! ### C31 -/

/-- An error type whose end of input status survives the addition of further errors. -/
def KeepsEoi {T R P : Type} (E : ErrOps T R P) : Prop :=
  ∀ e x, E.isEoi e = true → E.isEoi (E.add e x) = true

/-- **C31.**  For the error types of slices, strings and readers, and for easy errors, once an error
says end of input no sequence of additions makes it forget that. -/
theorem C31_add {T R P : Type} (d : P) [DecidableEq T] [DecidableEq R] (cmp : P → P → Ordering) :
    KeepsEoi (UnexpectedParse.ops T R P d) ∧ KeepsEoi (StringStreamError.ops T R P d) ∧
    KeepsEoi (ReadError.ops T R P d) ∧ KeepsEoi (Easy.Errors.ops T R P cmp) := by
  refine ⟨?_, ?_, ?_, ?_⟩
  · intro e x h
    cases e <;> simp_all [UnexpectedParse.ops, UnexpectedParse.add]
  · intro e x h
    cases e <;> simp_all [StringStreamError.ops, StringStreamError.add]
  · intro e x h
    cases e <;> simp_all [ReadError.ops, ReadError.add, ReadError.eqv]
  · intro e x h
    simp only [Easy.Errors.ops, Easy.Errors.isEoi, List.any_eq_true] at h ⊢
    obtain ⟨y, hy, h⟩ := h
    refine ⟨y, ?_, h⟩
    rcases Easy.addError_cases e x with ⟨_, h1⟩ | ⟨_, h1⟩ <;> rw [h1]
    · exact hy
    · exact List.mem_append_left _ hy

/-- **C31**, any number of additions. -/
theorem C31_adds {T R P : Type} {E : ErrOps T R P} (hE : KeepsEoi E) (e : E.Err) (xs : List E.SErr)
    (h : E.isEoi e = true) : E.isEoi (xs.foldl E.add e) = true := by
  induction xs generalizing e with
  | nil => exact h
  | cons x xs ih => exact ih _ (hE e x h)

/-- **C31.**  Merging easy errors at equal positions keeps the status of both. -/
theorem C31_easy_merge {T R P : Type} [DecidableEq T] [DecidableEq R] (cmp : P → P → Ordering)
    (a b : Easy.Errors T R P) (h : cmp a.position b.position = .eq)
    (he : a.isEoi = true ∨ b.isEoi = true) : (a.merge cmp b).isEoi = true := by
  obtain ⟨_, added, h1, _, h3, _⟩ := Easy.C22_same_position cmp a b h
  simp only [Easy.Errors.isEoi, List.any_eq_true] at he ⊢
  rcases he with ⟨x, hx, hs⟩ | ⟨x, hx, hs⟩
  · exact ⟨x, by rw [h1]; exact List.mem_append_left _ hx, hs⟩
  · rcases h3 x hx with hl | ⟨y, hy, hys⟩
    · exact ⟨x, hl, hs⟩
    · exact ⟨y, hy, (Easy.eqv_iff _ _).2 (hys.trans ((Easy.eqv_iff _ _).1 hs))⟩

/-- **C31.**  Clearing expectations (`silent`) keeps the status of easy errors. -/
theorem C31_easy_clear {T R P : Type} [DecidableEq T] [DecidableEq R] (a : Easy.Errors T R P) :
    a.clearExpected.isEoi = a.isEoi := by
  simp only [Easy.Errors.isEoi, Easy.Errors.clearExpected, List.any_filter]
  congr 1
  funext e
  cases e <;> simp [Easy.Error.isExpected, Easy.Error.eqv, Easy.Error.endOfInput]

/-- The error types a primitive error can be converted to: their own constructors behave as
documented, "end of input" being told apart from an unexpected "parse" or character boundary. -/
def Faithful {T R P : Type} (E : ErrOps T R P) : Prop :=
  (∀ p, E.isEoi (E.fromError p E.endOfInput) = true) ∧
  (∀ p s, s ≠ "end of input" → E.isEoi (E.fromError p (E.unexpected (.static s))) = false)

theorem C31_faithful {T R P : Type} (d : P) [DecidableEq T] [DecidableEq R]
    (cmp : P → P → Ordering) :
    Faithful (UnexpectedParse.ops T R P d) ∧ Faithful (StringStreamError.ops T R P d) ∧
    Faithful (ReadError.ops T R P d) ∧ Faithful (Easy.Errors.ops T R P cmp) ∧
    Faithful (Easy.Error.ops (T := T) (R := R) P d) := by
  refine ⟨⟨?_, ?_⟩, ⟨?_, ?_⟩, ⟨?_, ?_⟩, ⟨?_, ?_⟩, ⟨?_, ?_⟩⟩
  all_goals first
    | (intro p; simp [UnexpectedParse.ops, StringStreamError.ops, ReadError.ops, ReadError.eqv,
        Easy.Errors.ops, Easy.Errors.isEoi, Easy.Error.ops, Easy.Error.eqv, Easy.Error.endOfInput,
        Easy.Info.eqv]; done)
    | (intro p s hs; simp [UnexpectedParse.ops, StringStreamError.ops, ReadError.ops, ReadError.eqv,
        Easy.Errors.ops, Easy.Errors.isEoi, Easy.Error.ops, Easy.Error.eqv, Easy.Error.endOfInput,
        Easy.Info.eqv, hs])

/-- **C31.**  Converting a slice or string error to any of the library's error types keeps whether it
means end of input, in both directions. -/
theorem C31_convert_partial {T R P : Type} {E : ErrOps T R P} (hE : Faithful E) (d : P) :
    (∀ e : UnexpectedParse, E.isEoi (e.intoOther E d) = decide (e = .eoi)) ∧
    (∀ e : StringStreamError, E.isEoi (e.intoOther E d) = decide (e = .eoi)) := by
  constructor <;> intro e <;> cases e <;>
    simp [UnexpectedParse.intoOther, UnexpectedParse.intoOtherS, StringStreamError.intoOther,
      StringStreamError.intoOtherS, hE.1, hE.2, charBoundaryMessage]

/-- **C31.**  Between easy error types, `into_other_error` keeps the status and the position. -/
theorem C31_easy_convert {T R P Q : Type} [DecidableEq T] [DecidableEq R] (cmp : Q → Q → Ordering) (conv : P → Q)
    (a : Easy.Errors T R P) :
    let E := Easy.Errors.ops T R Q cmp
    E.isEoi (a.intoOtherError E conv) = a.isEoi ∧ E.position (a.intoOtherError E conv) = conv a.position := by
  dsimp only
  have key : ∀ (es : List (Easy.Error T R)) (t : Easy.Errors T R Q),
      (es.foldl (fun e x => Easy.Errors.addError e (x.intoOtherS (Easy.Errors.ops T R Q cmp))) t).isEoi =
        (t.isEoi || es.any fun e => e.eqv Easy.Error.endOfInput) ∧
      (es.foldl (fun e x => Easy.Errors.addError e (x.intoOtherS (Easy.Errors.ops T R Q cmp))) t).position =
        t.position := by
    intro es
    induction es with
    | nil => intro t; exact ⟨(Bool.or_false _).symm, rfl⟩
    | cons x es ih =>
      intro t
      rw [List.foldl_cons, (ih _).1, (ih _).2, List.any_cons, ← Bool.or_assoc]
      refine ⟨congrArg (· || _) ?_, Easy.addError_position _ _⟩
      have hx : (x.intoOtherS (Easy.Errors.ops T R Q cmp)).eqv Easy.Error.endOfInput =
          x.eqv Easy.Error.endOfInput := by cases x <;> rfl
      rw [← hx]
      generalize x.intoOtherS (Easy.Errors.ops T R Q cmp) = y
      rcases Easy.addError_cases t y with ⟨⟨z, hz, hs⟩, h1⟩ | ⟨_, h1⟩ <;> rw [h1]
      · cases hy : Easy.Error.eqv y Easy.Error.endOfInput
        · rw [Bool.or_false]
        · rw [Bool.or_true]
          exact List.any_eq_true.2 ⟨z, hz, (Easy.eqv_iff _ _).2 (hs.trans ((Easy.eqv_iff _ _).1 hy))⟩
      · simp only [Easy.Errors.isEoi, List.any_append]
        exact congrArg (_ || ·) (Bool.or_false _)
  exact key a.errors ⟨conv a.position, []⟩

/-- **C31.**  `into_other` keeps the position and the last error: the result is an end of input exactly when that
was one.  Whatever was recorded before it is dropped. -/
theorem C31_easy_into_other {T R P : Type} [DecidableEq T] [DecidableEq R] (cmp : P → P → Ordering)
    (p : P) (es : List (Easy.Error T R)) (x : Easy.Error T R) :
    let E := Easy.Errors.ops T R P cmp
    let e : E.Err := Easy.Errors.intoOther E ⟨p, es ++ [x]⟩
    E.position e = p ∧ E.isEoi e = x.eqv .endOfInput := by
  dsimp only
  unfold Easy.Errors.intoOther
  dsimp only
  rw [List.getLast?_concat]
  refine ⟨rfl, ?_⟩
  cases x <;> simp [Easy.Errors.ops, Easy.Errors.isEoi, Easy.Error.intoOtherS, Easy.Error.eqv, Easy.Error.endOfInput]

/-- Deviation: an easy end of input error converted to a slice error (`into_other`) is an ordinary
"unexpected" error: the status is lost. -/
theorem C31_easy_into_other_loses :
    let e : Easy.Errors Nat (List Nat) Nat := ⟨0, [.endOfInput]⟩
    let E := UnexpectedParse.ops Nat (List Nat) Nat 0
    e.isEoi = true ∧ E.isEoi (e.intoOther E) = false := by decide

/-- Deviation: `.expected(..)` makes a slice's end of input error an ordinary one. -/
theorem C31_expected_loses :
    let E := UnexpectedParse.ops Nat (List Nat) Nat 0
    E.isEoi (E.setExpected (Tracked.of UnexpectedParse.eoi) (E.expected (.static "digit")) id).error =
      false := by decide

/-- Deviation: a single easy `Error` used as the parse error type is replaced by additions. -/
theorem C31_easy_error_loses :
    let E := Easy.Error.ops (T := Nat) (R := List Nat) Nat 0
    E.isEoi (E.add .endOfInput (E.expected (.token 1))) = false := by decide

/-- Deviation: converting an easy error (`into_other`, `into_other_error`) turns a message into an expectation, even when both
sides are easy errors (easy.rs:304-309, 404-409). -/
theorem C31_message_becomes_expected :
    let E := Easy.Errors.ops Nat (List Nat) Nat compare
    ((⟨3, [.message (.static "too large")]⟩ : Easy.Errors Nat (List Nat) Nat).intoOther E : Easy.Errors Nat (List Nat) Nat).errors =
        [.expected (.static "too large")] ∧
    ((⟨3, [.message (.static "too large")]⟩ : Easy.Errors Nat (List Nat) Nat).intoOtherError E id : Easy.Errors Nat (List Nat) Nat).errors =
        [.expected (.static "too large")] := by decide

/-- Deviation: a `CharacterBoundary` converted to the type it has is an `UnexpectedParse`: the constructor recognizes its text as a
message (error.rs:813-819) but is given it as something unexpected (error.rs:838). -/
theorem C31_boundary_lost :
    let E := StringStreamError.ops Char (List Char) Nat 0
    StringStreamError.intoOther E 0 .characterBoundary = .unexpectedParse ∧
    E.message (.static charBoundaryMessage) = .characterBoundary := ⟨rfl, rfl⟩

example : (Easy.Errors.ops Nat (List Nat) Nat compare).isEoi
    ([.expected (.token 1), .message (.static "m")].foldl (Easy.Errors.ops Nat (List Nat) Nat compare).add
      ⟨7, [.endOfInput]⟩) = true := by decide

/-- **C22.**  `read::Error` compares as its values do, except that an input/output error equals nothing, not even itself. -/
theorem C22_read_eq (e e' : ReadError) : e.eqv e' = true ↔ e = e' ∧ ∀ m, e ≠ .io m := by
  cases e <;> cases e' <;> simp [ReadError.eqv]

example : ReadError.unexpected.eqv .unexpected = true ∧ (ReadError.io "closed").eqv (.io "closed") = false := ⟨rfl, rfl⟩

end Verif
