import Verif.Proof.SliceLaws
import Verif.Model.Str

namespace Verif

namespace Str

theorem charLen_pos (c : Char) : 0 < charLen c := by
  unfold charLen String.utf8EncodeChar
  simp only
  split
  · simp
  · split
    · simp
    · split <;> simp

theorem byteLen_nil : byteLen [] = 0 := rfl

theorem byteLen_append (a b : List Char) : byteLen (a ++ b) = byteLen a + byteLen b := by
  simp [byteLen, utf8]

theorem byteLen_cons (c : Char) (cs : List Char) : byteLen (c :: cs) = charLen c + byteLen cs := by
  simp [byteLen, utf8, charLen]

theorem byteLen_eq_zero {cs : List Char} : byteLen cs = 0 ↔ cs = [] := by
  cases cs with
  | nil => simp [byteLen_nil]
  | cons c cs =>
    have := charLen_pos c
    simp [byteLen_cons]
    omega

theorem weight_charLen (cs : List Char) : weight charLen cs = byteLen cs := by
  induction cs with
  | nil => rfl
  | cons c cs ih =>
    rw [byteLen_cons, ← ih]
    simp [weight]

/-- `split_at` succeeds exactly at the boundaries of characters. -/
theorem splitChars_iff {cs : List Char} {n : Nat} {a b : List Char} :
    splitChars cs n = some (a, b) ↔ cs = a ++ b ∧ byteLen a = n := by
  induction cs generalizing n a with
  | nil =>
    cases n with
    | zero => cases a <;> simp [splitChars, byteLen_nil, eq_comm]
    | succ n =>
      simp only [splitChars, false_iff, reduceCtorEq]
      rintro ⟨h1, h2⟩
      have h1' := h1.symm
      rw [List.append_eq_nil_iff] at h1'
      rw [h1'.1] at h2
      cases h2
  | cons c cs ih =>
    cases n with
    | zero =>
      simp only [splitChars, Option.some.injEq, Prod.mk.injEq]
      constructor
      · rintro ⟨rfl, rfl⟩; exact ⟨rfl, rfl⟩
      · rintro ⟨h1, h2⟩
        rw [byteLen_eq_zero] at h2
        subst h2
        exact ⟨rfl, h1⟩
    | succ n =>
      simp only [splitChars]
      have hc := charLen_pos c
      cases a with
      | nil =>
        simp only [byteLen_nil]
        split
        · simp
        · simp
      | cons d a =>
        rw [byteLen_cons]
        split
        · rename_i hle
          simp only [Option.map_eq_some_iff, Prod.mk.injEq, List.cons.injEq, List.cons_append]
          constructor
          · rintro ⟨⟨x, y⟩, hx, ⟨rfl, rfl⟩, rfl⟩
            obtain ⟨h1, h2⟩ := ih.1 hx
            exact ⟨⟨rfl, h1⟩, by simp only at h2 ⊢; omega⟩
          · rintro ⟨⟨rfl, h1⟩, h2⟩
            exact ⟨(a, b), ih.2 ⟨h1, by omega⟩, ⟨rfl, rfl⟩, rfl⟩
        · rename_i hle
          simp only [false_iff, reduceCtorEq]
          rintro ⟨h1, h2⟩
          simp only [List.cons_append, List.cons.injEq] at h1
          rw [← h1.1] at h2
          omega

theorem splitChars_append (a b : List Char) : splitChars (a ++ b) (byteLen a) = some (a, b) :=
  splitChars_iff.2 ⟨rfl, rfl⟩

/-- The bytes of a character: the first one is not a continuation byte, all others are. -/
theorem encode_bytes (c : Char) :
    ∃ b bs, String.utf8EncodeChar c = b :: bs ∧ (b.toNat < 128 ∨ 192 < b.toNat) ∧
      ∀ x ∈ bs, 128 ≤ x.toNat ∧ x.toNat ≤ 192 := by
  unfold String.utf8EncodeChar
  simp only
  generalize hv : c.val.toNat = v
  have hmax : v < 1114112 := by
    rw [← hv]
    have := c.valid
    simp only [UInt32.isValidChar, Nat.isValidChar] at this
    omega
  split
  · exact ⟨_, [], rfl, .inl (by simp; omega), by simp⟩
  · split
    · refine ⟨_, _, rfl, .inr (by simp; omega), ?_⟩
      intro x hx
      simp only [List.mem_singleton] at hx
      subst hx
      simp
      omega
    · split
      · refine ⟨_, _, rfl, .inr (by simp; omega), ?_⟩
        intro x hx
        simp only [List.mem_cons, List.not_mem_nil, or_false] at hx
        rcases hx with rfl | rfl <;> simp <;> omega
      · refine ⟨_, _, rfl, .inr (by simp; omega), ?_⟩
        intro x hx
        simp only [List.mem_cons, List.not_mem_nil, or_false] at hx
        rcases hx with rfl | rfl | rfl <;> simp <;> omega

/-- The `is_char_boundary` of `uncons_range` accepts exactly the ends of prefixes. -/
theorem isCharBoundary_iff {cs : List Char} {n : Nat} :
    isCharBoundary cs n = true ↔ ∃ a b, cs = a ++ b ∧ byteLen a = n := by
  induction cs generalizing n with
  | nil =>
    unfold isCharBoundary
    have h0 : byteLen [] = 0 := rfl
    rw [h0]
    constructor
    · intro h
      split at h
      · rename_i hn; exact ⟨[], [], rfl, hn.symm⟩
      · simp [utf8] at h
    · rintro ⟨a, b, h1, h2⟩
      have h1' := h1.symm
      rw [List.append_eq_nil_iff] at h1'
      rw [h1'.1] at h2
      simp [← h2, h0]
  | cons c cs ih =>
    obtain ⟨b, bs, he, hb, hbs⟩ := encode_bytes c
    have hlen : charLen c = bs.length + 1 := by simp [charLen, he]
    have hu : utf8 (c :: cs) = b :: (bs ++ utf8 cs) := by simp [utf8, he]
    by_cases hn0 : n = 0
    · subst hn0
      have : 0 ≠ byteLen (c :: cs) := by rw [byteLen_cons]; omega
      unfold isCharBoundary
      rw [if_neg this, hu]
      simp only [List.getElem?_cons_zero]
      refine ⟨fun _ => ⟨[], c :: cs, rfl, rfl⟩, fun _ => ?_⟩
      simp
      omega
    · by_cases hlt : n < charLen c
      · have hne : n ≠ byteLen (c :: cs) := by rw [byteLen_cons]; omega
        unfold isCharBoundary
        rw [if_neg hne, hu]
        obtain ⟨m, rfl⟩ : ∃ m, n = m + 1 := ⟨n - 1, by omega⟩
        have hm : m < bs.length := by omega
        simp only [List.getElem?_cons_succ]
        rw [List.getElem?_append_left hm, List.getElem?_eq_getElem hm]
        have hx := hbs _ (List.getElem_mem hm)
        constructor
        · intro h
          simp at h
          omega
        · rintro ⟨a, d, h1, h2⟩
          cases a with
          | nil => simp [byteLen_nil] at h2
          | cons e a =>
            rw [byteLen_cons] at h2
            simp only [List.cons_append, List.cons.injEq] at h1
            rw [← h1.1] at h2
            omega
      · have hk : isCharBoundary (c :: cs) n = isCharBoundary cs (n - charLen c) := by
          have h1 : (n = byteLen (c :: cs)) ↔ (n - charLen c = byteLen cs) := by
            rw [byteLen_cons]; omega
          have h2 : (utf8 (c :: cs))[n]? = (utf8 cs)[n - charLen c]? := by
            have : utf8 (c :: cs) = String.utf8EncodeChar c ++ utf8 cs := by simp [utf8]
            rw [this, List.getElem?_append_right (by unfold charLen at hlt; omega)]
            rfl
          unfold isCharBoundary
          rw [h2]
          simp only [h1]
        rw [hk, ih]
        constructor
        · rintro ⟨a, d, h1, h2⟩
          exact ⟨c :: a, d, by rw [h1]; rfl, by rw [byteLen_cons]; omega⟩
        · rintro ⟨a, d, h1, h2⟩
          cases a with
          | nil => exact absurd h2.symm hn0
          | cons e a =>
            rw [byteLen_cons] at h2
            simp only [List.cons_append, List.cons.injEq] at h1
            rw [← h1.1] at h2
            exact ⟨a, d, h1.2, by omega⟩

/-- `uncons_range` never panics and takes the prefix of that many bytes if there is one. -/
theorem uncRange_spec (size : Nat) (cs : List Char) :
    (∃ a b, cs = a ++ b ∧ byteLen a = size ∧ uncRange size cs = some (.ok (a, b))) ∨
    ((∀ a b, cs = a ++ b → byteLen a ≠ size) ∧
      uncRange size cs = some (.error (if size ≤ byteLen cs then .characterBoundary else .eoi))) := by
  unfold uncRange
  by_cases hle : size ≤ byteLen cs
  · rw [if_pos hle, if_pos hle]
    by_cases hb : isCharBoundary cs size = true
    · obtain ⟨a, b, h1, h2⟩ := isCharBoundary_iff.1 hb
      refine .inl ⟨a, b, h1, h2, ?_⟩
      rw [if_pos hb, splitChars_iff.2 ⟨h1, h2⟩]
      rfl
    · refine .inr ⟨fun a b h1 h2 => hb (isCharBoundary_iff.2 ⟨a, b, h1, h2⟩), ?_⟩
      rw [if_neg hb]
  · rw [if_neg hle, if_neg hle]
    refine .inr ⟨fun a b h1 h2 => hle ?_, rfl⟩
    rw [h1, byteLen_append]
    omega

variable {ς : Type} (f : ς → Char → Bool × ς)

theorem whileLoop_spec (cs : List Char) (s : ς) :
    byteLen (whileLoop f cs s).1 + (whileLoop f cs s).2.1 = byteLen (cs.drop (scanLen f s cs).1) ∧
      (whileLoop f cs s).2.2 = (scanLen f s cs).2 := by
  induction cs generalizing s with
  | nil => exact ⟨rfl, rfl⟩
  | cons c cs ih =>
    unfold whileLoop
    cases hf : f s c with
    | mk b s' =>
      cases b with
      | true => rw [scanLen_cons_true f hf]; simpa using ih s'
      | false =>
        rw [scanLen_cons_false f hf]
        simp only [List.drop_zero, and_true]
        rw [byteLen_cons]
        omega

/-- `str_uncons_while` never panics and finds the longest accepted prefix; `pre` are characters that
have been checked already. -/
theorem uncWhile_eq (pre cs : List Char) (s : ς) :
    uncWhile f (pre ++ cs) cs s =
      some (pre ++ cs.take (scanLen f s cs).1, cs.drop (scanLen f s cs).1, (scanLen f s cs).2) := by
  obtain ⟨h1, h2⟩ := whileLoop_spec f cs s
  have hcs : byteLen cs = byteLen (cs.take (scanLen f s cs).1) + byteLen (cs.drop (scanLen f s cs).1) := by
    rw [← byteLen_append, List.take_append_drop]
  have hpre := byteLen_append pre cs
  unfold uncWhile
  simp only
  rw [if_pos (by omega)]
  have : byteLen (pre ++ cs) - byteLen (whileLoop f cs s).1 - (whileLoop f cs s).2.1 =
      byteLen (pre ++ cs.take (scanLen f s cs).1) := by
    rw [byteLen_append pre (cs.take _)]
    omega
  rw [this, splitChars_iff.2 ⟨by rw [List.append_assoc, List.take_append_drop], rfl⟩, h2]
  rfl

end Str

/-! ### `&str` is a lawful stream -/

theorem str_uncons {i j : Str} {c : Char} :
    strS.uncons i = (.ok c, j) ↔ i.data = c :: j.data ∧ j.ptr = i.ptr + Str.charLen c := by
  obtain ⟨p, d⟩ := i
  obtain ⟨q, e⟩ := j
  cases d with
  | nil => simp [strS]
  | cons c cs =>
    simp only [strS, Prod.mk.injEq, Except.ok.injEq, Str.mk.injEq, List.cons.injEq]
    constructor
    · rintro ⟨rfl, rfl, rfl⟩; exact ⟨⟨rfl, rfl⟩, rfl⟩
    · rintro ⟨⟨rfl, rfl⟩, rfl⟩; exact ⟨rfl, rfl, rfl⟩

theorem str_reads {i j : Str} {ts : List Char} :
    strS.Reads i ts j ↔ i.data = ts ++ j.data ∧ j.ptr = i.ptr + Str.byteLen ts := by
  induction ts generalizing i with
  | nil =>
    rw [Strm.reads_nil]
    obtain ⟨p, d⟩ := i
    obtain ⟨q, e⟩ := j
    simp [eq_comm, and_comm, Str.byteLen_nil]
  | cons t ts ih =>
    rw [Strm.reads_cons]
    constructor
    · rintro ⟨k, hu, hr⟩
      obtain ⟨h1, h2⟩ := str_uncons.1 hu
      obtain ⟨h3, h4⟩ := ih.1 hr
      refine ⟨by rw [h1, h3]; rfl, ?_⟩
      rw [h4, h2, Str.byteLen_cons]
      omega
    · rintro ⟨h1, h2⟩
      refine ⟨⟨i.ptr + Str.charLen t, ts ++ j.data⟩, str_uncons.2 ⟨h1, rfl⟩, ih.2 ⟨rfl, ?_⟩⟩
      simp only
      rw [h2, Str.byteLen_cons]
      omega

theorem str_atEnd {i : Str} : strS.AtEnd i ↔ i.data = [] := by
  obtain ⟨p, d⟩ := i
  cases d
  · simp [Strm.AtEnd, strS]
    exact ⟨_, rfl⟩
  · simp [Strm.AtEnd, strS]

theorem str_lawful : strS.Lawful where
  uncons_error := by
    intro i e j h
    simp only [strS] at h
    split at h <;> cases h
    rfl
  reset := by intros; rfl
  size := by
    intro i t j h
    obtain ⟨h1, _⟩ := str_uncons.1 h
    simp [h1]
  isPartial := by intros; rfl

theorem str_scan {ς : Type} (f : ς → Char → Bool × ς) {i : Str} {s s' : ς} {a b : List Char}
    (hi : i.data = a ++ b)
    (h : ∃ s1, accepts f s a = some s1 ∧
      ((b = [] ∧ s' = s1) ∨ ∃ t r, b = t :: r ∧ f s1 t = (false, s'))) :
    strS.Scan f s i a s' (i.after a b) := by
  refine ⟨str_reads.2 ⟨hi, rfl⟩, ?_⟩
  obtain ⟨s1, ha, h⟩ := h
  refine ⟨s1, ha, ?_⟩
  rcases h with ⟨h1, h2⟩ | ⟨t, r, h1, h2⟩
  · exact .inl ⟨str_atEnd.2 h1, h2⟩
  · exact .inr ⟨t, ⟨(i.after a b).ptr + Str.charLen t, r⟩, str_uncons.2 ⟨h1, rfl⟩, h2⟩

theorem strR_lawful : strR.Lawful id Str.charLen where
  inj := fun h => h
  pos := Str.charLen_pos
  len := fun r => (Str.weight_charLen r).symm
  exists_range := fun {_ ts _} _ => ⟨ts, rfl⟩
  range_ok := by
    intro n i r j h
    rcases Str.uncRange_spec n i.data with ⟨a, b, h1, h2, h3⟩ | ⟨_, h3⟩
    · simp only [strR, h3, Prod.mk.injEq, Except.ok.injEq] at h
      obtain ⟨rfl, rfl⟩ := h
      exact ⟨str_reads.2 ⟨h1, rfl⟩, h2⟩
    · simp [strR, h3] at h
  range_error := by
    intro n i e j h
    rcases Str.uncRange_spec n i.data with ⟨a, b, h1, h2, h3⟩ | ⟨h2, h3⟩
    · simp [strR, h3] at h
    · simp only [strR, h3, Prod.mk.injEq] at h
      obtain ⟨_, rfl⟩ := h
      refine ⟨rfl, fun ts k hr hw => ?_⟩
      rw [Str.weight_charLen] at hw
      exact h2 ts k.data (str_reads.1 hr).1 hw
  distance := by
    intro i ts j h
    obtain ⟨_, h2⟩ := str_reads.1 h
    rw [Str.weight_charLen]
    simp [strR, strS, h2]
  whole := by
    intro i
    refine ⟨i.after i.data [], str_reads.2 ⟨by simp [strR, Str.after], rfl⟩, ?_⟩
    exact str_atEnd.2 rfl
  while_scan := by
    intro ς f s i x s' j h
    have hw := Str.uncWhile_eq f [] i.data s
    simp only [List.nil_append] at hw
    simp only [strR, hw] at h
    cases h
    exact ⟨_, rfl, str_scan f (List.take_append_drop _ _).symm (by
      obtain ⟨s1, h1, h2⟩ := scanLen_spec f s i.data
      exact ⟨s1, h1, h2⟩)⟩
  while1_scan := by
    intro ς f s i x s' j h
    simp only [strR] at h
    split at h
    · rename_i hd
      cases h
      exact .inr ⟨_, rfl, rfl, .nil _, s, rfl, .inl ⟨str_atEnd.2 hd, rfl⟩⟩
    · rename_i c cs hd
      cases hf : f s c with
      | mk b s1 =>
        rw [hf] at h
        cases b with
        | false =>
          cases h
          exact .inr ⟨_, rfl, rfl, .nil _, s, rfl,
            .inr ⟨c, ⟨i.ptr + Str.charLen c, cs⟩, str_uncons.2 ⟨hd, rfl⟩, hf⟩⟩
        | true =>
          have hw := Str.uncWhile_eq f [c] cs s1
          simp only [List.cons_append, List.nil_append, ← hd] at hw
          simp only [hw] at h
          cases h
          refine .inl ⟨_, rfl, by simp, ?_⟩
          refine str_scan f (by simp [hd]) ?_
          obtain ⟨s2, h1, h2⟩ := scanLen_spec f s1 cs
          exact ⟨s2, by simpa [accepts, hf] using h1, h2⟩

end Verif
