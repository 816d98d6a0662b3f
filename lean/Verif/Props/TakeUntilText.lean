import Verif.Model.Byte
import Verif.Model.Wrap
import Verif.Props.Ascii
import Verif.Props.TakeUntilRange
import Verif.Proof.StrLaws
import Verif.Spec.Resume

/-!
# C17 on strings: `take_until_byte` and `take_until_bytes` of a `&str`

They search among the bytes of the string and take that many bytes; that this gives whole characters, and those before the first
occurrence of a text, is a property of UTF-8.
-/

namespace Verif

private theorem encode_cancel {c d : Char} {x y : List UInt8}
    (h : String.utf8EncodeChar c ++ x = String.utf8EncodeChar d ++ y) : c = d ∧ x = y := by
  have h1 := ByteArray.utf8DecodeChar?_utf8EncodeChar_append (b := x.toByteArray) (c := c)
  have h2 := ByteArray.utf8DecodeChar?_utf8EncodeChar_append (b := y.toByteArray) (c := d)
  rw [← List.toByteArray_append] at h1 h2
  rw [h, h2] at h1
  injection h1 with h1
  subst h1
  exact ⟨rfl, List.append_cancel_left h⟩

private theorem utf8_cons (c : Char) (cs : List Char) : utf8 (c :: cs) = String.utf8EncodeChar c ++ utf8 cs := by simp [utf8]

private theorem utf8_append (a b : List Char) : utf8 (a ++ b) = utf8 a ++ utf8 b := by simp [utf8]

/-- What begins with the bytes of a text begins with that text. -/
private theorem utf8_prefix : ∀ {needle cs : List Char} {b : List UInt8}, utf8 cs = utf8 needle ++ b →
    ∃ post, cs = needle ++ post ∧ b = utf8 post
  | [], cs, b, h => ⟨cs, rfl, by rw [h]; rfl⟩
  | d :: ds, [], b, h => by
    exfalso
    obtain ⟨x, xs, he, _⟩ := Str.encode_bytes d
    rw [utf8_cons, he] at h
    simp [utf8] at h
  | d :: ds, c :: cs, b, h => by
    rw [utf8_cons, utf8_cons, List.append_assoc] at h
    obtain ⟨rfl, h2⟩ := encode_cancel h
    obtain ⟨post, rfl, h3⟩ := utf8_prefix h2
    exact ⟨post, rfl, h3⟩

/-- UTF-8 synchronizes: the bytes of a text occur in the bytes of a string only where the text occurs in the string. -/
private theorem utf8_occurs {needle cs : List Char} (hn : needle ≠ []) {a b : List UInt8} (h : utf8 cs = a ++ (utf8 needle ++ b)) :
    ∃ pre post, cs = pre ++ (needle ++ post) ∧ utf8 pre = a := by
  obtain ⟨d, ds, rfl⟩ := List.exists_cons_of_ne_nil hn
  obtain ⟨x, xs, he, hx, _⟩ := Str.encode_bytes d
  have hb : Str.isCharBoundary cs a.length = true := by
    unfold Str.isCharBoundary
    split
    · rfl
    · rw [h, List.getElem?_append_right (Nat.le_refl _), utf8_cons, he]
      simp
      omega
  obtain ⟨pre, rest, rfl, h2⟩ := Str.isCharBoundary_iff.1 hb
  rw [utf8_append] at h
  obtain ⟨h3, h4⟩ := List.append_inj h h2
  obtain ⟨post, rfl, _⟩ := utf8_prefix h4
  exact ⟨pre, post, rfl, h3⟩

private theorem takeFn_str (search : List Char → TakeRange) (i : Str) :
    (takeFn strR search).shape i = (match search i.data with
      | .found k =>
        match Str.uncRange k i.data with
        | some (.ok (a, b)) => .ok (decide (k ≠ 0)) a ⟨i.ptr + Str.byteLen a, b⟩
        | _ => .soft
      | .notFound _ => if i.data = [] then .soft else .hard ()) := by
  have e : (takeFn strR search).shape i = ((takeFn strR search).run true i 0).answer.shape := rfl
  rw [e]
  simp only [takeFn, Parser.ofMode, if_true]
  have hr : strR.range i = i.data := rfl
  simp only [hr]
  cases search i.data with
  | found k =>
    simp only [Strm.tryReset, Nat.zero_add, RangeOps.unconsRangeP, strR, id]
    rcases Str.uncRange_spec k i.data with ⟨a, b, _, _, h⟩ | ⟨_, h⟩
    · simp only [h]
      by_cases hz : k = 0 <;> simp [hz, Out.answer, Answer.of, Answer.shape, Str.after]
    · simp only [h, Strm.wrapStreamError]
      rfl
  | notFound k =>
    simp only [Strm.tryReset, id]
    have : strR.len i.data = Str.byteLen i.data := rfl
    rw [this]
    cases hd : i.data with
    | nil => simp [Out.answer, Answer.of, Answer.shape, Str.byteLen_nil]
    | cons c cs =>
      have := Str.charLen_pos c
      have hz : Str.byteLen (c :: cs) ≠ 0 := by rw [Str.byteLen_cons]; omega
      simp [Out.answer, Answer.of, Answer.shape, hz]

private theorem isEmpty_byteLen (pre : List Char) : decide (Str.byteLen pre ≠ 0) = !pre.isEmpty := by
  cases pre with
  | nil => rfl
  | cons c cs =>
    have := Str.charLen_pos c
    have hz : Str.byteLen (c :: cs) ≠ 0 := by rw [Str.byteLen_cons]; omega
    simp [hz]

private theorem byteLen_mono {a b c d : List Char} (h : a ++ b = c ++ d) (hl : Str.byteLen a ≤ Str.byteLen c) : a.length ≤ c.length := by
  rcases Nat.lt_or_ge c.length a.length with hlt | hge
  · exfalso
    have h1 : c = a.take c.length := by
      have := congrArg (List.take c.length) h
      rw [List.take_append_of_le_length (Nat.le_of_lt hlt), List.take_left'] at this
      · exact this.symm
      · rfl
    obtain ⟨e, he⟩ : ∃ e, a = c ++ e := ⟨a.drop c.length, by rw [← List.take_append_drop c.length a]; rw [← h1]; simp⟩
    subst he
    rw [Str.byteLen_append] at hl
    have : e = [] := Str.byteLen_eq_zero.1 (by omega)
    subst this
    simp at hlt
  · exact hge

/-- **C17.**  `take_until_bytes(text.as_bytes())` of a `&str` takes the characters before the first occurrence of the text, and
fails exactly where the text does not occur. -/
theorem C17_take_until_bytes_text (needle : List Char) (i : Str) :
    (∃ pre post, i.data = pre ++ (needle ++ post) ∧
      (∀ pre' post', i.data = pre' ++ (needle ++ post') → pre.length ≤ pre'.length) ∧
      (takeUntilBytes strR utf8 (utf8 needle)).shape i =
        .ok (!pre.isEmpty) pre ⟨i.ptr + Str.byteLen pre, needle ++ post⟩) ∨
    ((∀ pre post, i.data ≠ pre ++ (needle ++ post)) ∧
      (takeUntilBytes strR utf8 (utf8 needle)).shape i = if i.data = [] then .soft else .hard ()) := by
  have e : (takeUntilBytes strR utf8 (utf8 needle)).shape i = (takeFn strR fun r =>
    match memslice (utf8 needle) (utf8 r) with
    | some i => .found i
    | none => .notFound ((utf8 r).length - ((utf8 needle).length - 1))).shape i := rfl
  rw [e, takeFn_str]
  rcases C17_memslice (utf8 needle) (utf8 i.data) with ⟨a, b, h1, h2, h3⟩ | ⟨h1, h2⟩
  · have hocc : ∃ pre post, i.data = pre ++ (needle ++ post) ∧ utf8 pre = a := by
      by_cases hn : needle = []
      · subst hn
        have ha : a.length ≤ ([] : List UInt8).length := h3 [] (utf8 i.data) (by simp [utf8])
        have : a = [] := by simpa using ha
        subst this
        exact ⟨[], i.data, rfl, rfl⟩
      · exact utf8_occurs hn (by rw [h1, List.append_assoc])
    obtain ⟨pre, post, hd, rfl⟩ := hocc
    refine .inl ⟨pre, post, hd, fun pre' post' hd' => ?_, ?_⟩
    · refine byteLen_mono (hd.symm.trans hd') (h3 (utf8 pre') (utf8 post') ?_)
      rw [hd', utf8_append, utf8_append, List.append_assoc]
    · simp only [h2]
      rcases Str.uncRange_spec (utf8 pre).length i.data with ⟨x, y, h4, h5, h6⟩ | ⟨h4, _⟩
      · simp only [h6]
        have := Str.splitChars_iff.2 ⟨h4, h5⟩
        rw [(Str.splitChars_iff (n := (utf8 pre).length)).2 ⟨hd, rfl⟩] at this
        cases this
        rw [← isEmpty_byteLen]
        rfl
      · exact absurd rfl (h4 pre _ hd)
  · refine .inr ⟨fun pre post hd => h2 (utf8 pre) (utf8 post) ?_, ?_⟩
    · rw [hd, utf8_append, utf8_append, List.append_assoc]
    · simp only [h1]

/-- Which characters a set of bytes means, if it is one of ASCII characters. -/
def asciiIn (p : UInt8 → Bool) (c : Char) : Bool := decide (c.toNat < 128) && p (asciiByte c)

private theorem findIdx_utf8 {p : UInt8 → Bool} (hp : ∀ b, p b = true → b.toNat < 128) :
    ∀ cs : List Char, (∃ pre c post, cs = pre ++ c :: post ∧ asciiIn p c = true ∧ (∀ x ∈ pre, asciiIn p x = false) ∧
        (utf8 cs).findIdx? p = some (utf8 pre).length) ∨
      ((∀ x ∈ cs, asciiIn p x = false) ∧ (utf8 cs).findIdx? p = none)
  | [] => .inr ⟨by simp, rfl⟩
  | c :: cs => by
    rw [utf8_cons]
    by_cases hc : asciiIn p c = true
    · refine .inl ⟨[], c, cs, rfl, hc, by simp, ?_⟩
      simp only [asciiIn, Bool.and_eq_true, decide_eq_true_eq] at hc
      rw [encode_ascii c hc.1]
      simp [List.findIdx?_cons, hc.2, utf8]
    · have hc' : asciiIn p c = false := by simpa using hc
      have hno : ∀ x ∈ String.utf8EncodeChar c, p x = false := by
        intro x hx
        by_cases hl : c.toNat < 128
        · rw [encode_ascii c hl] at hx
          simp only [List.mem_singleton] at hx
          subst hx
          simpa [asciiIn, hl] using hc'
        · have h128 := encode_beyond c (by omega) x hx
          cases hpx : p x with
          | false => rfl
          | true => have := hp x hpx; omega
      have hf : (String.utf8EncodeChar c).findIdx? p = none := by
        rw [List.findIdx?_eq_none_iff]; exact hno
      rw [List.findIdx?_append, hf]
      rcases findIdx_utf8 hp cs with ⟨pre, d, post, h1, h2, h3, h4⟩ | ⟨h1, h2⟩
      · refine .inl ⟨c :: pre, d, post, by rw [h1]; rfl, h2, ?_, ?_⟩
        · intro x hx
          rcases List.mem_cons.1 hx with rfl | hx
          · exact hc'
          · exact h3 x hx
        · rw [h4, utf8_cons]
          simp [Nat.add_comm]
      · refine .inr ⟨?_, ?_⟩
        · intro x hx
          rcases List.mem_cons.1 hx with rfl | hx
          · exact hc'
          · exact h1 x hx
        · rw [h2]; rfl

/-- **C17.**  `take_until_byte` (also `2` and `3`) of a `&str`, for ASCII bytes: the characters before the first such one; it fails
exactly where there is none. -/
theorem C17_take_until_byte_text (p : UInt8 → Bool) (hp : ∀ b, p b = true → b.toNat < 128) (i : Str) :
    (∃ pre c post, i.data = pre ++ c :: post ∧ asciiIn p c = true ∧ (∀ x ∈ pre, asciiIn p x = false) ∧
      (takeUntilByte strR utf8 p).shape i = .ok (!pre.isEmpty) pre ⟨i.ptr + Str.byteLen pre, c :: post⟩) ∨
    ((∀ x ∈ i.data, asciiIn p x = false) ∧
      (takeUntilByte strR utf8 p).shape i = if i.data = [] then .soft else .hard ()) := by
  have e : (takeUntilByte strR utf8 p).shape i = (takeFn strR fun r =>
    match memchr p (utf8 r) with
    | some i => .found i
    | none => .notFound (utf8 r).length).shape i := rfl
  rw [e, takeFn_str]
  simp only [memchr]
  rcases findIdx_utf8 hp i.data with ⟨pre, c, post, h1, h2, h3, h4⟩ | ⟨h1, h2⟩
  · refine .inl ⟨pre, c, post, h1, h2, h3, ?_⟩
    simp only [h4]
    rcases Str.uncRange_spec (utf8 pre).length i.data with ⟨x, y, h5, h6, h7⟩ | ⟨h5, _⟩
    · simp only [h7]
      have := Str.splitChars_iff.2 ⟨h5, h6⟩
      rw [(Str.splitChars_iff (n := (utf8 pre).length)).2 ⟨h1, rfl⟩] at this
      cases this
      rw [← isEmpty_byteLen]
      rfl
    · exact absurd rfl (h5 pre _ h1)
  · exact .inr ⟨h1, by simp only [h2]⟩

/-! ## Examples and deviations -/

private abbrev B := maybeS strS
private abbrev R : RangeOps B := maybeR strR
private def mkB (n : Nat) (ts : List Char) (more : Bool) : B.Input := (⟨100 * n, ts⟩, more)

example : (takeUntilBytes strR utf8 (utf8 ['é', 'a'])).shape ⟨0, ['è', 'é', 'é', 'a']⟩ = .ok true ['è', 'é'] ⟨4, ['é', 'a']⟩ := rfl
example : (takeUntilByte strR utf8 (· == 59)).shape ⟨0, ['è', ';']⟩ = .ok true ['è'] ⟨2, [';']⟩ := rfl
example : ∀ b : UInt8, (b == 59) = true → b.toNat < 128 := by
  intro b h
  have := eq_of_beq h
  subst this
  decide

/-- **C17 fails** for bytes that are not ASCII: the byte 169 occurs inside the letter `é`, and the parser fails without having
consumed anything, although it found what it looked for. -/
theorem C17_take_until_byte_text_fails :
    169 ∈ utf8 ['x', 'é'] ∧ (takeUntilByte strR utf8 (· == 169)).shape ⟨0, ['x', 'é']⟩ = .soft := ⟨by decide, rfl⟩

/-- **C14 fails** for `take_until_byte` on a partial `&str`, in three pieces: the second call stores how far to skip as counted from
where it began to search, here one byte; that is inside the letter `é`. -/
theorem C14_take_until_byte_fails :
    let p := takeUntilByte R utf8 (· == 59)
    p.shape (⟨0, ['é', 'x', ';', 'y']⟩, false) = .ok true ['é', 'x'] (⟨3, [';', 'y']⟩, false) ∧
    feed p mkB false 0 p.init [] [['é', 'x'], [';', 'y']] = .ok ['é', 'x'] [';', 'y'] ∧
    feed p mkB false 0 p.init [] [['é'], ['x'], [';', 'y']] = .ok ['é', 'x', ';'] ['y'] := by
  refine ⟨?_, ?_, ?_⟩ <;> rfl

/-- **C14 fails** for `take_until_bytes` on a partial `&str`.  The place where the next call goes on, one byte before the end for
a needle of two bytes, may be inside a character.  The next call then does not go there, but counts what it finds from there: it
takes too much.  "éab" in one piece gives "é", in two pieces "éa". -/
theorem C14_take_until_bytes_fails :
    let p := takeUntilBytes R utf8 (utf8 ['a', 'b'])
    p.shape (⟨0, ['é', 'a', 'b']⟩, false) = .ok true ['é'] (⟨2, ['a', 'b']⟩, false) ∧
    feed p mkB false 0 p.init [] [['é'], ['a', 'b']] = .ok ['é', 'a'] ['b'] ∧
    feed p mkB false 0 p.init [] [['e'], ['a', 'b']] = .ok ['e'] ['a', 'b'] := by
  refine ⟨?_, ?_, ?_⟩ <;> rfl

end Verif
