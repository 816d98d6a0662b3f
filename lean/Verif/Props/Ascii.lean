import Verif.Spec.Ascii
import Verif.Props.Alike
import Verif.Props.StrRanges

/-!
# The same grammar over text and over its UTF-8 bytes (C55)
-/

namespace Verif

variable {S S' : Strm} {σ σ' τ τ' α α' β β' : Type}
variable {V : α → α' → Prop} {rd : S.Tok → Char} {rd' : S'.Tok → UInt8} {b : Bool}

/-! ## The encoding -/

/-- An ASCII character is its own encoding. -/
theorem encode_ascii (c : Char) (h : c.toNat < 128) : String.utf8EncodeChar c = [asciiByte c] := by
  unfold String.utf8EncodeChar
  simp only
  have : c.val.toNat = c.toNat := rfl
  rw [if_pos (by omega)]
  rfl

/-- All bytes of any other character are beyond ASCII. -/
theorem encode_beyond (c : Char) (h : 128 ≤ c.toNat) : ∀ x ∈ String.utf8EncodeChar c, 128 ≤ x.toNat := by
  unfold String.utf8EncodeChar
  simp only
  have hv : c.val.toNat = c.toNat := rfl
  rw [hv]
  generalize c.toNat = v at *
  intro x hx
  split at hx
  · omega
  · split at hx
    · simp only [List.mem_cons, List.not_mem_nil, or_false] at hx
      rcases hx with rfl | rfl <;> simp <;> omega
    · split at hx
      · simp only [List.mem_cons, List.not_mem_nil, or_false] at hx
        rcases hx with rfl | rfl | rfl <;> simp <;> omega
      · simp only [List.mem_cons, List.not_mem_nil, or_false] at hx
        rcases hx with rfl | rfl | rfl | rfl <;> simp <;> omega

theorem ascii_tallies {f : Char → Option α} {g : UInt8 → Option α'} (h : AsciiAlike V f g) :
    Tallies String.utf8EncodeChar V f g := by
  intro c
  by_cases hc : c.toNat < 128
  · exact ⟨_, [], encode_ascii c hc, h.1 c hc, fun _ => rfl⟩
  · obtain ⟨u, us, he, _⟩ := Str.encode_bytes c
    have hb := encode_beyond c (by omega)
    refine ⟨u, us, he, ?_, ?_⟩
    · rw [h.2.1 c (by omega), h.2.2 u (hb u (by simp [he]))]; trivial
    · rw [h.2.1 c (by omega)]; simp

theorem ascii_covers {f : Char → Bool} {g : UInt8 → Bool} (h : AsciiSpan f g) : Covers String.utf8EncodeChar f g := by
  intro c
  obtain ⟨h1, d, h2, h3⟩ := h
  by_cases hc : c.toNat < 128
  · refine ⟨_, [], encode_ascii c hc, ?_⟩
    have := h1 c hc
    cases hf : f c <;> rw [hf] at this <;> simp [← this]
  · obtain ⟨u, us, he, _⟩ := Str.encode_bytes c
    have hb := encode_beyond c (by omega)
    refine ⟨u, us, he, ?_⟩
    rw [h2 c (by omega)]
    cases d with
    | true => simp only [if_true]; intro x hx; exact h3 x (hb x (by rw [he]; exact hx))
    | false => simp only [Bool.false_eq_true, if_false]; exact h3 u (hb u (by simp [he]))

theorem utf8_nonempty (c : Char) : String.utf8EncodeChar c ≠ [] := by
  obtain ⟨u, us, he, _⟩ := Str.encode_bytes c
  simp [he]

/-- UTF-8 is prefix-free. -/
theorem utf8_prefixFree : PrefixFree String.utf8EncodeChar := by
  refine ⟨utf8_nonempty, fun c d us us' h => ?_⟩
  have e : ∀ (c : Char) (us : List UInt8),
      ByteArray.utf8DecodeChar? (String.utf8EncodeChar c ++ us).toByteArray 0 = some c := by
    intro c us
    rw [List.toByteArray_append, ← List.utf8Encode_singleton]
    exact List.utf8DecodeChar?_utf8Encode_singleton_append
  have := e c us
  rw [h, e d us'] at this
  exact (Option.some.inj this).symm

/-- A byte that is not a continuation byte begins a character. -/
private theorem boundary {cs : List Char} {pre post : List UInt8} {x : UInt8} (hx : x.toNat < 128 ∨ 192 < x.toNat)
    (h : cs.flatMap String.utf8EncodeChar = pre ++ x :: post) :
    ∃ as bs, cs = as ++ bs ∧ pre = as.flatMap String.utf8EncodeChar ∧ bs.flatMap String.utf8EncodeChar = x :: post := by
  induction cs generalizing pre with
  | nil => cases pre <;> cases h
  | cons c cs ih =>
    cases pre with
    | nil => exact ⟨[], c :: cs, rfl, rfl, h⟩
    | cons y pre =>
      obtain ⟨u, us, he, _, hus⟩ := Str.encode_bytes c
      rw [List.flatMap_cons, List.append_eq_append_iff] at h
      rcases h with ⟨l, h1, h2⟩ | ⟨l, h1, h2⟩
      · obtain ⟨as, bs, rfl, rfl, h3⟩ := ih h2
        exact ⟨c :: as, bs, rfl, by rw [h1]; rfl, h3⟩
      · cases l with
        | nil =>
          obtain ⟨as, bs, rfl, h4, h3⟩ := ih (pre := []) h2.symm
          refine ⟨c :: as, bs, rfl, ?_, h3⟩
          rw [List.flatMap_cons, h1, ← h4]
          simp
        | cons z l =>
          simp only [List.cons_append, List.cons.injEq] at h2
          obtain ⟨rfl, _⟩ := h2
          rw [he] at h1
          simp only [List.cons_append, List.cons.injEq] at h1
          have := hus x (by rw [h1.2]; simp)
          omega

/-- UTF-8 is self-synchronising: the bytes of a text are only found where the text is. -/
theorem utf8_synchronous (needle : List Char) (hn : needle ≠ []) : Synchronous String.utf8EncodeChar needle := by
  intro cs pre post h
  cases needle with
  | nil => exact absurd rfl hn
  | cons n ns =>
    obtain ⟨u, us, he, hu, _⟩ := Str.encode_bytes n
    have h' := h
    rw [List.flatMap_cons, he] at h
    obtain ⟨as, bs, rfl, rfl, h3⟩ := boundary hu h
    rw [List.flatMap_append] at h'
    obtain ⟨cs, rfl, _⟩ := prefixFree_start utf8_prefixFree (List.append_cancel_left h')
    exact ⟨as, cs, rfl, rfl⟩

/-! ## Parsers -/

/-- A stream of characters and a stream of their bytes. -/
abbrev Bytes (rd : S.Tok → Char) (rd' : S'.Tok → UInt8) (b : Bool) :=
  Written (S := S) (S' := S') rd rd' String.utf8EncodeChar b

/-- A token and its byte. -/
abbrev ByteOf (rd : S.Tok → Char) (rd' : S'.Tok → UInt8) (t : S.Tok) (t' : S'.Tok) : Prop := rd' t' = asciiByte (rd t)

/-- **C55.**  Parsers of one token that are for ASCII only. -/
theorem C55_one (hS : S.Lawful) (hS' : S'.Lawful) {f : Char → Option α} {g : UInt8 → Option α'} (hfg : AsciiAlike V f g) :
    Alike (Bytes rd rd' b) V (satisfyMap S fun t => f (rd t)) (satisfyMap S' fun t => g (rd' t)) :=
  C54_one hS hS' (ascii_tallies hfg) (C53_satisfy_map hS _) (C53_satisfy_map hS' _)

private theorem asciiByte_toNat {c : Char} (h : c.toNat < 128) : (asciiByte c).toNat = c.toNat := by
  simp only [asciiByte, UInt8.toNat_ofNat']
  omega

private theorem asciiByte_inj {c d : Char} (hc : c.toNat < 128) (hd : d.toNat < 128) (h : asciiByte c = asciiByte d) :
    c = d := by
  have := congrArg UInt8.toNat h
  rw [asciiByte_toNat hc, asciiByte_toNat hd] at this
  exact Char.toNat_inj.1 this

/-- The same for parsers that return the token. -/
private theorem one_tokens (hS : S.Lawful) (hS' : S'.Lawful) {f : Char → Bool} {g : UInt8 → Bool}
    (hfg : (∀ c, c.toNat < 128 → f c = g (asciiByte c)) ∧ (∀ c, 128 ≤ c.toNat → f c = false) ∧
      ∀ x, 128 ≤ x.toNat → g x = false)
    {p : Parser S σ S.Tok} {q : Parser S' τ S'.Tok}
    (hp : ∀ i, S.IsOne (fun t => if f (rd t) then some t else none) i (p.shape i))
    (hq : ∀ i, S'.IsOne (fun t => if g (rd' t) then some t else none) i (q.shape i)) :
    Alike (Bytes rd rd' b) (ByteOf rd rd') p q := by
  have key : AsciiAlike (fun c x => x = asciiByte c) (fun c => if f c then some c else none)
      (fun x => if g x then some x else none) := by
    refine ⟨fun c hc => ?_, fun c hc => by simp [hfg.2.1 c hc], fun x hx => by simp [hfg.2.2 x hx]⟩
    have := hfg.1 c hc
    cases hg : g (asciiByte c) <;> rw [hg] at this <;> simp [this, hg, Both]
  have h := C54_one (rd := rd) (rd' := rd') (b := b) hS hS' (ascii_tallies key) (C53_satisfy_map hS _) (C53_satisfy_map hS' _)
  intro i i' hw
  have h1 := h i i' hw
  have e : ∀ {S : Strm} {υ T : Type} (rd : S.Tok → T) (f : T → Bool) (p : Parser S υ S.Tok) i,
      S.IsOne (fun t => if f (rd t) then some t else none) i (p.shape i) →
      S.IsOne (fun t => if f (rd t) then some (rd t) else none) i ((p.shape i).map rd) := by
    intro S υ T rd f p i h
    rcases h with ⟨t, j, h1, h2⟩ | ⟨h1, h2⟩
    · refine .inl ⟨t, j, h1, ?_⟩
      rw [h2]
      by_cases hf : f (rd t) = true <;> simp [hf, Answer.map]
    · refine .inr ⟨h1, ?_⟩
      rw [h2]
      cases S.isPartial i <;> rfl
  rw [C53_unique _ _ _ _ (C53_satisfy_map hS _ i) (e rd f p i (hp i)),
    C53_unique _ _ _ _ (C53_satisfy_map hS' _ i') (e rd' g q i' (hq i'))] at h1
  revert h1
  cases p.shape i <;> cases q.shape i' <;> intro h1 <;> first | exact h1.elim | exact h1

/-- **C55.**  `token`, for ASCII characters. -/
theorem C55_token [DecidableEq S.Tok] [DecidableEq S'.Tok] (hS : S.Lawful) (hS' : S'.Lawful)
    (hj : ∀ x y, rd x = rd y → x = y) (hj' : ∀ x y, rd' x = rd' y → x = y) (c : S.Tok) (c' : S'.Tok)
    (hc : (rd c).toNat < 128) (hc' : ByteOf rd rd' c c') :
    Alike (Bytes rd rd' b) (ByteOf rd rd') (token S c) (token S' c') := by
  have e1 : (fun t => if t = c then some t else none) = fun t => if decide (rd t = rd c) then some t else none := by
    funext t
    by_cases h : t = c
    · simp [h]
    · have : rd t ≠ rd c := fun e => h (hj _ _ e)
      simp [h, this]
  have e2 : (fun t => if t = c' then some t else none) = fun t => if decide (rd' t = asciiByte (rd c)) then some t else none := by
    funext t
    by_cases h : t = c'
    · simp [h, hc']
    · have : rd' t ≠ asciiByte (rd c) := fun e => h (hj' _ _ (by rw [e, hc']))
      simp [h, this]
  refine one_tokens (f := fun x => decide (x = rd c)) (g := fun x => decide (x = asciiByte (rd c))) hS hS' ⟨?_, ?_, ?_⟩
    (fun i => ?_) (fun i => ?_)
  · intro x hx
    by_cases h : x = rd c
    · simp [h]
    · have : asciiByte x ≠ asciiByte (rd c) := fun e => h (asciiByte_inj hx hc e)
      simp [h, this]
  · intro x hx
    have : x ≠ rd c := by rintro rfl; omega
    simp [this]
  · intro x hx
    have : x ≠ asciiByte (rd c) := by rintro rfl; rw [asciiByte_toNat hc] at hx; omega
    simp [this]
  · have := C53_token hS c i
    rw [e1] at this
    exact this
  · have := C53_token hS' c' i
    rw [e2] at this
    exact this

/-- **C55.**  The named classes without members beyond ASCII: `digit`, `newline`, `tab`, `oct_digit`, `hex_digit`. -/
theorem C55_class (hS : S.Lawful) (hS' : S'.Lawful) (U : Unicode) (k : TokenClass) (hk : k.asciiOnly = true) :
    Alike (Bytes rd rd' b) (ByteOf rd rd') (charClass S U rd k) (byteClass S' rd' k) := by
  refine one_tokens (f := (k.char U).1) (g := k.byte.1) hS hS' ⟨?_, ?_, ?_⟩ (C53_char hS U rd k) (fun i => ?_)
  · intro c hc
    exact C53_agree U k c (asciiByte c) (by rw [asciiByte_toNat hc]; exact hc) (asciiByte_toNat hc).symm
      (fun h => by rw [h] at hk; cases hk)
  · intro c hc
    cases h : (k.char U).1 c with
    | false => rfl
    | true => have := C53_char_ascii U k hk c h; omega
  · intro x hx
    cases h : k.byte.1 x with
    | false => rfl
    | true =>
      obtain ⟨c, hc, hcx⟩ := (C53_byte_members k x).1 h
      have : ∀ d ∈ k.ascii, d.toNat < 128 := by cases k <;> decide
      have := this c hc
      omega
  · exact C53_named hS' (fun t => k.byte.1 (rd' t)) k.byte.2 i

/-- **C55.**  `string` and `bytes`, for ASCII strings; with the comparison of either also `string_cmp` and `bytes_cmp`. -/
theorem C55_string (hS : S.Lawful) (hS' : S'.Lawful) (cs : List Char) (hcs : ∀ c ∈ cs, c.toNat < 128)
    (x : Info S.Tok S.Rng) (x' : Info S'.Tok S'.Rng) {v : α} {v' : α'} (hv : V v v') :
    Alike (Bytes rd rd' b) V (stringCmp S cs (fun c t => decide (c = rd t)) x v)
      (stringCmp S' (cs.map asciiByte) (fun c t => decide (c = rd' t)) x' v') := by
  refine C54_tokens (cmp := fun c t => decide (c = t)) (cmp' := fun c t => decide (c = t)) hS hS' ?_ hv
    (C40_string hS _ x cs v) (C40_string hS' _ x' _ v')
  induction cs with
  | nil => exact .nil
  | cons c cs ih =>
    have hc := hcs c (by simp)
    refine .cons (ascii_tallies ⟨?_, ?_, ?_⟩) (ih fun d h => hcs d (by simp [h]))
    · intro d hd
      by_cases h : c = d
      · simp [h, Both]
      · have : asciiByte c ≠ asciiByte d := fun e => h (asciiByte_inj hc hd e)
        simp [h, this, Both]
    · intro d hd
      have : c ≠ d := by rintro rfl; omega
      simp [this]
    · intro y hy
      have : asciiByte c ≠ y := by rintro rfl; rw [asciiByte_toNat hc] at hy; omega
      simp [this]

section Ranges

variable {Q : RangeOps S} {Q' : RangeOps S'} {toks : S.Rng → List S.Tok} {toks' : S'.Rng → List S'.Tok}
  {w : S.Tok → Nat} {w' : S'.Tok → Nat}

/-- A range and its bytes. -/
abbrev BytesOf (toks : S.Rng → List S.Tok) (toks' : S'.Rng → List S'.Tok) (rd : S.Tok → Char) (rd' : S'.Tok → UInt8) :=
  WrittenRange toks toks' rd rd' String.utf8EncodeChar

/-- **C55.**  `take_while`: the slices taken are a text and its bytes, if all beyond ASCII is treated alike. -/
theorem C55_take_while (hS : S.Lawful) (hS' : S'.Lawful) (hQ : Q.Lawful toks w) (hQ' : Q'.Lawful toks' w') (he : S.EndsOnly)
    (he' : S'.EndsOnly) {f : Char → Bool} {g : UInt8 → Bool} (hfg : AsciiSpan f g) :
    Alike (Bytes rd rd' b) (BytesOf toks toks' rd rd') (takeWhile Q fun t => f (rd t)) (takeWhile Q' fun t => g (rd' t)) :=
  C54_take_while hS hS' hQ hQ' he he' (ascii_covers hfg)

/-- **C55.**  `take_while1`. -/
theorem C55_take_while1 (hS : S.Lawful) (hS' : S'.Lawful) (hQ : Q.Lawful toks w) (hQ' : Q'.Lawful toks' w') (he : S.EndsOnly)
    (he' : S'.EndsOnly) {f : Char → Bool} {g : UInt8 → Bool} (hfg : AsciiSpan f g) :
    Alike (Bytes rd rd' b) (BytesOf toks toks' rd rd') (takeWhile1 Q fun t => f (rd t)) (takeWhile1 Q' fun t => g (rd' t)) :=
  C54_take_while1 hS hS' hQ hQ' he he' (ascii_covers hfg)

/-- **C55.**  `recognize`, of parsers that give equal answers. -/
theorem C55_recognize (hS : S.Lawful) (hS' : S'.Lawful) (hQ : Q.Lawful toks w) (hQ' : Q'.Lawful toks' w')
    {p : Parser S σ α} {p' : Parser S' σ' α'} (hp : Alike (Bytes rd rd' b) V p p') (hm : Moves p) (hm' : Moves p') :
    Alike (Bytes rd rd' b) (BytesOf toks toks' rd rd') (recognizeRange Q p) (recognizeRange Q' p') :=
  C54_recognize_range hS hS' hQ hQ' utf8_nonempty hp hm hm'

/-- **C55.**  `take_until_range`, for any text that is not empty: its bytes are not found within other characters. -/
theorem C55_take_until_range [DecidableEq S.Rng] [DecidableEq S'.Rng] (hS : S.Lawful) (hS' : S'.Lawful)
    (hQ : Q.Lawful toks w) (hQ' : Q'.Lawful toks' w') (hj : ∀ x y, rd x = rd y → x = y)
    (hj' : ∀ x y, rd' x = rd' y → x = y) {r : S.Rng} {r' : S'.Rng} (hr : BytesOf toks toks' rd rd' r r') (hne : toks r ≠ []) :
    Alike (Bytes rd rd' b) (BytesOf toks toks' rd rd') (takeUntilRange Q r) (takeUntilRange Q' r') :=
  C54_take_until_range hS hS' hQ hQ' utf8_nonempty hj hj' hr (utf8_synchronous _ (by simpa using hne))

/-- **C55.**  `range`, for any text, on complete inputs. -/
theorem C55_range [DecidableEq S.Rng] [DecidableEq S'.Rng] (hS : S.Lawful) (hS' : S'.Lawful)
    (hQ : Q.Lawful toks w) (hQ' : Q'.Lawful toks' w') (hj : ∀ x y, rd x = rd y → x = y)
    (hj' : ∀ x y, rd' x = rd' y → x = y) {r : S.Rng} {r' : S'.Rng} (hr : BytesOf toks toks' rd rd' r r') :
    Alike (Bytes rd rd' false) (BytesOf toks toks' rd rd') (range Q r) (range Q' r') :=
  C54_range hS hS' hQ hQ' utf8_prefixFree hj hj' hr

end Ranges

/-- **C55.**  `eof`. -/
theorem C55_eof (hS : S.Lawful) (hS' : S'.Lawful) (hE : S.EndsOnly) (hE' : S'.EndsOnly) :
    Alike (Bytes rd rd' b) (fun _ _ => True) (eof S) (eof S') := C54_eof hS hS' hE hE' utf8_nonempty

/-! ## `&str` and `&[u8]` -/

private abbrev B := sliceS UInt8 1

private theorem bytes_iff (i : Str) (j : Slice UInt8) :
    Bytes (S := strS) (S' := B) id id false i j ↔ j.data = utf8 i.data := by
  constructor
  · rintro ⟨_, _, ts, h1, h2⟩
    rw [C54_str] at h1
    rw [C54_slice] at h2
    simpa [utf8, h1] using h2.symm
  · intro h
    exact ⟨rfl, rfl, _, (C54_str _ _ _).2 rfl, (C54_slice _ _ _).2 (by simp [utf8, h])⟩

/-- **C55.**  Parsers that give equal answers: where the one succeeds on a text, the other succeeds on its bytes with a
corresponding value, and what is left are the bytes of the text that is left; where the one fails, the other fails. -/
theorem C55_parse {p : Parser strS σ α} {q : Parser (sliceS UInt8 1) τ α'}
    (h : Alike (Bytes (S := strS) (S' := sliceS UInt8 1) id id false) V p q) (hp : Coherent p) (hq : Coherent q) (a a' : Nat)
    (text : List Char) :
    (∀ v rest, p.parse ⟨a, text⟩ = .ok v rest →
      ∃ v' rest', q.parse ⟨a', utf8 text⟩ = .ok v' rest' ∧ V v v' ∧ rest'.data = utf8 rest.data) ∧
    (∀ v' rest', q.parse ⟨a', utf8 text⟩ = .ok v' rest' →
      ∃ v rest, p.parse ⟨a, text⟩ = .ok v rest ∧ V v v' ∧ rest'.data = utf8 rest.data) ∧
    ((∃ e, p.parse ⟨a, text⟩ = .err e) ↔ ∃ e, q.parse ⟨a', utf8 text⟩ = .err e) := by
  obtain ⟨h1, h2, h3⟩ := C54_parse h hp hq ⟨a, text⟩ ⟨a', utf8 text⟩ ((bytes_iff _ _).2 rfl)
  refine ⟨fun v rest e => ?_, fun v' rest' e => ?_, h3⟩
  · obtain ⟨v', rest', h4, h5, h6⟩ := h1 v rest e
    exact ⟨v', rest', h4, h5, (bytes_iff _ _).1 h6⟩
  · obtain ⟨v, rest, h4, h5, h6⟩ := h2 v' rest' e
    exact ⟨v, rest, h4, h5, (bytes_iff _ _).1 h6⟩

/-- **C55.**  `take(n)` agrees where `n` bytes end between two characters, or are more than there are. -/
theorem C55_take (n a a' : Nat) (text : List Char)
    (hn : (∃ x y, text = x ++ y ∧ (utf8 x).length = n) ∨ (utf8 text).length < n) :
    ((take strR n).shape ⟨a, text⟩).Alike (Bytes (S := strS) (S' := sliceS UInt8 1) id id false)
      (fun r r' => r' = utf8 r) ((take (sliceR UInt8 1) n).shape ⟨a', utf8 text⟩) := by
  simp only [Parser.shape]
  rcases C27_take n ⟨a, text⟩ with ⟨r, rest, h1, h2, e1⟩ | ⟨h1, e1⟩ <;> rw [e1] <;> dsimp only at h1
  · have h4 : utf8 text = utf8 r ++ utf8 rest := by rw [h1]; simp [utf8]
    have h5 : (sliceS UInt8 1).Reads ⟨a', utf8 text⟩ (utf8 r) ⟨a' + n, utf8 rest⟩ :=
      slice_reads.2 ⟨h4, by simp [h2]⟩
    rcases C40_take (sliceR_lawful UInt8 1) n ⟨a', utf8 text⟩ with ⟨r', k', h1', h2', e'⟩ | ⟨h1', e'⟩ <;>
      simp only [Parser.shape] at e' <;> rw [e']
    · rw [weight_one] at h2'
      obtain ⟨h6, h7⟩ := reads_length_unique h1' h5 (by rw [h2', h2])
      exact ⟨rfl, h6, (bytes_iff _ _).2 (by rw [h7])⟩
    · exact absurd (by rw [weight_one, h2]) (h1' _ _ h5)
  · have h2 : (utf8 text).length < n := hn.resolve_left h1
    rcases C40_take (sliceR_lawful UInt8 1) n ⟨a', utf8 text⟩ with ⟨r', k', h1', h2', e'⟩ | ⟨h1', e'⟩ <;>
      simp only [Parser.shape] at e' <;> rw [e']
    · have h3 := congrArg List.length (slice_reads.1 h1').1
      rw [weight_one] at h2'
      simp only [List.length_append] at h3
      omega
    · trivial

/-! ### Beyond ASCII the two differ -/

private def noTables : Unicode := ⟨fun _ => false, fun _ => false, fun _ => false, fun _ => false, fun _ => false⟩

/-- `string("é")` fails without commitment on `è`; on the bytes of `è`, `bytes("é".as_bytes())` is committed, as the two
characters begin with the same byte. -/
theorem C55_string_beyond :
    (stringCmp strS ['é'] (fun c t => decide (c = t)) (.static "") ()).shape ⟨0, ['è']⟩ = .soft ∧
    (stringCmp (sliceS UInt8 1) (utf8 ['é']) (fun c t => decide (c = t)) (.static "") ()).shape ⟨0, utf8 ['è']⟩ = .hard () :=
  ⟨rfl, rfl⟩

/-- `take(1)` does not split a character of a `&str`, but splits its bytes. -/
theorem C55_take_beyond :
    (take strR 1).shape ⟨0, ['é']⟩ = .soft ∧
    (take (sliceR UInt8 1) 1).shape ⟨0, utf8 ['é']⟩ = .ok true [195] ⟨1, [169]⟩ := ⟨rfl, rfl⟩

/-- Letters beyond ASCII are letters of a text only. -/
theorem C55_letter_beyond :
    (charClass strS { noTables with alphabetic := (· == 'é') } id .letter).shape ⟨0, ['é']⟩ = .ok true 'é' ⟨2, []⟩ ∧
    (byteClass (sliceS UInt8 1) id .letter).shape ⟨0, utf8 ['é']⟩ = .soft := ⟨rfl, rfl⟩

/-- On a partial input `range` asks for more where the size of what it looks for is not a boundary of the text, although
the bytes that are there tell already that it is not there. -/
theorem C55_range_beyond :
    (range (partialR strR) ['a', 'b']).shape ⟨0, ['a', 'é']⟩ = .hard () ∧
    (range (partialR (sliceR UInt8 1)) [97, 98]).shape ⟨0, utf8 ['a', 'é']⟩ = .soft := ⟨rfl, rfl⟩

/-! ### A grammar -/

/-- `sep_by1(recognize(skip_many1(digit())), token(','))`, and quoted text: `token('"').with(take_while(|c| c != '"'))`. -/
private abbrev textG := Verif.or (recognizeRange strR (sepBy1 (charClass strS noTables id .digit) (token strS ',')))
  («with» (token strS '"') (takeWhile strR fun c => c != '"'))

private abbrev bytesG := Verif.or (recognizeRange (sliceR UInt8 1) (sepBy1 (byteClass (sliceS UInt8 1) id .digit) (token (sliceS UInt8 1) 44)))
  («with» (token (sliceS UInt8 1) 34) (takeWhile (sliceR UInt8 1) fun c => c != 34))

private theorem textG_bytesG : Alike (Bytes (S := strS) (S' := sliceS UInt8 1) id id false) (fun r r' => r' = utf8 r) textG bytesG := by
  have hS := str_lawful
  have hB := slice_lawful UInt8 1
  have hid : ∀ {A : Type} (x y : A), id x = id y → x = y := fun _ _ h => h
  have hR := strR_lawful
  have hQ := sliceR_lawful UInt8 1
  have m1 : ∀ f n, Moves (satisfyNamed strS f n) := moves_satisfyNamed hS
  have m2 : ∀ f n, Moves (satisfyNamed (sliceS UInt8 1) f n) := moves_satisfyNamed hB
  have hv : ∀ (r : List Char) (r' : List UInt8), BytesOf (S := strS) (S' := sliceS UInt8 1) id id id id r r' → r' = utf8 r :=
    fun r r' h => by simpa [WrittenRange, utf8] using h
  have span : AsciiSpan (fun c => c != '"') (fun c => c != 34) := by
    refine ⟨fun c hc => ?_, true, fun c hc => ?_, fun x hx => ?_⟩
    · have h : ∀ n < 128, (Char.ofNat n != '"') = (asciiByte (Char.ofNat n) != 34) := by decide +kernel
      have := h c.toNat hc
      rwa [Char.ofNat_toNat] at this
    · simp only [bne_iff_ne, ne_eq]; rintro rfl; revert hc; decide
    · simp only [bne_iff_ne, ne_eq]; rintro rfl; revert hx; decide
  have h1 := C54_sep_by1 hS hB (C55_class (b := false) hS hB noTables .digit rfl)
    (C55_token hS hB hid hid ',' 44 (by decide) rfl) (m1 _ _) (m2 _ _) (moves_token hS _) (moves_token hB _)
    (keeps_unit _) (keeps_unit _) (keeps_unit _) (keeps_unit _) (consuming_satisfy _) (consuming_satisfy _)
  have h2 := C54_weaken (C55_recognize hS hB hR hQ h1
    (moves_sepBy1 hS (m1 _ _) (moves_token hS _)) (moves_sepBy1 hB (m2 _ _) (moves_token hB _))) hv
  have h3 := C54_with (C55_token hS hB hid hid '"' 34 (by decide) rfl)
    (C54_weaken (C55_take_while (b := false) hS hB hR hQ str_endsOnly (slice_endsOnly UInt8 1) span) hv)
  exact C54_or hS hB h2 h3
    (moves_recognizeRange hS hR (moves_sepBy1 hS (m1 _ _) (moves_token hS _)))
    (moves_recognizeRange hB hQ (moves_sepBy1 hB (m2 _ _) (moves_token hB _)))
    (moves_with hS (moves_token hS _) (moves_takeWhile hS hR _))
    (moves_with hB (moves_token hB _) (moves_takeWhile hB hQ _))

-- Digits; a quoted text with a character of two bytes.
example : textG.parse ⟨0, ['1', ',', '2', ';']⟩ = .ok ['1', ',', '2'] ⟨3, [';']⟩ := rfl
example : bytesG.parse ⟨0, [49, 44, 50, 59]⟩ = .ok [49, 44, 50] ⟨3, [59]⟩ := rfl
example : textG.parse ⟨0, ['"', 'é', '"']⟩ = .ok ['é'] ⟨3, ['"']⟩ := rfl
example : bytesG.parse ⟨0, utf8 ['"', 'é', '"']⟩ = .ok (utf8 ['é']) ⟨3, [34]⟩ := rfl

-- The hypotheses of `C55_parse` are met.
example (text : List Char) : (∃ e, textG.parse ⟨0, text⟩ = .err e) ↔ ∃ e, bytesG.parse ⟨0, utf8 text⟩ = .err e :=
  (C55_parse textG_bytesG
    (.ofMode str_lawful (moves_or str_lawful
      (moves_recognizeRange str_lawful strR_lawful (moves_sepBy1 str_lawful (moves_satisfyNamed str_lawful _ _) (moves_token str_lawful _)))
      (moves_with str_lawful (moves_token str_lawful _) (moves_takeWhile str_lawful strR_lawful _))).run)
    (.ofMode (slice_lawful UInt8 1) (moves_or (slice_lawful UInt8 1)
      (moves_recognizeRange (slice_lawful UInt8 1) (sliceR_lawful UInt8 1)
        (moves_sepBy1 (slice_lawful UInt8 1) (moves_satisfyNamed (slice_lawful UInt8 1) _ _) (moves_token (slice_lawful UInt8 1) _)))
      (moves_with (slice_lawful UInt8 1) (moves_token (slice_lawful UInt8 1) _) (moves_takeWhile (slice_lawful UInt8 1) (sliceR_lawful UInt8 1) _))).run)
    0 0 text).2.2

end Verif
