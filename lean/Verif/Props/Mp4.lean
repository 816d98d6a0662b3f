import Verif.Proof.Mp4

/-!
# C72: the MP4 parser reads exactly the boxes that are there

`benches/mp4.rs`.  `text` stands for `from_utf8` of the standard library; the bytes are fewer than `2^63`, as those of every
slice are.
-/

namespace Verif

open Mp4

variable {τ : Type} {text : List UInt8 → Except (Easy.Error UInt8 (List UInt8)) τ}

private theorem mp4_cases (debug : Bool) (data : List UInt8) (ptr : Nat) (hlen : data.length < 2 ^ 63) :
    (∃ bs k, parseMp4 text debug ⟨ptr, data⟩ = .ok bs k ∧ (∀ us r, File text data us r ↔ us = bs ∧ r = (k : Slice UInt8).data) ∧
      ¬ Undersized text data) ∨
    (∃ e, parseMp4 text debug ⟨ptr, data⟩ = .err e ∧ (∀ us r, ¬ File text data us r) ∧ (debug = true → ¬ Undersized text data)) ∨
    (parseMp4 text debug ⟨ptr, data⟩ = .abort .panic ∧ (∀ us r, ¬ File text data us r) ∧ debug = true ∧ Undersized text data) := by
  have hc := coherent_file (text := text) debug
  have hp := C41_parse _ hc (⟨ptr, data⟩ : Slice UInt8)
  have hs := hc.stream (⟨ptr, data⟩ : Slice UInt8)
  rcases file_answer (text := text) debug ⟨ptr, data⟩ hlen with ⟨c, bs, k, e, h1, h2⟩ | ⟨e, h1, h2⟩ | ⟨e, h1, h2⟩
  · refine .inl ⟨bs, k, (hp.1 bs k).2 ⟨c, ?_⟩, h1, h2⟩
    revert e
    rw [Parser.shape]
    cases (many (dataInterpreter text debug)).answer (⟨ptr, data⟩ : Slice UInt8) <;> simp [Answer.shape]
  · refine .inr (.inl ?_)
    have : ∃ e, (many (dataInterpreter text debug)).answer (⟨ptr, data⟩ : Slice UInt8) = .hard e := by
      revert e
      rw [Parser.shape]
      cases (many (dataInterpreter text debug)).answer (⟨ptr, data⟩ : Slice UInt8) <;> simp [Answer.shape]
    obtain ⟨x, hx⟩ := hp.2.2 (.inr this)
    exact ⟨x, hx, h1, h2⟩
  · refine .inr (.inr ⟨?_, h1, h2⟩)
    show (many (dataInterpreter text debug)).parse (⟨ptr, data⟩ : Slice UInt8) = _
    have : (many (dataInterpreter text debug)).answer (⟨ptr, data⟩ : Slice UInt8) = .abort .panic := by
      revert e
      rw [Parser.shape]
      cases (many (dataInterpreter text debug)).answer (⟨ptr, data⟩ : Slice UInt8) <;> simp [Answer.shape]
    rw [this] at hs
    revert hs
    unfold Parser.parse
    generalize (many (dataInterpreter text debug)).stream (⟨ptr, data⟩ : Slice UInt8) = x
    obtain ⟨r, j⟩ := x
    cases r <;> simp [Answer.of]

/-- The bytes of a name. -/
def Mp4.bytesOf (s : String) : List UInt8 := s.toList.map fun c => UInt8.ofNat c.toNat

/-- **C72.**  The names that `Means` speaks of are these (and `names` are all of them). -/
theorem C72_names : ftypName = bytesOf "ftyp" ∧ moovName = bytesOf "moov" ∧ mdatName = bytesOf "mdat" ∧ freeName = bytesOf "free" ∧
    skipName = bytesOf "skip" ∧ wideName = bytesOf "wide" ∧ names = ["ftyp", "moov", "mdat", "free", "skip", "wide"].map bytesOf := by
  decide

/-- **C72.**  The parser returns some boxes and a rest exactly if the bytes are those boxes, each after its size, followed by
that rest of fewer than four bytes. -/
theorem C72_mp4 (debug : Bool) (data : List UInt8) (ptr : Nat) (hlen : data.length < 2 ^ 63) (bs : List (Box τ)) (r : List UInt8) :
    (∃ p, parseMp4 text debug ⟨ptr, data⟩ = .ok bs (⟨p, r⟩ : Slice UInt8)) ↔ File text data bs r := by
  rcases mp4_cases (text := text) debug data ptr hlen with ⟨us, k, e, h1, -⟩ | ⟨x, e, h1, -⟩ | ⟨e, h1, -⟩
  · rw [h1, e]
    constructor
    · rintro ⟨p, h⟩
      cases h
      exact ⟨rfl, rfl⟩
    · rintro ⟨rfl, rfl⟩
      exact ⟨(k : Slice UInt8).ptr, rfl⟩
  · constructor
    · rintro ⟨p, h⟩
      cases e.symm.trans h
    · exact fun h => absurd h (h1 _ _)
  · constructor
    · rintro ⟨p, h⟩
      cases e.symm.trans h
    · exact fun h => absurd h (h1 _ _)

/-- **C72.**  It panics exactly if it was built with overflow checks and comes to a box that claims to be smaller than its own
size field; it always comes back. -/
theorem C72_panics (debug : Bool) (data : List UInt8) (ptr : Nat) (hlen : data.length < 2 ^ 63) (a : Abort) :
    parseMp4 text debug ⟨ptr, data⟩ = .abort a ↔ a = .panic ∧ debug = true ∧ Undersized text data := by
  rcases mp4_cases (text := text) debug data ptr hlen with ⟨us, k, e, -, h2⟩ | ⟨x, e, -, h2⟩ | ⟨e, -, h2, h3⟩
  · rw [e]
    constructor
    · intro h; cases h
    · rintro ⟨-, -, h⟩; exact absurd h h2
  · rw [e]
    constructor
    · intro h; cases h
    · rintro ⟨-, h', h⟩; exact absurd h (h2 h')
  · rw [e]
    constructor
    · intro h; cases h; exact ⟨rfl, h2, h3⟩
    · rintro ⟨rfl, -, -⟩; rfl

/-- **C72.**  In all other cases there is an error. -/
theorem C72_error (debug : Bool) (data : List UInt8) (ptr : Nat) (hlen : data.length < 2 ^ 63) :
    (∃ e, parseMp4 text debug ⟨ptr, data⟩ = .err e) ↔
      (∀ bs r, ¬ File text data bs r) ∧ ¬ (debug = true ∧ Undersized text data) := by
  rcases mp4_cases (text := text) debug data ptr hlen with ⟨us, k, e, h1, h2⟩ | ⟨x, e, h1, h2⟩ | ⟨e, h1, h2⟩
  · rw [e]
    constructor
    · rintro ⟨_, h⟩; cases h
    · rintro ⟨h, -⟩; exact absurd ((h1 _ _).2 ⟨rfl, rfl⟩) (h _ _)
  · exact ⟨fun _ => ⟨h1, fun h => h2 h.1 h.2⟩, fun _ => ⟨x, e⟩⟩
  · rw [e]
    constructor
    · rintro ⟨_, h⟩; cases h
    · rintro ⟨-, h⟩; exact absurd h2 h

/-- **C72.**  What was written is read back: boxes with their sizes, one after the other, give what their contents mean. -/
theorem C72_written (debug : Bool) (contents : List (List UInt8 × Box τ)) (ptr : Nat)
    (hlen : (contents.flatMap fun c => framed c.1).length < 2 ^ 63)
    (h : ∀ c ∈ contents, c.1.length + 4 < 2 ^ 32 ∧ Means text c.1 c.2) :
    ∃ p, parseMp4 text debug ⟨ptr, contents.flatMap fun c => framed c.1⟩ = .ok (contents.map Prod.snd) (⟨p, []⟩ : Slice UInt8) := by
  rw [C72_mp4 debug _ ptr hlen]
  clear hlen
  induction contents with
  | nil => exact .done (by simp)
  | cons c cs ih =>
    obtain ⟨h1, h2⟩ := h c (by simp)
    exact .box h1 h2 (ih fun c hc => h c (by simp [hc]))

/-! ## Examples -/

/-- `from_utf8` of the bytes below 128, for the examples. -/
private def ascii (bs : List UInt8) : Except (Easy.Error UInt8 (List UInt8)) (List UInt8) :=
  if bs.all (· < 128) then .ok bs else .error .endOfInput

/-- A box `ftyp` with one brand besides the major one, an empty box of a name nobody knows, and two bytes too many. -/
example : ∃ p, parseMp4 ascii true ⟨100, [0, 0, 0, 20, 102, 116, 121, 112, 105, 115, 111, 109, 0, 0, 2, 0, 97, 118, 99, 49,
      0, 0, 0, 8, 117, 117, 105, 100, 7, 7]⟩ =
    .ok [.ftyp ⟨[105, 115, 111, 109], [0, 0, 2, 0], [[97, 118, 99, 49]]⟩, .unknown] (⟨p, [7, 7]⟩ : Slice UInt8) :=
  (C72_mp4 true _ 100 (by decide) _ _).2
    (.box (content := [102, 116, 121, 112, 105, 115, 111, 109, 0, 0, 2, 0, 97, 118, 99, 49]) (by decide)
      (.ftyp (text := ascii) (major := [105, 115, 111, 109]) (version := [0, 0, 2, 0]) (by decide) rfl (by decide)
        (.more (text := ascii) (name := [97, 118, 99, 49]) (w := []) (by decide) rfl (.none (by decide))))
      (.box (content := [117, 117, 105, 100]) (by decide)
        (.unknown fun n hn => by
          simp only [names, List.mem_cons, List.not_mem_nil, or_false] at hn
          rcases hn with rfl | rfl | rfl | rfl | rfl | rfl <;> decide) (.done (by decide))))

/-- **C72** fails as "no input makes the parser panic": four zero bytes do, in a build with overflow checks. -/
theorem C72_panics_fails : parseMp4 ascii true ⟨0, [0, 0, 0, 0]⟩ = .abort .panic :=
  (C72_panics true _ 0 (by decide) .panic).2 ⟨rfl, rfl, .here (n := 0) (w := []) (by decide)⟩

end Verif
