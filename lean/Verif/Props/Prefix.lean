import Verif.Proof.BuiltMoves

/-!
# C01: parsing only ever removes a prefix of the input
-/

namespace Verif

variable {S : Strm} {R : RangeOps S} [DecidableEq S.Tok] [DecidableEq S.Rng]

/-- **C01.**  Whatever a parser composed from the library's combinators answers, from whatever state,
in first or resumed mode, the input it leaves is what remains of the given one after reading some
tokens. -/
theorem C01_run {toks : S.Rng → List S.Tok} {w : S.Tok → Nat} (hS : S.Lawful)
    (hR : R.Lawful toks w) {σ α : Type} {p : Parser S σ α} (h : Built R p)
    (first : Bool) (i : S.Input) (s : σ) : ∃ ts, S.Reads i ts (p.run first i s).inp :=
  (h.moves hS hR).run first i s

/-- **C01**, the other entry points: `parse_lazy`, `parse_committed_mode`, `parse_stream`. -/
theorem C01_entry {toks : S.Rng → List S.Tok} {w : S.Tok → Nat} (hS : S.Lawful)
    (hR : R.Lawful toks w) {σ α : Type} {p : Parser S σ α} (h : Built R p) (i : S.Input) :
    (∃ ts, S.Reads i ts (p.lazy i).2) ∧
    (∀ first s, ∃ ts, S.Reads i ts (p.committed first i s).inp) ∧
    (∃ ts, S.Reads i ts (p.stream i).2) ∧
    (∀ s, ∃ ts, S.Reads i ts (p.parseWithState i s).2.1) := by
  refine ⟨(h.moves hS hR).lazy i, fun f s => (h.moves hS hR).committed f i s,
    (h.moves hS hR).stream i, fun s => ?_⟩
  have := describing_reach hS (run := p.run false) p.addError (i := i) (s := s)
    ((h.moves hS hR).run false i s)
  unfold Parser.parseWithState Parser.streamPartial
  simp only
  split <;> exact this

/-- **C01**, top level: what `parse` returns as the rest is what remains after some tokens. -/
theorem C01_parse {toks : S.Rng → List S.Tok} {w : S.Tok → Nat} (hS : S.Lawful)
    (hR : R.Lawful toks w) {σ α : Type} {p : Parser S σ α} (h : Built R p) {i rest : S.Input} {v : α}
    (hp : p.parse i = .ok v rest) : ∃ ts, S.Reads i ts rest := by
  have := (h.moves hS hR).stream i
  unfold Parser.parse at hp
  revert this hp
  generalize p.stream i = r
  obtain ⟨r, j⟩ := r
  intro h2 h1
  cases r <;> cases h2 <;> exact h1

/-- C01 for slices: the rest is a suffix. -/
theorem C01_slice {T : Type} [DecidableEq T] {sz : Nat} {σ α : Type} {p : Parser (sliceS T sz) σ α}
    (h : Built (sliceR T sz) p) (first : Bool) (i : Slice T) (s : σ) :
    ∃ ts, i.data = ts ++ (p.run first i s).inp.data := by
  obtain ⟨ts, h⟩ := C01_run (slice_lawful T sz) (sliceR_lawful T sz) h first i s
  exact ⟨ts, (slice_reads.1 h).1⟩

/-- C01 for `&str`: the rest is a suffix, at a character boundary. -/
theorem C01_str {σ α : Type} {p : Parser strS σ α} (h : Built strR p) (first : Bool) (i : Str)
    (s : σ) : ∃ ts, i.data = ts ++ (p.run first i s).inp.data ∧
      (p.run first i s).inp.ptr = i.ptr + Str.byteLen ts := by
  obtain ⟨ts, h⟩ := C01_run str_lawful strR_lawful h first i s
  exact ⟨ts, str_reads.1 h⟩

/-- C01 for partial slices. -/
theorem C01_partial_slice {T : Type} [DecidableEq T] {sz : Nat} {σ α : Type}
    {p : Parser (partialS (sliceS T sz)) σ α}
    (h : Built (partialR (sliceR T sz)) p) (first : Bool) (i : Slice T) (s : σ) :
    ∃ ts, i.data = ts ++ (p.run first i s).inp.data := by
  obtain ⟨ts, h⟩ := C01_run (partial_lawful (slice_lawful T sz))
    (partialR_lawful (sliceR_lawful T sz)) h first i s
  exact ⟨ts, (slice_reads.1 (partial_reads.1 h)).1⟩

/-- A grammar meeting the hypotheses: `many((token(1), optional(take_while1(> 5)), attempt(eof))
   .or(…))`, on a slice. -/
example : Built (sliceR Nat 1)
    (many (or (pair (token (sliceS Nat 1) 1) (optional (takeWhile1 (sliceR Nat 1) (fun n => n > 5))))
      (map (attempt (skip (any (sliceS Nat 1)) (eof (sliceS Nat 1)))) fun n => (n, none, ())))) :=
  .many (.or (.pair (.token _) (.optional (.takeWhile1 _))) (.map _ (.attempt (.skip .any .eof))))

end Verif
