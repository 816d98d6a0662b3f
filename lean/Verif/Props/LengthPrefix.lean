import Verif.Props.Integers
import Verif.Props.Monad

/-!
# C38: `length_prefix`
-/

namespace Verif

variable {S : Strm} {R : RangeOps S} {toks : S.Rng → List S.Tok} {w : S.Tok → Nat} {σ α : Type}

private theorem take_coherent (hS : S.Lawful) (hR : R.Lawful toks w) (n : Nat) : Coherent (take R n) :=
  .ofLazy hS fun i => by
    simp only [RangeOps.unconsRangeP]
    cases hx : R.unconsRange n i with
    | mk x k =>
      cases x with
      | ok r => exact ⟨_, (hR.range_ok hx).1⟩
      | error e => rw [(hR.range_error hx).1]; exact .refl i

private theorem take_answer (hR : R.Lawful toks w) (n : Nat) (i : S.Input) :
    (∃ r j, S.Reads i (toks r) j ∧ weight w (toks r) = n ∧ (take R n).shape i = .ok (n != 0) r j) ∨
    ((∀ ts j, S.Reads i ts j → weight w ts ≠ n) ∧
      (take R n).shape i = if S.isPartial i then .hard () else .soft) := by
  have h : (take R n).shape i = (Answer.of (R.unconsRangeP n i).1 (R.unconsRangeP n i).2).shape := rfl
  rw [h]
  simp only [RangeOps.unconsRangeP]
  cases hx : R.unconsRange n i with
  | mk x k =>
    cases x with
    | ok r =>
      obtain ⟨h1, h2⟩ := hR.range_ok hx
      rw [hR.len] at h2
      refine .inl ⟨r, k, h1, h2, ?_⟩
      by_cases hn : n = 0
      · simp [hn, Answer.of, Answer.shape]
      · simp [hn, Answer.of, Answer.shape]
    | error e =>
      obtain ⟨rfl, h2⟩ := hR.range_error hx
      refine .inr ⟨h2, ?_⟩
      simp only [Strm.wrapStreamError]
      cases S.isPartial k <;> rfl

/-- C38: after the length `n` was read, exactly the next part of size `n` is the result; if what is left
is too short the parser fails. -/
theorem C38_take (hS : S.Lawful) (hR : R.Lawful toks w) (len : Parser S σ α) (toUsize : α → Except S.SErr Nat)
    (i j : S.Input) (c : Bool) (v : α) (n : Nat) (hl : len.answer i = .ok c v j) (hv : toUsize v = .ok n) :
    (∃ r k, S.Reads j (toks r) k ∧ weight w (toks r) = n ∧
      (lengthPrefix R len toUsize).shape i = .ok (c || n != 0) r k) ∨
    ((∀ ts k, S.Reads j ts k → weight w ts ≠ n) ∧
      (lengthPrefix R len toUsize).shape i = if c || S.isPartial j then .hard () else .soft) := by
  have h1 : (lengthPrefix R len toUsize).shape i =
      (thenPartial (andThen len toUsize) (fun n => (take R n, n)) ()).shape i := by
    simp only [lengthPrefix, parserMacroUnit, Parser.shape, Parser.answer, Parser.ofMode]
    rfl
  have h2 : (andThen len toUsize).shape i = .ok c n j := by
    revert hl
    simp only [Parser.shape, Parser.answer, andThen, Parser.ofMode]
    generalize len.run true i len.init = o
    obtain ⟨r, k, t⟩ := o
    intro hl
    cases r <;> cases hl <;> simp only [hv] <;> rfl
  rw [h1, C13_thenPartial hS _ _ () (fun _ => rfl) (fun n => take_coherent hS hR n) i]
  simp only [Ref.bind, h2]
  rcases take_answer hR n j with ⟨r, k, h3, h4, h5⟩ | ⟨h3, h4⟩
  · exact .inl ⟨r, k, h3, h4, by rw [h5]; rfl⟩
  · refine .inr ⟨h3, ?_⟩
    rw [h4]
    cases S.isPartial j <;> cases c <;> rfl

/-- C38: encoding and decoding: the `k` byte big endian encoding of the size of a payload, then the payload. -/
theorem C38_round_trip (hS : S.Lawful) (hR : R.Lawful toks w) (byte : S.Tok → UInt8) (k : Nat)
    {i j l : S.Input} {ts payload : List S.Tok} (hk : weight w payload < 2 ^ (8 * k))
    (h : S.Reads i ts j) (ht : ts.map byte = beBytes k (weight w payload)) (hp : S.Reads j payload l) :
    ∃ r, toks r = payload ∧ (lengthPrefix R (beUint S byte k) .ok).shape i = .ok true r l := by
  have h1 := C19_be_unsigned hS byte k _ hk h ht
  rcases C38_take hS hR (beUint S byte k) .ok i j true _ _ h1 rfl with ⟨r, k', h2, h3, h4⟩ | ⟨h2, _⟩
  · obtain ⟨h5, rfl⟩ := reads_weight_unique hR.pos h2 hp h3
    exact ⟨r, h5, h4⟩
  · exact absurd rfl (h2 _ _ hp)

/-- C38: with less than that the parser fails, committed. -/
theorem C38_too_short (hS : S.Lawful) (hR : R.Lawful toks w) (byte : S.Tok → UInt8) (k n : Nat)
    {i j : S.Input} {ts : List S.Tok} (hk : n < 2 ^ (8 * k)) (h : S.Reads i ts j)
    (ht : ts.map byte = beBytes k n) (hp : ∀ us l, S.Reads j us l → weight w us ≠ n) :
    (lengthPrefix R (beUint S byte k) .ok).shape i = .hard () := by
  have h1 := C19_be_unsigned hS byte k _ hk h ht
  rcases C38_take hS hR (beUint S byte k) .ok i j true _ _ h1 rfl with ⟨r, k', h2, h3, _⟩ | ⟨_, h4⟩
  · exact absurd h3 (hp _ _ h2)
  · exact h4

/-- C38: a length that cannot be a size is an error of the conversion, as for any `and_then`. -/
theorem C38_bad_length (hS : S.Lawful) (len : Parser S σ α) (toUsize : α → Except S.SErr Nat)
    (hm : Moves len) (i : S.Input) (v : α) (err : S.SErr)
    (hl : (len.run true i len.init).res = .commitOk v) (hv : toUsize v = .error err) :
    (lengthPrefix R len toUsize).answer i = .hard (S.E.fromError (S.position i) err) := by
  have h := C32_committed hS hm toUsize true i len.init hl hv
  have h2 : ((andThen len toUsize).run true i (andThen len toUsize).init).res =
    .commitErr (S.E.fromError (S.position i) err) := h
  simp only [lengthPrefix, parserMacroUnit, Parser.answer, Parser.ofMode, thenPartial, if_true]
  revert h2
  generalize (andThen len toUsize).run true i (andThen len toUsize).init = o
  obtain ⟨r, j, t⟩ := o
  rintro ⟨⟩
  rfl

/-! ## Examples -/

private abbrev B := sliceS UInt8 1

example : ∃ r : List UInt8, id r = [7, 8, 9] ∧
    (lengthPrefix (sliceR UInt8 1) (beUint B id 2) .ok).shape ⟨0, [0, 3, 7, 8, 9, 5]⟩ = .ok true r ⟨5, [5]⟩ :=
  C38_round_trip (slice_lawful _ _) (sliceR_lawful _ _) id 2 (by decide) (.cons rfl (.cons rfl (.nil _))) rfl
    (.cons rfl (.cons rfl (.cons rfl (.nil _))))
example : (lengthPrefix (sliceR UInt8 1) (beUint B id 2) .ok).shape ⟨0, [0, 3, 7, 8, 9, 5]⟩ =
    .ok true [7, 8, 9] ⟨5, [5]⟩ := rfl
example : (lengthPrefix (sliceR UInt8 1) (beUint B id 2) .ok).shape ⟨0, [0, 3, 7, 8]⟩ = .hard () := rfl
example : (lengthPrefix (sliceR UInt8 1) (beUint B id 2) .ok).shape ⟨0, [0, 0]⟩ = .ok true [] ⟨2, []⟩ := rfl

end Verif
