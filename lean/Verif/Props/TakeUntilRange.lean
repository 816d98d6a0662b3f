import Verif.Proof.RangeLemmas
import Verif.Proof.Reuse
import Verif.Proof.SliceLaws
import Verif.Proof.StrLaws
import Verif.Proof.WrapLaws
import Verif.Proof.BuiltMoves
import Verif.Model.Byte
import Verif.Spec.Ranges

/-!
# C17: `take_until_range`, `take_until_byte`, `take_until_bytes`
-/

namespace Verif

set_option linter.unusedVariables false

variable {S : Strm} {R : RangeOps S} {toks : S.Rng → List S.Tok} {w : S.Tok → Nat} {σ τ α β : Type}

private theorem occurs_iff (hR : R.Lawful toks w) (r : S.Rng) (i : S.Input) :
    (∃ j, R.unconsRange (R.len r) i = (.ok r, j)) ↔ S.Occurs (toks r) i := by
  constructor
  · rintro ⟨j, h⟩
    exact ⟨j, (hR.range_ok h).1⟩
  · rintro ⟨j, h⟩
    obtain ⟨r', h1, h2⟩ := unconsRange_reads hR h
    rw [hR.len]
    cases hR.inj h1
    exact ⟨j, h2⟩

private theorem loop_spec [DecidableEq S.Rng] (hS : S.Lawful) (hR : R.Lawful toks w) (r : S.Rng) (i0 : S.Input)
    (n : Nat) (fe : Option (S.SErr × Nat)) (pre : List S.Tok) (i : S.Input) (st : Nat) (hpre : S.Reads i0 pre i)
    (hn : S.size i + 1 ≤ n) (hno : ∀ ts l, S.Reads i0 ts l → S.Occurs (toks r) l → pre.length ≤ ts.length) :
    S.IsTakeUntilRange toks (toks r) i0 (takeUntilRangeLoop R r (S.checkpoint i0) n fe i st).answer.shape := by
  induction n generalizing fe pre i st with
  | zero => omega
  | succ n ih =>
    -- one token further
    have next : ∀ t l fe', S.uncons i = (.ok t, l) → ¬S.Occurs (toks r) i →
        S.IsTakeUntilRange toks (toks r) i0 (takeUntilRangeLoop R r (S.checkpoint i0) n fe' l st).answer.shape := by
      intro t l fe' hu hocc
      refine ih fe' (pre ++ [t]) l st ?_ ?_ ?_
      · exact Strm.Reads.trans hpre (.cons hu (.nil l))
      · have := hS.size hu; omega
      · intro ts k hts hk
        have h1 := hno ts k hts hk
        rw [List.length_append, List.length_singleton]
        rcases Nat.lt_or_ge pre.length ts.length with h2 | h2
        · omega
        · obtain ⟨_, rfl⟩ := reads_length_unique hpre hts (by omega)
          exact absurd hk hocc
    unfold takeUntilRangeLoop
    simp only
    cases hx : R.unconsRange (R.len r) i with
    | mk x j =>
      cases x with
      | ok xs =>
        obtain ⟨h1, h2⟩ := hR.range_ok hx
        simp only
        by_cases hxr : xs = r
        · subst hxr
          rw [if_pos rfl, hR.distance (Strm.Reads.trans hpre h1), weight_append, ← hR.len xs, Nat.add_sub_cancel]
          rw [hS.tryReset_eq ⟨_, Strm.Reads.trans hpre h1⟩]
          obtain ⟨q, h3, h4⟩ := unconsRange_reads hR hpre
          simp only [h4]
          refine .inl ⟨q, i, h3 ▸ hpre, ⟨j, h1⟩, h3 ▸ hno, ?_⟩
          by_cases hz : pre = []
          · subst hz
            simp [weight, h3, Out.answer, Answer.of, Answer.shape]
          · have : ¬ weight w pre = 0 := fun h => hz ((weight_eq_zero hR.pos).1 h)
            simp [this, h3, hz, Out.answer, Answer.of, Answer.shape]
        · rw [if_neg hxr, hS.tryReset_eq ⟨_, h1⟩]
          have hocc : ¬S.Occurs (toks r) i := fun h => by
            obtain ⟨j', h'⟩ := (occurs_iff hR r i).2 h
            rw [hx] at h'
            cases h'
            exact hxr rfl
          cases hu : S.uncons i with
          | mk y l =>
            cases y with
            | ok t => exact next t l _ hu hocc
            | error e =>
              exfalso
              -- the range read is empty, and so is `r`
              have h5 : toks xs = [] := by
                cases hxs : toks xs with
                | nil => rfl
                | cons t ts =>
                  rw [hxs] at h1
                  cases h1 with
                  | cons h6 _ => rw [hu] at h6; cases h6
              have h6 : toks r = [] := by
                have h7 := h2
                rw [hR.len, hR.len, h5] at h7
                exact (weight_eq_zero hR.pos).1 h7.symm
              exact hxr (hR.inj (h5.trans h6.symm))
      | error e =>
        obtain ⟨rfl, h1⟩ := hR.range_error hx
        simp only
        rw [hS.tryReset_eq (.refl j)]
        have hocc : ¬S.Occurs (toks r) j := fun ⟨k, h⟩ => h1 _ _ h (hR.len r).symm
        cases hu : S.uncons j with
        | mk y l =>
          cases y with
          | ok t => exact next t l _ hu hocc
          | error e' =>
            have hl := hS.uncons_error hu
            subst hl
            simp only
            rw [hS.tryReset_eq ⟨_, hpre⟩]
            refine .inr ⟨fun ts k hts hk => ?_, ?_⟩
            · have h2 := hno ts k hts hk
              rcases reads_comparable hpre hts with ⟨cs, h3, h4⟩ | ⟨cs, h3, h4⟩
              · cases h4 with
                | nil => exact hocc hk
                | cons h5 _ => rw [hu] at h5; cases h5
              · have : cs = [] := List.length_eq_zero_iff.1 (by rw [h3, List.length_append] at h2; omega)
                subst this
                cases Strm.reads_nil.1 h4
                exact hocc hk
            · simp only [Strm.wrapStreamError]
              cases S.isPartial i0 <;> rfl

/-- **C17.**  `take_until_range(needle)` returns the shortest prefix of the input that is immediately
followed by `needle`, leaves `needle` unread, and fails exactly where `needle` does not occur. -/
theorem C17_take_until_range [DecidableEq S.Rng] (hS : S.Lawful) (hR : R.Lawful toks w) (r : S.Rng) (i : S.Input) :
    S.IsTakeUntilRange toks (toks r) i ((takeUntilRange R r).shape i) := by
  obtain ⟨q, _, h⟩ := unconsRangeP_reads hR (Strm.Reads.nil i)
  have e : (takeUntilRange R r).shape i = (takeUntilRangeLoop R r (S.checkpoint i) (S.size i + 1) none i 0).answer.shape := by
    simp only [Parser.shape, Parser.answer, takeUntilRange, Parser.ofMode]
    rw [show R.unconsRangeP 0 i = _ from h]
    rfl
  rw [e]
  exact loop_spec hS hR r i _ none [] i 0 (.nil i) (Nat.le_refl _) (fun ts l _ _ => Nat.zero_le _)

/-! ## `take_until_byte`, `take_until_bytes` on byte slices -/

private theorem takeFn_answer (search : List UInt8 → TakeRange) (i : Slice UInt8) :
    (takeFn (sliceR UInt8 1) search).shape i = (match search i.data with
      | .found k => if k ≤ i.data.length then
          .ok (decide (k ≠ 0)) (i.data.take k) ⟨i.ptr + k, i.data.drop k⟩ else .soft
      | .notFound _ => if i.data = [] then .soft else .hard ()) := by
  have e : (takeFn (sliceR UInt8 1) search).shape i = ((takeFn (sliceR UInt8 1) search).run true i 0).answer.shape := rfl
  rw [e]
  simp only [takeFn, Parser.ofMode, if_true]
  have hr : (sliceR UInt8 1).range i = i.data := rfl
  simp only [hr]
  cases search i.data with
  | found k =>
    simp only [Strm.tryReset, Nat.zero_add, RangeOps.unconsRangeP, sliceR, Slice.splitAt, Nat.one_mul, id]
    by_cases hk : k ≤ i.data.length
    · simp only [if_pos hk]
      by_cases hz : k = 0 <;> simp [hz, Out.answer, Answer.of, Answer.shape]
    · simp only [if_neg hk, Strm.wrapStreamError]
      rfl
  | notFound k =>
    simp only [Strm.tryReset, id]
    have : (sliceR UInt8 1).len i.data = i.data.length := rfl
    rw [this]
    cases hd : i.data <;> simp [Out.answer, Answer.of, Answer.shape]

private theorem macro_shape (p : Parser S σ α) (i : S.Input) : (parserMacro p).shape i = p.shape i := rfl

/-- **C17.**  `take_until_byte` (also `2` and `3`; `p` tells which bytes are looked for) takes everything up to
the first such byte, and fails exactly where there is none. -/
theorem C17_take_until_byte (p : UInt8 → Bool) (i : Slice UInt8) :
    (∃ pre b post, i.data = pre ++ b :: post ∧ p b = true ∧ (∀ x ∈ pre, p x = false) ∧
      (takeUntilByte (sliceR UInt8 1) id p).shape i = .ok (!pre.isEmpty) pre ⟨i.ptr + pre.length, b :: post⟩) ∨
    ((∀ x ∈ i.data, p x = false) ∧
      (takeUntilByte (sliceR UInt8 1) id p).shape i = if i.data = [] then .soft else .hard ()) := by
  rw [takeUntilByte, macro_shape, takeFn_answer]
  simp only [id, memchr]
  cases h : i.data.findIdx? p with
  | none =>
    refine .inr ⟨?_, rfl⟩
    simpa [List.findIdx?_eq_none_iff] using h
  | some n =>
    rw [List.findIdx?_eq_some_iff_getElem] at h
    obtain ⟨h1, h2, h3⟩ := h
    refine .inl ⟨i.data.take n, i.data[n], i.data.drop (n + 1), by simp, h2, ?_, ?_⟩
    · intro x hx
      obtain ⟨k, hk, rfl⟩ := List.mem_take_iff_getElem.1 hx
      have := h3 k (by omega)
      simpa using this
    · simp only [if_pos (Nat.le_of_lt h1), List.length_take, Nat.min_eq_left (Nat.le_of_lt h1)]
      congr 1
      · cases n with
        | zero => simp
        | succ n =>
          have : i.data ≠ [] := fun h => by simp [h] at h1
          simp [this]
      · simp

private theorem memsliceLoop_some (pre : UInt8) (suf : List UInt8) (h : List UInt8) (n k : Nat)
    (hk : memsliceLoop pre suf h n = some k) : ∃ m, k = n + m ∧ m < h.length ∧
      (pre :: suf) <+: h.drop m ∧ ∀ m' < m, ¬ (pre :: suf) <+: h.drop m' := by
  induction h generalizing n with
  | nil => cases hk
  | cons b bs ih =>
    unfold memsliceLoop at hk
    by_cases hb : (decide (b = pre) && suf.isPrefixOf bs) = true
    · rw [if_pos hb] at hk
      cases hk
      simp only [Bool.and_eq_true, decide_eq_true_eq, List.isPrefixOf_iff_prefix] at hb
      obtain ⟨rfl, hb⟩ := hb
      exact ⟨0, rfl, by simp, by simpa using hb, by simp⟩
    · rw [if_neg hb] at hk
      obtain ⟨m, rfl, h1, h2, h3⟩ := ih (n + 1) hk
      refine ⟨m + 1, by omega, by simp; omega, by simpa using h2, fun m' hm => ?_⟩
      cases m' with
      | zero =>
        intro hp
        apply hb
        simp only [List.drop_zero, List.cons_prefix_cons] at hp
        simp [hp.1, hp.2]
      | succ m' => simpa using h3 m' (by omega)

private theorem memsliceLoop_none (pre : UInt8) (suf : List UInt8) (h : List UInt8) (n : Nat)
    (hk : memsliceLoop pre suf h n = none) (m : Nat) : ¬ (pre :: suf) <+: h.drop m := by
  induction h generalizing n m with
  | nil => simp
  | cons b bs ih =>
    unfold memsliceLoop at hk
    by_cases hb : (decide (b = pre) && suf.isPrefixOf bs) = true
    · rw [if_pos hb] at hk; cases hk
    · rw [if_neg hb] at hk
      cases m with
      | zero =>
        intro hp
        apply hb
        simp only [List.drop_zero, List.cons_prefix_cons] at hp
        simp [hp.1, hp.2]
      | succ m => simpa using ih (n + 1) hk m

/-- **C17.**  `memslice` finds the first occurrence of the needle. -/
theorem C17_memslice (needle h : List UInt8) :
    (∃ pre post, h = pre ++ needle ++ post ∧ memslice needle h = some pre.length ∧
      ∀ pre' post', h = pre' ++ needle ++ post' → pre.length ≤ pre'.length) ∨
    (memslice needle h = none ∧ ∀ pre post, h ≠ pre ++ needle ++ post) := by
  cases needle with
  | nil => exact .inl ⟨[], h, by simp, rfl, by simp⟩
  | cons b bs =>
    cases hm : memsliceLoop b bs h 0 with
    | none =>
      refine .inr ⟨hm, fun pre post he => ?_⟩
      have := memsliceLoop_none b bs h 0 hm pre.length
      apply this
      rw [he]
      exact ⟨post, by simp⟩
    | some k =>
      obtain ⟨m, rfl, h1, ⟨post, h2⟩, h3⟩ := memsliceLoop_some b bs h 0 k hm
      refine .inl ⟨h.take m, post, ?_, ?_, ?_⟩
      · rw [List.append_assoc, h2, List.take_append_drop]
      · rw [show memslice (b :: bs) h = _ from hm]
        simp [Nat.min_eq_left (Nat.le_of_lt h1)]
      · intro pre' post' he
        rw [List.length_take]
        rcases Nat.lt_or_ge pre'.length m with hlt | hge
        · exact absurd ⟨post', by rw [he]; simp⟩ (h3 pre'.length hlt)
        · omega

/-- **C17.**  `take_until_bytes(needle)` takes the shortest prefix that is followed by the needle, and
fails exactly where the needle does not occur. -/
theorem C17_take_until_bytes (needle : List UInt8) (i : Slice UInt8) :
    (∃ pre post, i.data = pre ++ (needle ++ post) ∧
      (∀ pre' post', i.data = pre' ++ (needle ++ post') → pre.length ≤ pre'.length) ∧
      (takeUntilBytes (sliceR UInt8 1) id needle).shape i =
        .ok (!pre.isEmpty) pre ⟨i.ptr + pre.length, needle ++ post⟩) ∨
    ((∀ pre post, i.data ≠ pre ++ (needle ++ post)) ∧
      (takeUntilBytes (sliceR UInt8 1) id needle).shape i = if i.data = [] then .soft else .hard ()) := by
  rw [takeUntilBytes, macro_shape, takeFn_answer]
  simp only [id]
  rcases C17_memslice needle i.data with ⟨pre, post, h1, h2, h3⟩ | ⟨h1, h2⟩
  · refine .inl ⟨pre, post, by rw [h1, List.append_assoc], fun pre' post' h => h3 pre' post' (by
      rw [h, List.append_assoc]), ?_⟩
    rw [h2]
    have hl : pre.length ≤ i.data.length := by rw [h1]; simp
    simp only [if_pos hl]
    rw [h1, List.append_assoc, List.take_left', List.drop_left']
    · congr 1
      cases pre <;> simp
    · rfl
    · rfl
  · refine .inr ⟨fun pre post h => h2 pre post (by rw [h, List.append_assoc]), ?_⟩
    rw [h1]

/-! ## Examples -/

example (i : Str) : strS.IsTakeUntilRange id ['a', 'b'] i ((takeUntilRange strR ['a', 'b']).shape i) :=
  C17_take_until_range str_lawful strR_lawful ['a', 'b'] i
-- an overlapping candidate, and a character of two bytes
example : (takeUntilRange strR ['a', 'b']).answer ⟨0, ['é', 'a', 'a', 'b', 'a', 'b']⟩ =
    .ok true ['é', 'a'] ⟨3, ['a', 'b', 'a', 'b']⟩ := rfl
example : (takeUntilRange strR ['a', 'b']).answer ⟨0, ['a', 'é']⟩ = .soft := rfl
example : (takeUntilBytes (sliceR UInt8 1) id [1, 1, 2]).answer ⟨0, [1, 1, 1, 2, 3]⟩ =
    .ok true [1] ⟨1, [1, 1, 2, 3]⟩ := rfl
example : (takeUntilByte (sliceR UInt8 1) id (· == 7)).answer ⟨0, [1, 7, 3]⟩ = .ok true [1] ⟨1, [7, 3]⟩ := rfl

end Verif
