import Verif.Proof.Reuse
import Verif.Proof.RangeLemmas
import Verif.Proof.Moves
import Verif.Proof.SliceLaws
import Verif.Proof.StrLaws
import Verif.Proof.WrapLaws
import Verif.Spec.Ranges
import Verif.Spec.Repeat

/-!
# C16: `take_while` and `take_while1`
-/

namespace Verif

set_option linter.unusedVariables false

/-! ## The scans of `&[T]` and `&str` -/

/-- A predicate that keeps a record of its calls. -/
def recording {T : Type} (f : T → Bool) : List T → T → Bool × List T := fun log t => (f t, log ++ [t])

/-- What a scan for the longest prefix has to look at: the prefix and the first token that does not
belong to it. -/
def looksAt {T : Type} (f : T → Bool) : List T → List T
  | [] => []
  | t :: ts => if f t then t :: looksAt f ts else [t]

private theorem scanLen_recording {T : Type} (f : T → Bool) (log l : List T) :
    scanLen (recording f) log l = ((l.takeWhile f).length, log ++ looksAt f l) := by
  induction l generalizing log with
  | nil => simp [scanLen, looksAt]
  | cons t ts ih =>
    cases h : f t with
    | true => rw [scanLen_cons_true (s' := log ++ [t]) _ (by simp [recording, h]), ih]; simp [looksAt, h]
    | false => rw [scanLen_cons_false (s' := log ++ [t]) _ (by simp [recording, h])]; simp [looksAt, h]

private theorem scanLen_pure {T : Type} (f : T → Bool) (l : List T) :
    scanLen (pureP f) () l = ((l.takeWhile f).length, ()) := by
  induction l with
  | nil => simp [scanLen]
  | cons t ts ih =>
    cases h : f t with
    | true => rw [scanLen_cons_true (s' := ()) _ (by simp [pureP, h]), ih]; simp [h]
    | false => rw [scanLen_cons_false (s' := ()) _ (by simp [pureP, h])]; simp [h]

private theorem take_takeWhile {T : Type} (f : T → Bool) (l : List T) :
    l.take (l.takeWhile f).length = l.takeWhile f := by
  induction l with
  | nil => rfl
  | cons t ts ih => cases h : f t <;> simp [h, ih]

private theorem drop_takeWhile {T : Type} (f : T → Bool) (l : List T) :
    l.drop (l.takeWhile f).length = l.dropWhile f := by
  induction l with
  | nil => rfl
  | cons t ts ih => cases h : f t <;> simp [h, ih]

variable {T : Type}

/-- **C16.**  The unrolled scan of a slice never reads outside it and never splits it outside its
bounds, whatever the predicate does. -/
theorem C16_slice_in_bounds {ς : Type} (f : ς → T → Bool × ς) (data : List T) (start : Nat) (s : ς)
    (h : start ≤ data.length) : ∃ n s', Slice.whileLen f data start s = some (n, s') ∧ n ≤ data.length := by
  refine ⟨_, _, whileLen_eq f data start s h, ?_⟩
  have := scanLen_le f s (data.drop start)
  simp only [List.length_drop] at this
  omega

/-- **C16.**  The scan calls the predicate on the tokens of the prefix and on the first rejected token,
once each and in order. -/
theorem C16_slice_calls (sz : Nat) (f : T → Bool) (i : Slice T) (log : List T) :
    (sliceR T sz).unconsWhile (recording f) log i =
      ((.ok (i.data.takeWhile f), log ++ looksAt f i.data),
        ⟨i.ptr + sz * (i.data.takeWhile f).length, i.data.dropWhile f⟩) := by
  simp only [sliceR]
  rw [sliceWhile_eq _ _ _ _ _ (Nat.zero_le _)]
  simp only [Nat.zero_add, List.drop_zero, scanLen_recording, Slice.splitAt, take_takeWhile, drop_takeWhile]

/-- **C16.**  The same for `uncons_while1`. -/
theorem C16_slice_calls1 (sz : Nat) (f : T → Bool) (i : Slice T) (log : List T) :
    ((sliceR T sz).unconsWhile1 (recording f) log i).1.2 = log ++ looksAt f i.data ∧
      (i.data.takeWhile f ≠ [] → (sliceR T sz).unconsWhile1 (recording f) log i =
        ((.commitOk (i.data.takeWhile f), log ++ looksAt f i.data),
          ⟨i.ptr + sz * (i.data.takeWhile f).length, i.data.dropWhile f⟩)) := by
  obtain ⟨ptr, data⟩ := i
  cases data with
  | nil => exact ⟨by simp [sliceR, looksAt], fun h => absurd rfl h⟩
  | cons t ts =>
    cases h : f t with
    | false => exact ⟨by simp [sliceR, looksAt, recording, h], by simp [h]⟩
    | true =>
      have e : (sliceR T sz).unconsWhile1 (recording f) log ⟨ptr, t :: ts⟩ =
        ((.commitOk ((t :: ts).takeWhile f), log ++ looksAt f (t :: ts)),
          ⟨ptr + sz * ((t :: ts).takeWhile f).length, (t :: ts).dropWhile f⟩) := by
        have h' : recording f log t = (true, log ++ [t]) := by simp [recording, h]
        simp only [sliceR, h']
        rw [sliceWhile_eq _ _ _ _ _ (by simp)]
        have := scanLen_recording f (log ++ [t]) ts
        simp [this, h, Slice.splitAt, looksAt, Nat.add_comm 1, take_takeWhile, drop_takeWhile]
      exact ⟨by rw [e], fun _ => e⟩

/-- **C16.**  The scan of a `&str` does not panic and takes the longest prefix; the predicate is called on its
characters and on the first rejected one. -/
theorem C16_str_calls (f : Char → Bool) (i : Str) (log : List Char) :
    Str.uncWhile (recording f) i.data i.data log =
      some (i.data.takeWhile f, i.data.dropWhile f, log ++ looksAt f i.data) ∧
    strR.unconsWhile (recording f) log i =
      ((.ok (i.data.takeWhile f), log ++ looksAt f i.data),
        ⟨i.ptr + Str.byteLen (i.data.takeWhile f), i.data.dropWhile f⟩) := by
  have h := Str.uncWhile_eq (recording f) [] i.data log
  simp only [List.nil_append, scanLen_recording, take_takeWhile, drop_takeWhile] at h
  refine ⟨h, ?_⟩
  simp only [strR, h, Str.after]

/-! ## The parsers on any range stream -/

variable {S : Strm} {R : RangeOps S} {toks : S.Rng → List S.Tok} {w : S.Tok → Nat}

private theorem len_zero (hR : R.Lawful toks w) (r : S.Rng) : (R.len r = 0) ↔ toks r = [] := by
  rw [hR.len]
  constructor
  · intro h
    cases hr : toks r with
    | nil => rfl
    | cons t ts =>
      rw [hr] at h
      have := hR.pos t
      simp [weight] at h
      omega
  · intro h; rw [h]; rfl

/-- **C16.**  `take_while(f)` returns the longest prefix whose tokens satisfy `f` and leaves the rest; it
commits if the prefix is not empty. -/
theorem C16_take_while (hS : S.Lawful) (hR : R.Lawful toks w) (he : S.EndsOnly) (f : S.Tok → Bool)
    (i : S.Input) : S.IsTakeWhile toks f i ((takeWhile R f).shape i) := by
  cases hw : R.unconsWhile (pureP f) () i with
  | mk x j =>
    obtain ⟨x, s'⟩ := x
    obtain ⟨r, rfl, hs⟩ := hR.while_scan hw
    have hp : S.isPartial j = S.isPartial i := hS.reads_isPartial hs.1
    have hl := len_zero hR r
    refine ⟨r, j, scan_longest hs, ?_⟩
    have e : (takeWhile R f).shape i = (partialRange R
      (fun i => let r := R.unconsWhileP (pureP f) () i; (r.1.1, r.2))
      (fun i => let r := R.unconsWhileP (pureP f) () i; (r.1.1, r.2)) true i 0).answer.shape := rfl
    rw [e]
    cases hi : S.isPartial i with
    | false =>
      refine .inr ⟨by simp, ?_⟩
      simp only [partialRange, hi, Bool.not_false, if_true, RangeOps.unconsWhileP, hw, hp]
      by_cases hz : toks r = []
      · simp [hl.2 hz, hz, Out.answer, Answer.of, Answer.shape]
      · have hz' : ¬ R.len r = 0 := fun h => hz (hl.1 h)
        simp [hz', hz, Out.answer, Answer.of, Answer.shape]
    | true =>
      have heq := hS.inputAtEof_eq j
      cases hb : (S.inputAtEof j).1 with
      | true =>
        rw [hb] at heq
        simp only [partialRange, hi, Bool.not_true, if_false, Bool.true_or, if_true, RangeOps.unconsWhileP, hw, hp, heq,
          Bool.false_eq_true]
        refine .inl ⟨trivial, (inputAtEof_iff hS he j).1 hb, ?_⟩
        rw [hS.tryReset_eq ⟨_, hs.1⟩]
        rfl
      | false =>
        rw [hb] at heq
        simp only [partialRange, hi, Bool.not_true, if_false, Bool.true_or, if_true, RangeOps.unconsWhileP, hw, hp, heq,
          Bool.false_eq_true]
        refine .inr ⟨fun h => (by rw [(inputAtEof_iff hS he j).2 h.2] at hb; cases hb), ?_⟩
        by_cases hz : toks r = []
        · simp [hl.2 hz, hz, Out.answer, Answer.of, Answer.shape]
        · have hz' : ¬ R.len r = 0 := fun h => hz (hl.1 h)
          simp [hz', hz, Out.answer, Answer.of, Answer.shape]

/-- **C16.**  `take_while1(f)` is the same where the prefix is not empty, and fails softly where it is. -/
theorem C16_take_while1 (hS : S.Lawful) (hR : R.Lawful toks w) (he : S.EndsOnly) (f : S.Tok → Bool)
    (i : S.Input) : S.IsTakeWhile1 toks f i ((takeWhile1 R f).shape i) := by
  have e : (takeWhile1 R f).shape i = (partialRange R
    (fun i => let r := R.unconsWhile1P (pureP f) () i; (r.1.1, r.2))
    (fun i => let r := R.unconsWhileP (pureP f) () i; (r.1.1, r.2)) true i 0).answer.shape := rfl
  rw [e]
  cases hw : R.unconsWhile1 (pureP f) () i with
  | mk x j =>
    obtain ⟨x, s'⟩ := x
    rcases hR.while1_scan hw with ⟨r, rfl, hne, hs⟩ | ⟨err, rfl, rfl, hs⟩
    · have hp : S.isPartial j = S.isPartial i := hS.reads_isPartial hs.1
      refine ⟨toks r, j, scan_longest hs, ?_⟩
      cases hi : S.isPartial i with
      | false =>
        refine .inr ⟨by simp, .inr ⟨hne, r, rfl, ?_⟩⟩
        simp [partialRange, hi, RangeOps.unconsWhile1P, hw, hp, Out.answer, Answer.of, Answer.shape]
      | true =>
        have heq := hS.inputAtEof_eq j
        cases hb : (S.inputAtEof j).1 with
        | true =>
          rw [hb] at heq
          simp only [partialRange, hi, Bool.not_true, if_false, Bool.true_or, if_true, RangeOps.unconsWhile1P, hw, hp, heq,
            Bool.false_eq_true]
          refine .inl ⟨trivial, (inputAtEof_iff hS he j).1 hb, ?_⟩
          rw [hS.tryReset_eq ⟨_, hs.1⟩]
          rfl
        | false =>
          rw [hb] at heq
          simp only [partialRange, hi, Bool.not_true, if_false, Bool.true_or, if_true, RangeOps.unconsWhile1P, hw, hp, heq,
            Bool.false_eq_true]
          exact .inr ⟨fun h => (by rw [(inputAtEof_iff hS he j).2 h.2] at hb; cases hb), .inr ⟨hne, r, rfl, rfl⟩⟩
    · refine ⟨[], j, scan_longest hs, ?_⟩
      cases hi : S.isPartial j with
      | false =>
        refine .inr ⟨by simp, .inl ⟨rfl, ?_⟩⟩
        simp [partialRange, hi, RangeOps.unconsWhile1P, hw, Out.answer, Answer.of, Answer.shape]
      | true =>
        have heq := hS.inputAtEof_eq j
        cases hb : (S.inputAtEof j).1 with
        | true =>
          rw [hb] at heq
          simp only [partialRange, hi, Bool.not_true, if_false, Bool.true_or, if_true, RangeOps.unconsWhile1P, hw, heq,
            Bool.false_eq_true]
          refine .inl ⟨trivial, (inputAtEof_iff hS he j).1 hb, ?_⟩
          rw [hS.tryReset_eq (.refl j)]
          rfl
        | false =>
          rw [hb] at heq
          simp only [partialRange, hi, Bool.not_true, if_false, Bool.true_or, if_true, RangeOps.unconsWhile1P, hw, heq,
            Bool.false_eq_true]
          exact .inr ⟨fun h => (by rw [(inputAtEof_iff hS he j).2 h.2] at hb; cases hb), .inl ⟨trivial, rfl⟩⟩

/-! ## On slices and strings, in terms of lists -/

theorem slice_endsOnly (T : Type) (sz : Nat) : (sliceS T sz).EndsOnly := by
  intro i e j h
  obtain ⟨ptr, data⟩ := i
  cases data <;> cases h
  rfl

theorem str_endsOnly : strS.EndsOnly := by
  intro i e j h
  obtain ⟨ptr, data⟩ := i
  cases data <;> cases h
  rfl

theorem partial_endsOnly (h : S.EndsOnly) : (partialS S).EndsOnly := h

private theorem slice_while (sz : Nat) (f : T → Bool) (i : Slice T) :
    (sliceR T sz).unconsWhile (pureP f) () i = ((.ok (i.data.takeWhile f), ()),
      ⟨i.ptr + sz * (i.data.takeWhile f).length, i.data.dropWhile f⟩) := by
  simp only [sliceR]
  rw [sliceWhile_eq _ _ _ _ _ (Nat.zero_le _)]
  simp only [Nat.zero_add, List.drop_zero, scanLen_pure, Slice.splitAt, take_takeWhile, drop_takeWhile]

/-- **C16** on a slice. -/
theorem C16_slice_take_while (sz : Nat) (f : T → Bool) (i : Slice T) :
    (takeWhile (sliceR T sz) f).answer i =
      .ok (!(i.data.takeWhile f).isEmpty) (i.data.takeWhile f)
        ⟨i.ptr + sz * (i.data.takeWhile f).length, i.data.dropWhile f⟩ := by
  have e : (takeWhile (sliceR T sz) f).answer i = Answer.of ((sliceR T sz).unconsWhileP (pureP f) () i).1.1
    ((sliceR T sz).unconsWhileP (pureP f) () i).2 := rfl
  rw [e]
  simp only [RangeOps.unconsWhileP, Bool.false_eq_true, if_false]
  rw [slice_while sz f i]
  simp only
  rw [show (sliceR T sz).len (i.data.takeWhile f) = (i.data.takeWhile f).length from rfl]
  cases i.data.takeWhile f <;> simp [Answer.of]

/-- **C16** on a slice. -/
theorem C16_slice_take_while1 [DecidableEq T] (sz : Nat) (f : T → Bool) (i : Slice T) :
    (takeWhile1 (sliceR T sz) f).answer i =
      if i.data.takeWhile f = [] then .soft
      else .ok true (i.data.takeWhile f)
        ⟨i.ptr + sz * (i.data.takeWhile f).length, i.data.dropWhile f⟩ := by
  have e : (takeWhile1 (sliceR T sz) f).answer i = Answer.of ((sliceR T sz).unconsWhile1P (pureP f) () i).1.1
    ((sliceR T sz).unconsWhile1P (pureP f) () i).2 := rfl
  rw [e]
  obtain ⟨ptr, data⟩ := i
  cases data with
  | nil => rfl
  | cons t ts =>
    cases h : f t with
    | false =>
      simp only [RangeOps.unconsWhile1P, sliceR, pureP, h, List.takeWhile_cons, if_true, Bool.false_eq_true, if_false]
      rfl
    | true =>
      have h' : pureP f () t = (true, ()) := by simp [pureP, h]
      simp only [RangeOps.unconsWhile1P, sliceR, h']
      rw [sliceWhile_eq _ _ _ _ _ (by simp)]
      have h1 : (t :: ts).drop 1 = ts := rfl
      simp [scanLen_pure, h, Slice.splitAt, Nat.add_comm 1, take_takeWhile, drop_takeWhile, Answer.of]

/-- **C16** on a string. -/
theorem C16_str_take_while (f : Char → Bool) (i : Str) :
    (takeWhile strR f).answer i =
      .ok (!(i.data.takeWhile f).isEmpty) (i.data.takeWhile f)
        ⟨i.ptr + Str.byteLen (i.data.takeWhile f), i.data.dropWhile f⟩ := by
  have e : (takeWhile strR f).answer i = Answer.of (strR.unconsWhileP (pureP f) () i).1.1
    (strR.unconsWhileP (pureP f) () i).2 := rfl
  rw [e]
  have h := Str.uncWhile_eq (pureP f) [] i.data ()
  simp only [List.nil_append, scanLen_pure, take_takeWhile, drop_takeWhile] at h
  have h' : strR.unconsWhile (pureP f) () i = ((.ok (i.data.takeWhile f), ()),
      ⟨i.ptr + Str.byteLen (i.data.takeWhile f), i.data.dropWhile f⟩) := by
    simp only [strR, h, Str.after]
  simp only [RangeOps.unconsWhileP, h', Bool.false_eq_true, if_false]
  rw [show strR.len (i.data.takeWhile f) = Str.byteLen (i.data.takeWhile f) from rfl]
  by_cases hz : i.data.takeWhile f = []
  · simp [hz, Answer.of, Str.byteLen_nil]
  · rw [if_neg (fun h => hz (Str.byteLen_eq_zero.1 h))]
    simp [hz, Answer.of]

/-! ## What other theorems need to know of `take_while1` -/

theorem stays_takeWhile1 (hS : S.Lawful) (hR : R.Lawful toks w) (f : S.Tok → Bool) : Stays (takeWhile1 R f) := by
  have key : ∀ i e j, (R.unconsWhile1P (pureP f) () i).1.1 = .peekErr e →
      (R.unconsWhile1P (pureP f) () i).2 = j → j = i := by
    intro i e j h1 h2
    cases hw : R.unconsWhile1 (pureP f) () i with
    | mk x k =>
      obtain ⟨x, s'⟩ := x
      rcases hR.while1_scan hw with ⟨r, rfl, hne, hs⟩ | ⟨err, rfl, rfl, hs⟩
      · have heq := hS.inputAtEof_eq k
        simp only [RangeOps.unconsWhile1P, hw] at h1 h2
        cases hp : S.isPartial k
        · simp [hp] at h1
        · rw [heq] at h1
          cases hb : (S.inputAtEof k).1 <;> simp [hp, hb] at h1
      · have heq := hS.inputAtEof_eq k
        simp only [RangeOps.unconsWhile1P, hw] at h2
        cases hp : S.isPartial k
        · simp [hp] at h2; exact h2.symm
        · rw [heq] at h2
          cases hb : (S.inputAtEof k).1 <;> simp [hp, hb] at h2 <;> exact h2.symm
  intro i e j h
  have hr : (takeWhile1 R f).lazy i = Strm.defaultLazy (0 : Nat) (partialRange R
    (fun i => let r := R.unconsWhile1P (pureP f) () i; (r.1.1, r.2))
    (fun i => let r := R.unconsWhileP (pureP f) () i; (r.1.1, r.2))) i := rfl
  rw [hr] at h
  have hm := unconsWhile1P_reach hS hR (pureP f) () i
  have k1 := key i e
  revert k1 h hm
  simp only [Strm.defaultLazy, partialRange]
  generalize R.unconsWhile1P (pureP f) () i = x
  obtain ⟨⟨r, u⟩, k⟩ := x
  intro h hm k1
  cases hp : S.isPartial i
  · simp only [hp, Bool.not_false, if_true, Bool.false_eq_true, if_false] at h
    cases h
    exact k1 _ rfl rfl
  · simp only [hp, Bool.not_true, if_true, Bool.false_eq_true, if_false, Bool.true_or] at h
    cases r with
    | commitErr e =>
      simp only at h hm
      rw [hS.tryReset_eq hm] at h
      simp only [hS.reset_self] at h
      cases h
    | peekErr e => simp only at h; cases h; exact k1 _ rfl rfl
    | commitOk e => simp only at h; cases h
    | peekOk e => simp only at h; cases h
    | abort e => simp only at h; cases h

theorem consuming_takeWhile1 (hS : S.Lawful) (hR : R.Lawful toks w) (he : S.EndsOnly) (f : S.Tok → Bool) :
    Consuming (takeWhile1 R f) := by
  intro i c v j h
  have h' : (takeWhile1 R f).shape i = .ok c v j := by rw [Parser.shape, h]; rfl
  obtain ⟨ts, k, h1, h2⟩ := C16_take_while1 hS hR he f i
  rw [h'] at h2
  rcases h2 with ⟨_, _, h2⟩ | ⟨_, ⟨_, h2⟩ | ⟨hne, r, _, h2⟩⟩
  · cases h2
  · cases h2
  · cases h2
    cases ts with
    | nil => exact absurd rfl hne
    | cons t ts => exact ⟨t, ts, h1.1⟩

/-! ## The default `uncons_while1` -/

private theorem accepts_while1 {T ς : Type} {f : ς → T → Bool × ς} {g : While1St ς → T → Bool × While1St ς}
    (hg : ∀ st c, g st c = ((f st.inner c).1, ⟨st.committed || (f st.inner c).1, false, (f st.inner c).2⟩)) :
    ∀ (ts : List T) (st st' : While1St ς), accepts g st ts = some st' →
      accepts f st.inner ts = some st'.inner ∧ st'.committed = (st.committed || !ts.isEmpty) ∧
      st'.startedAtEoi = (st.startedAtEoi && ts.isEmpty)
  | [], st, st', h => by
    cases h
    simp [accepts]
  | t :: ts, st, st', h => by
    simp only [accepts, hg] at h ⊢
    cases hf : f st.inner t with
    | mk b s' =>
      rw [hf] at h
      cases b with
      | false => cases h
      | true =>
        obtain ⟨h1, h2, h3⟩ := accepts_while1 hg ts _ _ h
        simp only [h1, h2, h3]
        simp

/-- **C16.**  The `uncons_while1` that a stream gets if it only defines `uncons_while` takes the longest prefix that
the predicate accepts if it is not empty, and else takes nothing and fails without committing: with end of input
exactly if there was no token to show to the predicate. -/
theorem C16_default_while1 {S : Strm} {toks : S.Rng → List S.Tok}
    (uw : {ς : Type} → (ς → S.Tok → Bool × ς) → ς → S.Input → (Except S.SErr S.Rng × ς) × S.Input)
    (hw : ∀ {ς : Type} {f : ς → S.Tok → Bool × ς} {s i x s' j},
      uw f s i = ((x, s'), j) → ∃ r, x = .ok r ∧ S.Scan f s i (toks r) s' j)
    {ς : Type} (f : ς → S.Tok → Bool × ς) (s : ς) (i : S.Input) {x s' j}
    (h : RangeOps.defaultWhile1 uw f s i = ((x, s'), j)) :
    (∃ r, x = .commitOk r ∧ toks r ≠ [] ∧ S.Scan f s i (toks r) s' j) ∨
    (j = i ∧ S.Scan f s i [] s' i ∧
      ((S.AtEnd i ∧ x = .peekErr (Tracked.of S.E.endOfInput)) ∨
       (¬ S.AtEnd i ∧ x = .peekErr (Tracked.of (S.E.unexpected (.static "")))))) := by
  unfold RangeOps.defaultWhile1 at h
  dsimp only at h
  generalize hg : (fun (st : While1St ς) (c : S.Tok) =>
    ((f st.inner c).1, (⟨st.committed || (f st.inner c).1, false, (f st.inner c).2⟩ : While1St ς))) = g at h
  have hg' : ∀ st c, g st c = ((f st.inner c).1, ⟨st.committed || (f st.inner c).1, false, (f st.inner c).2⟩) := by
    intro st c; rw [← hg]
  cases hu : uw g ⟨false, true, s⟩ i with
  | mk a k =>
    obtain ⟨y, st⟩ := a
    obtain ⟨r, rfl, hr, st1, ha, he⟩ := hw hu
    obtain ⟨h1, h2, h3⟩ := accepts_while1 hg' _ _ _ ha
    simp only [hu] at h
    simp only [Bool.false_or, Bool.true_and] at h2 h3
    have hend : st.committed = st1.committed ∧
        ((S.AtEnd k ∧ st = st1) ∨ (∃ t l, S.uncons k = (.ok t, l) ∧ f st1.inner t = (false, st.inner)) ∧
          st.startedAtEoi = false) := by
      rcases he with ⟨he, rfl⟩ | ⟨t, l, hu', hf⟩
      · exact ⟨rfl, .inl ⟨he, rfl⟩⟩
      · rw [hg'] at hf
        cases hfx : f st1.inner t with
        | mk b s2 =>
          rw [hfx] at hf
          cases hf
          exact ⟨by simp, .inr ⟨⟨t, l, hu', hfx⟩, rfl⟩⟩
    have hscan : S.Scan f s i (toks r) st.inner k :=
      ⟨hr, st1.inner, h1, hend.2.elim (fun h => .inl ⟨h.1, h.2 ▸ rfl⟩) fun h => .inr h.1⟩
    cases hts : toks r with
    | cons t ts =>
      rw [hts] at h2
      rw [hend.1, h2] at h
      cases h
      exact .inl ⟨r, rfl, by rw [hts]; simp, hscan⟩
    | nil =>
      rw [hts] at h2 h3 hr hscan
      cases Strm.reads_nil.1 hr
      rw [hend.1, h2] at h
      simp only [List.isEmpty_nil, Bool.not_true, Bool.false_eq_true, if_false] at h
      rcases hend.2 with ⟨hat, rfl⟩ | ⟨⟨t, l, hu', hf⟩, he⟩
      · rw [h3] at h
        cases h
        exact .inr ⟨rfl, hscan, .inl ⟨hat, rfl⟩⟩
      · rw [he] at h
        cases h
        refine .inr ⟨rfl, hscan, .inr ⟨?_, rfl⟩⟩
        rintro ⟨e, he⟩
        rw [hu'] at he
        cases he

/-! ## Examples -/

private abbrev B := sliceS Nat 1

example (f : Nat → Bool) (i : B.Input) {x s' j}
    (h : RangeOps.defaultWhile1 (S := B) (sliceR Nat 1).unconsWhile (fun _ t => (f t, ())) () i = ((x, s'), j)) :=
  C16_default_while1 (S := B) (toks := id) (sliceR Nat 1).unconsWhile (sliceR_lawful Nat 1).while_scan _ _ _ h
example : (RangeOps.defaultWhile1 (S := B) (sliceR Nat 1).unconsWhile (fun _ t => (t < 5, ())) () ⟨0, [1, 2, 9]⟩).1.1 =
  .commitOk [1, 2] := rfl

example (i : B.Input) : B.IsTakeWhile id (· < 5) i ((takeWhile (sliceR Nat 1) (· < 5)).shape i) :=
  C16_take_while (slice_lawful _ _) (sliceR_lawful _ _) (slice_endsOnly _ _) _ i
example (i : Str) : (partialS strS).IsTakeWhile1 id Char.isDigit i
    ((takeWhile1 (partialR strR) Char.isDigit).shape i) :=
  C16_take_while1 (partial_lawful str_lawful) (partialR_lawful strR_lawful) (partial_endsOnly str_endsOnly) _ i
-- a stop inside the second group of eight, and one in the tail
example : (takeWhile (sliceR Nat 1) (· < 5)).answer ⟨0, [1, 1, 1, 1, 1, 1, 1, 1, 1, 9, 1, 1, 1, 1, 1, 1, 1, 1]⟩ =
  .ok true [1, 1, 1, 1, 1, 1, 1, 1, 1] ⟨9, [9, 1, 1, 1, 1, 1, 1, 1, 1]⟩ := rfl
example : (takeWhile1 (sliceR Nat 1) (· < 5)).answer ⟨0, [9]⟩ = .soft := rfl
example : (takeWhile (sliceR Nat 1) (· < 5)).answer ⟨0, [9]⟩ = .ok false [] ⟨0, [9]⟩ := rfl
example : looksAt (· < 5) [1, 2, 9, 3] = [1, 2, 9] := rfl

end Verif
