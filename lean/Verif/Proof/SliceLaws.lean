import Verif.Proof.Reach
import Verif.Model.Slice
import Verif.Model.Buffered

namespace Verif

/-- Length of the longest accepted prefix and the final state of the predicate, which has seen that
prefix and the first rejected token. -/
def scanLen {T ς : Type} (f : ς → T → Bool × ς) : ς → List T → Nat × ς
  | s, [] => (0, s)
  | s, t :: ts =>
    match f s t with
    | (true, s') => let r := scanLen f s' ts; (r.1 + 1, r.2)
    | (false, s') => (0, s')

variable {T ς : Type} (f : ς → T → Bool × ς)

theorem scanLen_le (s : ς) (l : List T) : (scanLen f s l).1 ≤ l.length := by
  induction l generalizing s with
  | nil => simp [scanLen]
  | cons t ts ih =>
    simp only [scanLen]
    split
    · simpa using ih _
    · simp

theorem scanLen_spec (s : ς) (l : List T) :
    ∃ s1, accepts f s (l.take (scanLen f s l).1) = some s1 ∧
      ((l.drop (scanLen f s l).1 = [] ∧ (scanLen f s l).2 = s1) ∨
        ∃ t r, l.drop (scanLen f s l).1 = t :: r ∧ f s1 t = (false, (scanLen f s l).2)) := by
  induction l generalizing s with
  | nil => exact ⟨s, rfl, .inl ⟨rfl, rfl⟩⟩
  | cons t ts ih =>
    simp only [scanLen]
    cases h : f s t with
    | mk b s' =>
      cases b with
      | true => simpa [accepts, h] using ih s'
      | false => exact ⟨s, rfl, .inr ⟨t, ts, rfl, h⟩⟩

theorem scanLen_cons_true {s s' : ς} {t : T} {ts : List T} (h : f s t = (true, s')) :
    scanLen f s (t :: ts) = ((scanLen f s' ts).1 + 1, (scanLen f s' ts).2) := by
  simp [scanLen, h]

theorem scanLen_cons_false {s s' : ς} {t : T} {ts : List T} (h : f s t = (false, s')) :
    scanLen f s (t :: ts) = (0, s') := by
  simp [scanLen, h]

/-- Outcome of some checks in terms of the plain scan. -/
def CheckedOk (data : List T) (i : Nat) (s : ς) : Slice.Checked ς → Prop
  | .next i' s' => i ≤ i' ∧ i' ≤ data.length ∧
      scanLen f s (data.drop i) =
        ((i' - i) + (scanLen f s' (data.drop i')).1, (scanLen f s' (data.drop i')).2)
  | .found i' s' => i ≤ i' ∧ i' ≤ data.length ∧ scanLen f s (data.drop i) = (i' - i, s')
  | .ub => False

theorem CheckedOk.trans {data : List T} {i i' : Nat} {s s' : ς} {r : Slice.Checked ς}
    (h : CheckedOk f data i s (.next i' s')) (h' : CheckedOk f data i' s' r) :
    CheckedOk f data i s r := by
  obtain ⟨h1, h2, h3⟩ := h
  cases r with
  | next i'' s'' =>
    obtain ⟨h4, h5, h6⟩ := h'
    refine ⟨by omega, h5, ?_⟩
    rw [h3, h6]
    simp only [Prod.mk.injEq, and_true]
    omega
  | found i'' s'' =>
    obtain ⟨h4, h5, h6⟩ := h'
    refine ⟨by omega, h5, ?_⟩
    rw [h3, h6]
    simp only [Prod.mk.injEq, and_true]
    omega
  | ub => exact h'

theorem checks_ok (data : List T) (k i : Nat) (s : ς) (h : i + k ≤ data.length) :
    CheckedOk f data i s (Slice.checks f data k i s) := by
  induction k generalizing i s with
  | zero => simp [Slice.checks, CheckedOk]; omega
  | succ k ih =>
    have hi : i < data.length := by omega
    unfold Slice.checks
    rw [List.getElem?_eq_getElem hi]
    simp only
    cases hf : f s data[i] with
    | mk b s' =>
      cases b with
      | true =>
        refine CheckedOk.trans f (i' := i + 1) (s' := s') ⟨by omega, by omega, ?_⟩
          (ih (i + 1) s' (by omega))
        rw [List.drop_eq_getElem_cons hi, scanLen_cons_true f hf]
        simp only [Prod.mk.injEq, and_true]
        omega
      | false =>
        refine ⟨by omega, by omega, ?_⟩
        rw [List.drop_eq_getElem_cons hi, scanLen_cons_false f hf]
        simp

theorem unrolled_ok (data : List T) (n i : Nat) (s : ς) (hi : i ≤ data.length) :
    CheckedOk f data i s (Slice.unrolled f data n i s) := by
  induction n generalizing i s with
  | zero => simp [Slice.unrolled, CheckedOk]; omega
  | succ n ih =>
    unfold Slice.unrolled
    split
    · have hc := checks_ok f data 8 i s (by omega)
      revert hc
      generalize Slice.checks f data 8 i s = c
      intro hc
      cases c with
      | next i' s' => exact CheckedOk.trans f hc (ih i' s' hc.2.1)
      | found i' s' => exact hc
      | ub => exact hc
    · simp [CheckedOk]; omega

theorem tailLoop_ok (data : List T) (n i : Nat) (s : ς) (hn : data.length - i < n) :
    Slice.tailLoop f data n i s =
      (i + (scanLen f s (data.drop i)).1, (scanLen f s (data.drop i)).2) := by
  induction n generalizing i s with
  | zero => omega
  | succ n ih =>
    unfold Slice.tailLoop
    by_cases hi : i < data.length
    · rw [List.getElem?_eq_getElem hi]
      simp only
      cases hf : f s data[i] with
      | mk b s' =>
        rw [List.drop_eq_getElem_cons hi]
        cases b with
        | true =>
          rw [scanLen_cons_true f hf]
          simp only
          rw [ih (i + 1) s' (by omega)]
          simp only [Prod.mk.injEq, and_true]
          omega
        | false => rw [scanLen_cons_false f hf]; rfl
    · rw [List.getElem?_eq_none (by omega), List.drop_eq_nil_of_le (by omega)]
      rfl

/-- The unrolled scan of `slice_uncons_while` finds the longest accepted prefix and never indexes out
of bounds. -/
theorem whileLen_eq (data : List T) (start : Nat) (s : ς) (h : start ≤ data.length) :
    Slice.whileLen f data start s =
      some (start + (scanLen f s (data.drop start)).1, (scanLen f s (data.drop start)).2) := by
  have hu := unrolled_ok f data (data.length + 1) start s h
  have hle := scanLen_le f s (data.drop start)
  simp only [List.length_drop] at hle
  unfold Slice.whileLen
  revert hu
  generalize Slice.unrolled f data (data.length + 1) start s = c
  intro hu
  cases c with
  | next i s' =>
    obtain ⟨h1, h2, h3⟩ := hu
    simp only
    rw [tailLoop_ok f data _ i s' (by omega), h3]
    have := scanLen_le f s' (data.drop i)
    simp only [List.length_drop] at this
    simp only
    rw [if_pos (by omega)]
    simp only [Option.some.injEq, Prod.mk.injEq, and_true]
    omega
  | found i s' =>
    obtain ⟨h1, h2, h3⟩ := hu
    simp only [h3, h2, if_pos, Option.some.injEq, Prod.mk.injEq, and_true]
    omega
  | ub => exact hu.elim

theorem sliceWhile_eq (sz start : Nat) (s : ς) (i : Slice T) (h : start ≤ i.data.length) :
    sliceWhile sz f start s i =
      (((i.splitAt sz (start + (scanLen f s (i.data.drop start)).1)).1,
        (scanLen f s (i.data.drop start)).2),
        (i.splitAt sz (start + (scanLen f s (i.data.drop start)).1)).2) := by
  unfold sliceWhile
  rw [whileLen_eq f i.data start s h]

/-! ### `&[T]` is a lawful stream -/

theorem slice_uncons {sz : Nat} {i j : Slice T} {t : T} :
    (sliceS T sz).uncons i = (.ok t, j) ↔ i.data = t :: j.data ∧ j.ptr = i.ptr + sz := by
  obtain ⟨p, d⟩ := i
  obtain ⟨q, e⟩ := j
  cases d with
  | nil => simp [sliceS]
  | cons c cs => simp [sliceS, and_assoc, eq_comm, and_comm]

theorem slice_reads {sz : Nat} {i j : Slice T} {ts : List T} :
    (sliceS T sz).Reads i ts j ↔ i.data = ts ++ j.data ∧ j.ptr = i.ptr + sz * ts.length := by
  induction ts generalizing i with
  | nil =>
    rw [Strm.reads_nil]
    obtain ⟨p, d⟩ := i
    obtain ⟨q, e⟩ := j
    simp [eq_comm, and_comm]
  | cons t ts ih =>
    rw [Strm.reads_cons]
    constructor
    · rintro ⟨k, hu, hr⟩
      obtain ⟨h1, h2⟩ := slice_uncons.1 hu
      obtain ⟨h3, h4⟩ := ih.1 hr
      refine ⟨by rw [h1, h3]; rfl, ?_⟩
      rw [h4, h2, List.length_cons, Nat.mul_succ]
      omega
    · rintro ⟨h1, h2⟩
      refine ⟨⟨i.ptr + sz, ts ++ j.data⟩, slice_uncons.2 ⟨h1, rfl⟩, ih.2 ⟨rfl, ?_⟩⟩
      simp only
      rw [h2, List.length_cons, Nat.mul_succ]
      omega

theorem slice_atEnd {sz : Nat} {i : Slice T} : (sliceS T sz).AtEnd i ↔ i.data = [] := by
  obtain ⟨p, d⟩ := i
  cases d
  · simp [Strm.AtEnd, sliceS]
    exact ⟨_, rfl⟩
  · simp [Strm.AtEnd, sliceS]

theorem slice_lawful (T : Type) (sz : Nat) : (sliceS T sz).Lawful where
  uncons_error := by
    intro i e j h
    simp only [sliceS] at h
    split at h <;> cases h
    rfl
  reset := by intros; rfl
  size := by
    intro i t j h
    simp only [sliceS] at h ⊢
    split at h <;> cases h
    simp_all
  isPartial := by intros; rfl

theorem weight_one (ts : List T) : weight (fun _ => 1) ts = ts.length := by
  induction ts with
  | nil => rfl
  | cons t ts ih => simp [weight] at *; omega

theorem slice_splitAt_reads {sz n : Nat} {i : Slice T} (h : n ≤ i.data.length) :
    (sliceS T sz).Reads i (i.splitAt sz n).1 (i.splitAt sz n).2 := by
  refine slice_reads.2 ⟨by simp [Slice.splitAt], ?_⟩
  simp [Slice.splitAt, Nat.min_eq_left h]

theorem slice_scan {sz : Nat} {i : Slice T} {s s' : ς} {n : Nat}
    (hn : n ≤ i.data.length)
    (h : ∃ s1, accepts f s (i.data.take n) = some s1 ∧
      ((i.data.drop n = [] ∧ s' = s1) ∨ ∃ t r, i.data.drop n = t :: r ∧ f s1 t = (false, s'))) :
    (sliceS T sz).Scan f s i (i.splitAt sz n).1 s' (i.splitAt sz n).2 := by
  refine ⟨slice_splitAt_reads hn, ?_⟩
  obtain ⟨s1, ha, h⟩ := h
  refine ⟨s1, ha, ?_⟩
  rcases h with ⟨h1, h2⟩ | ⟨t, r, h1, h2⟩
  · exact .inl ⟨slice_atEnd.2 h1, h2⟩
  · refine .inr ⟨t, ⟨(i.splitAt sz n).2.ptr + sz, r⟩, ?_, h2⟩
    simp [sliceS, Slice.splitAt, h1]

theorem sliceR_lawful (T : Type) (sz : Nat) : (sliceR T sz).Lawful id (fun _ => 1) where
  inj := fun h => h
  pos := fun _ => Nat.one_pos
  len := fun r => (weight_one (T := T) r).symm
  exists_range := fun {_ ts _} _ => ⟨ts, rfl⟩
  range_ok := by
    intro n i r j h
    simp only [sliceR] at h ⊢
    split at h <;> cases h
    rename_i hle
    exact ⟨slice_splitAt_reads hle, by simp [Slice.splitAt, Nat.min_eq_left hle]⟩
  range_error := by
    intro n i e j h
    simp only [sliceR] at h
    split at h <;> cases h
    rename_i hle
    refine ⟨rfl, fun ts k hr => ?_⟩
    have hr' := (slice_reads.1 hr).1
    have hw := weight_one (T := T) ts
    have : i.data.length = ts.length + k.data.length := by rw [hr']; simp
    intro hh
    have hh' : ts.length = n := hw.symm.trans hh
    omega
  distance := by
    intro i ts j h
    obtain ⟨h1, _⟩ := slice_reads.1 h
    have hw := weight_one (T := T) ts
    refine Eq.trans ?_ hw.symm
    simp [sliceR, sliceS, h1]
  whole := by
    intro i
    refine ⟨(i.splitAt sz i.data.length).2, ?_, ?_⟩
    · have := slice_splitAt_reads (sz := sz) (Nat.le_refl i.data.length)
      simpa [sliceR, Slice.splitAt] using this
    · exact slice_atEnd.2 (by simp [Slice.splitAt])
  while_scan := by
    intro ς f s i x s' j h
    simp only [sliceR] at h
    rw [sliceWhile_eq f sz 0 s i (Nat.zero_le _)] at h
    simp only [Nat.zero_add, List.drop_zero] at h
    cases h
    exact ⟨_, rfl, slice_scan f (scanLen_le f s i.data) (scanLen_spec f s i.data)⟩
  while1_scan := by
    intro ς f s i x s' j h
    simp only [sliceR] at h
    split at h
    · rename_i hd
      cases h
      exact .inr ⟨_, rfl, rfl, .nil _, s, rfl, .inl ⟨slice_atEnd.2 hd, rfl⟩⟩
    · rename_i c cs hd
      cases hf : f s c with
      | mk b s1 =>
        rw [hf] at h
        cases b with
        | false =>
          cases h
          refine .inr ⟨_, rfl, rfl, .nil _, s, rfl, .inr ⟨c, ⟨i.ptr + sz, cs⟩, ?_, hf⟩⟩
          simp [sliceS, hd]
        | true =>
          simp only at h
          rw [sliceWhile_eq f sz 1 s1 i (by simp [hd])] at h
          have hd1 : i.data.drop 1 = cs := by simp [hd]
          rw [hd1] at h
          cases h
          refine .inl ⟨_, rfl, by simp [Slice.splitAt, hd], ?_⟩
          have hle := scanLen_le f s1 cs
          apply slice_scan f (by simp [hd]; omega)
          have := scanLen_spec f s1 cs
          rw [hd, Nat.add_comm]
          simpa [accepts, hf] using this

/-! ### Iterators -/

theorem iter_reads {i j : List T} {ts : List T} : (iterS T).Reads i ts j ↔ i = ts ++ j := by
  induction ts generalizing i with
  | nil => rw [Strm.reads_nil]; exact eq_comm
  | cons t ts ih =>
    rw [Strm.reads_cons]
    cases i with
    | nil => simp [iterS]
    | cons c cs =>
      simp only [iterS, Prod.mk.injEq, Except.ok.injEq, List.cons_append, List.cons.injEq]
      constructor
      · rintro ⟨k, ⟨rfl, rfl⟩, hr⟩
        exact ⟨rfl, ih.1 hr⟩
      · rintro ⟨rfl, rfl⟩
        exact ⟨_, ⟨rfl, rfl⟩, ih.2 rfl⟩

theorem iter_lawful (T : Type) : (iterS T).Lawful where
  uncons_error := by
    intro i e j h
    simp only [iterS] at h
    split at h <;> cases h
    rfl
  reset := by intros; rfl
  size := by
    intro i t j h
    simp only [iterS] at h ⊢
    split at h <;> cases h
    simp
  isPartial := by intros; rfl

end Verif
