import Verif.Proof.StrLaws
import Verif.Model.Wrap

set_option linter.unusedVariables false

namespace Verif

variable {S : Strm}

/-! ### `PartialStream`, `CompleteStream` -/

theorem partial_reads {i j : S.Input} {ts : List S.Tok} :
    (partialS S).Reads i ts j ↔ S.Reads i ts j := by
  induction ts generalizing i with
  | nil => rw [Strm.reads_nil, Strm.reads_nil]
  | cons t ts ih =>
    rw [Strm.reads_cons, Strm.reads_cons]
    exact ⟨fun ⟨k, h, h'⟩ => ⟨k, h, ih.1 h'⟩, fun ⟨k, h, h'⟩ => ⟨k, h, ih.2 h'⟩⟩

theorem partial_lawful (h : S.Lawful) : (partialS S).Lawful where
  uncons_error := h.uncons_error
  reset := fun hr => h.reset (partial_reads.1 hr)
  size := h.size
  isPartial := fun _ => rfl

theorem partialR_lawful {R : RangeOps S} {toks : S.Rng → List S.Tok} {w : S.Tok → Nat}
    (h : R.Lawful toks w) : (partialR R).Lawful toks w where
  inj := h.inj
  pos := h.pos
  len := h.len
  exists_range := fun hr => h.exists_range (partial_reads.1 hr)
  range_ok := fun hr => ⟨partial_reads.2 (h.range_ok hr).1, (h.range_ok hr).2⟩
  range_error := fun hr => ⟨(h.range_error hr).1,
    fun ts k hk => (h.range_error hr).2 ts k (partial_reads.1 hk)⟩
  distance := fun hr => h.distance (partial_reads.1 hr)
  whole := fun i => by
    obtain ⟨j, h1, h2⟩ := h.whole i
    exact ⟨j, partial_reads.2 h1, h2⟩
  while_scan := fun hr => by
    obtain ⟨r, h1, h2, h3⟩ := h.while_scan hr
    exact ⟨r, h1, partial_reads.2 h2, h3⟩
  while1_scan := fun hr => by
    rcases h.while1_scan hr with ⟨r, h1, h2, h3, h4⟩ | ⟨e, h1, h2, h3, h4⟩
    · exact .inl ⟨r, h1, h2, partial_reads.2 h3, h4⟩
    · exact .inr ⟨e, h1, h2, partial_reads.2 h3, h4⟩

theorem complete_reads {i j : S.Input} {ts : List S.Tok} :
    (completeS S).Reads i ts j ↔ S.Reads i ts j := by
  induction ts generalizing i with
  | nil => rw [Strm.reads_nil, Strm.reads_nil]
  | cons t ts ih =>
    rw [Strm.reads_cons, Strm.reads_cons]
    exact ⟨fun ⟨k, h, h'⟩ => ⟨k, h, ih.1 h'⟩, fun ⟨k, h, h'⟩ => ⟨k, h, ih.2 h'⟩⟩

theorem complete_lawful (h : S.Lawful) : (completeS S).Lawful where
  uncons_error := h.uncons_error
  reset := fun hr => h.reset (complete_reads.1 hr)
  size := h.size
  isPartial := fun _ => rfl

theorem completeR_lawful {R : RangeOps S} {toks : S.Rng → List S.Tok} {w : S.Tok → Nat}
    (h : R.Lawful toks w) : (completeR R).Lawful toks w where
  inj := h.inj
  pos := h.pos
  len := h.len
  exists_range := fun hr => h.exists_range (complete_reads.1 hr)
  range_ok := fun hr => ⟨complete_reads.2 (h.range_ok hr).1, (h.range_ok hr).2⟩
  range_error := fun hr => ⟨(h.range_error hr).1,
    fun ts k hk => (h.range_error hr).2 ts k (complete_reads.1 hk)⟩
  distance := fun hr => h.distance (complete_reads.1 hr)
  whole := fun i => by
    obtain ⟨j, h1, h2⟩ := h.whole i
    exact ⟨j, complete_reads.2 h1, h2⟩
  while_scan := fun hr => by
    obtain ⟨r, h1, h2, h3⟩ := h.while_scan hr
    exact ⟨r, h1, complete_reads.2 h2, h3⟩
  while1_scan := fun hr => by
    rcases h.while1_scan hr with ⟨r, h1, h2, h3, h4⟩ | ⟨e, h1, h2, h3, h4⟩
    · exact .inl ⟨r, h1, h2, complete_reads.2 h3, h4⟩
    · exact .inr ⟨e, h1, h2, complete_reads.2 h3, h4⟩

/-! ### `MaybePartialStream` and `state::Stream` -/

theorem maybe_uncons {i j : S.Input × Bool} {x : Except S.SErr S.Tok} :
    (maybeS S).uncons i = (x, j) ↔ S.uncons i.1 = (x, j.1) ∧ j.2 = i.2 := by
  obtain ⟨i, u⟩ := i
  obtain ⟨j, v⟩ := j
  simp only [maybeS]
  generalize S.uncons i = r
  obtain ⟨r, k⟩ := r
  simp [eq_comm, and_assoc]

theorem maybe_reads {i j : S.Input × Bool} {ts : List S.Tok} :
    (maybeS S).Reads i ts j ↔ S.Reads i.1 ts j.1 ∧ j.2 = i.2 := by
  induction ts generalizing i with
  | nil => rw [Strm.reads_nil, Strm.reads_nil, Prod.ext_iff]
  | cons t ts ih =>
    rw [Strm.reads_cons, Strm.reads_cons]
    constructor
    · rintro ⟨k, h, h'⟩
      rw [maybe_uncons] at h
      exact ⟨⟨k.1, h.1, (ih.1 h').1⟩, (ih.1 h').2.trans h.2⟩
    · rintro ⟨⟨k, h, h'⟩, h''⟩
      exact ⟨(k, i.2), maybe_uncons.2 ⟨h, rfl⟩, ih.2 ⟨h', h''⟩⟩

theorem maybe_lawful (h : S.Lawful) : (maybeS S).Lawful where
  uncons_error := fun {i e j} hu => by
    rw [maybe_uncons] at hu
    exact Prod.ext (h.uncons_error hu.1) hu.2
  reset := fun {i ts j} hr => by
    rw [maybe_reads] at hr
    simp only [maybeS, h.reset hr.1, hr.2]
  size := fun hu => h.size (maybe_uncons.1 hu).1
  isPartial := fun hu => (maybe_uncons.1 hu).2

theorem state_uncons {U : Type} {i j : S.Input × U} {x : Except S.SErr S.Tok} :
    (stateS S U).uncons i = (x, j) ↔ S.uncons i.1 = (x, j.1) ∧ j.2 = i.2 := by
  obtain ⟨i, u⟩ := i
  obtain ⟨j, v⟩ := j
  simp only [stateS]
  generalize S.uncons i = r
  obtain ⟨r, k⟩ := r
  simp [eq_comm, and_assoc]

theorem state_reads {U : Type} {i j : S.Input × U} {ts : List S.Tok} :
    (stateS S U).Reads i ts j ↔ S.Reads i.1 ts j.1 ∧ j.2 = i.2 := by
  induction ts generalizing i with
  | nil => rw [Strm.reads_nil, Strm.reads_nil, Prod.ext_iff]
  | cons t ts ih =>
    rw [Strm.reads_cons, Strm.reads_cons]
    constructor
    · rintro ⟨k, h, h'⟩
      rw [state_uncons] at h
      exact ⟨⟨k.1, h.1, (ih.1 h').1⟩, (ih.1 h').2.trans h.2⟩
    · rintro ⟨⟨k, h, h'⟩, h''⟩
      exact ⟨(k, i.2), state_uncons.2 ⟨h, rfl⟩, ih.2 ⟨h', h''⟩⟩

theorem state_lawful (U : Type) (h : S.Lawful) : (stateS S U).Lawful where
  uncons_error := fun {i e j} hu => by
    rw [state_uncons] at hu
    exact Prod.ext (h.uncons_error hu.1) hu.2
  reset := fun {i ts j} hr => by
    rw [state_reads] at hr
    simp only [stateS, h.reset hr.1, hr.2]
  size := fun hu => h.size (state_uncons.1 hu).1
  isPartial := fun hu => h.isPartial (state_uncons.1 hu).1

theorem maybe_scan {ς : Type} {f : ς → S.Tok → Bool × ς} {s s' : ς} {i j : S.Input} {ts : List S.Tok}
    (u : Bool) (h : S.Scan f s i ts s' j) : (maybeS S).Scan f s (i, u) ts s' (j, u) := by
  obtain ⟨h1, s1, h2, h3⟩ := h
  refine ⟨maybe_reads.2 ⟨h1, rfl⟩, s1, h2, ?_⟩
  rcases h3 with h3 | ⟨t, k, h3, h4⟩
  · exact .inl h3
  · exact .inr ⟨t, (k, u), maybe_uncons.2 ⟨h3, rfl⟩, h4⟩

theorem state_scan {U ς : Type} {f : ς → S.Tok → Bool × ς} {s s' : ς} {i j : S.Input}
    {ts : List S.Tok} (u : U) (h : S.Scan f s i ts s' j) :
    (stateS S U).Scan f s (i, u) ts s' (j, u) := by
  obtain ⟨h1, s1, h2, h3⟩ := h
  refine ⟨state_reads.2 ⟨h1, rfl⟩, s1, h2, ?_⟩
  rcases h3 with h3 | ⟨t, k, h3, h4⟩
  · exact .inl h3
  · exact .inr ⟨t, (k, u), state_uncons.2 ⟨h3, rfl⟩, h4⟩

theorem maybeR_lawful {R : RangeOps S} {toks : S.Rng → List S.Tok} {w : S.Tok → Nat}
    (h : R.Lawful toks w) : (maybeR R).Lawful toks w where
  inj := h.inj
  pos := h.pos
  len := h.len
  exists_range := fun hr => h.exists_range (maybe_reads.1 hr).1
  range_ok := fun {n i r j} hr => by
    simp only [maybeR, Prod.mk.injEq] at hr
    obtain ⟨i, u⟩ := i
    obtain ⟨h1, rfl⟩ := hr
    have := h.range_ok (n := n) (i := i) (r := r) (j := (R.unconsRange n i).2) (by rw [← h1])
    exact ⟨maybe_reads.2 ⟨this.1, rfl⟩, this.2⟩
  range_error := fun {n i e j} hr => by
    simp only [maybeR, Prod.mk.injEq] at hr
    obtain ⟨i, u⟩ := i
    obtain ⟨h1, rfl⟩ := hr
    have := h.range_error (n := n) (i := i) (e := e) (j := (R.unconsRange n i).2) (by rw [← h1])
    exact ⟨by rw [this.1], fun ts k hk => this.2 ts k.1 (maybe_reads.1 hk).1⟩
  distance := fun hr => h.distance (maybe_reads.1 hr).1
  whole := fun i => by
    obtain ⟨j, h1, h2⟩ := h.whole i.1
    exact ⟨(j, i.2), maybe_reads.2 ⟨h1, rfl⟩, h2⟩
  while_scan := fun {ς f s i x s' j} hr => by
    simp only [maybeR, Prod.mk.injEq] at hr
    obtain ⟨i, u⟩ := i
    obtain ⟨h1, rfl⟩ := hr
    obtain ⟨r, h2, h3⟩ := h.while_scan (f := f) (s := s) (i := i) (x := x) (s' := s')
      (j := (R.unconsWhile f s i).2) (by rw [← h1])
    exact ⟨r, h2, maybe_scan u h3⟩
  while1_scan := fun {ς f s i x s' j} hr => by
    simp only [maybeR, Prod.mk.injEq] at hr
    obtain ⟨i, u⟩ := i
    obtain ⟨h1, rfl⟩ := hr
    rcases h.while1_scan (f := f) (s := s) (i := i) (x := x) (s' := s')
      (j := (R.unconsWhile1 f s i).2) (by rw [← h1]) with ⟨r, h2, h3, h4⟩ | ⟨e, h2, h3, h4⟩
    · exact .inl ⟨r, h2, h3, maybe_scan u h4⟩
    · exact .inr ⟨e, h2, by rw [h3], maybe_scan u h4⟩

theorem stateR_lawful (U : Type) {R : RangeOps S} {toks : S.Rng → List S.Tok} {w : S.Tok → Nat}
    (h : R.Lawful toks w) : (stateR U R).Lawful toks w where
  inj := h.inj
  pos := h.pos
  len := h.len
  exists_range := fun hr => h.exists_range (state_reads.1 hr).1
  range_ok := fun {n i r j} hr => by
    simp only [stateR, Prod.mk.injEq] at hr
    obtain ⟨i, u⟩ := i
    obtain ⟨h1, rfl⟩ := hr
    have := h.range_ok (n := n) (i := i) (r := r) (j := (R.unconsRange n i).2) (by rw [← h1])
    exact ⟨state_reads.2 ⟨this.1, rfl⟩, this.2⟩
  range_error := fun {n i e j} hr => by
    simp only [stateR, Prod.mk.injEq] at hr
    obtain ⟨i, u⟩ := i
    obtain ⟨h1, rfl⟩ := hr
    have := h.range_error (n := n) (i := i) (e := e) (j := (R.unconsRange n i).2) (by rw [← h1])
    exact ⟨by rw [this.1], fun ts k hk => this.2 ts k.1 (state_reads.1 hk).1⟩
  distance := fun hr => h.distance (state_reads.1 hr).1
  whole := fun i => by
    obtain ⟨j, h1, h2⟩ := h.whole i.1
    exact ⟨(j, i.2), state_reads.2 ⟨h1, rfl⟩, h2⟩
  while_scan := fun {ς f s i x s' j} hr => by
    simp only [stateR, Prod.mk.injEq] at hr
    obtain ⟨i, u⟩ := i
    obtain ⟨h1, rfl⟩ := hr
    obtain ⟨r, h2, h3⟩ := h.while_scan (f := f) (s := s) (i := i) (x := x) (s' := s')
      (j := (R.unconsWhile f s i).2) (by rw [← h1])
    exact ⟨r, h2, state_scan u h3⟩
  while1_scan := fun {ς f s i x s' j} hr => by
    simp only [stateR, Prod.mk.injEq] at hr
    obtain ⟨i, u⟩ := i
    obtain ⟨h1, rfl⟩ := hr
    rcases h.while1_scan (f := f) (s := s) (i := i) (x := x) (s' := s')
      (j := (R.unconsWhile1 f s i).2) (by rw [← h1]) with ⟨r, h2, h3, h4⟩ | ⟨e, h2, h3, h4⟩
    · exact .inl ⟨r, h2, h3, state_scan u h4⟩
    · exact .inr ⟨e, h2, by rw [h3], state_scan u h4⟩

/-! ### `easy::Stream`, `span::Stream` -/

section convert
variable {P : Type} {decPos : DecidableEq P} {toPos : S.Pos → P}
  {E : ErrOps S.Tok S.Rng P} {convS : S.SErr → E.SErr} {conv : S.Err → E.Err}

theorem convert_uncons_ok {i j : S.Input} {t : S.Tok} :
    (convertS S decPos toPos E convS conv).uncons i = (.ok t, j) ↔ S.uncons i = (.ok t, j) := by
  simp only [convertS]
  generalize S.uncons i = r
  obtain ⟨r, k⟩ := r
  cases r <;> simp [mapExceptErr]

theorem convert_uncons_error {i j : S.Input} {e : E.SErr} :
    (convertS S decPos toPos E convS conv).uncons i = (.error e, j) ↔
      ∃ e', S.uncons i = (.error e', j) ∧ e = convS e' := by
  simp only [convertS]
  generalize S.uncons i = r
  obtain ⟨r, k⟩ := r
  cases r with
  | ok => simp [mapExceptErr]
  | error e' =>
    simp only [mapExceptErr, Prod.mk.injEq, Except.error.injEq]
    constructor
    · rintro ⟨rfl, rfl⟩; exact ⟨e', ⟨rfl, rfl⟩, rfl⟩
    · rintro ⟨e'', ⟨rfl, rfl⟩, rfl⟩; exact ⟨rfl, rfl⟩

theorem convert_reads {i j : S.Input} {ts : List S.Tok} :
    (convertS S decPos toPos E convS conv).Reads i ts j ↔ S.Reads i ts j := by
  induction ts generalizing i with
  | nil => rw [Strm.reads_nil, Strm.reads_nil]
  | cons t ts ih =>
    rw [Strm.reads_cons, Strm.reads_cons]
    exact ⟨fun ⟨k, h, h'⟩ => ⟨k, convert_uncons_ok.1 h, ih.1 h'⟩,
      fun ⟨k, h, h'⟩ => ⟨k, convert_uncons_ok.2 h, ih.2 h'⟩⟩

theorem convert_atEnd {i : S.Input} :
    (convertS S decPos toPos E convS conv).AtEnd i ↔ S.AtEnd i := by
  simp only [Strm.AtEnd, convertS]
  generalize S.uncons i = r
  obtain ⟨r, k⟩ := r
  cases r with
  | ok => simp [mapExceptErr]
  | error e => exact ⟨fun _ => ⟨_, rfl⟩, fun _ => ⟨_, rfl⟩⟩

theorem convert_lawful (h : S.Lawful) : (convertS S decPos toPos E convS conv).Lawful where
  uncons_error := fun hu => by
    obtain ⟨e', hu, _⟩ := convert_uncons_error.1 hu
    exact h.uncons_error hu
  reset := fun hr => by
    have := h.reset (convert_reads.1 hr)
    simp only [convertS, this]
    rfl
  size := fun hu => h.size (convert_uncons_ok.1 hu)
  isPartial := fun hu => h.isPartial (convert_uncons_ok.1 hu)

theorem convert_scan {ς : Type} {f : ς → S.Tok → Bool × ς} {s s' : ς} {i j : S.Input}
    {ts : List S.Tok} (h : S.Scan f s i ts s' j) :
    (convertS S decPos toPos E convS conv).Scan f s i ts s' j := by
  obtain ⟨h1, s1, h2, h3⟩ := h
  refine ⟨convert_reads.2 h1, s1, h2, ?_⟩
  rcases h3 with ⟨h3, h4⟩ | ⟨t, k, h3, h4⟩
  · exact .inl ⟨convert_atEnd.2 h3, h4⟩
  · exact .inr ⟨t, k, convert_uncons_ok.2 h3, h4⟩

theorem convertR_lawful {R : RangeOps S} {toks : S.Rng → List S.Tok} {w : S.Tok → Nat}
    (h : R.Lawful toks w) : (convertR decPos toPos E convS conv R).Lawful toks w where
  inj := h.inj
  pos := h.pos
  len := h.len
  exists_range := fun hr => h.exists_range (convert_reads.1 hr)
  range_ok := fun {n i r j} hr => by
    simp only [convertR, Prod.mk.injEq] at hr
    revert hr
    generalize hx : R.unconsRange n i = x
    obtain ⟨x, k⟩ := x
    cases x with
    | error => rintro ⟨⟨⟩, _⟩
    | ok r' =>
      rintro ⟨h1, rfl⟩
      cases h1
      exact ⟨convert_reads.2 (h.range_ok hx).1, (h.range_ok hx).2⟩
  range_error := fun {n i r j} hr => by
    simp only [convertR, Prod.mk.injEq] at hr
    revert hr
    generalize hx : R.unconsRange n i = x
    obtain ⟨x, k⟩ := x
    cases x with
    | ok => rintro ⟨⟨⟩, _⟩
    | error r' =>
      rintro ⟨h1, rfl⟩
      exact ⟨(h.range_error hx).1, fun ts l hl => (h.range_error hx).2 ts l (convert_reads.1 hl)⟩
  distance := fun hr => h.distance (convert_reads.1 hr)
  whole := fun i => by
    obtain ⟨j, h1, h2⟩ := h.whole i
    exact ⟨j, convert_reads.2 h1, convert_atEnd.2 h2⟩
  while_scan := fun {ς f s i x s' j} hr => by
    simp only [convertR, Prod.mk.injEq] at hr
    revert hr
    generalize hx : R.unconsWhile f s i = y
    obtain ⟨⟨y, s1⟩, k⟩ := y
    rintro ⟨⟨h1, rfl⟩, rfl⟩
    obtain ⟨r, h2, h3⟩ := h.while_scan hx
    subst h2
    exact ⟨r, h1.symm, convert_scan h3⟩
  while1_scan := fun {ς f s i x s' j} hr => by
    simp only [convertR, Prod.mk.injEq] at hr
    revert hr
    generalize hx : R.unconsWhile1 f s i = y
    obtain ⟨⟨y, s1⟩, k⟩ := y
    rintro ⟨⟨h1, rfl⟩, rfl⟩
    rcases h.while1_scan hx with ⟨r, h2, h3, h4⟩ | ⟨e, h2, h3, h4⟩
    · subst h2
      exact .inl ⟨r, h1.symm, h3, convert_scan h4⟩
    · subst h2
      exact .inr ⟨_, h1.symm, h3, convert_scan h4⟩

end convert

/-! ### `position::Stream` -/

theorem indexPositioner_lawful (T R : Type) (len : R → Nat) (toks : R → List T)
    (h : ∀ r, len r = (toks r).length) : (indexPositioner T R len).Lawful toks where
  reset := fun _ _ => rfl
  range := fun x r => by
    have : ∀ (l : List T) (n : Nat), l.foldl (fun n _ => n + 1) n = n + l.length := by
      intro l
      induction l with
      | nil => intro n; rfl
      | cons t l ih => intro n; simp only [List.foldl_cons, List.length_cons, ih]; omega
    simp only [indexPositioner, h]
    exact (this _ _).symm

theorem sourcePositioner_lawful (T R : Type) (isNl : T → Bool) (chars : R → List T) :
    (sourcePositioner T R isNl chars).Lawful chars where
  reset := fun _ _ => rfl
  range := fun _ _ => rfl

section position
variable {X : Positioner S.Tok S.Rng} {E : ErrOps S.Tok S.Rng X.Pos}
  {convS : S.SErr → E.SErr} {conv : S.Err → E.Err}

theorem position_uncons_ok {i j : S.Input × X.X} {t : S.Tok} :
    (positionS S X E convS conv).uncons i = (.ok t, j) ↔
      S.uncons i.1 = (.ok t, j.1) ∧ j.2 = X.update i.2 t := by
  simp only [positionS]
  generalize S.uncons i.1 = r
  obtain ⟨r, k⟩ := r
  obtain ⟨j, x⟩ := j
  cases r with
  | error => simp
  | ok t' =>
    simp only [Prod.mk.injEq, Except.ok.injEq]
    constructor
    · rintro ⟨rfl, rfl, rfl⟩; exact ⟨⟨rfl, rfl⟩, rfl⟩
    · rintro ⟨⟨rfl, rfl⟩, rfl⟩; exact ⟨rfl, rfl, rfl⟩

theorem position_uncons_error {i j : S.Input × X.X} {e : E.SErr} :
    (positionS S X E convS conv).uncons i = (.error e, j) ↔
      ∃ e', S.uncons i.1 = (.error e', j.1) ∧ e = convS e' ∧ j.2 = i.2 := by
  simp only [positionS]
  generalize S.uncons i.1 = r
  obtain ⟨r, k⟩ := r
  obtain ⟨j, x⟩ := j
  cases r with
  | ok => simp
  | error e' =>
    simp only [Prod.mk.injEq, Except.error.injEq]
    constructor
    · rintro ⟨rfl, rfl, rfl⟩; exact ⟨e', ⟨rfl, rfl⟩, rfl, rfl⟩
    · rintro ⟨_, ⟨rfl, rfl⟩, rfl, rfl⟩; exact ⟨rfl, rfl, rfl⟩

/-- The positioner of a stream has seen exactly the tokens read. -/
theorem position_reads {i j : S.Input × X.X} {ts : List S.Tok} :
    (positionS S X E convS conv).Reads i ts j ↔
      S.Reads i.1 ts j.1 ∧ j.2 = ts.foldl X.update i.2 := by
  induction ts generalizing i with
  | nil => rw [Strm.reads_nil, Strm.reads_nil, Prod.ext_iff]; rfl
  | cons t ts ih =>
    rw [Strm.reads_cons, Strm.reads_cons]
    constructor
    · rintro ⟨k, h, h'⟩
      rw [position_uncons_ok] at h
      refine ⟨⟨k.1, h.1, (ih.1 h').1⟩, ?_⟩
      rw [(ih.1 h').2, h.2]
      rfl
    · rintro ⟨⟨k, h, h'⟩, h''⟩
      exact ⟨(k, X.update i.2 t), position_uncons_ok.2 ⟨h, rfl⟩, ih.2 ⟨h', h''⟩⟩

theorem position_atEnd {i : S.Input × X.X} :
    (positionS S X E convS conv).AtEnd i ↔ S.AtEnd i.1 := by
  simp only [Strm.AtEnd, positionS]
  generalize S.uncons i.1 = r
  obtain ⟨r, k⟩ := r
  cases r with
  | ok => simp
  | error e => exact ⟨fun _ => ⟨_, rfl⟩, fun _ => ⟨_, rfl⟩⟩

theorem position_lawful (h : S.Lawful) (hX : ∀ x y, X.reset y (X.checkpoint x) = x) :
    (positionS S X E convS conv).Lawful where
  uncons_error := fun {i e j} hu => by
    obtain ⟨e', h1, _, h2⟩ := position_uncons_error.1 hu
    exact Prod.ext (h.uncons_error h1) h2
  reset := fun {i ts j} hr => by
    have := h.reset (position_reads.1 hr).1
    simp only [positionS, this, hX]
  size := fun hu => h.size (position_uncons_ok.1 hu).1
  isPartial := fun hu => h.isPartial (position_uncons_ok.1 hu).1

theorem accepts_positionPred {ς : Type} {f : ς → S.Tok → Bool × ς} {s : ς} {x : X.X}
    {ts : List S.Tok} {s1 : ς × X.X} (h : accepts (positionPred X f) (s, x) ts = some s1) :
    accepts f s ts = some s1.1 ∧ s1.2 = ts.foldl X.update x := by
  induction ts generalizing s x with
  | nil => cases h; exact ⟨rfl, rfl⟩
  | cons t ts ih =>
    simp only [accepts, positionPred] at h ⊢
    cases hf : f s t with
    | mk b s' =>
      rw [hf] at h
      cases b with
      | false => cases h
      | true => exact ih h

theorem position_scan {ς : Type} {f : ς → S.Tok → Bool × ς} {s : ς} {s' : ς × X.X}
    {i : S.Input × X.X} {j : S.Input} {ts : List S.Tok}
    (h : S.Scan (positionPred X f) (s, i.2) i.1 ts s' j) :
    (positionS S X E convS conv).Scan f s i ts s'.1 (j, s'.2) := by
  obtain ⟨h1, s1, h2, h3⟩ := h
  obtain ⟨h4, h5⟩ := accepts_positionPred h2
  rcases h3 with ⟨h3, rfl⟩ | ⟨t, k, h3, h6⟩
  · exact ⟨position_reads.2 ⟨h1, h5⟩, _, h4, .inl ⟨position_atEnd.2 h3, rfl⟩⟩
  · simp only [positionPred] at h6
    cases hf : f s1.1 t with
    | mk b s2 =>
      rw [hf] at h6
      cases b with
      | true => cases h6
      | false =>
        cases h6
        exact ⟨position_reads.2 ⟨h1, h5⟩, _, h4,
          .inr ⟨t, (k, X.update s1.2 t), position_uncons_ok.2 ⟨h3, rfl⟩, hf⟩⟩

theorem positionR_lawful {R : RangeOps S} {toks : S.Rng → List S.Tok} {w : S.Tok → Nat}
    (h : R.Lawful toks w) (hX : X.Lawful toks) :
    (positionR X E convS conv R).Lawful toks w where
  inj := h.inj
  pos := h.pos
  len := h.len
  exists_range := fun hr => h.exists_range (position_reads.1 hr).1
  range_ok := fun {n i r j} hr => by
    simp only [positionR] at hr
    revert hr
    generalize hx : R.unconsRange n i.1 = x
    obtain ⟨x, k⟩ := x
    cases x with
    | error => intro hr; cases hr
    | ok r' =>
      intro hr
      cases hr
      exact ⟨position_reads.2 ⟨(h.range_ok hx).1, hX.range _ _⟩, (h.range_ok hx).2⟩
  range_error := fun {n i r j} hr => by
    simp only [positionR] at hr
    revert hr
    generalize hx : R.unconsRange n i.1 = x
    obtain ⟨x, k⟩ := x
    cases x with
    | ok => intro hr; cases hr
    | error r' =>
      intro hr
      cases hr
      exact ⟨Prod.ext (h.range_error hx).1 rfl,
        fun ts l hl => (h.range_error hx).2 ts l.1 (position_reads.1 hl).1⟩
  distance := fun hr => h.distance (position_reads.1 hr).1
  whole := fun i => by
    obtain ⟨j, h1, h2⟩ := h.whole i.1
    exact ⟨(j, _), position_reads.2 ⟨h1, rfl⟩, position_atEnd.2 h2⟩
  while_scan := fun {ς f s i x s' j} hr => by
    simp only [positionR] at hr
    revert hr
    generalize hx : R.unconsWhile (positionPred X f) (s, i.2) i.1 = y
    obtain ⟨⟨y, s1⟩, k⟩ := y
    obtain ⟨r, h2, h3⟩ := h.while_scan hx
    subst h2
    intro hr
    cases hr
    exact ⟨r, rfl, position_scan h3⟩
  while1_scan := fun {ς f s i x s' j} hr => by
    simp only [positionR] at hr
    revert hr
    generalize hx : R.unconsWhile1 (positionPred X f) (s, i.2) i.1 = y
    obtain ⟨⟨y, s1⟩, k⟩ := y
    intro hr
    rcases h.while1_scan hx with ⟨r, h2, h3, h4⟩ | ⟨e, h2, h3, h4⟩
    · subst h2
      cases hr
      exact .inl ⟨r, rfl, h3, position_scan h4⟩
    · subst h2
      cases hr
      have h5 := position_scan (E := E) (convS := convS) (conv := conv) h4
      have h6 := (position_reads.1 h5.1).2
      simp only [List.foldl_nil] at h6
      refine .inr ⟨_, rfl, ?_, ?_⟩
      · rw [h3, h6]
      · rw [h6] at h5
        exact h5

end position

end Verif
