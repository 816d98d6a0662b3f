import Verif.Spec.Fragment
import Verif.Proof.SliceLaws
import Verif.Proof.StrLaws
import Verif.Proof.WrapLaws
import Verif.Proof.RangeLemmas
import Verif.Proof.ResumeBase
import Verif.Props.TakeWhile
import Verif.Props.ErrorMerge

/-!
# Streams that can be fed
-/

namespace Verif

variable {S : Strm}

/-- Errors made of the end of the input are recognised and stay recognisable. -/
structure ErrOps.Keeps {T R P : Type} (E : ErrOps T R P) : Prop where
  eoi : E.isEoiS E.endOfInput = true
  from_error : ∀ p e, E.isEoiS e = true → E.isEoi (E.fromError p e) = true
  add : ∀ e x, E.isEoi e = true → E.isEoi (E.add e x) = true
  clear : ∀ e, E.isEoi e = true → E.isEoi (E.clearExpected e) = true

theorem unexpectedParse_keeps (T R P : Type) (d : P) : (UnexpectedParse.ops T R P d).Keeps where
  eoi := rfl
  from_error := fun _ _ h => h
  add := by intro e x h; cases e <;> simp_all [UnexpectedParse.ops, UnexpectedParse.add]
  clear := fun _ h => h

theorem stringStreamError_keeps (T R P : Type) (d : P) : (StringStreamError.ops T R P d).Keeps where
  eoi := rfl
  from_error := fun _ _ h => h
  add := by intro e x h; cases e <;> simp_all [StringStreamError.ops, StringStreamError.add]
  clear := fun _ h => h

theorem easyErrors_keeps (T R P : Type) [DecidableEq T] [DecidableEq R] (cmp : P → P → Ordering) :
    (Easy.Errors.ops T R P cmp).Keeps where
  eoi := by simp [Easy.Errors.ops, Easy.Error.endOfInput, Easy.Error.eqv, Easy.Info.eqv]
  from_error := by
    intro p e h
    change ([e].any fun e => e.eqv Easy.Error.endOfInput) = true
    rw [List.any_cons, List.any_nil, Bool.or_false]
    exact h
  add := fun e x h => (C31_add (T := T) (R := R) (P := P) e.position cmp).2.2.2 e x h
  clear := fun e h => (C31_easy_clear e).trans h

theorem Strm.Feedable.keeps (h : S.Feedable) : S.E.Keeps := ⟨h.eoi, h.from_error, h.add, h.clear⟩

theorem slice_reads_ptr {T : Type} {sz : Nat} {i j : Slice T} {ts : List T} (h : (sliceS T sz).Reads i ts j) :
    j.ptr = i.ptr + sz * ts.length := by
  induction ts generalizing i with
  | nil => rw [Strm.reads_nil] at h; subst h; simp
  | cons t ts ih =>
    rw [Strm.reads_cons] at h
    obtain ⟨k, h1, h2⟩ := h
    rw [ih h2]
    obtain ⟨ptr, data⟩ := i
    cases data with
    | nil => cases h1
    | cons x xs =>
      cases h1
      simp only [List.length_cons, Nat.mul_add]
      omega

theorem slice_feedable (T : Type) {sz : Nat} (hsz : 0 < sz) : (sliceS T sz).Feedable where
  lawful := slice_lawful T sz
  ends := slice_endsOnly T sz
  eoi := rfl
  from_error := (unexpectedParse_keeps _ _ _ _).from_error
  add := (unexpectedParse_keeps _ _ _ _).add
  clear := (unexpectedParse_keeps _ _ _ _).clear
  advances := fun {i t ts j} h => by
    have := slice_reads_ptr h
    simp only [List.length_cons, Nat.mul_add] at this
    change j.ptr ≠ i.ptr
    omega

theorem str_reads_ptr {i j : Str} {ts : List Char} (h : strS.Reads i ts j) :
    i.ptr + ts.length ≤ j.ptr := by
  induction ts generalizing i with
  | nil => rw [Strm.reads_nil] at h; subst h; simp
  | cons t ts ih =>
    rw [Strm.reads_cons] at h
    obtain ⟨k, h1, h2⟩ := h
    have := ih h2
    obtain ⟨ptr, data⟩ := i
    cases data with
    | nil => cases h1
    | cons x xs =>
      cases h1
      have := Str.charLen_pos t
      simp only [List.length_cons] at *
      omega

theorem str_feedable : strS.Feedable where
  lawful := str_lawful
  ends := str_endsOnly
  eoi := rfl
  from_error := (stringStreamError_keeps _ _ _ _).from_error
  add := (stringStreamError_keeps _ _ _ _).add
  clear := (stringStreamError_keeps _ _ _ _).clear
  advances := fun {i t ts j} h => by
    have := str_reads_ptr h
    simp only [List.length_cons] at this
    change j.ptr ≠ i.ptr
    omega

theorem maybe_feedable (h : S.Feedable) : (maybeS S).Feedable where
  lawful := maybe_lawful h.lawful
  ends := fun _ e j hu => h.ends _ e j.1 (maybe_uncons.1 hu).1
  eoi := h.eoi
  from_error := h.from_error
  add := h.add
  clear := h.clear
  advances := fun hr => h.advances (maybe_reads.1 hr).1

theorem convert_feedable {P : Type} {decPos : DecidableEq P} {toPos : S.Pos → P}
    {E : ErrOps S.Tok S.Rng P} {convS : S.SErr → E.SErr} {conv : S.Err → E.Err} (h : S.Feedable) (hE : E.Keeps)
    (hinj : ∀ p q, toPos p = toPos q → p = q) (hc : ∀ e, S.E.isEoiS e = true → E.isEoiS (convS e) = true) :
    (convertS S decPos toPos E convS conv).Feedable where
  lawful := convert_lawful h.lawful
  ends := fun i e j hu => by
    obtain ⟨e', hu', rfl⟩ := convert_uncons_error.1 hu
    exact hc _ (h.ends _ _ _ hu')
  eoi := hE.eoi
  from_error := hE.from_error
  add := hE.add
  clear := hE.clear
  advances := fun hr heq => h.advances (convert_reads.1 hr) (hinj _ _ heq)

theorem position_feedable {X : Positioner S.Tok S.Rng} {E : ErrOps S.Tok S.Rng X.Pos}
    {convS : S.SErr → E.SErr} {conv : S.Err → E.Err} (h : S.Feedable) (hE : E.Keeps)
    (hX : ∀ x y, X.reset y (X.checkpoint x) = x)
    (hadv : ∀ x t ts, X.position ((t :: ts).foldl X.update x) ≠ X.position x)
    (hc : ∀ e, S.E.isEoiS e = true → E.isEoiS (convS e) = true) : (positionS S X E convS conv).Feedable where
  lawful := position_lawful h.lawful hX
  ends := fun i e j hu => by
    obtain ⟨e', hu', rfl, _⟩ := position_uncons_error.1 hu
    exact hc _ (h.ends _ _ _ hu')
  eoi := hE.eoi
  from_error := hE.from_error
  add := hE.add
  clear := hE.clear
  advances := fun {i t ts j} hr => by
    change X.position j.2 ≠ X.position i.2
    rw [(position_reads.1 hr).2]
    exact hadv _ _ _

theorem indexPositioner_advances (T R : Type) (len : R → Nat) (x : Nat) (t : T) (ts : List T) :
    (indexPositioner T R len).position ((t :: ts).foldl (indexPositioner T R len).update x) ≠
      (indexPositioner T R len).position x := by
  have : ∀ (l : List T) (n : Nat), l.foldl (fun n _ => n + 1) n = n + l.length := by
    intro l
    induction l with
    | nil => intro n; rfl
    | cons t l ih =>
      intro n
      rw [List.foldl_cons, ih, List.length_cons]
      omega
  change (t :: ts).foldl (fun n _ => n + 1) x ≠ x
  rw [this, List.length_cons]
  omega

theorem sourcePositioner_advances (T R : Type) (isNl : T → Bool) (chars : R → List T) (x : SourcePosition) (t : T)
    (ts : List T) :
    (sourcePositioner T R isNl chars).position ((t :: ts).foldl (sourcePositioner T R isNl chars).update x) ≠
      (sourcePositioner T R isNl chars).position x := by
  -- reading moves to a later line, or to a later column of the same one
  have : ∀ (l : List T) (p : SourcePosition), p.line < (l.foldl (SourcePosition.update isNl) p).line ∨
      (p.line = (l.foldl (SourcePosition.update isNl) p).line ∧
        p.column + l.length ≤ (l.foldl (SourcePosition.update isNl) p).column) := by
    intro l
    induction l with
    | nil => intro p; exact .inr ⟨rfl, by simp⟩
    | cons t l ih =>
      intro p
      simp only [List.foldl_cons, List.length_cons]
      have h := ih (SourcePosition.update isNl p t)
      by_cases ht : isNl t = true
      · simp only [SourcePosition.update, ht, if_true] at h ⊢; omega
      · simp only [SourcePosition.update, ht, if_false, Bool.false_eq_true] at h ⊢; omega
  have h := this (t :: ts) x
  intro heq
  change (t :: ts).foldl (SourcePosition.update isNl) x = x at heq
  rw [heq] at h
  simp only [List.length_cons] at h
  omega

/-! ### What is left of an input -/

theorem slice_left {T : Type} (sz : Nat) (i : Slice T) : (sliceS T sz).left i = i.data := by
  obtain ⟨ptr, data⟩ := i
  induction data generalizing ptr with
  | nil => rfl
  | cons t ts ih =>
    have : (sliceS T sz).left ⟨ptr, t :: ts⟩ = t :: (sliceS T sz).left ⟨ptr + sz, ts⟩ := rfl
    rw [this, ih]

theorem str_left (i : Str) : strS.left i = i.data := by
  obtain ⟨ptr, data⟩ := i
  induction data generalizing ptr with
  | nil => rfl
  | cons t ts ih =>
    have : strS.left ⟨ptr, t :: ts⟩ = t :: strS.left ⟨ptr + Str.charLen t, ts⟩ := rfl
    rw [this, ih]

theorem maybe_left (i : S.Input × Bool) : (maybeS S).left i = S.left i.1 := by
  have : ∀ n (i : S.Input × Bool), (maybeS S).leftN n i = S.leftN n i.1 := by
    intro n
    induction n with
    | zero => intro i; rfl
    | succ n ih =>
      intro i
      simp only [Strm.leftN]
      generalize S.uncons i.1 = r
      obtain ⟨r, k⟩ := r
      cases r <;> simp [ih]
  exact this _ _

theorem convert_left {P : Type} {decPos : DecidableEq P} {toPos : S.Pos → P}
    {E : ErrOps S.Tok S.Rng P} {convS : S.SErr → E.SErr} {conv : S.Err → E.Err} (i : S.Input) :
    (convertS S decPos toPos E convS conv).left i = S.left i := by
  have : ∀ n (i : S.Input), (convertS S decPos toPos E convS conv).leftN n i = S.leftN n i := by
    intro n
    induction n with
    | zero => intro i; rfl
    | succ n ih =>
      intro i
      simp only [Strm.leftN]
      generalize S.uncons i = r
      obtain ⟨r, k⟩ := r
      cases r <;> simp [mapExceptErr, ih]
  exact this _ _

theorem position_left {X : Positioner S.Tok S.Rng} {E : ErrOps S.Tok S.Rng X.Pos}
    {convS : S.SErr → E.SErr} {conv : S.Err → E.Err} (i : S.Input × X.X) :
    (positionS S X E convS conv).left i = S.left i.1 := by
  have : ∀ n (i : S.Input × X.X), (positionS S X E convS conv).leftN n i = S.leftN n i.1 := by
    intro n
    induction n with
    | zero => intro i; rfl
    | succ n ih =>
      intro i
      simp only [Strm.leftN]
      generalize S.uncons i.1 = r
      obtain ⟨r, k⟩ := r
      cases r <;> simp [ih]
  exact this _ _

/-! ### Ranges of size one -/

theorem sliceR_units (T : Type) (sz : Nat) : (sliceR T sz).Units id (fun _ => 1) where
  lawful := sliceR_lawful T sz
  unit := fun _ => rfl
  short := fun {n i e j} h => by
    simp only [sliceR] at h
    split at h
    · cases h
    · cases h; rfl

theorem maybeR_units {R : RangeOps S} {toks : S.Rng → List S.Tok} {wt : S.Tok → Nat} (h : R.Units toks wt) :
    (maybeR R).Units toks wt where
  lawful := maybeR_lawful h.lawful
  unit := h.unit
  short := fun {n i e j} hr => by
    simp only [maybeR, Prod.mk.injEq] at hr
    exact h.short (n := n) (i := i.1) (j := (R.unconsRange n i.1).2) (Prod.ext hr.1 rfl)

theorem convertR_units {P : Type} {decPos : DecidableEq P} {toPos : S.Pos → P}
    {E : ErrOps S.Tok S.Rng P} {convS : S.SErr → E.SErr} {conv : S.Err → E.Err} {R : RangeOps S}
    {toks : S.Rng → List S.Tok} {wt : S.Tok → Nat} (h : R.Units toks wt)
    (hc : ∀ e, S.E.isEoiS e = true → E.isEoiS (convS e) = true) :
    (convertR decPos toPos E convS conv R).Units toks wt where
  lawful := convertR_lawful h.lawful
  unit := h.unit
  short := fun {n i e j} hr => by
    simp only [convertR] at hr
    revert hr
    generalize hx : R.unconsRange n i = x
    obtain ⟨x, k⟩ := x
    cases x with
    | ok => simp [mapExceptErr]
    | error e' =>
      simp only [mapExceptErr, Prod.mk.injEq, Except.error.injEq]
      rintro ⟨rfl, _⟩
      exact hc _ (h.short hx)

theorem positionR_units {X : Positioner S.Tok S.Rng} {E : ErrOps S.Tok S.Rng X.Pos}
    {convS : S.SErr → E.SErr} {conv : S.Err → E.Err} {R : RangeOps S}
    {toks : S.Rng → List S.Tok} {wt : S.Tok → Nat} (h : R.Units toks wt) (hX : X.Lawful toks)
    (hc : ∀ e, S.E.isEoiS e = true → E.isEoiS (convS e) = true) :
    (positionR X E convS conv R).Units toks wt where
  lawful := positionR_lawful h.lawful hX
  unit := h.unit
  short := fun {n i e j} hr => by
    simp only [positionR] at hr
    revert hr
    generalize hx : R.unconsRange n i.1 = x
    obtain ⟨x, k⟩ := x
    cases x with
    | ok => simp
    | error e' =>
      simp only [Prod.mk.injEq, Except.error.injEq]
      rintro ⟨rfl, _⟩
      exact hc _ (h.short hx)

end Verif
