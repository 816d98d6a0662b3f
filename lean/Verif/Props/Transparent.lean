import Verif.Spec.Play
import Verif.Proof.WrapLaws
import Verif.Proof.SliceLaws
import Verif.Proof.StrLaws
import Verif.Proof.RangeLemmas

/-!
# C28: stream wrappers are transparent

A history of operations shows the same on the wrapper and on the wrapped stream.
-/

namespace Verif

variable {S : Strm}

/-- **C28** `PartialStream` and `CompleteStream` show what the wrapped stream shows. -/
theorem C28_partial_stream (R : RangeOps S) (ops : List (UseOp S.Tok)) (i : S.Input) :
    seen (partialR R) ops i = seen R ops i := by
  have H : ∀ ops st, play (partialR R) ops st = play R ops st := by
    intro ops
    induction ops with
    | nil => intro st; rfl
    | cons op ops ih =>
      intro st
      have h : op.step (partialR R) st = op.step R st := by
        cases op with
        | restore k => simp only [UseOp.step]; cases st.2[k]? <;> rfl
        | distance k => simp only [UseOp.step]; cases st.2[k]? <;> rfl
        | _ => rfl
      simp only [play, h]
      rw [ih]
  simp only [seen, H]

theorem C28_complete_stream (R : RangeOps S) (ops : List (UseOp S.Tok)) (i : S.Input) :
    seen (completeR R) ops i = seen R ops i := by
  have H : ∀ ops st, play (completeR R) ops st = play R ops st := by
    intro ops
    induction ops with
    | nil => intro st; rfl
    | cons op ops ih =>
      intro st
      have h : op.step (completeR R) st = op.step R st := by
        cases op with
        | restore k => simp only [UseOp.step]; cases st.2[k]? <;> rfl
        | distance k => simp only [UseOp.step]; cases st.2[k]? <;> rfl
        | _ => rfl
      simp only [play, h]
      rw [ih]
  simp only [seen, H]

/-- **C28** `state::Stream` shows what the wrapped stream shows, and the user state survives every
history, resets included. -/
theorem C28_state_stream (R : RangeOps S) (U : Type) (u : U) (ops : List (UseOp S.Tok)) (i : S.Input) :
    seen (stateR U R) ops (i, u) = ((seen R ops i).1, (seen R ops i).2, u) := by
  have H : ∀ ops (i : S.Input) (cs : List S.Ckpt), play (stateR U R) ops ((i, u), cs) =
      ((play R ops (i, cs)).1, ((play R ops (i, cs)).2.1, u), (play R ops (i, cs)).2.2) := by
    intro ops
    induction ops with
    | nil => intro i cs; rfl
    | cons op ops ih =>
      intro i cs
      have h : op.step (stateR U R) ((i, u), cs) =
          ((op.step R (i, cs)).1, ((op.step R (i, cs)).2.1, u), (op.step R (i, cs)).2.2) := by
        cases op with
        | restore k => simp only [UseOp.step]; cases cs[k]? <;> rfl
        | distance k => simp only [UseOp.step]; cases cs[k]? <;> rfl
        | _ => rfl
      simp only [play, h]
      rw [ih]
  simp only [seen, H]

/-- **C28** `MaybePartialStream` shows what the wrapped stream shows and keeps its flag. -/
theorem C28_maybe_partial_stream (R : RangeOps S) (b : Bool) (ops : List (UseOp S.Tok)) (i : S.Input) :
    seen (maybeR R) ops (i, b) = ((seen R ops i).1, (seen R ops i).2, b) := by
  have H : ∀ ops (i : S.Input) (cs : List S.Ckpt), play (maybeR R) ops ((i, b), cs) =
      ((play R ops (i, cs)).1, ((play R ops (i, cs)).2.1, b), (play R ops (i, cs)).2.2) := by
    intro ops
    induction ops with
    | nil => intro i cs; rfl
    | cons op ops ih =>
      intro i cs
      have h : op.step (maybeR R) ((i, b), cs) =
          ((op.step R (i, cs)).1, ((op.step R (i, cs)).2.1, b), (op.step R (i, cs)).2.2) := by
        cases op with
        | restore k => simp only [UseOp.step]; cases cs[k]? <;> rfl
        | distance k => simp only [UseOp.step]; cases cs[k]? <;> rfl
        | _ => rfl
      simp only [play, h]
      rw [ih]
  simp only [seen, H]

/-- **C28** `easy::Stream` and `span::Stream` (which change the error type, whatever the conversion)
show what the wrapped stream shows. -/
theorem C28_easy_stream (R : RangeOps S) {P : Type} (decPos : DecidableEq P) (toPos : S.Pos → P)
    (E : ErrOps S.Tok S.Rng P) (convS : S.SErr → E.SErr) (conv : S.Err → E.Err)
    (ops : List (UseOp S.Tok)) (i : S.Input) :
    seen (convertR decPos toPos E convS conv R) ops i = seen R ops i := by
  have H : ∀ ops st, play (convertR decPos toPos E convS conv R) ops st = play R ops st := by
    intro ops
    induction ops with
    | nil => intro st; rfl
    | cons op ops ih =>
      intro st
      have h : op.step (convertR decPos toPos E convS conv R) st = op.step R st := by
        cases op with
        | read =>
          simp only [UseOp.step]
          generalize S.uncons st.1 = x
          obtain ⟨x, j⟩ := x
          cases x <;> rfl
        | range n =>
          simp only [UseOp.step, convertR]
          generalize R.unconsRange n st.1 = x
          obtain ⟨x, j⟩ := x
          cases x <;> rfl
        | scan f s =>
          simp only [UseOp.step, convertR]
          generalize R.unconsWhile f s st.1 = x
          obtain ⟨⟨x, s'⟩, j⟩ := x
          cases x <;> rfl
        | scan1 f s =>
          simp only [UseOp.step, convertR]
          generalize R.unconsWhile1 f s st.1 = x
          obtain ⟨⟨x, s'⟩, j⟩ := x
          cases x <;> rfl
        | restore k =>
          simp only [UseOp.step]
          cases st.2[k]? with
          | none => rfl
          | some c =>
            simp only
            generalize S.reset c st.1 = x
            obtain ⟨x, j⟩ := x
            cases x <;> rfl
        | distance k => simp only [UseOp.step]; cases st.2[k]? <;> rfl
        | _ => rfl
      simp only [play, h]
      rw [ih]
  simp only [seen, H]

/-- A scan is determined by where it starts. -/
private theorem scan_det {ς : Type} {f : ς → S.Tok → Bool × ς} :
    ∀ {ts ts' : List S.Tok} {s s1 s2 : ς} {i j j' : S.Input},
      S.Scan f s i ts s1 j → S.Scan f s i ts' s2 j' → ts = ts' ∧ s1 = s2 ∧ j = j'
  | [], [], s, s1, s2, i, j, j', ⟨h1, t1, h2, h3⟩, ⟨k1, t2, k2, k3⟩ => by
    rw [Strm.reads_nil] at h1 k1
    subst h1; subst k1
    cases h2; cases k2
    refine ⟨rfl, ?_, rfl⟩
    rcases h3 with ⟨⟨e, he⟩, h3⟩ | ⟨t, k, h3, h4⟩
    · rcases k3 with ⟨_, k3⟩ | ⟨t, k, k3, k4⟩
      · exact h3.trans k3.symm
      · rw [k3] at he; cases he
    · rcases k3 with ⟨⟨e, he⟩, k3⟩ | ⟨t', k', k3, k4⟩
      · rw [h3] at he; cases he
      · rw [h3] at k3; cases k3; rw [h4] at k4; cases k4; rfl
  | [], t :: ts, s, s1, s2, i, j, j', ⟨h1, t1, h2, h3⟩, ⟨k1, t2, k2, k3⟩ => by
    rw [Strm.reads_nil] at h1
    subst h1
    obtain ⟨l, hu, _⟩ := Strm.reads_cons.1 k1
    cases h2
    rcases h3 with ⟨⟨e, he⟩, h3⟩ | ⟨t', k, h3, h4⟩
    · rw [hu] at he; cases he
    · rw [hu] at h3; cases h3
      simp only [accepts, h4] at k2
      cases k2
  | t :: ts, [], s, s1, s2, i, j, j', ⟨h1, t1, h2, h3⟩, ⟨k1, t2, k2, k3⟩ => by
    rw [Strm.reads_nil] at k1
    subst k1
    obtain ⟨l, hu, _⟩ := Strm.reads_cons.1 h1
    cases k2
    rcases k3 with ⟨⟨e, he⟩, k3⟩ | ⟨t', k, k3, k4⟩
    · rw [hu] at he; cases he
    · rw [hu] at k3; cases k3
      simp only [accepts, k4] at h2
      cases h2
  | t :: ts, t' :: ts', s, s1, s2, i, j, j', ⟨h1, t1, h2, h3⟩, ⟨k1, t2, k2, k3⟩ => by
    obtain ⟨l, hu, hl⟩ := Strm.reads_cons.1 h1
    obtain ⟨l', hu', hl'⟩ := Strm.reads_cons.1 k1
    rw [hu] at hu'
    cases hu'
    simp only [accepts] at h2 k2
    cases hf : f s t with
    | mk b s' =>
      rw [hf] at h2 k2
      cases b with
      | false => cases h2
      | true =>
        obtain ⟨r1, r2, r3⟩ := scan_det ⟨hl, t1, h2, h3⟩ ⟨hl', t2, k2, k3⟩
        exact ⟨by rw [r1], r2, r3⟩

/-- What a scan with the positioner in its state says about the wrapped stream. -/
private theorem scan_unposition {X : Positioner S.Tok S.Rng} {ς : Type} {f : ς → S.Tok → Bool × ς} {s : ς}
    {x : X.X} {s' : ς × X.X} {i j : S.Input} {ts : List S.Tok}
    (h : S.Scan (positionPred X f) (s, x) i ts s' j) : S.Scan f s i ts s'.1 j := by
  obtain ⟨h1, s1, h2, h3⟩ := h
  obtain ⟨h4, h5⟩ := accepts_positionPred h2
  refine ⟨h1, s1.1, h4, ?_⟩
  rcases h3 with ⟨h3, rfl⟩ | ⟨t, k, h3, h6⟩
  · exact .inl ⟨h3, rfl⟩
  · refine .inr ⟨t, k, h3, ?_⟩
    simp only [positionPred] at h6
    cases hf : f s1.1 t with
    | mk b s2 =>
      rw [hf] at h6
      cases b with
      | true => cases h6
      | false => cases h6; rfl

/-- **C28** `position::Stream` shows what the wrapped stream shows, whatever the positioner does. -/
theorem C28_position_stream {R : RangeOps S} {toks : S.Rng → List S.Tok} {w : S.Tok → Nat}
    (hR : R.Lawful toks w) (X : Positioner S.Tok S.Rng) (E : ErrOps S.Tok S.Rng X.Pos)
    (convS : S.SErr → E.SErr) (conv : S.Err → E.Err) (x : X.X) (ops : List (UseOp S.Tok))
    (i : S.Input) :
    (seen (positionR X E convS conv R) ops (i, x)).1 = (seen R ops i).1 ∧
    (seen (positionR X E convS conv R) ops (i, x)).2.1 = (seen R ops i).2 := by
  have H : ∀ (ops : List (UseOp S.Tok)) (i : S.Input) (x : X.X) (cs : List (S.Ckpt × X.Ckpt)),
      (play (positionR X E convS conv R) ops ((i, x), cs)).1 = (play R ops (i, cs.map (·.1))).1 ∧
      (play (positionR X E convS conv R) ops ((i, x), cs)).2.1.1 =
        (play R ops (i, cs.map (·.1))).2.1 := by
    intro ops
    induction ops with
    | nil => intro i x cs; exact ⟨rfl, rfl⟩
    | cons op ops ih =>
      intro i x cs
      obtain ⟨x', cs', h1, h2⟩ : ∃ x' cs',
          op.step (positionR X E convS conv R) ((i, x), cs) =
            ((op.step R (i, cs.map (·.1))).1, ((op.step R (i, cs.map (·.1))).2.1, x'), cs') ∧
          (op.step R (i, cs.map (·.1))).2.2 = cs'.map (·.1) := by
        cases op with
        | read =>
          simp only [UseOp.step]
          generalize S.uncons i = r
          obtain ⟨r, j⟩ := r
          cases r <;> exact ⟨_, _, rfl, rfl⟩
        | range n =>
          simp only [UseOp.step, positionR]
          generalize R.unconsRange n i = r
          obtain ⟨r, j⟩ := r
          cases r <;> exact ⟨_, _, rfl, rfl⟩
        | scan f s =>
          simp only [UseOp.step, positionR]
          generalize hx : R.unconsWhile (positionPred X f) (s, x) i = r
          generalize hy : R.unconsWhile f s i = r'
          obtain ⟨⟨r, s'⟩, j⟩ := r
          obtain ⟨⟨r', s''⟩, j'⟩ := r'
          obtain ⟨a, rfl, ha⟩ := hR.while_scan hx
          obtain ⟨b, rfl, hb⟩ := hR.while_scan hy
          obtain ⟨e1, e2, e3⟩ := scan_det (scan_unposition ha) hb
          cases hR.inj e1
          subst e3
          rw [← e2]
          exact ⟨_, _, rfl, rfl⟩
        | scan1 f s =>
          simp only [UseOp.step, positionR]
          generalize hx : R.unconsWhile1 (positionPred X f) (s, x) i = r
          generalize hy : R.unconsWhile1 f s i = r'
          obtain ⟨⟨r, s'⟩, j⟩ := r
          obtain ⟨⟨r', s''⟩, j'⟩ := r'
          rcases hR.while1_scan hx with ⟨a, rfl, na, ha⟩ | ⟨ea, rfl, rfl, ha⟩ <;>
            rcases hR.while1_scan hy with ⟨b, rfl, nb, hb⟩ | ⟨eb, rfl, rfl, hb⟩ <;>
            obtain ⟨e1, e2, e3⟩ := scan_det (scan_unposition ha) hb
          · cases hR.inj e1
            subst e3
            rw [← e2]
            exact ⟨_, _, rfl, rfl⟩
          · exact absurd e1 na
          · exact absurd e1.symm nb
          · rw [← e2]
            exact ⟨_, _, rfl, rfl⟩
        | save =>
          exact ⟨x, cs ++ [(S.checkpoint i, X.checkpoint x)], rfl, by simp [UseOp.step]⟩
        | restore k =>
          simp only [UseOp.step, List.getElem?_map]
          cases cs[k]? with
          | none => exact ⟨_, _, rfl, rfl⟩
          | some c =>
            simp only [Option.map_some]
            generalize S.reset c.1 i = r
            obtain ⟨r, j⟩ := r
            cases r <;> exact ⟨_, _, rfl, rfl⟩
        | distance k =>
          simp only [UseOp.step, List.getElem?_map]
          cases cs[k]? <;> exact ⟨_, _, rfl, rfl⟩
        | whole => exact ⟨_, _, rfl, rfl⟩
      simp only [play, h1]
      revert h2
      generalize op.step R (i, cs.map (·.1)) = r
      obtain ⟨o, j, ds⟩ := r
      intro h2
      simp only at h2
      subst h2
      exact ⟨by rw [(ih _ _ _).1], (ih _ _ _).2⟩
  exact H ops i x []

/-- The wrappers, stacked, on a history that reads, saves, scans, restores and measures. -/
example :
    (seen (stateR String (maybeR (sliceR Nat 1)))
      [.read, .save, .scan (fun (n : Nat) t => (t < 5, n + t)) 0, .distance 0, .restore 0, .whole]
      ((⟨0, [1, 2, 3, 9]⟩, true), "user")).1 =
    [.token (some 1), .nothing, .scanned (some [2, 3]) (14 : Nat), .distance 2, .restored true,
      .whole [2, 3, 9]] := rfl

example : (sliceR Nat 1).Lawful id (fun _ => 1) := sliceR_lawful _ _

example (isNl : Char → Bool) (ops : List (UseOp Char)) (text : List Char) :
    (seen (positionR (S := strS) (sourcePositioner Char (List Char) isNl id)
      (StringStreamError.ops Char (List Char) SourcePosition .start) id id strR) ops
      (⟨0, text⟩, SourcePosition.start)).1 = (seen strR ops ⟨0, text⟩).1 :=
  (C28_position_stream strR_lawful _ _ _ _ _ ops _).1

end Verif
