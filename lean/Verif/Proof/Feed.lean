import Verif.Proof.ResumeBase
import Verif.Proof.Coherent

/-!
# Feeding a parser that can be resumed
-/

namespace Verif

variable {S : Strm} {σ τ α β γ : Type}

theorem parseWithState_ok {p : Parser S σ α} {i : S.Input} {s : σ} {c : Bool} {v : α}
    (h : (p.run false i s).res = okRes c v) :
    p.parseWithState i s = (.ok v, (p.run false i s).inp, (p.run false i s).st) := by
  unfold Parser.parseWithState Parser.streamPartial Strm.describing
  cases c <;> simp only [h, okRes, Bool.false_eq_true, if_false, if_true]

theorem parseWithState_err {p : Parser S σ α} {i : S.Input} {s : σ} {e : S.Err}
    (h : (p.run false i s).res = .commitErr e) :
    p.parseWithState i s = (.error (.inr e), (p.run false i s).inp, (p.run false i s).st) := by
  unfold Parser.parseWithState Parser.streamPartial Strm.describing
  simp only [h]

/-- What a first call does. -/
theorem answer_of_den {p : Parser S σ α} {D : Den S.Tok α} {k r : Bool} (h : Resumable p D k r) (i : S.Input) :
    match D (S.isPartial i) (S.left i) with
    | .ok c v l => ∃ j, p.answer i = .ok c v j ∧ S.Reach i j ∧ S.left j = l
    | .pend => ∃ e, p.answer i = .hard e ∧ S.E.isEoi e = true
    | .soft => p.answer i = .soft
    | .hard => ∃ e, p.answer i = .hard e := by
  obtain ⟨Ready, Rep, h, _⟩ := h
  have hR := h (S.isPartial i)
  have h1 := hR.first i rfl hR.ready_init
  have h2 := hR.first_hard true i rfl hR.ready_init
  unfold Parser.answer Out.answer
  revert h1 h2
  generalize p.run true i p.init = o
  cases D (S.isPartial i) (S.left i) with
  | ok c v l =>
    rintro ⟨⟨c', h1, h2⟩, h3, h4, _⟩ _
    refine ⟨o.inp, ?_, h3, h4⟩
    rw [h1, h2 rfl]
    cases c <;> rfl
  | pend =>
    rintro ⟨e, x, h1, h2, _⟩ _
    exact ⟨e, by rw [h1]; rfl, h2⟩
  | soft =>
    rintro ⟨_, ⟨e, h1⟩, _⟩ _
    simp only [h1]; rfl
  | hard =>
    rintro _ h
    obtain ⟨e, h⟩ := h rfl
    exact ⟨e, by rw [h]; rfl⟩

theorem den_ok_of_answer {p : Parser S σ α} {D : Den S.Tok α} {k r : Bool} (h : Resumable p D k r) {i j : S.Input}
    {c : Bool} {v : α} (ha : p.answer i = .ok c v j) : D (S.isPartial i) (S.left i) = .ok c v (S.left j) := by
  have h1 := answer_of_den h i
  cases hd : D (S.isPartial i) (S.left i) with
  | ok c' v' l =>
    rw [hd] at h1
    obtain ⟨j', h1, _, h3⟩ := h1
    rw [ha] at h1
    cases h1
    rw [h3]
  | pend => rw [hd] at h1; obtain ⟨e, h1, _⟩ := h1; rw [ha] at h1; cases h1
  | soft => rw [hd] at h1; rw [ha] at h1; cases h1
  | hard => rw [hd] at h1; obtain ⟨e, h1⟩ := h1; rw [ha] at h1; cases h1

/-- What feeding gives when the whole is accepted. -/
theorem feed_of_step {p : Parser S σ α} {D : Den S.Tok α} (hg : D.Good) {A F : Bool → σ → Prop}
    {Rep : Bool → σ → List S.Tok → List S.Tok → Prop}
    (h : ∀ live {s w u} i, S.isPartial i = live → Rep live s w u → u <+: S.left i →
      Step (D (S.isPartial i) (w ++ S.left i)) (A live) (F live) (Rep live) w i (p.run false i s))
    (hm : ∀ s w u, Rep true s w u → Rep false s w u) {mk : Nat → List S.Tok → Bool → S.Input} (hM : S.Source mk)
    (hS : S.Lawful) (open_ : Bool) {c : Bool} {v : α} {rest : List S.Tok} (chunks : List (List S.Tok)) (n : Nat) (s : σ)
    (w u : List S.Tok) (hs : ∀ live, Rep live s w u) (hne : chunks ≠ []) (hw : D open_ (w ++ (u ++ chunks.flatten)) = .ok c v rest) :
    feed p mk open_ n s u chunks = .ok v rest := by
  induction chunks generalizing n s w u with
  | nil => exact absurd rfl hne
  | cons x cs ih =>
    have hl := hM.left n (u ++ x) (open_ || !cs.isEmpty)
    have hp := hM.isPartial n (u ++ x) (open_ || !cs.isEmpty)
    unfold feed
    dsimp only
    generalize hi : mk n (u ++ x) (open_ || !cs.isEmpty) = i at *
    have hst := h (open_ || !cs.isEmpty) i hp (hs _) (by rw [hl]; exact List.prefix_append _ _)
    rw [hp, hl] at hst
    have done : ∀ c' z, D (open_ || !cs.isEmpty) (w ++ (u ++ x)) = .ok c' v z → z ++ cs.flatten = rest →
        (match p.parseWithState i s with
          | (.ok v, j, _) => Fed.ok v (S.left j ++ cs.flatten)
          | (.error (.inr e), j, s') =>
            if (open_ || !cs.isEmpty) && S.E.isEoi e then feed p mk open_ (n + 1) s' (S.left j) cs else .failed
          | (.error (.inl _), _, _) => .failed) = .ok v rest := by
      intro c' z hd hz
      rw [hd] at hst
      obtain ⟨⟨c'', h1, _⟩, _, h3, _⟩ := hst
      rw [parseWithState_ok h1]
      simp only [h3, hz]
    by_cases hmore : (open_ || !cs.isEmpty) = true
    · rw [hmore] at hst
      cases hd : D true (w ++ (u ++ x)) with
      | pend =>
        rw [hd] at hst
        obtain ⟨e, y, h1, h2, h3, h4⟩ := hst
        rw [parseWithState_err h1]
        simp only [hmore, h2, Bool.and_self, if_true]
        have hly := hS.left_reads h3
        rw [hl] at hly
        have hcs : cs ≠ [] := by
          rintro rfl
          simp only [List.isEmpty_nil, Bool.not_true, Bool.or_false] at hmore
          simp only [List.flatten_cons, List.flatten_nil, List.append_nil] at hw
          rw [hmore, hd] at hw
          cases hw
        refine ih (n + 1) _ (w ++ y) _ (fun live => ?_) hcs ?_
        · cases live
          · exact hm _ _ _ h4
          · exact h4
        · rw [← hw]
          congr 1
          simp only [List.flatten_cons, List.append_assoc]
          rw [← List.append_assoc u x, hly, List.append_assoc]
      | _ =>
        have hstab := hg.stable (w ++ (u ++ x)) cs.flatten open_ (by rw [hd]; simp)
        simp only [List.flatten_cons] at hw
        simp only [List.append_assoc] at hstab
        rw [hw, hd] at hstab
        first
          | cases hstab
            exact done _ _ (by rw [hmore]; exact hd) rfl
          | cases hstab
    · simp only [Bool.not_eq_true, Bool.or_eq_false_iff, Bool.not_eq_false', List.isEmpty_iff] at hmore
      obtain ⟨rfl, rfl⟩ := hmore
      simp only [List.flatten_cons, List.flatten_nil, List.append_nil] at hw
      exact done _ _ hw (by simp)

theorem feed_of_den {p : Parser S σ α} {D : Den S.Tok α} {k r : Bool} {Ready : Bool → σ → Prop}
    {Rep : Bool → σ → List S.Tok → List S.Tok → Prop} (h : ∀ live, Resumes live p D k r (Ready live) (Rep live))
    (hm : ∀ s w u, Rep true s w u → Rep false s w u) {mk : Nat → List S.Tok → Bool → S.Input} (hM : S.Source mk)
    (hS : S.Lawful) (open_ : Bool) {c : Bool} {v : α} {rest : List S.Tok} (chunks : List (List S.Tok)) (n : Nat) (s : σ)
    (w u : List S.Tok) (hs : ∀ live, Rep live s w u) (hne : chunks ≠ []) (hw : D open_ (w ++ (u ++ chunks.flatten)) = .ok c v rest) :
    feed p mk open_ n s u chunks = .ok v rest :=
  feed_of_step (h true).good (fun live _ _ _ i hL hs hu => (h live).resume i hL hs hu) hm hM hS open_ chunks n s w u hs hne hw

/-- What feeding gives when the whole needs more. -/
theorem feed_of_pend {p : Parser S σ α} {D : Den S.Tok α} {k r : Bool} {Ready : σ → Prop}
    {Rep : σ → List S.Tok → List S.Tok → Prop} (h : Resumes true p D k r Ready Rep)
    {mk : Nat → List S.Tok → Bool → S.Input} (hM : S.Source mk)
    (hS : S.Lawful) (chunks : List (List S.Tok)) (n : Nat) (s : σ)
    (w u : List S.Tok) (hs : Rep s w u) (hw : chunks ≠ [] → D true (w ++ (u ++ chunks.flatten)) = .pend) :
    feed p mk true n s u chunks = .more := by
  induction chunks generalizing n s w u with
  | nil => rfl
  | cons x cs ih =>
    have hw := hw (by simp)
    have hl := hM.left n (u ++ x) true
    have hp := hM.isPartial n (u ++ x) true
    unfold feed
    simp only [Bool.true_or, Bool.true_and]
    generalize hi : mk n (u ++ x) true = i at *
    have hst := h.resume i hp hs (by rw [hl]; exact List.prefix_append _ _)
    rw [hp, hl] at hst
    have hd : D true (w ++ (u ++ x)) = .pend := by
      refine Classical.byContradiction fun hd => ?_
      have hstab := h.good.stable (w ++ (u ++ x)) cs.flatten true hd
      simp only [List.flatten_cons] at hw
      simp only [List.append_assoc] at hstab
      rw [hw] at hstab
      cases hd' : D true (w ++ (u ++ x)) with
      | pend => exact hd hd'
      | _ => rw [hd'] at hstab; cases hstab
    rw [hd] at hst
    obtain ⟨e, y, h1, h2, h3, h4⟩ := hst
    rw [parseWithState_err h1]
    simp only [h2, if_true]
    have hly := hS.left_reads h3
    rw [hl] at hly
    refine ih (n + 1) _ (w ++ y) _ h4 fun _ => ?_
    rw [← hw]
    congr 1
    simp only [List.flatten_cons, List.append_assoc]
    rw [← List.append_assoc u x, hly, List.append_assoc]

/-- A soft failure leaves the input alone. -/
theorem parseWithState_soft (hS : S.Lawful) {p : Parser S σ α} {i : S.Input} {s : σ} {e : Tracked S.Err}
    (h : (p.run false i s).res = .peekErr e) (hr : S.Reach i (p.run false i s).inp) :
    ∃ e', p.parseWithState i s = (.error (.inr e'), i, (p.run false i s).st) := by
  obtain ⟨e', h'⟩ := describe_eq (α := α) hS hr p.addError e (p.run false i s).st
  refine ⟨e'.error, ?_⟩
  unfold Parser.parseWithState Parser.streamPartial Strm.describing
  simp only [h, h']

/-- What feeding gives when the whole is rejected without commitment: no value. -/
theorem feed_of_soft {p : Parser S σ α} {D : Den S.Tok α} {k : Bool} {Ready : Bool → σ → Prop}
    {Rep : Bool → σ → List S.Tok → List S.Tok → Prop} (h : ∀ live, Resumes live p D k true (Ready live) (Rep live))
    (hm : ∀ s w u, Rep true s w u → Rep false s w u) (hm' : ∀ s, Ready true s → Ready false s)
    {mk : Nat → List S.Tok → Bool → S.Input} (hM : S.Source mk)
    (hS : S.Lawful) (open_ : Bool) (chunks : List (List S.Tok)) (n : Nat) (s : σ)
    (u u₀ : List S.Tok) (hs : ∀ live, Rep live s [] u₀) (hu : u₀ <+: u) (hw : D open_ (u ++ chunks.flatten) = .soft)
    (v : α) (rest : List S.Tok) : feed p mk open_ n s u chunks ≠ .ok v rest := by
  induction chunks generalizing n s u u₀ with
  | nil => simp [feed]
  | cons x cs ih =>
    have hl := hM.left n (u ++ x) (open_ || !cs.isEmpty)
    have hp := hM.isPartial n (u ++ x) (open_ || !cs.isEmpty)
    unfold feed
    dsimp only
    generalize hi : mk n (u ++ x) (open_ || !cs.isEmpty) = i at *
    have hst := (h (open_ || !cs.isEmpty)).resume i hp (hs _) (by rw [hl]; exact hu.trans (List.prefix_append _ _))
    rw [hp, hl] at hst
    simp only [List.nil_append] at hst
    have hw' : D open_ ((u ++ x) ++ cs.flatten) = .soft := by rw [← hw]; simp [List.append_assoc]
    have hcomp : (open_ || !cs.isEmpty) = false → D false (u ++ x) = .soft := by
      intro hmore
      simp only [Bool.or_eq_false_iff, Bool.not_eq_false', List.isEmpty_iff] at hmore
      obtain ⟨rfl, rfl⟩ := hmore
      simpa using hw'
    cases hd : D (open_ || !cs.isEmpty) (u ++ x) with
    | ok c v' r =>
      by_cases hmore : (open_ || !cs.isEmpty) = true
      · rw [hmore] at hd
        have hstab := (h true).good.stable (u ++ x) cs.flatten open_ (by rw [hd]; simp)
        rw [hw', hd] at hstab
        cases hstab
      · simp only [Bool.not_eq_true] at hmore
        rw [hmore, hcomp hmore] at hd
        cases hd
    | hard =>
      by_cases hmore : (open_ || !cs.isEmpty) = true
      · rw [hmore] at hd
        have hstab := (h true).good.stable (u ++ x) cs.flatten open_ (by rw [hd]; simp)
        rw [hw', hd] at hstab
        cases hstab
      · simp only [Bool.not_eq_true] at hmore
        rw [hmore, hcomp hmore] at hd
        cases hd
    | pend =>
      rw [hd] at hst
      obtain ⟨e, y, h1, h2, h3, h4⟩ := hst
      rw [parseWithState_err h1]
      simp only [h2, Bool.and_true]
      by_cases hmore : (open_ || !cs.isEmpty) = true
      · rw [hmore, if_pos rfl]
        rw [hmore] at h4
        have hly := hS.left_reads h3
        rw [hl] at hly
        simp only [List.nil_append] at h4
        have hy : y = [] := by
          refine Classical.byContradiction fun hy => ?_
          have hf := (h true).firm h4 hy open_ cs.flatten
          rw [← List.append_assoc, ← hly, hw'] at hf
          exact hf.1 rfl
        subst hy
        simp only [List.nil_append] at hly
        refine ih (n + 1) _ _ _ (fun live => ?_) List.prefix_rfl (by rw [← hly]; exact hw')
        cases live
        · exact hm _ _ _ h4
        · exact h4
      · simp only [Bool.not_eq_true] at hmore
        rw [hmore]; simp
    | soft =>
      rw [hd] at hst
      obtain ⟨_, ⟨e, h1⟩, h2, h3⟩ := hst
      obtain ⟨e', h'⟩ := parseWithState_soft hS h1 h2
      rw [h']
      dsimp only
      split
      · rename_i hmore
        rw [Bool.and_eq_true] at hmore
        rw [hl]
        have h3 := h3 rfl
        rw [hmore.1] at h3
        refine ih (n + 1) _ _ [] (fun live => ?_) List.nil_prefix hw'
        cases live
        · exact (h false).ready_rep (hm' _ h3)
        · exact (h true).ready_rep h3
      · simp

end Verif
