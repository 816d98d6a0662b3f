import Verif.Proof.Fragment
import Verif.Proof.Feed
import Verif.Spec.Arrays

/-!
# Choices over an array or slice, resumed
-/

namespace Verif

variable {S : Strm} {σ τ α β γ : Type}

namespace Den
variable {T : Type}

theorem Good.firstOf {Ds : List (Den T α)} (h : ∀ D ∈ Ds, D.Good) : (Den.firstOf Ds).Good := by
  induction Ds with
  | nil => exact .never
  | cons D Ds ih => exact (h D (by simp)).or (ih fun E hE => h E (by simp [hE]))

theorem firstOf_append_soft {Ds Es : List (Den T α)} {b : Bool} {a : List T} (h : ∀ D ∈ Ds, D b a = .soft) :
    Den.firstOf (Ds ++ Es) b a = Den.firstOf Es b a := by
  induction Ds with
  | nil => rfl
  | cons D Ds ih =>
    have h1 := h D (by simp)
    simp only [List.cons_append, Den.firstOf, Den.or, h1]
    exact ih fun E hE => h E (by simp [hE])

theorem firstOf_cons_other {D : Den T α} {Ds : List (Den T α)} {b : Bool} {a : List T} (h : D b a ≠ .soft) :
    Den.firstOf (D :: Ds) b a = D b a := by
  unfold Den.firstOf Den.or
  split
  · rename_i hd; exact absurd hd h
  · rfl

theorem firstOf_cons_soft {D : Den T α} {Ds : List (Den T α)} {b : Bool} {a : List T} (h : D b a = .soft) :
    Den.firstOf (D :: Ds) b a = Den.firstOf Ds b a := by
  simp only [Den.firstOf, Den.or, h]

end Den

theorem fragAll_resumable [DecidableEq S.Tok] [DecidableEq S.Rng] (hF : S.Feedable) {V : Ranges S}
    {f : γ → Parser S σ α} {F : γ → Den S.Tok α} {k r : Bool} {n : σ} (h : FragAll V f F k r n) :
    ResumableAll f F k r n := by
  apply @FragAll.rec S _ _ V (fun _ _ _ _ _ => True) (fun _ _ _ _ => True) (fun _ _ _ => True)
    (fun f F k r n _ => ResumableAll f F k r n) (fun ps F k r n _ => ResumableAll (armP ps) F k r n)
  case t => exact h
  all_goals try (intros; exact True.intro)
  case unit => intro _ _ _ _ _ _ h _; exact resumableAll_unit fun v => frag_resumable hF (h v)
  case const => intro _ _ _ _ _ _ _ h _; exact resumableAll_const (frag_resumable hF h)
  case countMinMax => intro _ _ _ _ _ _ _ _ _ h hlo hr _; exact resumableAll_countMinMax hF (frag_resumable hF h) hlo hr
  case dispatch => intro _ _ _ _ _ _ _ _ sel _ ih; exact resumableAll_dispatch hF ih sel
  case map => intro _ _ _ _ _ _ _ _ _ g _ ih; exact resumableAll_map hF ih g
  case pair => intro _ _ _ _ _ _ _ _ _ _ _ _ _ _ _ _ _ hr ih ih2; exact resumableAll_pair hF ih ih2 hr
  case «with» => intro _ _ _ _ _ _ _ _ _ _ _ _ _ _ _ _ _ hr ih ih2; exact resumableAll_with hF ih ih2 hr
  case skip => intro _ _ _ _ _ _ _ _ _ _ _ _ _ _ _ _ _ hr ih ih2; exact resumableAll_skip hF ih ih2 hr
  case last => intro _ _ _ _ _ _ h _; exact resumableAll_last hF (frag_resumable hF h)
  case cons => intro _ _ _ _ _ _ _ _ _ _ h _ _ ih2; exact resumableAll_cons hF (frag_resumable hF h) ih2

/-- The states in which alternative number `t.1 - 1` has asked for more: all before it have failed softly on what
was seen. -/
def SliceRep (F : γ → Den S.Tok α) (RepN : γ → σ → List S.Tok → List S.Tok → Prop) (vs : List γ)
    (t : Nat × σ) (w u : List S.Tok) : Prop :=
  ∃ vs₁ v vs₂, vs = vs₁ ++ v :: vs₂ ∧ t.1 = vs₁.length + 1 ∧ RepN v t.2 w u ∧
    (∀ v' ∈ vs₁, F v' true (w ++ u) = .soft) ∧ F v true (w ++ u) = .pend

/-- The loop over the alternatives. -/
theorem sliceLoop_step (hS : S.Lawful) {live : Bool} {f : γ → Parser S σ α} {F : γ → Den S.Tok α} {k : Bool}
    {Rdy : σ → Prop} {RepN : γ → σ → List S.Tok → List S.Tok → Prop}
    (h : ∀ v, Resumes live (f v) (F v) k true Rdy (RepN v)) (m : Bool) (i : S.Input) (hL : S.isPartial i = live)
    (all : List (Parser S σ α)) (vs₁ vs : List γ) (n last : Nat) (prev : Option (Tracked S.Err)) (j : S.Input)
    (hj : S.Reach i j) (s : σ) (hs : Rdy s) (hn : n = vs₁.length)
    (h1 : ∀ v ∈ vs₁, F v live (S.left i) = .soft) :
    Step (Den.firstOf (vs.map F) live (S.left i)) (fun t => t.1 = 0 ∧ When k Rdy t.2) (fun t => t.1 = 0 ∧ Rdy t.2)
      (SliceRep F RepN (vs₁ ++ vs)) [] i
      (sliceLoop all m (S.checkpoint i) (vs.map f) n last prev j (0, s)) := by
  induction vs generalizing vs₁ n last prev j s with
  | nil =>
    simp only [List.map_nil, Den.firstOf, Den.never, sliceLoop]
    cases prev with
    | none => exact ⟨rfl, ⟨_, rfl⟩, hj, rfl, hs⟩
    | some e =>
      dsimp only
      split <;> exact ⟨rfl, ⟨_, rfl⟩, hj, rfl, hs⟩
  | cons v vs ih =>
    have hst : Step (F v live (S.left i)) (When k Rdy) (When true Rdy) (RepN v) [] i ((f v).run m i s) := by
      cases m with
      | true => have := (h v).first i hL hs; rwa [hL] at this
      | false => have := (h v).resume i hL ((h v).ready_rep hs) List.nil_prefix; rwa [hL] at this
    simp only [List.map_cons, sliceLoop, hS.reset_reach hj]
    cases hd : F v live (S.left i) with
    | ok c x r =>
      rw [hd] at hst
      rw [Den.firstOf_cons_other (by rw [hd]; simp), hd]
      obtain ⟨⟨c', h1, h2⟩, h3, h4, h5⟩ := hst
      cases c' <;> simp only [h1, okRes_true, okRes_false]
      · exact ⟨⟨false, rfl, h2⟩, h3, h4, rfl, h5⟩
      · exact ⟨⟨true, rfl, h2⟩, h3, h4, rfl, h5⟩
    | pend =>
      rw [hd] at hst
      rw [Den.firstOf_cons_other (by rw [hd]; simp), hd]
      obtain ⟨e, x, h3, h4, h5, h6⟩ := hst
      have hlive : live = true := by
        cases live with
        | true => rfl
        | false => exact absurd hd ((h v).good.complete _)
      subst hlive
      simp only [h3]
      have hl := hS.left_reads h5
      refine ⟨e, x, rfl, h4, h5, vs₁, v, vs, rfl, by rw [hn], h6, ?_, ?_⟩
      · intro v' hv'
        rw [List.nil_append, ← hl]
        exact h1 v' hv'
      · rw [List.nil_append, ← hl]
        exact hd
    | soft =>
      rw [hd] at hst
      rw [Den.firstOf_cons_soft hd]
      obtain ⟨_, ⟨e, h3⟩, h4, h5⟩ := hst
      have h6 : ∀ v' ∈ vs₁ ++ [v], F v' live (S.left i) = .soft := by
        intro v' hv'
        rcases List.mem_append.1 hv' with hv' | hv'
        · exact h1 v' hv'
        · rw [List.mem_singleton.1 hv']; exact hd
      have hcat : vs₁ ++ v :: vs = (vs₁ ++ [v]) ++ vs := by simp
      rw [hcat]
      simp only [h3]
      cases prev with
      | none => exact ih (vs₁ ++ [v]) _ _ _ _ h4 _ (h5 rfl) (by simp [hn]) h6
      | some prev =>
        dsimp only
        split
        · exact ih (vs₁ ++ [v]) _ _ _ _ h4 _ (h5 rfl) (by simp [hn]) h6
        · exact ih (vs₁ ++ [v]) _ _ _ _ h4 _ (h5 rfl) (by simp [hn]) h6
    | hard => rw [Den.firstOf_cons_other (by rw [hd]; simp), hd]; trivial

/-- A hard failure of a fresh parse is one. -/
theorem sliceLoop_hard (hS : S.Lawful) {live : Bool} {f : γ → Parser S σ α} {F : γ → Den S.Tok α} {k : Bool}
    {Rdy : σ → Prop} {RepN : γ → σ → List S.Tok → List S.Tok → Prop}
    (h : ∀ v, Resumes live (f v) (F v) k true Rdy (RepN v)) (i : S.Input) (hL : S.isPartial i = live)
    (all : List (Parser S σ α)) (vs : List γ) (n last : Nat) (prev : Option (Tracked S.Err)) (m : Bool) (j : S.Input)
    (hj : S.Reach i j) (s : σ) (hs : Rdy s) (hd : Den.firstOf (vs.map F) live (S.left i) = .hard) :
    ∃ e, (sliceLoop all m (S.checkpoint i) (vs.map f) n last prev j (0, s)).res = .commitErr e := by
  induction vs generalizing n last prev j s with
  | nil => cases hd
  | cons v vs ih =>
    have hst : Step (F v live (S.left i)) (When k Rdy) (When true Rdy) (RepN v) [] i ((f v).run m i s) := by
      have := (h v).start m i hL hs; rwa [hL] at this
    have hh := (h v).first_hard m i hL hs
    rw [hL] at hh
    simp only [List.map_cons, sliceLoop, hS.reset_reach hj]
    cases hv : F v live (S.left i) with
    | ok c x r =>
      rw [List.map_cons, Den.firstOf_cons_other (by rw [hv]; simp), hv] at hd
      cases hd
    | pend =>
      rw [List.map_cons, Den.firstOf_cons_other (by rw [hv]; simp), hv] at hd
      cases hd
    | hard =>
      obtain ⟨e, he⟩ := hh hv
      simp only [he]
      exact ⟨e, rfl⟩
    | soft =>
      rw [List.map_cons, Den.firstOf_cons_soft hv] at hd
      rw [hv] at hst
      obtain ⟨_, ⟨e, h3⟩, h4, h5⟩ := hst
      simp only [h3]
      cases prev with
      | none => exact ih _ _ _ _ h4 _ (h5 rfl) hd
      | some prev =>
        dsimp only
        split
        · exact ih _ _ _ _ h4 _ (h5 rfl) hd
        · exact ih _ _ _ _ h4 _ (h5 rfl) hd

/-- A choice over a slice, called in a state in which it can be started anew. -/
theorem sliceRun_step (hS : S.Lawful) {live : Bool} {f : γ → Parser S σ α} {F : γ → Den S.Tok α} {k : Bool}
    {Rdy : σ → Prop} {RepN : γ → σ → List S.Tok → List S.Tok → Prop}
    (h : ∀ v, Resumes live (f v) (F v) k true Rdy (RepN v)) (m : Bool) (i : S.Input) (hL : S.isPartial i = live)
    (vs : List γ) (s : σ) (hs : Rdy s) :
    Step (Den.firstOf (vs.map F) live (S.left i)) (fun t => t.1 = 0 ∧ When k Rdy t.2) (fun t => t.1 = 0 ∧ Rdy t.2)
      (SliceRep F RepN vs) [] i (sliceRun (vs.map f) m i (0, s)) := by
  have hx : sliceRun (vs.map f) m i (0, s) = sliceLoop (vs.map f) m (S.checkpoint i) (vs.map f) 0 0 none i (0, s) := by
    unfold sliceRun
    simp
  rw [hx]
  exact sliceLoop_step hS h m i hL (vs.map f) [] vs 0 0 none i (.refl i) s hs rfl (by simp)

/-- A choice over a slice, called again after having asked for more. -/
theorem sliceRun_resume (hS : S.Lawful) {live : Bool} {f : γ → Parser S σ α} {F : γ → Den S.Tok α} {k : Bool}
    {Rdy : σ → Prop} {RepN : γ → σ → List S.Tok → List S.Tok → Prop}
    (h : ∀ v, Resumes live (f v) (F v) k true Rdy (RepN v)) (i : S.Input) (hL : S.isPartial i = live)
    (vs : List γ) (hP : ∀ v ∈ vs, (F v).Prompt) (t : Nat × σ) {w u : List S.Tok} (ht : SliceRep F RepN vs t w u) (hne : w ++ u ≠ [])
    (hu : u <+: S.left i) :
    Step (Den.firstOf (vs.map F) live (w ++ S.left i)) (fun t => t.1 = 0 ∧ When k Rdy t.2) (fun _ => True)
      (fun t w u => SliceRep F RepN vs t w u ∧ w ++ u ≠ []) w i (sliceRun (vs.map f) false i t) := by
  obtain ⟨vs₁, v, vs₂, rfl, ht1, ht2, ht3, ht4⟩ := ht
  obtain ⟨y, hy⟩ := hu
  have hsoft : ∀ D ∈ vs₁.map F, D live (w ++ S.left i) = .soft := by
    intro D hD
    obtain ⟨v', hv', rfl⟩ := List.mem_map.1 hD
    rw [← hy, ← List.append_assoc]
    exact (h v').good.stable_soft (ht3 v' hv') _ _
  have hnsoft : F v live (w ++ S.left i) ≠ .soft := by
    rw [← hy, ← List.append_assoc]
    exact hP v (by simp) _ _ _ hne ht4
  rw [List.map_append, Den.firstOf_append_soft hsoft, List.map_cons, Den.firstOf_cons_other hnsoft]
  have hst := (h v).resume i hL ht2 ⟨y, hy⟩
  rw [hL] at hst
  have hget : (vs₁.map f ++ (f v :: vs₂.map f))[t.1 - 1]? = some (f v) := by
    rw [ht1]
    have : vs₁.length + 1 - 1 = (vs₁.map f).length := by simp
    rw [this, List.getElem?_append_right (Nat.le_refl _)]
    simp
  have hrun : sliceRun (vs₁.map f ++ (f v :: vs₂.map f)) false i t =
      ⟨((f v).run false i t.2).res, ((f v).run false i t.2).inp,
        (if ((f v).run false i t.2).res.isOk then 0 else t.1, ((f v).run false i t.2).st)⟩ := by
    unfold sliceRun
    have : (!false && decide (t.1 ≠ 0)) = true := by simp [ht1]
    rw [if_pos this, hget]
  rw [List.map_append, List.map_cons, hrun]
  cases hd : F v live (w ++ S.left i) with
  | ok c x r =>
    rw [hd] at hst
    obtain ⟨h1, h3, h4, h5⟩ := hst
    refine ⟨h1, h3, h4, ?_, h5⟩
    obtain ⟨c', h1, _⟩ := h1
    dsimp only
    rw [h1, okRes_isOk]
    rfl
  | pend =>
    rw [hd] at hst
    obtain ⟨e, x, h1, h3, h4, h5⟩ := hst
    have hlive : live = true := by
      cases live with
      | true => rfl
      | false => exact absurd hd ((h v).good.complete _)
    subst hlive
    have hl := hS.left_reads h4
    refine ⟨e, x, h1, h3, h4, ⟨vs₁, v, vs₂, rfl, ?_, h5, ?_, ?_⟩, ?_⟩
    · dsimp only
      rw [h1]
      exact ht1
    · intro v' hv'
      dsimp only
      rw [List.append_assoc, ← hl]
      exact hsoft _ (List.mem_map.2 ⟨v', hv', rfl⟩)
    · dsimp only
      rw [List.append_assoc, ← hl]
      exact hd
    · dsimp only
      rw [List.append_assoc, ← hl, ← hy, ← List.append_assoc]
      exact fun e => hne (List.append_eq_nil_iff.1 e).1
  | soft => exact absurd hd hnsoft
  | hard => trivial

end Verif
