import Verif.Proof.ResumeCore
import Verif.Proof.Moves

/-!
# `parse_lazy`, and the parsers that only have it: `no_partial`, `look_ahead`

`parse_lazy` goes back to where it started when it asks for more.
-/

namespace Verif

variable {S : Strm} {σ τ α β : Type}

/-- `parse_lazy` does what `D` says, and goes back to where it started when it asks for more. -/
structure LazyAs (p : Parser S σ α) (D : Den S.Tok α) : Prop where
  step : ∀ i, Step (D (S.isPartial i) (S.left i)) (fun _ : Unit => True) (fun _ => True) (fun _ w _ => w = []) [] i
    ⟨(p.lazy i).1, (p.lazy i).2, ()⟩
  hard : ∀ i, D (S.isPartial i) (S.left i) = .hard → ∃ e, (p.lazy i).1 = .commitErr e

theorem lazyAs_ofLazy {lazy : S.Input → ParseResult α S.Err × S.Input} {a b} {n : Nat} {D : Den S.Tok α}
    (h : Atomic (Parser.ofLazy () lazy a b n) D) : LazyAs (Parser.ofLazy () lazy a b n) D :=
  ⟨fun i => h.step true i (), fun i hd => h.hard true i () hd⟩

theorem lazyAs_default (hS : S.Lawful) {p : Parser S σ α} {D : Den S.Tok α} {k r : Bool} (h : Resumable p D k r)
    (hl : ∀ i, p.lazy i = Strm.defaultLazy p.init p.run i) : LazyAs p D := by
  obtain ⟨Ready, Rep, h, _⟩ := h
  constructor
  · intro i
    have h1 := (h (S.isPartial i)).first i rfl (h _).ready_init
    rw [hl]
    unfold Strm.defaultLazy
    revert h1
    generalize p.run true i p.init = o
    obtain ⟨res, j, s⟩ := o
    cases hD : D (S.isPartial i) (S.left i) with
    | ok c v l =>
      rintro ⟨⟨c', h1, h2⟩, h3, h4, _⟩
      cases h2 rfl
      simp only at h1 h3 h4
      subst h1
      cases hp : S.isPartial i <;> cases c <;> exact ⟨⟨_, rfl, fun _ => rfl⟩, h3, h4, trivial⟩
    | pend =>
      rintro ⟨e, x, h1, h2, h3, h4⟩
      simp only at h1 h3
      subst h1
      cases hp : S.isPartial i with
      | true =>
        have := hS.reset h3
        simp only [this, if_true]
        exact ⟨e, [], rfl, h2, .nil i, rfl⟩
      | false => rw [hp] at hD; exact absurd hD ((h false).good.complete _)
    | soft =>
      rintro ⟨_, ⟨e, h1⟩, h2, _⟩
      simp only at h1 h2
      subst h1
      cases hp : S.isPartial i <;> exact ⟨rfl, ⟨e, rfl⟩, h2, trivial⟩
    | hard => intro _; trivial
  · intro i hd
    obtain ⟨e, h1⟩ := (h (S.isPartial i)).first_hard true i rfl (h _).ready_init hd
    rw [hl]
    unfold Strm.defaultLazy
    simp only [h1]
    cases hp : S.isPartial i with
    | true =>
      simp only [if_true]
      generalize S.reset (S.checkpoint i) _ = y
      obtain ⟨y, j⟩ := y
      cases y
      · exact ⟨e, rfl⟩
      · exact ⟨_, rfl⟩
    | false => exact ⟨e, rfl⟩

theorem Resumable.good {p : Parser S σ α} {D : Den S.Tok α} {k r : Bool} (h : Resumable p D k r) : D.Good := by
  obtain ⟨_, _, h, _⟩ := h
  exact (h true).good

theorem both_atomic {lazy : S.Input → ParseResult α S.Err × S.Input} {a b} {n : Nat} {D : Den S.Tok α}
    (h : Atomic (Parser.ofLazy () lazy a b n) D) :
    Resumable (Parser.ofLazy () lazy a b n) D true true ∧ LazyAs (Parser.ofLazy () lazy a b n) D :=
  ⟨h.resumable, lazyAs_ofLazy h⟩

theorem both_default (hS : S.Lawful) {p : Parser S σ α} {D : Den S.Tok α} {k r : Bool} (h : Resumable p D k r)
    (hl : ∀ i, p.lazy i = Strm.defaultLazy p.init p.run i) : Resumable p D k r ∧ LazyAs p D :=
  ⟨h, lazyAs_default hS h hl⟩

theorem LazyAs.forward {p : Parser S σ α} {q : Parser S τ α} {D : Den S.Tok α} (h : LazyAs p D)
    (hq : ∀ i, q.lazy i = p.lazy i) : LazyAs q D :=
  ⟨fun i => by rw [hq]; exact h.step i, fun i => by rw [hq]; exact h.hard i⟩

theorem LazyAs.map {p : Parser S σ α} {q : Parser S τ β} {D : Den S.Tok α} (h : LazyAs p D) (f : α → β)
    (hq : ∀ i, q.lazy i = ((p.lazy i).1.map f, (p.lazy i).2)) : LazyAs q (D.map f) := by
  constructor
  · intro i
    have h1 := h.step i
    rw [hq]
    simp only [Den.map]
    revert h1
    generalize p.lazy i = o
    obtain ⟨res, j⟩ := o
    cases D (S.isPartial i) (S.left i) with
    | ok c v l =>
      rintro ⟨⟨c', h1, h2⟩, h3, h4, _⟩
      cases h2 rfl
      simp only at h1
      subst h1
      cases c <;> exact ⟨⟨_, rfl, fun _ => rfl⟩, h3, h4, trivial⟩
    | pend =>
      rintro ⟨e, x, h1, h2, h3, h4⟩
      simp only at h1
      subst h1
      exact ⟨e, x, rfl, h2, h3, h4⟩
    | soft =>
      rintro ⟨_, ⟨e, h1⟩, h2, _⟩
      simp only at h1
      subst h1
      exact ⟨rfl, ⟨e, rfl⟩, h2, trivial⟩
    | hard => intro _; trivial
  · intro i hd
    obtain ⟨e, he⟩ := h.hard i (Outcome.map_hard.1 hd)
    rw [hq, he]
    exact ⟨e, rfl⟩

/-- `no_partial` -/
theorem atomic_noPartial (hS : S.Lawful) {p : Parser S σ α} {D : Den S.Tok α} (hg : D.Good) (h : LazyAs p D) :
    Atomic (noPartial p) D :=
  .mk hg (committed_ofLazy hS _ _ _ _ _) (fun _ i _ => h.step i) (fun _ i _ hd => h.hard i hd)

theorem Den.Good.peek {T : Type} {D : Den T α} (h : D.Good) : (Den.peek D).Good where
  stable a x b hd := by
    have := h.stable a x b
    revert this hd
    simp only [Den.peek]
    cases D true a with
    | pend => intro hd; exact absurd rfl hd
    | ok c v l => intro _ hs; rw [hs (by simp)]; rfl
    | soft => intro _ hs; rw [hs (by simp)]; rfl
    | hard => intro _ hs; rw [hs (by simp)]; rfl
  complete a := by
    have := h.complete a
    revert this
    simp only [Den.peek]
    cases D false a <;> simp
  read {b a c v r} hd := by
    revert hd
    simp only [Den.peek]
    cases D b a <;> intro hd <;> cases hd
    exact ⟨[], rfl, rfl⟩

/-- `look_ahead` -/
theorem atomic_lookAhead (hS : S.Lawful) {p : Parser S σ α} {D : Den S.Tok α} (hg : D.Good) (h : LazyAs p D)
    (hm : ∀ i, S.Reach i (p.lazy i).2) : Atomic (lookAhead p) (Den.peek D) := by
  have key : ∀ i, S.reset (S.checkpoint i) (p.lazy i).2 = (none, i) := by
    intro i
    obtain ⟨ts, hr⟩ := hm i
    exact hS.reset hr
  refine .mk hg.peek (committed_ofLazy hS _ _ _ _ _) (fun m i s => ?_) (fun m i s hd => ?_)
  · have h1 := h.step i
    simp only [lookAhead, Parser.ofLazy, key, Den.peek]
    revert h1
    generalize p.lazy i = o
    obtain ⟨res, j⟩ := o
    cases D (S.isPartial i) (S.left i) with
    | ok c v l =>
      rintro ⟨⟨c', h1, h2⟩, h3, h4, _⟩
      simp only at h1
      subst h1
      cases c' <;> exact ⟨⟨_, rfl, fun _ => rfl⟩, .refl i, rfl, trivial⟩
    | pend =>
      rintro ⟨e, x, h1, h2, h3, h4⟩
      simp only at h1
      subst h1
      exact ⟨e, [], rfl, h2, .nil i, rfl⟩
    | soft =>
      rintro ⟨_, ⟨e, h1⟩, h2, _⟩
      simp only at h1
      subst h1
      exact ⟨rfl, ⟨e, rfl⟩, .refl i, trivial⟩
    | hard => intro _; trivial
  · have hd : D (S.isPartial i) (S.left i) = .hard := by
      revert hd
      simp only [Den.peek]
      cases D (S.isPartial i) (S.left i) <;> intro hd <;> first | rfl | cases hd
    obtain ⟨e, he⟩ := h.hard i hd
    simp only [lookAhead, Parser.ofLazy, key, he]
    exact ⟨e, rfl⟩

end Verif
