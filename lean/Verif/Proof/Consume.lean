import Verif.Props.Monad
import Verif.Props.Sequence

/-! # Parsers that consume at least one token when they succeed -/

namespace Verif

variable {S : Strm} {σ τ α β : Type}

theorem of_shape_ok {p : Parser S σ α} {i : S.Input} {c : Bool} {v : α} {j : S.Input}
    (h : p.shape i = .ok c v j) : p.answer i = .ok c v j := by
  revert h
  unfold Parser.shape
  cases p.answer i <;> intro h <;> cases h <;> rfl

theorem reach_of_answer {p : Parser S σ α} (hm : Moves p) {i : S.Input} {c : Bool} {v : α}
    {j : S.Input} (h : p.answer i = .ok c v j) : S.Reach i j := by
  have h1 := hm.run true i p.init
  revert h1 h
  unfold Parser.answer
  generalize p.run true i p.init = o
  obtain ⟨r, k, s⟩ := o
  cases r <;> intro h2 h1 <;> cases h2 <;> exact h1

theorem reach_of_shape {p : Parser S σ α} (hm : Moves p) {i : S.Input} {c : Bool} {v : α}
    {j : S.Input} (h : p.shape i = .ok c v j) : S.Reach i j := reach_of_answer hm (of_shape_ok h)

theorem reads_of_uncons {i j : S.Input} {t : S.Tok} (h : S.uncons i = (.ok t, j)) : S.Reads i [t] j :=
  .cons h (.nil j)

theorem unconsP_ok {i k : S.Input} {t : S.Tok}
    (h : S.unconsP i = (.commitOk t, k) ∨ S.unconsP i = (.peekOk t, k)) : S.uncons i = (.ok t, k) := by
  revert h
  unfold Strm.unconsP
  generalize S.uncons i = x
  obtain ⟨r, k'⟩ := x
  cases r with
  | ok t' => intro h; rcases h with h | h <;> cases h <;> rfl
  | error e =>
    simp only [Strm.wrapStreamError]
    split <;> (intro h; rcases h with h | h <;> cases h)

theorem consuming_any : Consuming (any S) := by
  intro i c v j h
  have e : (any S).answer i = Answer.of (S.unconsP i).1 (S.unconsP i).2 := rfl
  rw [e] at h
  revert h
  generalize hx : S.unconsP i = x
  obtain ⟨r, k⟩ := x
  cases r with
  | commitOk t => intro h; cases h; exact ⟨_, [], reads_of_uncons (unconsP_ok (.inl hx))⟩
  | peekOk t => intro h; cases h; exact ⟨_, [], reads_of_uncons (unconsP_ok (.inr hx))⟩
  | _ => intro h; cases h

theorem consuming_satisfyImpl (f : S.Tok → Option α) {i : S.Input} {c v j}
    (h : Answer.of (satisfyImpl S f i).1 (satisfyImpl S f i).2 = .ok c v j) :
    ∃ t ts, S.Reads i (t :: ts) j := by
  revert h
  unfold satisfyImpl
  generalize hx : S.unconsP i = x
  obtain ⟨r, k⟩ := x
  cases r with
  | commitOk t =>
    simp only
    cases f t with
    | some v => intro h; cases h; exact ⟨_, [], reads_of_uncons (unconsP_ok (.inl hx))⟩
    | none => intro h; cases h
  | peekOk t =>
    simp only
    cases f t with
    | some v => intro h; cases h; exact ⟨_, [], reads_of_uncons (unconsP_ok (.inr hx))⟩
    | none => intro h; cases h
  | _ => intro h; cases h

theorem consuming_satisfyMap (f : S.Tok → Option α) : Consuming (satisfyMap S f) :=
  fun _ _ _ _ h => consuming_satisfyImpl f h

theorem consuming_satisfy (f : S.Tok → Bool) : Consuming (satisfy S f) :=
  fun _ _ _ _ h => consuming_satisfyImpl _ h

theorem consuming_token [DecidableEq S.Tok] (t : S.Tok) : Consuming (token S t) :=
  fun _ _ _ _ h => consuming_satisfyImpl _ h

theorem consuming_map {p : Parser S σ α} (hp : Consuming p) (f : α → β) : Consuming (map p f) := by
  intro i c v j h
  have e : (map p f).answer i = (p.answer i).map f := by
    have e : (map p f).answer i = ((p.run true i p.init).mapRes (·.map f)).answer := rfl
    rw [e]
    unfold Parser.answer
    generalize p.run true i p.init = o
    obtain ⟨r, k, s⟩ := o
    cases r <;> rfl
  rw [e] at h
  revert h
  generalize hx : p.answer i = x
  cases x with
  | ok c v j => intro h; cases h; exact hp _ _ _ _ hx
  | _ => intro h; cases h

theorem reads_append_left {i j k : S.Input} {t : S.Tok} {ts : List S.Tok} (h : S.Reads i (t :: ts) j)
    (h' : S.Reach j k) : ∃ t ts, S.Reads i (t :: ts) k := by
  obtain ⟨us, h'⟩ := h'
  exact ⟨_, _, h.trans h'⟩

theorem reads_append_right {i j k : S.Input} {t : S.Tok} {ts : List S.Tok} (h : S.Reach i j)
    (h' : S.Reads j (t :: ts) k) : ∃ t ts, S.Reads i (t :: ts) k := by
  obtain ⟨us, h⟩ := h
  have := h.trans h'
  cases us with
  | nil => exact ⟨_, _, this⟩
  | cons u us => exact ⟨_, _, this⟩

theorem bind_ok {I : Type} {m : Sem I Unit α} {f : α → Sem I Unit β} {i : I} {c : Bool} {v : β}
    {k : I} (h : Ref.bind m f i = .ok c v k) :
    ∃ c1 x j c2, m i = .ok c1 x j ∧ f x j = .ok c2 v k ∧ c = (c1 || c2) := by
  revert h
  unfold Ref.bind
  cases hm : m i with
  | ok c1 x j =>
    simp only
    cases hf : f x j with
    | ok c2 y l =>
      simp only [Answer.after, Answer.ok.injEq]
      rintro ⟨rfl, rfl, rfl⟩
      exact ⟨_, _, _, _, ⟨rfl, rfl, rfl⟩, hf, rfl⟩
    | soft => cases c1 <;> intro h <;> cases h
    | hard => intro h; cases h
    | abort => intro h; cases h
  | _ => intro h; cases h

theorem map_ok {I E : Type} {m : Sem I E α} {f : α → β} {i : I} {c : Bool} {v : β} {k : I}
    (h : Ref.map m f i = .ok c v k) : ∃ x, m i = .ok c x k ∧ v = f x := by
  revert h
  unfold Ref.map
  cases m i <;> intro h <;> cases h
  exact ⟨_, rfl, rfl⟩

theorem seq_reach (ps : Seq S τ β) (hm : ∀ q, ps.Mem q → Moves q.2.2) {i : S.Input} {c v j}
    (h : Ref.seq ps i = .ok c v j) : S.Reach i j := by
  induction ps generalizing i c j with
  | nil => cases h; exact .refl i
  | cons p ps ih =>
    rw [Ref.seq] at h
    obtain ⟨c1, x, k, c2, h1, h2, -⟩ := bind_ok h
    obtain ⟨y, h2, -⟩ := map_ok h2
    exact (reach_of_shape (hm ⟨_, _, p⟩ (.inl rfl)) h1).trans (ih (fun q hq => hm q (.inr hq)) h2)

theorem seq_consumes (ps : Seq S τ β) (hm : ∀ q, ps.Mem q → Moves q.2.2)
    (hc : ∃ q, ps.Mem q ∧ Consuming q.2.2) {i : S.Input} {c v j}
    (h : Ref.seq ps i = .ok c v j) : ∃ t ts, S.Reads i (t :: ts) j := by
  induction ps generalizing i c j with
  | nil => obtain ⟨q, hq, -⟩ := hc; exact hq.elim
  | cons p ps ih =>
    rw [Ref.seq] at h
    obtain ⟨c1, x, k, c2, h1, h2, -⟩ := bind_ok h
    obtain ⟨y, h2, -⟩ := map_ok h2
    obtain ⟨q, hq | hq, hc⟩ := hc
    · subst hq
      obtain ⟨t, ts, h3⟩ := hc _ _ _ _ (of_shape_ok h1)
      exact reads_append_left h3 (seq_reach ps (fun q hq => hm q (.inr hq)) h2)
    · obtain ⟨t, ts, h3⟩ := ih (fun q hq => hm q (.inr hq)) ⟨q, hq, hc⟩ h2
      exact reads_append_right (reach_of_shape (hm ⟨_, _, p⟩ (.inl rfl)) h1) h3

/-- A tuple consumes if one of its members does. -/
theorem consuming_tuple {p : Parser S σ α} {ps : Seq S τ β} (hm : ∀ q, (Seq.cons p ps).Mem q → Moves q.2.2)
    (hc : ∃ q, (Seq.cons p ps).Mem q ∧ Consuming q.2.2) : Consuming (tuple p ps) := by
  intro i c v j h
  have h' : (tuple p ps).shape i = .ok c v j := by rw [Parser.shape, h]; rfl
  rw [C12_tuple] at h'
  exact seq_consumes _ hm hc h'

end Verif
