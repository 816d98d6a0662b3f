import Verif.Proof.Coherent
import Verif.Spec.Sequence

/-! # What a chain of `Iter::next` calls amounts to -/

namespace Verif

set_option linter.unusedVariables false

variable {S : Strm} {σ τ υ α β γ : Type}

/-- How a chain of `next` calls can end at `k`, after `len` elements; `c`: something committed. -/
inductive IterEnd (p : Parser S σ α) (Clean : σ → Prop) (f : α → Option β) (lim : Option Nat)
    (len : Nat) (k : S.Input) (c : Bool) (st0 : IterSt S.Err) : IterS S σ → Prop where
  | limit {s} : lim = some len → Clean s → IterEnd p Clean f lim len k c st0 ⟨k, c, st0, s, true⟩
  | soft {s e} : lim ≠ some len → p.answer k = .soft → Clean s →
      IterEnd p Clean f lim len k c st0 ⟨k, c, .peekErr e, s, true⟩
  | hard {i s e b} : lim ≠ some len → p.answer k = .hard e →
      IterEnd p Clean f lim len k c st0 ⟨i, b, .commitErr e, s, true⟩
  | abort {i s a b} : lim ≠ some len → p.answer k = .abort a →
      IterEnd p Clean f lim len k c st0 ⟨i, b, .abort a, s, true⟩
  | stop {s c' v j} : lim ≠ some len → p.answer k = .ok c' v j → f v = none → Clean s →
      IterEnd p Clean f lim len k c st0 ⟨j, c || c', st0, s, true⟩

theorem IterEnd.mono {p : Parser S σ α} {Clean : σ → Prop} {f : α → Option β} {lim : Option Nat}
    {len : Nat} {k : S.Input} {c : Bool} {st0 : IterSt S.Err} {r : IterS S σ}
    (h : IterEnd p Clean f (lim.map (· - 1)) len k c st0 r) (h0 : lim ≠ some 0) :
    IterEnd p Clean f lim (len + 1) k c st0 r := by
  have hl : (lim.map (· - 1) = some len) ↔ lim = some (len + 1) := by
    cases lim with
    | none => simp
    | some l =>
      have : l ≠ 0 := by simpa using h0
      simp
      omega
  cases h with
  | limit h1 h2 => exact .limit (hl.1 h1) h2
  | soft h1 h2 h3 => exact .soft (fun h => h1 (hl.2 h)) h2 h3
  | hard h1 h2 => exact .hard (fun h => h1 (hl.2 h)) h2
  | abort h1 h2 => exact .abort (fun h => h1 (hl.2 h)) h2
  | stop h1 h2 h3 h4 => exact .stop (fun h => h1 (hl.2 h)) h2 h3 h4

theorem iterExtend_ends (hS : S.Lawful) {p : Parser S σ α} (hm : ∀ m i s, S.Reach i (p.run m i s).inp)
    {Clean : σ → Prop} (hr : ReusableIn Clean p) (f : α → Option β) (n : Nat) (lim : Option Nat)
    (els : List β) (it : IterS S σ)
    (hfuel : (∃ l, lim = some l ∧ l < n) ∨ ((∀ i c v j, p.answer i = .ok c v j → f v ≠ none →
      ∃ t ts, S.Reads i (t :: ts) j) ∧ S.size it.inp < n))
    (hf : it.first = true) (hc : Clean it.st) :
    ∃ vs c k ys, Ref.Run p.answer it.inp vs c k ∧ vs.map f = ys.map some ∧
      (iterExtend p f n lim els it).1 = els ++ ys ∧ (∀ l, lim = some l → ys.length ≤ l) ∧
      IterEnd p Clean f lim ys.length k (it.committed || c) it.state (iterExtend p f n lim els it).2 := by
  induction n generalizing lim els it with
  | zero => rcases hfuel with ⟨l, _, h⟩ | ⟨_, h⟩ <;> omega
  | succ n ih =>
    by_cases h0 : lim = some 0
    · subst h0
      refine ⟨[], false, it.inp, [], .nil _, rfl, by simp [iterExtend], by simp, ?_⟩
      obtain ⟨i, cm, st, s, fi⟩ := it
      simp only at hf
      subst hf
      simp only [iterExtend, List.length_nil, Bool.or_false]
      exact .limit rfl hc
    · have hx : iterExtend p f (n + 1) lim els it =
          match iterNext p it with
          | (none, it') => (els, it')
          | (some x, it') =>
            match f x with
            | some y => iterExtend p f n (lim.map (· - 1)) (els ++ [y]) it'
            | none => (els, it') := by
        cases lim with
        | none => rfl
        | some l =>
          cases l with
          | zero => exact absurd rfl h0
          | succ l => rfl
      rw [hx]
      obtain ⟨i, cm, st, s, fi⟩ := it
      simp only at hf hc hfuel
      subst hf
      have hsame := hr.same s hc i
      have hok := hr.ok s hc i
      have hsoft := hr.soft s hc i
      have hmv := hm true i s
      unfold iterNext
      simp only
      revert hsame hok hsoft hmv
      generalize p.run true i s = o
      obtain ⟨r, j, u⟩ := o
      intro hsame hok hsoft hmv
      have step : ∀ c' v, p.answer i = .ok c' v j → Clean u → ∀ it' : IterS S σ,
          it' = ⟨j, cm || c', st, u, true⟩ →
          ∃ vs c k ys, Ref.Run p.answer i vs c k ∧ vs.map f = ys.map some ∧
            (match f v with
              | some y => iterExtend p f n (lim.map (· - 1)) (els ++ [y]) it'
              | none => (els, it')).1 = els ++ ys ∧ (∀ l, lim = some l → ys.length ≤ l) ∧
            IterEnd p Clean f lim ys.length k (cm || c) st
              (match f v with
              | some y => iterExtend p f n (lim.map (· - 1)) (els ++ [y]) it'
              | none => (els, it')).2 := by
        intro c' v ha hu it' hit
        cases hfv : f v with
        | none =>
          subst hit
          exact ⟨[], false, i, [], .nil _, rfl, by simp, by simp, by
            simpa using IterEnd.stop (by simpa using h0) ha hfv hu⟩
        | some y =>
          have hfuel' : (∃ l, lim.map (· - 1) = some l ∧ l < n) ∨
              ((∀ i c v j, p.answer i = .ok c v j → f v ≠ none → ∃ t ts, S.Reads i (t :: ts) j) ∧
                S.size it'.inp < n) := by
            rcases hfuel with ⟨l, rfl, hl⟩ | ⟨hcons, hsz⟩
            · refine .inl ⟨l - 1, rfl, ?_⟩
              have : l ≠ 0 := by simpa using h0
              omega
            · right
              refine ⟨hcons, ?_⟩
              obtain ⟨t, ts, hrd⟩ := hcons i c' v j ha (by simp [hfv])
              have := hS.reads_size hrd
              subst hit
              simp at this ⊢
              omega
          obtain ⟨vs, c, k, ys, h1, h2, h3, h4, h5⟩ := ih (lim.map (· - 1)) (els ++ [y]) it' hfuel'
            (by subst hit; rfl) (by subst hit; exact hu)
          subst hit
          refine ⟨v :: vs, c' || c, k, y :: ys, .cons ha h1, by simp [hfv, h2], by simp [h3], ?_, ?_⟩
          · rintro l rfl
            have := h4 (l - 1) rfl
            have : l ≠ 0 := by simpa using h0
            simp
            omega
          · simpa [Bool.or_assoc] using h5.mono h0
      cases r with
      | peekOk v =>
        rw [answer_peekOk] at hsame
        exact step false v hsame.symm (hok rfl) _ (by simp)
      | commitOk v =>
        rw [answer_commitOk] at hsame
        exact step true v hsame.symm (hok rfl) _ (by simp)
      | peekErr e =>
        rw [answer_peekErr] at hsame
        simp only [hS.reset_reach hmv]
        exact ⟨[], false, i, [], .nil _, rfl, by simp, by simp, by
          simpa using IterEnd.soft (by simpa using h0) hsame.symm (hsoft e rfl)⟩
      | commitErr e =>
        rw [answer_commitErr] at hsame
        exact ⟨[], false, i, [], .nil _, rfl, by simp, by simp, .hard (by simpa using h0) hsame.symm⟩
      | abort a =>
        rw [answer_abort] at hsame
        exact ⟨[], false, i, [], .nil _, rfl, by simp, by simp, .abort (by simpa using h0) hsame.symm⟩

theorem map_some_eq {vs ys : List α} (h : vs.map some = ys.map some) : ys = vs := by
  induction vs generalizing ys with
  | nil => cases ys <;> simp_all
  | cons v vs ih =>
    cases ys with
    | nil => simp at h
    | cons y ys => simp at h; rw [h.1, ih h.2]

theorem many_run (hS : S.Lawful) {p : Parser S σ α} (hm : ∀ m i s, S.Reach i (p.run m i s).inp)
    {Clean : σ → Prop} (hr : ReusableIn Clean p) (hp : Consuming p) (i : S.Input) (s : σ) (hc : Clean s)
    (els : List α) (c0 : Bool) :
    ∃ vs c k, Ref.Run p.answer i vs c k ∧
      (iterExtend p some (S.size i + 2) none els ⟨i, c0, .ok, s, true⟩).1 = els ++ vs ∧
      (match p.answer k with
       | .ok _ _ _ => False
       | .soft => ∃ e s', Clean s' ∧ (iterExtend p some (S.size i + 2) none els ⟨i, c0, .ok, s, true⟩).2 =
           ⟨k, c0 || c, .peekErr e, s', true⟩
       | .hard e => (iterExtend p some (S.size i + 2) none els ⟨i, c0, .ok, s, true⟩).2.state = .commitErr e
       | .abort a => (iterExtend p some (S.size i + 2) none els ⟨i, c0, .ok, s, true⟩).2.state =
           .abort a) := by
  obtain ⟨vs, c, k, ys, h1, h2, h3, -, h5⟩ := iterExtend_ends hS hm hr some (S.size i + 2) none els
    ⟨i, c0, .ok, s, true⟩ (.inr ⟨fun i c v j h _ => hp i c v j h, by simp⟩) rfl hc
  cases map_some_eq h2
  refine ⟨vs, c, k, h1, h3, ?_⟩
  revert h5
  generalize (iterExtend p some (S.size i + 2) none els ⟨i, c0, .ok, s, true⟩).2 = r
  intro h5
  cases h5 with
  | limit h => cases h
  | soft _ h hs => rw [h]; exact ⟨_, _, hs, rfl⟩
  | hard _ h => rw [h]
  | abort _ h => rw [h]
  | stop _ _ h => cases h

end Verif
