import Verif.Proof.ResumeTuple

/-!
# The loop of the repeating parsers can be resumed
-/

namespace Verif

variable {S : Strm} {σ τ υ α β γ : Type}

/-! ## What the loop does -/

namespace Den
variable {T : Type}

/-- The loop: as often as possible, at most `lim` times, until `f` says stop. -/
def loopN (D : Den T α) (f : α → Option β) : Nat → Option Nat → Den T (List β)
  | _, some 0, _, a => .ok false [] a
  | 0, _, _, _ => .hard
  | n + 1, lim, b, a =>
    match D b a with
    | .ok c v r =>
      match f v with
      | some y => ((loopN D f n (lim.map (· - 1)) b r).map (y :: ·)).after c
      | none => .ok c [] r
    | .pend => .pend
    | .soft => .ok false [] a
    | .hard => .hard

theorem loopN_succ (D : Den T α) (f : α → Option β) (n : Nat) {lim : Option Nat} (h0 : lim ≠ some 0) (b : Bool)
    (a : List T) : loopN D f (n + 1) lim b a =
      match D b a with
      | .ok c v r =>
        match f v with
        | some y => ((loopN D f n (lim.map (· - 1)) b r).map (y :: ·)).after c
        | none => .ok c [] r
      | .pend => .pend
      | .soft => .ok false [] a
      | .hard => .hard := by
  cases lim with
  | none => rfl
  | some k =>
    cases k with
    | zero => exact absurd rfl h0
    | succ k => rfl

/-- `n` iterations are enough. -/
def Enough (lim : Option Nat) (a : List T) (n : Nat) : Prop :=
  match lim with
  | none => a.length < n
  | some k => k < n

theorem loopN_fuel {D : Den T α} (f : α → Option β) (n : Nat) : ∀ {lim : Option Nat} (_ : lim = none → D.Consuming)
    {b : Bool} {a : List T} {m : Nat}, Enough lim a n → Enough lim a m → loopN D f n lim b a = loopN D f m lim b a := by
  induction n with
  | zero => intro lim _ b a m h; cases lim <;> simp [Enough] at h
  | succ n ih =>
    intro lim hl b a m h h'
    cases m with
    | zero => cases lim <;> simp [Enough] at h'
    | succ m =>
      by_cases h0 : lim = some 0
      · subst h0; rfl
      · rw [loopN_succ D f n h0, loopN_succ D f m h0]
        cases hd : D b a with
        | ok c v r =>
          simp only
          cases hf : f v with
          | none => rfl
          | some y =>
            simp only
            rw [ih (lim := lim.map (· - 1)) (m := m)]
            · intro hn; exact hl (by cases lim <;> simp_all)
            · cases lim with
              | none =>
                have := hl rfl _ _ _ _ _ hd
                simp only [Enough, Option.map] at *
                omega
              | some k =>
                have : k ≠ 0 := fun h => h0 (by rw [h])
                simp only [Enough, Option.map] at *
                omega
            · cases lim with
              | none =>
                have := hl rfl _ _ _ _ _ hd
                simp only [Enough, Option.map] at *
                omega
              | some k =>
                have : k ≠ 0 := fun h => h0 (by rw [h])
                simp only [Enough, Option.map] at *
                omega
        | _ => rfl

/-- The loop with enough iterations. -/
def loop (D : Den T α) (f : α → Option β) (lim : Option Nat) : Den T (List β) := fun b a =>
  loopN D f ((match lim with | none => a.length | some k => k) + 1) lim b a

theorem enough_self (lim : Option Nat) (a : List T) :
    Enough lim a ((match lim with | none => a.length | some k => k) + 1) := by
  cases lim <;> simp [Enough]

theorem loopN_loop {D : Den T α} (f : α → Option β) {n : Nat} {lim : Option Nat} (hl : lim = none → D.Consuming)
    {b : Bool} {a : List T} (h : Enough lim a n) : loopN D f n lim b a = loop D f lim b a :=
  loopN_fuel f n hl h (enough_self lim a)

theorem loop_zero (D : Den T α) (f : α → Option β) (b : Bool) (a : List T) :
    loop D f (some 0) b a = .ok false [] a := rfl

theorem loop_eq {D : Den T α} (f : α → Option β) {lim : Option Nat} (hl : lim = none → D.Consuming)
    (h0 : lim ≠ some 0) (b : Bool) (a : List T) : loop D f lim b a =
      match D b a with
      | .ok c v r =>
        match f v with
        | some y => ((loop D f (lim.map (· - 1)) b r).map (y :: ·)).after c
        | none => .ok c [] r
      | .pend => .pend
      | .soft => .ok false [] a
      | .hard => .hard := by
  have h1 : loop D f lim b a = loopN D f (a.length + lim.getD 0 + 1 + 1) lim b a := by
    rw [loopN_loop f hl]
    cases lim <;> simp [Enough] <;> omega
  rw [h1, loopN_succ D f _ h0]
  · cases hd : D b a with
    | ok c v r =>
      simp only
      cases hf : f v with
      | none => rfl
      | some y =>
        simp only
        rw [loopN_loop f]
        · intro hn; exact hl (by cases lim <;> simp_all)
        · cases lim with
          | none =>
            have := hl rfl _ _ _ _ _ hd
            simp only [Enough, Option.map, Option.getD] at *
            omega
          | some k =>
            simp only [Enough, Option.map, Option.getD] at *
            omega
    | _ => rfl

theorem Good.loopN {D : Den T α} (h : D.Good) (f : α → Option β) (n : Nat) : ∀ lim : Option Nat,
    (∀ a x b, Den.loopN D f n lim true a ≠ .pend → Den.loopN D f n lim b (a ++ x) = (Den.loopN D f n lim true a).extend x) ∧
    (∀ a, Den.loopN D f n lim false a ≠ .pend) ∧
    (∀ {b a c v r}, Den.loopN D f n lim b a = .ok c v r → ∃ x, a = x ++ r ∧ c = !x.isEmpty) := by
  induction n with
  | zero =>
    intro lim
    cases lim with
    | none => exact ⟨fun _ _ _ _ => rfl, fun _ => by simp [Den.loopN], fun {_ _ _ _ _} h => by simp [Den.loopN] at h⟩
    | some k =>
      cases k with
      | zero =>
        refine ⟨fun _ _ _ _ => rfl, fun _ => by simp [Den.loopN], fun {b a c v r} h => ?_⟩
        simp only [Den.loopN, Outcome.ok.injEq] at h
        exact ⟨[], by simp [h], h.1.symm⟩
      | succ k => exact ⟨fun _ _ _ _ => rfl, fun _ => by simp [Den.loopN], fun {_ _ _ _ _} h => by simp [Den.loopN] at h⟩
  | succ n ih =>
    intro lim
    by_cases h0 : lim = some 0
    · subst h0
      refine ⟨fun _ _ _ _ => rfl, fun _ => by simp [Den.loopN], fun {b a c v r} h => ?_⟩
      simp only [Den.loopN, Outcome.ok.injEq] at h
      exact ⟨[], by simp [h], h.1.symm⟩
    · have he : ∀ b a, Den.loopN D f (n + 1) lim b a = (match D b a with
        | .ok c v r =>
          match f v with
          | some y => ((Den.loopN D f n (lim.map (· - 1)) b r).map (y :: ·)).after c
          | none => .ok c [] r
        | .pend => .pend
        | .soft => .ok false [] a
        | .hard => .hard) := by
        intro b a
        rw [loopN_succ D f n h0]
      obtain ⟨i1, i2, i3⟩ := ih (lim.map (· - 1))
      refine ⟨fun a x b hp => ?_, fun a => ?_, fun {b a c v r} e => ?_⟩
      · rw [he] at hp
        rw [he, he]
        cases hd : D true a with
        | ok c v r =>
          rw [hd] at hp
          rw [h.stable_ok hd b x]
          simp only at hp ⊢
          cases hf : f v with
          | none => rfl
          | some y =>
            rw [hf] at hp
            simp only at hp ⊢
            rw [Outcome.extend_after, Outcome.extend_map,
              i1 r x b (fun e => hp (Outcome.after_pend.2 (Outcome.map_pend.2 e)))]
        | pend => rw [hd] at hp; simp at hp
        | soft => rw [h.stable_soft hd b x]; rfl
        | hard => rw [h.stable a x b (by rw [hd]; simp), hd]; rfl
      · rw [he]
        cases hd : D false a with
        | ok c v r =>
          simp only
          cases hf : f v with
          | none => simp
          | some y => exact fun e => i2 r (Outcome.map_pend.1 (Outcome.after_pend.1 e))
        | pend => exact absurd hd (h.complete a)
        | soft => simp
        | hard => simp
      · rw [he] at e
        cases hd : D b a with
        | ok c v r =>
          rw [hd] at e
          simp only at e
          cases hf : f v with
          | none =>
            rw [hf] at e
            cases e
            exact h.read hd
          | some y =>
            rw [hf] at e
            obtain ⟨d', e', rfl⟩ := Outcome.after_ok.1 e
            obtain ⟨_, e', _⟩ := Outcome.map_ok.1 e'
            obtain ⟨x, rfl, rfl⟩ := h.read hd
            obtain ⟨y, rfl, rfl⟩ := i3 e'
            exact ⟨x ++ y, by simp, by cases x <;> simp⟩
        | pend => rw [hd] at e; cases e
        | soft =>
          rw [hd] at e
          simp only [Outcome.ok.injEq] at e
          exact ⟨[], by simp [e], e.1.symm⟩
        | hard => rw [hd] at e; cases e

theorem Good.loop {D : Den T α} (h : D.Good) (f : α → Option β) {lim : Option Nat} (hl : lim = none → D.Consuming) :
    (Den.loop D f lim).Good where
  stable a x b := by
    have h1 : ∀ b a', a'.length ≤ (a ++ x).length → Den.loop D f lim b a' =
        Den.loopN D f ((a ++ x).length + lim.getD 0 + 1) lim b a' := by
      intro b a' ha
      rw [loopN_loop f hl]
      cases lim <;> simp [Enough] at * <;> omega
    rw [h1 true a (by simp), h1 b (a ++ x) (Nat.le_refl _)]
    exact (h.loopN f _ lim).1 a x b
  complete a := (h.loopN f _ lim).2.1 a
  read e := (h.loopN f _ lim).2.2 e

/-- `vs` are the values of successes, one after the other, on `a`, with `z` left. -/
inductive Runs (D : Den T α) (f : α → Option β) : List T → List β → List T → Prop where
  | nil (a) : Runs D f a [] a
  | cons {a c v r y vs z} : D true a = .ok c v r → f v = some y → Runs D f r vs z → Runs D f a (y :: vs) z

theorem Runs.extend {D : Den T α} {f : α → Option β} (h : D.Good) {a vs z} (hr : Runs D f a vs z) (x : List T) :
    Runs D f (a ++ x) vs (z ++ x) := by
  induction hr with
  | nil a => exact .nil _
  | cons hd hf _ ih => exact .cons (h.stable_ok hd true x) hf ih

theorem Runs.append {D : Den T α} {f : α → Option β} {a vs z vs' z'} (hr : Runs D f a vs z) (hr' : Runs D f z vs' z') :
    Runs D f a (vs ++ vs') z' := by
  induction hr with
  | nil a => exact hr'
  | cons hd hf _ ih => exact .cons hd hf (ih hr')

theorem Runs.read {D : Den T α} {f : α → Option β} (h : D.Good) {a vs z} (hr : Runs D f a vs z) : ∃ x, a = x ++ z := by
  induction hr with
  | nil a => exact ⟨[], rfl⟩
  | cons hd hf _ ih =>
    obtain ⟨x, rfl, _⟩ := h.read hd
    obtain ⟨y, rfl⟩ := ih
    exact ⟨x ++ y, by simp⟩

/-- The loop goes on after what ran already. -/
theorem Runs.loop {D : Den T α} {f : α → Option β} (h : D.Good) {a vs z} (hr : Runs D f a vs z) {lim : Option Nat}
    (hl : lim = none → D.Consuming) (hn : ∀ k, lim = some k → vs.length ≤ k) (b : Bool) (x : List T) :
    Den.loop D f lim b (a ++ x) = ((Den.loop D f (lim.map (· - vs.length)) b (z ++ x)).map (vs ++ ·)).after
      (decide (z.length < a.length)) := by
  induction hr generalizing lim with
  | nil a =>
    simp only [Nat.lt_irrefl, decide_false, Outcome.after_false, List.length_nil, Nat.sub_zero, List.nil_append]
    have : lim.map (fun n => n) = lim := by cases lim <;> rfl
    rw [this]
    cases Den.loop D f lim b (a ++ x) <;> rfl
  | @cons a c v r y vs z hd hf hr' ih =>
    have h0 : lim ≠ some 0 := by
      intro hl0
      have := hn 0 hl0
      simp at this
    rw [loop_eq f hl h0, h.stable_ok hd b x]
    simp only [hf]
    rw [ih (lim := lim.map (· - 1)) (fun e => hl (by cases lim <;> simp_all)) ?_]
    · have : (lim.map (· - 1)).map (· - vs.length) = lim.map (· - (y :: vs).length) := by
        cases lim with
        | none => rfl
        | some k => simp only [Option.map_some, List.length_cons]; congr 1; omega
      rw [this]
      have hc : (c || decide (z.length < r.length)) = decide (z.length < a.length) := by
        obtain ⟨x1, rfl, rfl⟩ := h.read hd
        obtain ⟨x2, rfl⟩ := hr'.read h
        cases x1 <;> cases x2 <;> simp <;> omega
      generalize Den.loop D f (lim.map (· - (y :: vs).length)) b (z ++ x) = o
      rw [← hc]
      generalize decide (z.length < r.length) = d
      cases o <;> cases c <;> cases d <;> rfl
    · intro k hk
      cases lim with
      | none => simp at hk
      | some j =>
        have := hn j rfl
        simp only [Option.map_some, Option.some.injEq, List.length_cons] at hk this
        omega

end Den

/-! ## What `Iter` does -/

/-- The loop `(els', it')`, started with `els` and `it` after `w` was absorbed by the parser it repeats,
does what `W` says; hard failures are known to be failures if `H`. -/
def IterStep (H : Prop) (D : Den S.Tok α) (f : α → Option β) (W : Outcome S.Tok (List β)) (A : σ → Prop)
    (Rep : σ → List S.Tok → List S.Tok → Prop) (lim : Option Nat) (w : List S.Tok) (els : List β) (it : IterS S σ)
    (o : List β × IterS S σ) : Prop :=
  match W with
  | .ok c vs r => (o.2.state = .ok ∨ ∃ e, o.2.state = .peekErr e) ∧ S.Reach it.inp o.2.inp ∧ S.left o.2.inp = r ∧
      o.1 = els ++ vs ∧ (w = [] → o.2.committed = (it.committed || c)) ∧ A o.2.st
  | .pend => ∃ e x vs w₂, o.2.state = .commitErr e ∧ S.E.isEoi e = true ∧ S.Reads it.inp x o.2.inp ∧
      o.1 = els ++ vs ∧ Den.Runs D f (w ++ x ++ S.left o.2.inp) vs (w₂ ++ S.left o.2.inp) ∧
      Rep o.2.st w₂ (S.left o.2.inp) ∧ (∀ k, lim = some k → vs.length < k) ∧
      (w = [] → x = [] → o.2.committed = it.committed)
  | .soft => False
  | .hard => H → ∃ e, o.2.state = .commitErr e

theorem iterNext_eq (p : Parser S σ α) (it : IterS S σ) : iterNext p it =
    (match (p.run it.first it.inp it.st).res with
    | .peekOk v => (some v, { it with inp := (p.run it.first it.inp it.st).inp, st := (p.run it.first it.inp it.st).st, first := true })
    | .commitOk v => (some v, { it with inp := (p.run it.first it.inp it.st).inp, st := (p.run it.first it.inp it.st).st, first := true, committed := true })
    | .peekErr e =>
      match S.reset (S.checkpoint it.inp) (p.run it.first it.inp it.st).inp with
      | (some e', j) => (none, { it with inp := j, st := (p.run it.first it.inp it.st).st, state := .commitErr e' })
      | (none, j) => (none, { it with inp := j, st := (p.run it.first it.inp it.st).st, state := .peekErr e.error })
    | .commitErr e => (none, { it with inp := (p.run it.first it.inp it.st).inp, st := (p.run it.first it.inp it.st).st, state := .commitErr e })
    | .abort a => (none, { it with inp := (p.run it.first it.inp it.st).inp, st := (p.run it.first it.inp it.st).st, state := .abort a })) := rfl

/-- One iteration and then the rest of the loop. -/
theorem iter_step (hF : S.Feedable) {live : Bool} {p : Parser S σ α} {D : Den S.Tok α} {r : Bool} {Ready : σ → Prop}
    {Rep : σ → List S.Tok → List S.Tok → Prop} (h : Resumes live p D true r Ready Rep) (f : α → Option β)
    {lim : Option Nat} (hl : lim = none → D.Consuming) (h0 : lim ≠ some 0) {w : List S.Tok} {els : List β}
    {it : IterS S σ} (hs : it.state = .ok) {n : Nat}
    (hst : Step (D (S.isPartial it.inp) (w ++ S.left it.inp)) (When true Ready) (When r Ready) Rep w it.inp
      (p.run it.first it.inp it.st))
    {H : Prop} (hh : H → D (S.isPartial it.inp) (w ++ S.left it.inp) = .hard →
      ∃ e, (p.run it.first it.inp it.st).res = .commitErr e)
    (rest : ∀ els' it', S.Reach it.inp it'.inp → it'.state = .ok → it'.first = true → Ready it'.st →
      (∀ c v, D (S.isPartial it.inp) (w ++ S.left it.inp) = .ok c v (S.left it'.inp) →
      IterStep H D f (Den.loop D f (lim.map (· - 1)) (S.isPartial it'.inp) (S.left it'.inp)) (When r Ready) Rep
        (lim.map (· - 1)) [] els' it' (iterExtend p f n (lim.map (· - 1)) els' it'))) :
    IterStep H D f (Den.loop D f lim (S.isPartial it.inp) (w ++ S.left it.inp)) (When r Ready) Rep lim w els it
      (iterExtend p f (n + 1) lim els it) := by
  have hS := hF.lawful
  have he : iterExtend p f (n + 1) lim els it = (match iterNext p it with
      | (none, it') => (els, it')
      | (some x, it') =>
        match f x with
        | some y => iterExtend p f n (lim.map (· - 1)) (els ++ [y]) it'
        | none => (els, it')) := by
    cases lim with
    | none => rfl
    | some k =>
      cases k with
      | zero => exact absurd rfl h0
      | succ k => rfl
  rw [he, Den.loop_eq f hl h0, iterNext_eq]
  generalize p.run it.first it.inp it.st = o at hst hh
  cases hd : D (S.isPartial it.inp) (w ++ S.left it.inp) with
  | ok c v l =>
    rw [hd] at hst rest
    obtain ⟨⟨c', h1, h2⟩, ⟨y, hy⟩, h4, h5⟩ := hst
    obtain ⟨it', hit, hi', hs', hf', hst', hc'⟩ : ∃ it' : IterS S σ, (match o.res with
        | .peekOk v => (some v, ({ it with inp := o.inp, st := o.st, first := true } : IterS S σ))
        | .commitOk v => (some v, { it with inp := o.inp, st := o.st, first := true, committed := true })
        | .peekErr e =>
          match S.reset (S.checkpoint it.inp) o.inp with
          | (some e', j) => (none, { it with inp := j, st := o.st, state := .commitErr e' })
          | (none, j) => (none, { it with inp := j, st := o.st, state := .peekErr e.error })
        | .commitErr e => (none, { it with inp := o.inp, st := o.st, state := .commitErr e })
        | .abort a => (none, { it with inp := o.inp, st := o.st, state := .abort a })) = (some v, it') ∧
        it'.inp = o.inp ∧ it'.state = .ok ∧ it'.first = true ∧ it'.st = o.st ∧
        (w = [] → it'.committed = (it.committed || c)) := by
      cases c' with
      | true =>
        simp only [h1, okRes_true]
        exact ⟨_, rfl, rfl, hs, rfl, rfl, fun hw => by simp [← h2 hw]⟩
      | false =>
        simp only [h1, okRes_false]
        exact ⟨_, rfl, rfl, hs, rfl, rfl, fun hw => by simp [← h2 hw]⟩
    rw [hit]
    simp only
    cases hf : f v with
    | none =>
      simp only
      exact ⟨.inl hs', hi' ▸ ⟨y, hy⟩, by rw [hi']; exact h4, by simp, hc', fun _ => hst' ▸ h5 rfl⟩
    | some z =>
      simp only
      have hre : S.Reach it.inp it'.inp := hi' ▸ ⟨y, hy⟩
      have hl4 : S.left it'.inp = l := by rw [hi']; exact h4
      have hrest := rest (els ++ [z]) it' hre hs' hf' (hst' ▸ h5 rfl) c v (by rw [hl4])
      rw [hS.reach_isPartial hre, hl4] at hrest
      generalize iterExtend p f n (lim.map (· - 1)) (els ++ [z]) it' = q at hrest
      cases hlo : Den.loop D f (lim.map (· - 1)) (S.isPartial it.inp) l with
      | ok d vs l' =>
        rw [hlo] at hrest
        obtain ⟨g1, g2, g3, g4, g5, g6⟩ := hrest
        refine ⟨g1, hre.trans g2, g3, by simp [g4], fun hw => ?_, g6⟩
        rw [g5 rfl, hc' hw, Bool.or_assoc]
      | pend =>
        rw [hlo] at hrest
        obtain ⟨e, x, vs, w₂, g1, g2, g3, g4, g5, g6, g7, g8⟩ := hrest
        rw [hi'] at g3
        refine ⟨e, y ++ x, z :: vs, w₂, g1, g2, hy.trans g3, by simp [g4], ?_, g6, ?_, ?_⟩
        · have hb : S.isPartial it.inp = true := by
            cases hb : S.isPartial it.inp with
            | true => rfl
            | false =>
              rw [hb] at hlo
              refine absurd hlo ((h.good.loop f ?_).complete _)
              intro hn; exact hl (by cases lim <;> simp_all)
          refine .cons (c := c) (v := v) (r := l) ?_ hf ?_
          · rw [hb] at hd
            have e1 := hS.left_reads hy
            have e2 := hS.left_reads g3
            rw [← hd, e1, e2]
            simp
          · have e2 := hS.left_reads g3
            rw [h4] at e2
            rw [e2]
            simpa using g5
        · intro k hk
          subst hk
          have hne : k ≠ 0 := fun hk0 => h0 (by rw [hk0])
          have := g7 (k - 1) rfl
          simp only [List.length_cons]
          omega
        · intro hw hx
          obtain ⟨hy0, hx0⟩ := List.append_eq_nil_iff.1 hx
          subst hw hy0
          have e1 := hS.left_reads hy
          rw [h4] at e1
          obtain ⟨x', e2, e3⟩ := h.good.read hd
          simp only [List.nil_append] at e1 e2
          rw [e1] at e2
          have hx' : x' = [] := by simpa using e2
          subst hx'
          rw [g8 rfl hx0, hc' rfl, e3]
          simp
      | soft => rw [hlo] at hrest; exact hrest.elim
      | hard =>
        rw [hlo] at hrest
        exact fun hH => hrest hH
  | pend =>
    rw [hd] at hst
    obtain ⟨e, x, h1, h2, h3, h4⟩ := hst
    simp only [h1]
    refine ⟨e, x, [], w ++ x, rfl, h2, h3, by simp, .nil _, h4, ?_, fun _ _ => rfl⟩
    intro k hk
    subst hk
    cases k with
    | zero => exact absurd rfl h0
    | succ k => simp
  | soft =>
    rw [hd] at hst
    obtain ⟨hw, ⟨e, h1⟩, h2, h3⟩ := hst
    simp only [h1, hS.reset_reach h2]
    exact ⟨.inr ⟨_, rfl⟩, .refl _, by rw [hw]; rfl, by simp, fun _ => by simp, h3⟩
  | hard =>
    intro hw
    obtain ⟨e, he⟩ := hh hw hd
    simp only [he]
    exact ⟨e, rfl⟩

theorem iter_first (hF : S.Feedable) {live : Bool} {p : Parser S σ α} {D : Den S.Tok α} {r : Bool} {Ready : σ → Prop}
    {Rep : σ → List S.Tok → List S.Tok → Prop} (h : Resumes live p D true r Ready Rep) (H : Prop) (f : α → Option β) (n : Nat) :
    ∀ {lim : Option Nat} (_ : lim = none → D.Consuming) {els : List β} {it : IterS S σ}, it.state = .ok →
    S.isPartial it.inp = live → Ready it.st → Den.Enough lim (S.left it.inp) n →
    IterStep H D f (Den.loop D f lim (S.isPartial it.inp) (S.left it.inp)) (When r Ready) Rep lim [] els it
      (iterExtend p f n lim els it) := by
  induction n with
  | zero => intro lim _ els it _ _ _ h; cases lim <;> simp [Den.Enough] at h
  | succ n ih =>
    intro lim hl els it hs hL hr hn
    by_cases h0 : lim = some 0
    · subst h0
      have : iterExtend p f (n + 1) (some 0) els it = (els, it) := rfl
      rw [this]
      exact ⟨.inl hs, .refl _, rfl, by simp, fun _ => by simp, fun _ => hr⟩
    · refine iter_step hF h f hl h0 hs (w := []) ?_ ?_ ?_
      · exact h.start _ it.inp hL hr
      · intro _ hd; exact h.first_hard _ it.inp hL hr hd
      · intro els' it' hre hs' hf' hr' c v hd
        refine ih (fun e => hl (by cases lim <;> simp_all)) hs' ((hF.lawful.reach_isPartial hre).trans hL) hr' ?_
        · cases lim with
          | none =>
            have := hl rfl _ _ _ _ _ hd
            simp only [Den.Enough, Option.map, List.nil_append] at *
            omega
          | some k =>
            have : k ≠ 0 := fun h => h0 (by rw [h])
            simp only [Den.Enough, Option.map] at *
            omega

theorem iter_resume (hF : S.Feedable) {live : Bool} {p : Parser S σ α} {D : Den S.Tok α} {r : Bool} {Ready : σ → Prop}
    {Rep : σ → List S.Tok → List S.Tok → Prop} (h : Resumes live p D true r Ready Rep) (f : α → Option β) (n : Nat)
    {lim : Option Nat} (hl : lim = none → D.Consuming) (h0 : lim ≠ some 0) {els : List β} {it : IterS S σ}
    (hs : it.state = .ok) (hf : it.first = false)
    (hL : S.isPartial it.inp = live) {w u : List S.Tok} (hr : Rep it.st w u) (hu : u <+: S.left it.inp)
    (hn : Den.Enough (lim.map (· - 1)) (S.left it.inp) n) :
    IterStep False D f (Den.loop D f lim (S.isPartial it.inp) (w ++ S.left it.inp)) (When r Ready) Rep lim w els it
      (iterExtend p f (n + 1) lim els it) := by
  refine iter_step hF h f hl h0 hs ?_ ?_ ?_
  · rw [hf]; exact h.resume it.inp hL hr hu
  · exact fun h => h.elim
  · intro els' it' hre hs' hf' hr' c v hd
    refine iter_first hF h False f n (fun e => hl (by cases lim <;> simp_all)) hs'
      ((hF.lawful.reach_isPartial hre).trans hL) hr' ?_
    cases lim with
    | none =>
      obtain ⟨x, hx⟩ := hre
      have := hF.lawful.left_reads hx
      simp only [Den.Enough, Option.map] at *
      rw [this] at hn
      simp only [List.length_append] at hn
      omega
    | some k =>
      have : k ≠ 0 := fun h => h0 (by rw [h])
      simp only [Den.Enough, Option.map] at *
      omega

end Verif
