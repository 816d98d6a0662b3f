import Verif.Proof.ResumeThen

/-!
# `iterate` can be resumed
-/

namespace Verif

variable {S : Strm} {σ α : Type} {J : Type}

namespace Den

variable {T : Type}

theorem Good.iterate {F : J → Den T α} (h : ∀ x, (F x).Good) (xs : List J) : (Den.iterate F xs).Good := by
  induction xs with
  | nil => exact .pure _
  | cons x xs ih => exact (h x).bind fun v => ih.map _

theorem iterate_append (F : J → Den T α) (xs ys : List J) (b : Bool) (a : List T) : Den.iterate F (xs ++ ys) b a =
    ((Den.iterate F xs).bind fun vs => (Den.iterate F ys).map (vs ++ ·)) b a := by
  induction xs generalizing a with
  | nil =>
    simp only [List.nil_append, Den.iterate, Den.bind, Den.pure, Den.map, Outcome.after_false]
    cases Den.iterate F ys b a <;> rfl
  | cons x xs ih =>
    simp only [List.cons_append, Den.iterate, Den.bind, Den.map]
    cases F x b a with
    | ok c v r =>
      simp only [ih, Den.bind]
      cases Den.iterate F xs b r with
      | ok c' vs r' =>
        simp only [Outcome.map, Outcome.after, Den.map]
        cases Den.iterate F ys b r' <;> cases c <;> cases c' <;> rfl
      | pend => rfl
      | soft => cases c <;> rfl
      | hard => rfl
    | pend => rfl
    | soft => rfl
    | hard => rfl

theorem bind_firm {β : Type} {D : Den T α} {F : α → Den T β} {b : Bool} {a : List T} (h : (D b a).Firm) :
    (D.bind F b a).Firm := by
  simp only [Den.bind]
  cases hd : D b a with
  | ok c v r =>
    rw [hd] at h
    cases c with
    | true => exact .after_true _
    | false => exact absurd rfl (h.2 v r)
  | pend => exact ⟨by simp, by simp⟩
  | soft => rw [hd] at h; exact absurd rfl h.1
  | hard => exact ⟨by simp, by simp⟩

end Den

/-- The loop has done what `W` says. -/
def IterateEnd (F : J → Den S.Tok α) (W : Outcome S.Tok (List α)) (Rdy : σ → Prop)
    (RepN : J → σ → List S.Tok → List S.Tok → Prop) (r : Bool) (c : Bool) (buf : List α) (xs : List J) (i : S.Input)
    (o : Out S (IterateSt J σ α) (List α)) : Prop :=
  match W with
  | .ok c' vs l => o.res = okRes (c || c') (buf ++ vs) ∧ S.Reach i o.inp ∧ S.left o.inp = l ∧
      ∃ s', o.st = ⟨none, false, [], s'⟩ ∧ Rdy s'
  | .pend => ∃ e x₁ x₂ done y ys vs, o.res = .commitErr e ∧ S.E.isEoi e = true ∧ S.Reads i (x₁ ++ x₂) o.inp ∧
      xs = done ++ y :: ys ∧ Den.iterate F done true (S.left i) = .ok (!x₁.isEmpty) vs (x₂ ++ S.left o.inp) ∧
      o.st.iter = some (ys, some y) ∧ o.st.committed = (c || !x₁.isEmpty) ∧ o.st.buf = buf ++ vs ∧
      RepN y o.st.next x₂ (S.left o.inp)
  | .soft => (c = false → ∃ e, o.res = .peekErr e) ∧ (c = true → ∃ e, o.res = .commitErr e) ∧ S.Reach i o.inp ∧
      ((∀ x, (F x).Consuming) → ∃ y ys, xs = y :: ys ∧ o.st.iter = some (ys, some y) ∧ o.st.committed = c ∧
        o.st.buf = buf ∧ When r Rdy o.st.next)
  | .hard => ∃ e, o.res = .commitErr e

theorem iterateLoop_ok {f : J → S.Input → Parser S σ α} {x : J} {xs : List J} {m c : Bool} {buf : List α} {i : S.Input} {s : σ}
    {c' : Bool} {v : α} (h : ((f x i).run m i s).res = okRes c' v) : iterateLoop f (x :: xs) m c buf i s =
      iterateLoop f xs true (c || c') (buf ++ [v]) ((f x i).run m i s).inp ((f x i).run m i s).st := by
  cases c' <;> simp only [okRes_true, okRes_false] at h <;> simp only [iterateLoop, h, Bool.or_true, Bool.or_false]

theorem iterateLoop_peekErr (hS : S.Lawful) {f : J → S.Input → Parser S σ α} {x : J} {xs : List J} {m c : Bool} {buf : List α}
    {i : S.Input} {s : σ} {e} (h : ((f x i).run m i s).res = .peekErr e) (hr : S.Reach i ((f x i).run m i s).inp) :
    iterateLoop f (x :: xs) m c buf i s =
      ⟨if c then .commitErr e.error else .peekErr e, i, ⟨some (xs, some x), c, buf, ((f x i).run m i s).st⟩⟩ := by
  simp only [iterateLoop, h, hS.reset_reach hr]

theorem iterateLoop_commitErr {f : J → S.Input → Parser S σ α} {x : J} {xs : List J} {m c : Bool} {buf : List α}
    {i : S.Input} {s : σ} {e} (h : ((f x i).run m i s).res = .commitErr e) : iterateLoop f (x :: xs) m c buf i s =
      ⟨.commitErr e, ((f x i).run m i s).inp, ⟨some (xs, some x), c, buf, ((f x i).run m i s).st⟩⟩ := by
  simp only [iterateLoop, h]

section
variable {live : Bool} {f : J → Parser S σ α} {F : J → Den S.Tok α} {r : Bool} {Rdy : σ → Prop}
  {RepN : J → σ → List S.Tok → List S.Tok → Prop}

/-- In a state in which the parsers of the items can start anew. -/
theorem iterateLoop_ends (hF : S.Feedable) (h : ∀ x, Resumes live (f x) (F x) true r Rdy (RepN x)) (xs : List J) :
    ∀ (m c : Bool) (buf : List α) (i : S.Input) (s : σ), S.isPartial i = live → Rdy s →
    IterateEnd F (Den.iterate F xs (S.isPartial i) (S.left i)) Rdy RepN r c buf xs i
      (iterateLoop (fun x _ => f x) xs m c buf i s) := by
  have hS := hF.lawful
  induction xs with
  | nil =>
    intro m c buf i s hL hs
    refine ⟨?_, .refl i, rfl, s, rfl, hs⟩
    simp only [iterateLoop, okRes, Bool.or_false, List.append_nil]
  | cons x xs ih =>
    intro m c buf i s hL hs
    have hst : Step (F x (S.isPartial i) (S.left i)) (When true Rdy) (When r Rdy) (RepN x) [] i ((f x).run m i s) := by
      cases m with
      | true => exact (h x).first i hL hs
      | false => exact (h x).resume i hL ((h x).ready_rep hs) (List.nil_prefix)
    simp only [Den.iterate, Den.bind]
    cases hd : F x (S.isPartial i) (S.left i) with
    | ok d v l =>
      rw [hd] at hst
      obtain ⟨⟨d', h1, h2⟩, h3, h4, h5⟩ := hst
      cases h2 rfl
      rw [iterateLoop_ok (f := fun x _ => f x) h1]
      have hp := hS.reach_isPartial h3
      have := ih true (c || d) (buf ++ [v]) ((f x).run m i s).inp ((f x).run m i s).st (by rw [hp, hL]) (h5 rfl)
      rw [hp, h4] at this
      revert this
      generalize iterateLoop (fun x _ => f x) xs true (c || d) (buf ++ [v]) ((f x).run m i s).inp ((f x).run m i s).st = o
      intro this
      obtain ⟨x₀, hx₀, hl⟩ := hS.reach_of_left h3
      have hflag : d = !x₀.isEmpty := by
        rw [hl, ← h4] at hd
        exact (h x).good.flag hd
      simp only [Den.map]
      cases hw : Den.iterate F xs (S.isPartial i) l with
      | ok d' vs l' =>
        rw [hw] at this
        obtain ⟨g1, g2, g3, g4⟩ := this
        refine ⟨?_, h3.trans g2, g3, g4⟩
        simpa [Bool.or_assoc] using g1
      | pend =>
        rw [hw] at this
        obtain ⟨e, x₁, x₂, done, y, ys, vs, g1, g2, g3, g4, g5, g6, g7, g8, g9⟩ := this
        refine ⟨e, x₀ ++ x₁, x₂, x :: done, y, ys, v :: vs, g1, g2, ?_, by rw [g4]; rfl, ?_, g6, ?_, by rw [g8]; simp, g9⟩
        · rw [List.append_assoc]; exact hx₀.trans g3
        · have hb : S.isPartial i = true := by
            cases hb : S.isPartial i with
            | true => rfl
            | false => rw [hb] at hw; exact absurd hw ((Den.Good.iterate (fun x => (h x).good) xs).complete l)
          simp only [Den.iterate, Den.bind]
          rw [← hb, hd]
          simp only [Den.map]
          rw [hb, ← h4, g5]
          simp only [Outcome.map, Outcome.after, hflag]
          cases x₀ <;> simp
        · rw [g7, hflag]
          cases x₀ <;> simp
      | soft =>
        rw [hw] at this
        obtain ⟨g1, g2, g3, g4⟩ := this
        simp only [Outcome.map]
        cases d with
        | true =>
          simp only [Outcome.after, if_true]
          exact g2 (by simp)
        | false =>
          simp only [Outcome.after, Bool.false_eq_true, if_false, Bool.or_false] at g1 g2 ⊢
          refine ⟨g1, g2, h3.trans g3, fun hc => ?_⟩
          have := hc x _ _ _ _ _ hd
          rw [(h x).good.unread hd] at this
          omega
      | hard =>
        rw [hw] at this
        exact this
    | pend =>
      rw [hd] at hst
      obtain ⟨e, x₂, h1, h2, h3, h4⟩ := hst
      rw [iterateLoop_commitErr (f := fun x _ => f x) h1]
      refine ⟨e, [], x₂, [], x, xs, [], rfl, h2, h3, rfl, ?_, rfl, by simp, by simp, h4⟩
      simp only [Den.iterate, Den.pure]
      rw [hS.left_reads h3]
      rfl
    | soft =>
      rw [hd] at hst
      obtain ⟨_, ⟨e, h1⟩, h3, h4⟩ := hst
      rw [iterateLoop_peekErr hS (f := fun x _ => f x) h1 h3]
      refine ⟨?_, ?_, .refl i, fun _ => ⟨x, xs, rfl, rfl, rfl, rfl, h4⟩⟩
      · rintro rfl; exact ⟨e, rfl⟩
      · rintro rfl; exact ⟨_, rfl⟩
    | hard =>
      obtain ⟨e, he⟩ := (h x).first_hard m i hL hs hd
      rw [iterateLoop_commitErr (f := fun x _ => f x) he]
      exact ⟨e, rfl⟩

/-- The states in which `iterate` can start anew. -/
def IterateReady (items : List J) (Rdy : σ → Prop) (s : IterateSt J σ α) : Prop :=
  (s.iter = none ∨ ∃ y ys, items = y :: ys ∧ s.iter = some (ys, some y)) ∧ s.committed = false ∧ s.buf = [] ∧ Rdy s.next

/-- The states in which `iterate` has absorbed `w`. -/
def IterateRep (F : J → Den S.Tok α) (items : List J) (Rdy : σ → Prop) (RepN : J → σ → List S.Tok → List S.Tok → Prop)
    (s : IterateSt J σ α) (w u : List S.Tok) : Prop :=
  (w = [] ∧ IterateReady items Rdy s) ∨ ∃ done y ys w₁ w₂, s.iter = some (ys, some y) ∧ items = done ++ y :: ys ∧ w = w₁ ++ w₂ ∧
    Den.iterate F done true (w₁ ++ (w₂ ++ u)) = .ok (!w₁.isEmpty) s.buf (w₂ ++ u) ∧ (w₁ = [] → s.committed = false) ∧
    RepN y s.next w₂ u

theorem resumes_iterate (hF : S.Feedable) (h : ∀ x, Resumes live (f x) (F x) true r Rdy (RepN x)) {init : σ} (hi : Rdy init)
    (items : List J) {r' : Bool} (hr' : r' = true → r = true ∧ ∀ x, (F x).Consuming) :
    Resumes live (iterate items (fun x _ => f x) init) (Den.iterate F items) true r' (IterateReady items Rdy)
      (IterateRep F items Rdy RepN) := by
  have hS := hF.lawful
  have hg := fun xs => Den.Good.iterate (fun x => (h x).good) xs
  have fresh : ∀ {m i s}, S.isPartial i = live → IterateReady items Rdy s → IterateEnd F
      (Den.iterate F items (S.isPartial i) (S.left i)) Rdy RepN r false [] items i
      ((iterate items (fun x _ => f x) init).run m i s) := by
    rintro m i ⟨it, c, buf, s⟩ hL ⟨h1, h2, h3, h4⟩
    dsimp only at h1 h2 h3 h4
    subst h2 h3
    have := iterateLoop_ends hF h items m false [] i s hL h4
    suffices e : (iterate items (fun x _ => f x) init).run m i ⟨it, false, [], s⟩ =
        iterateLoop (fun x _ => f x) items m false [] i s by rw [e]; exact this
    simp only [iterate, Parser.ofMode]
    cases m with
    | true => rfl
    | false =>
      rcases h1 with rfl | ⟨y, ys, rfl, rfl⟩ <;> rfl
  have fresh' : ∀ {m i s}, S.isPartial i = live → IterateReady items Rdy s → Step
      (Den.iterate F items (S.isPartial i) (S.left i)) (When true (IterateReady items Rdy)) (When r' (IterateReady items Rdy))
      (IterateRep F items Rdy RepN) [] i ((iterate items (fun x _ => f x) init).run m i s) := by
    intro m i s hL hs
    have := fresh (m := m) hL hs
    revert this
    generalize (iterate items (fun x _ => f x) init).run m i s = o
    cases hd : Den.iterate F items (S.isPartial i) (S.left i) with
    | ok c vs l =>
      rintro ⟨g1, g2, g3, s', g4, g5⟩
      refine ⟨⟨c, by simpa using g1, fun _ => rfl⟩, g2, g3, fun _ => ?_⟩
      rw [g4]
      exact ⟨.inl rfl, rfl, rfl, g5⟩
    | pend =>
      rintro ⟨e, x₁, x₂, done, y, ys, vs, g1, g2, g3, g4, g5, g6, g7, g8, g9⟩
      refine ⟨e, x₁ ++ x₂, g1, g2, g3, .inr ⟨done, y, ys, x₁, x₂, g6, g4, rfl, ?_, ?_, g9⟩⟩
      · rw [hS.left_reads g3, List.append_assoc] at g5
        rw [g5, g8]
        rfl
      · rintro rfl
        simpa using g7
    | soft =>
      rintro ⟨g1, _, g3, g4⟩
      refine ⟨rfl, g1 rfl, g3, fun hr => ?_⟩
      obtain ⟨y, ys, k1, k2, k3, k4, k5⟩ := g4 (hr' hr).2
      exact ⟨.inr ⟨y, ys, k1, k2⟩, k3, k4, k5 (hr' hr).1⟩
    | hard => exact fun _ => trivial
  constructor
  · exact hg items
  · exact ⟨.inl rfl, rfl, rfl, hi⟩
  · intro s hs
    exact .inl ⟨rfl, hs⟩
  · intro s w u hrep hw b x
    rcases hrep with ⟨rfl, _⟩ | ⟨done, y, ys, w₁, w₂, g1, rfl, rfl, g4, g5, g6⟩
    · exact absurd rfl hw
    · rw [Den.iterate_append]
      simp only [Den.bind]
      have e : w₁ ++ w₂ ++ (u ++ x) = w₁ ++ (w₂ ++ u) ++ x := by simp
      rw [e, (hg done).stable_ok g4 b x]
      dsimp only
      cases w₁ with
      | cons t ts => exact .after_true _
      | nil =>
        refine Outcome.Firm.after (Outcome.Firm.map ?_ _) _
        rw [List.append_assoc]
        exact Den.bind_firm ((h y).firm g6 hw b x)
  · exact committed_ofMode hS _ _ _ _ _
  · intro s i hL hs
    exact fresh' hL hs
  · intro s m i hL hs hh
    have := fresh (m := m) hL hs
    rw [hh] at this
    exact this
  · intro s w u i hL hrep hu
    rcases hrep with ⟨rfl, hs⟩ | ⟨done, y, ys, w₁, w₂, g1, hit, rfl, g4, g5, g6⟩
    · exact fresh' hL hs
    · obtain ⟨x, hx⟩ := hu
      obtain ⟨it, c, buf, s⟩ := s
      dsimp only at g1 g4 g5 g6
      subst g1
      have e0 : (iterate items (fun x _ => f x) init).run false i ⟨some (ys, some y), c, buf, s⟩ =
          iterateLoop (fun x _ => f x) (y :: ys) false c buf i s := rfl
      rw [e0]
      have hst := (h y).resume i hL g6 ⟨x, hx⟩
      have e : w₁ ++ w₂ ++ S.left i = w₁ ++ (w₂ ++ u) ++ x := by rw [← hx]; simp
      have e' : w₂ ++ u ++ x = w₂ ++ S.left i := by rw [← hx]; simp
      have hD : Den.iterate F items (S.isPartial i) (w₁ ++ w₂ ++ S.left i) =
          ((Den.iterate F (y :: ys) (S.isPartial i) (w₂ ++ S.left i)).map (buf ++ ·)).after (!w₁.isEmpty) := by
        rw [hit, Den.iterate_append]
        simp only [Den.bind]
        rw [e, (hg done).stable_ok g4 _ x, e']
        rfl
      rw [hD]
      simp only [Den.iterate, Den.bind]
      cases hd : F y (S.isPartial i) (w₂ ++ S.left i) with
      | ok d v l =>
        rw [hd] at hst
        obtain ⟨⟨d', h1, h2⟩, h3, h4, h5⟩ := hst
        rw [iterateLoop_ok (f := fun x _ => f x) h1]
        have hp := hS.reach_isPartial h3
        have this := iterateLoop_ends hF h ys true (c || d') (buf ++ [v]) ((f y).run false i s).inp ((f y).run false i s).st
          (by rw [hp, hL]) (h5 rfl)
        rw [hp, h4] at this
        revert this
        generalize iterateLoop (fun x _ => f x) ys true (c || d') (buf ++ [v]) ((f y).run false i s).inp
          ((f y).run false i s).st = o
        intro this
        simp only [Den.map]
        obtain ⟨x₀, hx₀, hl⟩ := hS.reach_of_left h3
        have hflag : d = !(w₂ ++ x₀).isEmpty := by
          rw [hl, ← h4, ← List.append_assoc] at hd
          exact (h y).good.flag hd
        cases hw : Den.iterate F ys (S.isPartial i) l with
        | ok d'' vs l' =>
          rw [hw] at this
          obtain ⟨k1, k2, k3, s', k4, k5⟩ := this
          refine ⟨⟨c || d' || d'', by rw [k1]; simp only [List.append_assoc, List.singleton_append], fun hw => ?_⟩, h3.trans k2, k3, fun _ => ?_⟩
          · obtain ⟨rfl, rfl⟩ := List.append_eq_nil_iff.1 hw
            rw [h2 rfl, g5 rfl]
            simp
          · rw [k4]
            exact ⟨.inl rfl, rfl, rfl, k5⟩
        | pend =>
          rw [hw] at this
          obtain ⟨er, x₁, x₂, done', z, zs, vs, k1, k2, k3, k4, k5, k6, k7, k8, k9⟩ := this
          have hb : S.isPartial i = true := by
            cases hb : S.isPartial i with
            | true => rfl
            | false => rw [hb] at hw; exact absurd hw ((hg ys).complete l)
          refine ⟨er, x₀ ++ (x₁ ++ x₂), k1, k2, hx₀.trans k3, .inr ⟨done ++ y :: done', z, zs, w₁ ++ w₂ ++ x₀ ++ x₁, x₂, k6, ?_,
            by simp, ?_, ?_, k9⟩⟩
          · rw [hit, k4]; simp
          · rw [Den.iterate_append]
            simp only [Den.bind]
            have hli : S.left i = x₀ ++ (x₁ ++ (x₂ ++ S.left o.inp)) := by
              rw [hl, hS.left_reads k3, List.append_assoc]
            have e2 : w₁ ++ w₂ ++ x₀ ++ x₁ ++ (x₂ ++ S.left o.inp) = w₁ ++ (w₂ ++ u) ++ x := by
              rw [← e, hli]; simp
            rw [e2, (hg done).stable_ok g4 true x, e']
            simp only [Den.iterate, Den.bind, Den.map]
            rw [← hb, hd]
            dsimp only
            rw [hb, ← h4, k5, k8]
            simp only [Outcome.map, Outcome.after, hflag]
            cases w₁ <;> cases w₂ <;> cases x₀ <;> simp
          · intro hnil
            simp only [List.append_eq_nil_iff] at hnil
            obtain ⟨⟨⟨rfl, rfl⟩, rfl⟩, rfl⟩ := hnil
            rw [k7, g5 rfl, h2 rfl, hflag]
            rfl
        | soft =>
          rw [hw] at this
          obtain ⟨k1, k2, k3, k4⟩ := this
          simp only [Outcome.map]
          cases hdd : d with
          | true => cases w₁ <;> simp [Outcome.after, Step]
          | false =>
            simp only [Outcome.after, Bool.false_eq_true, if_false]
            cases w₁ with
            | cons t ts => simp [Step]
            | nil =>
              rw [hdd] at hflag
              have hn : w₂ ++ x₀ = [] := by
                cases hn : w₂ ++ x₀ with
                | nil => rfl
                | cons a t => rw [hn] at hflag; cases hflag
              obtain ⟨rfl, rfl⟩ := List.append_eq_nil_iff.1 hn
              simp only [List.isEmpty_nil, Bool.not_true, Bool.false_eq_true, if_false]
              have hc : (c || d') = false := by rw [g5 rfl, h2 rfl, hdd]; rfl
              refine ⟨rfl, k1 hc, h3.trans k3, fun hr => ?_⟩
              have := (hr' hr).2 y _ _ _ _ _ hd
              rw [hdd] at hd
              rw [(h y).good.unread hd] at this
              omega
        | hard => cases w₁ <;> simp [Outcome.map, Outcome.after, Step]
      | pend =>
        rw [hd] at hst
        obtain ⟨er, x₂, h1, h2, h3, h4⟩ := hst
        rw [iterateLoop_commitErr (f := fun x _ => f x) h1]
        refine ⟨er, x₂, rfl, h2, h3, .inr ⟨done, y, ys, w₁, w₂ ++ x₂, rfl, hit, by simp, ?_, g5, h4⟩⟩
        have hli := hS.left_reads h3
        rw [List.append_assoc w₂, ← hli, ← e', ← List.append_assoc]
        exact (hg done).stable_ok g4 true x
      | soft =>
        rw [hd] at hst
        obtain ⟨rfl, ⟨er, h1⟩, h3, h4⟩ := hst
        rw [iterateLoop_peekErr hS (f := fun x _ => f x) h1 h3]
        cases w₁ with
        | cons t ts => simp [Outcome.map, Outcome.after, Step]
        | nil =>
          cases g5 rfl
          refine ⟨rfl, ⟨er, rfl⟩, .refl i, fun hr => ?_⟩
          have hbuf : buf = [] ∧ done = [] := by
            cases done with
            | nil =>
              simp only [Den.iterate, Den.pure, Outcome.ok.injEq] at g4
              exact ⟨g4.2.1.symm, rfl⟩
            | cons z zs =>
              simp only [Den.iterate, Den.bind] at g4
              cases hz : F z true ([] ++ ([] ++ u)) with
              | ok cz vz lz =>
                rw [hz] at g4
                obtain ⟨dd, g4, hdd⟩ := Outcome.after_ok.1 g4
                obtain ⟨vz', g4', _⟩ := Outcome.map_ok.1 g4
                have hlt := (hr' hr).2 z _ _ _ _ _ hz
                cases cz with
                | true => cases hdd
                | false => rw [(h z).good.unread hz] at hlt; omega
              | pend => rw [hz] at g4; cases g4
              | soft => rw [hz] at g4; cases g4
              | hard => rw [hz] at g4; cases g4
          obtain ⟨rfl, rfl⟩ := hbuf
          exact ⟨.inr ⟨y, ys, hit, rfl⟩, rfl, rfl, h4 (hr' hr).1⟩
      | hard => cases w₁ <;> simp [Outcome.map, Outcome.after, Step]

end

theorem resumable_iterate (hF : S.Feedable) {f : J → Parser S σ α} {F : J → Den S.Tok α} {r r' : Bool} {init : σ}
    (h : ResumableAll f F true r init) (items : List J) (hr' : r' = true → r = true ∧ ∀ x, (F x).Consuming) :
    Resumable (iterate items (fun x _ => f x) init) (Den.iterate F items) true r' := by
  obtain ⟨Rdy, RepN, hn, h, m1, m2⟩ := h
  refine ⟨_, _, fun live => resumes_iterate hF (h live) (hn live) items hr', ?_, ?_⟩
  · rintro s ⟨h1, h2, h3, h4⟩
    exact ⟨h1, h2, h3, m1 _ h4⟩
  · rintro s w u (⟨h1, h2, h3, h4, h5⟩ | ⟨done, y, ys, w₁, w₂, g1, g2, g3, g4, g5, g6⟩)
    · exact .inl ⟨h1, h2, h3, h4, m1 _ h5⟩
    · exact .inr ⟨done, y, ys, w₁, w₂, g1, g2, g3, g4, g5, m2 _ _ _ _ g6⟩

end Verif
