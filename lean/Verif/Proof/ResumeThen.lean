import Verif.Proof.ResumeTuple

/-!
# `with`, `skip`, `between` and the `then` family can be resumed
-/

namespace Verif

variable {S : Strm} {σ τ υ α β γ : Type}

/-! ## Pairs of which one value is dropped -/

namespace Den
variable {T : Type}

theorem seq_unit_soft (E : Den T β) (b : Bool) (a : List T) :
    E.seq (Den.pure ()) b a = .soft ↔ E b a = .soft := by
  simp only [seq, bind, pure, map]
  cases E b a <;> simp [Outcome.map, Outcome.after]

theorem Firm.pair {D : Den T α} {E : Den T β} (h : Firm D E) (f : α → γ) :
    Firm (D.map f) (E.seq (Den.pure ())) := by
  intro b a v hd hs
  obtain ⟨v', hd, _⟩ := Outcome.map_ok.1 hd
  exact h b a v' hd ((seq_unit_soft E b a).1 hs)

theorem with_eq (D : Den T α) (E : Den T β) :
    ((D.map fun _ => ()).seq (E.seq (Den.pure ()))).map (fun x => x.2.1) = D.bind fun _ => E := by
  funext b a
  simp only [seq, bind, pure, map]
  cases D b a with
  | ok c v r =>
    simp only [Outcome.map]
    cases E b r <;> simp only [Outcome.after]
    · simp
    · cases c <;> rfl
  | _ => rfl

theorem skip_eq (D : Den T α) (E : Den T β) :
    (D.seq ((E.map fun _ => ()).seq (Den.pure ()))).map (fun x => x.1) = D.bind fun v => E.map fun _ => v := by
  funext b a
  simp only [seq, bind, pure, map]
  cases D b a with
  | ok c v r =>
    simp only [Outcome.map]
    cases E b r <;> simp only [Outcome.after]
    · simp
    · cases c <;> rfl
  | _ => rfl

theorem between_eq (O : Den T α) (P : Den T β) (C : Den T γ) :
    (O.seq (P.seq (C.seq (Den.pure ())))).map (fun x => x.2.1) = O.bind fun _ => P.bind fun v => C.map fun _ => v := by
  funext b a
  simp only [seq, bind, pure, map]
  cases O b a with
  | ok c v r =>
    simp only [Outcome.map]
    cases P b r with
    | ok d v r =>
      simp only
      cases C b r <;> cases c <;> cases d <;> simp [Outcome.after]
    | soft => cases c <;> rfl
    | _ => rfl
  | _ => rfl

end Den

theorem resumable_pair (hF : S.Feedable) {p : Parser S σ α} {q : Parser S τ β} {D : Den S.Tok α} {E : Den S.Tok β}
    {k r r₂ r' : Bool} (h : Resumable p D k r) (h2 : Resumable q E k r₂)
    (hr : r' = true → r = true ∧ Den.Firm D (E.seq (Den.pure ()))) :
    Resumable (pair p q) (D.seq (E.seq (Den.pure ()))) k r' := by
  exact resumable_tuple hF h (seq_resumable_cons hF h2 seq_resumable_nil) hr

theorem resumable_with (hF : S.Feedable) {p : Parser S σ α} {q : Parser S τ β} {D : Den S.Tok α} {E : Den S.Tok β}
    {k r r₂ r' : Bool} (h : Resumable p D k r) (h2 : Resumable q E k r₂)
    (hr : r' = true → r = true ∧ Den.Firm D E) :
    Resumable («with» p q) (D.bind fun _ => E) k r' := by
  have ht := resumable_pair (r' := r') hF (resumable_ignore hF h) h2 fun e => ⟨(hr e).1, (hr e).2.pair _⟩
  have := ht.mapped (q := «with» p q) (fun x => x.2.1) rfl (committed_describing hF.lawful fun _ _ _ => rfl)
    fun m i s => ⟨rfl, rfl, Mapped.map _ _⟩
  rwa [Den.with_eq] at this

theorem resumable_skip (hF : S.Feedable) {p : Parser S σ α} {q : Parser S τ β} {D : Den S.Tok α} {E : Den S.Tok β}
    {k r r₂ r' : Bool} (h : Resumable p D k r) (h2 : Resumable q E k r₂)
    (hr : r' = true → r = true ∧ Den.Firm D E) :
    Resumable (skip p q) (D.bind fun v => E.map fun _ => v) k r' := by
  have ht := resumable_pair (r' := r') hF h (resumable_ignore hF h2) fun e => ⟨(hr e).1, fun b a v hd hs =>
    (hr e).2 b a v hd (Outcome.map_soft.1 ((Den.seq_unit_soft _ b a).1 hs))⟩
  have := ht.mapped (q := skip p q) (fun x => x.1) rfl (committed_describing hF.lawful fun _ _ _ => rfl)
    fun m i s => ⟨rfl, rfl, Mapped.map _ _⟩
  rwa [Den.skip_eq] at this

theorem resumable_between (hF : S.Feedable) {o : Parser S σ α} {p : Parser S τ β} {c : Parser S υ γ}
    {O : Den S.Tok α} {P : Den S.Tok β} {C : Den S.Tok γ} {k r r₂ r₃ r' : Bool} (ho : Resumable o O k r)
    (hp : Resumable p P k r₂) (hc : Resumable c C k r₃)
    (hr : r' = true → r = true ∧ Den.Firm O (P.bind fun v => C.map fun _ => v)) :
    Resumable (between o c p) (O.bind fun _ => P.bind fun v => C.map fun _ => v) k r' := by
  have ht : Resumable (tuple o (.cons p (.cons c .nil))) _ k r' :=
    resumable_tuple hF ho (seq_resumable_cons hF hp (seq_resumable_cons hF hc seq_resumable_nil)) fun e => ⟨(hr e).1, fun b a v hd hs => by
      refine (hr e).2 b a v hd ?_
      simp only [Den.seq, Den.bind, Den.pure, Den.map] at hs ⊢
      cases hP : P b a with
      | ok d v r =>
        rw [hP] at hs
        simp only at hs ⊢
        cases hC : C b r <;> rw [hC] at hs <;> cases d <;> simp [Outcome.map, Outcome.after] at hs ⊢
      | _ => rw [hP] at hs <;> cases hs⟩
  have := resumable_parserMacro hF (resumable_map hF ht fun x => x.2.1)
  rwa [Den.between_eq] at this

/-! ## `then`, `then_partial`, `then_ref` -/

/-- What `then` and `then_ref` have in common: the call of the continuation. -/
def contRun (f : α → Parser S τ β) (g : α → β → γ) (m : Bool) (i : S.Input) (ps : σ) (c : Bool × α) (ns : τ) :
    Out S (σ × Option (Bool × α) × τ) γ :=
  let o := (f c.2).committed m i ns
  let cache := match o.res with
    | .commitErr _ => some c
    | .abort _ => some c
    | _ => none
  ⟨(thenMerge c.1 o.res).map (g c.2), o.inp, (ps, cache, o.st)⟩

/-- What `then` and `then_ref` have in common. -/
def thenRun (p : Parser S σ α) (f : α → Parser S τ β) (g : α → β → γ) (m : Bool) (i : S.Input)
    (s : σ × Option (Bool × α) × τ) : Out S (σ × Option (Bool × α) × τ) γ :=
  match (if m then none else s.2.1) with
  | some c => contRun f g m i s.1 c s.2.2
  | none =>
    let o := p.run m i s.1
    match o.res with
    | .peekOk v => contRun f g true o.inp o.st (false, v) s.2.2
    | .commitOk v => contRun f g true o.inp o.st (true, v) s.2.2
    | .peekErr e => ⟨.peekErr e, o.inp, (o.st, s.2.1, s.2.2)⟩
    | .commitErr e => ⟨.commitErr e, o.inp, (o.st, s.2.1, s.2.2)⟩
    | .abort a => ⟨.abort a, o.inp, (o.st, s.2.1, s.2.2)⟩

theorem resumes_thenRun (hF : S.Feedable) {live : Bool} {p : Parser S σ α} {f : α → Parser S τ β} {g : α → β → γ} {nInit : τ}
    {q : Parser S (σ × Option (Bool × α) × τ) γ} (hq : q.run = thenRun p f g) (hqc : CommittedAs q)
    (hqi : q.init = (p.init, none, nInit))
    {D : Den S.Tok α} {F : α → Den S.Tok β} {k r k₂ r₂ r' : Bool} {Ready : σ → Prop}
    {Rep : σ → List S.Tok → List S.Tok → Prop} {Rdy : τ → Prop} {RepN : α → τ → List S.Tok → List S.Tok → Prop}
    (h : Resumes live p D k r Ready Rep) (h2 : ∀ v, Resumes live (f v) (F v) k₂ r₂ Rdy (RepN v)) (hn : Rdy nInit)
    (hr : r' = true → r = true ∧ (k = true ∧ r₂ = true ∨ ∀ v, Den.Firm D (F v))) :
    Resumes live q (D.bind fun v => (F v).map (g v)) (k && k₂) r'
      (fun s => s.2.1 = none ∧ Ready s.1 ∧ Rdy s.2.2)
      (fun s w u => (s.2.1 = none ∧ Rep s.1 w u ∧ Rdy s.2.2) ∨
        ∃ c x w₂, s.2.1 = some (c, x) ∧ Finished D x w w₂ u ∧ RepN x s.2.2 w₂ u ∧ (k = true → Ready s.1) ∧
          (w = [] → c = false)) := by
  have hS := hF.lawful
  -- the continuation
  have rest : ∀ (x : α) (W : Outcome S.Tok β) (w w₂ y : List S.Tok) (c cm m : Bool) (i j : S.Input) (s : σ) (t : τ),
      S.Reads i y j → Step W (When k₂ Rdy) (When r₂ Rdy) (RepN x) w₂ j ((f x).run m j t) → (k = true → Ready s) →
      (w = [] → w₂ = [] ∧ cm = c) → (w₂ = [] → c = false → w = [] ∧ cm = false) →
      (w = [] → cm = true → y ≠ []) →
      (∀ y' l, W = .pend → S.Reads j y' l → Finished D x (w ++ (y ++ y')) (w₂ ++ y') (S.left l)) →
      (r' = true → c = false → W = .soft → k = true ∧ r₂ = true) →
      Step ((W.map (g x)).after c)
        (When (k && k₂) fun s : σ × Option (Bool × α) × τ => s.2.1 = none ∧ Ready s.1 ∧ Rdy s.2.2)
        (When r' fun s => s.2.1 = none ∧ Ready s.1 ∧ Rdy s.2.2)
        (fun s w u => (s.2.1 = none ∧ Rep s.1 w u ∧ Rdy s.2.2) ∨
          ∃ c x w₂, s.2.1 = some (c, x) ∧ Finished D x w w₂ u ∧ RepN x s.2.2 w₂ u ∧ (k = true → Ready s.1) ∧
            (w = [] → c = false))
        w i (contRun f g m j s (cm, x) t) := by
    intro x W w w₂ y c cm m i j s t hij hst hrd hw hcm hy hfin hsoft
    have hst := (h2 x).committed.step hst
    simp only [contRun]
    generalize (f x).committed m j t = o at hst
    refine Outcome.after_cases (P := fun W => Step W _ _ _ w i _) ?_ ?_ ?_ trivial
    · intro d v l he
      obtain ⟨v', rfl, rfl⟩ := Outcome.map_ok.1 he
      obtain ⟨⟨d', g1, g2⟩, g3, g4, g5⟩ := hst
      refine ⟨⟨cm || d', ?_, fun hw0 => ?_⟩, Strm.Reach.trans ⟨_, hij⟩ g3, g4, fun hk => ?_⟩
      · rw [g1]
        cases cm <;> cases d' <;> rfl
      · obtain ⟨h1, h2⟩ := hw hw0
        rw [g2 h1, h2]
      · simp only [Bool.and_eq_true] at hk
        refine ⟨?_, hrd hk.1, g5 hk.2⟩
        rw [g1]
        cases d' <;> rfl
    · intro he
      have he := Outcome.map_pend.1 he
      subst he
      obtain ⟨e, y', g1, g2, g3, g4⟩ := hst
      refine ⟨e, y ++ y', ?_, g2, hij.trans g3, .inr ⟨cm, x, w₂ ++ y', ?_, hfin y' _ rfl g3, g4, hrd, ?_⟩⟩
      · rw [g1]; rfl
      · rw [g1]
      · intro hw0
        simp only [List.append_eq_nil_iff] at hw0
        cases cm with
        | false => rfl
        | true => exact absurd hw0.2.1 (hy hw0.1 rfl)
    · intro he hc
      have he := Outcome.map_soft.1 he
      subst he
      obtain ⟨g1, ⟨e, g2⟩, g3, g4⟩ := hst
      obtain ⟨hw0, hcm0⟩ := hcm g1 hc
      subst hcm0
      refine ⟨hw0, ⟨e, ?_⟩, Strm.Reach.trans ⟨_, hij⟩ g3, fun hr' => ?_⟩
      · rw [g2]; rfl
      · obtain ⟨h1, h2⟩ := hsoft hr' hc rfl
        exact ⟨by rw [g2], hrd h1, g4 h2⟩
  -- the first parser
  have run : ∀ (w : List S.Tok) (m : Bool) (i : S.Input) (s : σ) (t : τ), S.isPartial i = live →
      (w ≠ [] → (D (S.isPartial i) (w ++ S.left i)).Firm) →
      Step (D (S.isPartial i) (w ++ S.left i)) (When k Ready) (When r Ready) Rep w i (p.run m i s) → Rdy t →
      Step (D.bind (fun v => (F v).map (g v)) (S.isPartial i) (w ++ S.left i))
        (When (k && k₂) fun s : σ × Option (Bool × α) × τ => s.2.1 = none ∧ Ready s.1 ∧ Rdy s.2.2)
        (When r' fun s => s.2.1 = none ∧ Ready s.1 ∧ Rdy s.2.2)
        (fun s w u => (s.2.1 = none ∧ Rep s.1 w u ∧ Rdy s.2.2) ∨
          ∃ c x w₂, s.2.1 = some (c, x) ∧ Finished D x w w₂ u ∧ RepN x s.2.2 w₂ u ∧ (k = true → Ready s.1) ∧
            (w = [] → c = false))
        w i (thenRun p f g m i (s, none, t)) := by
    intro w m i s t hL hfw hs ht
    have hrun : thenRun p f g m i (s, none, t) = (match (p.run m i s).res with
      | .peekOk v => contRun f g true (p.run m i s).inp (p.run m i s).st (false, v) t
      | .commitOk v => contRun f g true (p.run m i s).inp (p.run m i s).st (true, v) t
      | .peekErr e => ⟨.peekErr e, (p.run m i s).inp, ((p.run m i s).st, none, t)⟩
      | .commitErr e => ⟨.commitErr e, (p.run m i s).inp, ((p.run m i s).st, none, t)⟩
      | .abort a => ⟨.abort a, (p.run m i s).inp, ((p.run m i s).st, none, t)⟩) := by
      cases m <;> rfl
    rw [hrun]
    clear hrun
    generalize p.run m i s = o at hs
    simp only [Den.bind, Den.map]
    cases hd : D (S.isPartial i) (w ++ S.left i) with
    | ok c v l =>
      rw [hd] at hs hfw
      obtain ⟨⟨c', h1, h3⟩, ⟨y, hy⟩, h4, h5⟩ := hs
      have hne : c = false → w = [] := fun hc => by
        cases w with
        | nil => rfl
        | cons a l => subst hc; exact absurd rfl ((hfw (by simp)).2 _ _)
      have hleft := hS.left_reads hy
      have hyc : w = [] → c = true → y ≠ [] := by
        intro hw hc he
        subst hw he hc
        obtain ⟨z, hz, hzc⟩ := h.good.read hd
        rw [hleft, h4] at hz
        simp only [List.nil_append] at hz
        have := congrArg List.length hz
        simp only [List.length_append] at this
        cases z with
        | nil => simp at hzc
        | cons _ _ => simp only [List.length_cons] at this; omega
      have hfin : ∀ y' l', F v (S.isPartial i) l = .pend → S.Reads o.inp y' l' →
          Finished D v (w ++ (y ++ y')) ([] ++ y') (S.left l') := by
        intro y' l' he hy'
        refine ⟨w ++ y, l, c, by simp, ?_, ?_⟩
        · have hb : S.isPartial i = true := by
            cases hb : S.isPartial i with
            | true => rfl
            | false => rw [hb] at he; exact absurd he ((h2 v).good.complete _)
          rw [hb] at hd
          rw [List.append_assoc, ← h4, ← hleft, hd, h4]
        · rw [← h4, hS.left_reads hy']
          exact List.prefix_refl _
      have hsoft : r' = true → c = false → F v (S.isPartial i) l = .soft → k = true ∧ r₂ = true := by
        intro hr' hc he
        rcases (hr hr').2 with h6 | h6
        · exact h6
        · subst hc
          have := h.good.unread hd
          subst this
          exact absurd he (h6 v _ _ _ hd)
      have hst : Step (F v (S.isPartial i) l) (When k₂ Rdy) (When r₂ Rdy) (RepN v) [] o.inp ((f v).run true o.inp t) := by
        have := (h2 v).first o.inp ((hS.reach_isPartial ⟨y, hy⟩).trans hL) ht
        rwa [hS.reach_isPartial ⟨y, hy⟩, h4] at this
      cases c' with
      | true =>
        simp only [h1, okRes_true]
        refine rest v _ w [] y c true true i o.inp o.st t hy hst h5 ?_ ?_ ?_ hfin hsoft
        · intro hw; exact ⟨rfl, h3 hw⟩
        · intro _ hc
          have := h3 (hne hc)
          rw [hc] at this; cases this
        · intro hw _; exact hyc hw (h3 hw).symm
      | false =>
        simp only [h1, okRes_false]
        refine rest v _ w [] y c false true i o.inp o.st t hy hst h5 ?_ ?_ ?_ hfin hsoft
        · intro hw; exact ⟨rfl, h3 hw⟩
        · intro _ hc; exact ⟨hne hc, rfl⟩
        · intro _ h; cases h
    | pend =>
      rw [hd] at hs
      obtain ⟨e, x, h1, h2, h3, h4⟩ := hs
      simp only [h1]
      exact ⟨e, x, rfl, h2, h3, .inl ⟨rfl, h4, ht⟩⟩
    | soft =>
      rw [hd] at hs
      obtain ⟨hw, ⟨e, h1⟩, h2, h3⟩ := hs
      simp only [h1]
      exact ⟨hw, ⟨e, rfl⟩, h2, fun hr' => ⟨rfl, h3 (hr hr').1, ht⟩⟩
    | hard => trivial
  constructor
  · exact h.good.bind fun v => (h2 v).good.map _
  · rw [hqi]; exact ⟨rfl, h.ready_init, hn⟩
  · rintro s ⟨hv, hs, ht⟩; exact .inl ⟨hv, h.ready_rep hs, ht⟩
  · rintro ⟨s, v, t⟩ w u hr hw b x
    rcases hr with ⟨_, hr, _⟩ | ⟨c, y, w₂, _, hf, hr, _⟩
    · have := h.firm hr hw b x
      simp only [Den.bind]
      cases hd : D b (w ++ (u ++ x)) with
      | ok c v r =>
        rw [hd] at this
        cases c with
        | true => exact Outcome.Firm.after_true _
        | false => exact absurd rfl (this.2 v r)
      | soft => exact absurd hd this.1
      | pend => simp [Outcome.Firm]
      | hard => simp [Outcome.Firm]
    · obtain ⟨c, hd, _, hc⟩ := hf.now h.good (List.prefix_append u x) b
      simp only [Den.bind, hd]
      cases c with
      | true => exact Outcome.Firm.after_true _
      | false =>
        have := hc rfl
        subst this
        exact (((h2 y).firm hr hw b x).map _).after _
  · exact hqc
  · rintro ⟨s, v, t⟩ i hL ⟨hv, hs, ht⟩
    simp only at hv hs ht
    subst hv
    rw [hq]
    exact run [] true i s t hL (fun hw => absurd rfl hw) (h.first i hL hs) ht
  · rintro ⟨s, v, t⟩ m i hL ⟨hv, hs, ht⟩ hh
    simp only at hv hs ht
    subst hv
    have hst := h.start m i hL hs
    have hh1 := h.first_hard m i hL hs
    rw [hq]
    simp only [thenRun, ite_self]
    simp only [Den.bind, Den.map] at hh
    generalize p.run m i s = o at hst hh1
    cases hd : D (S.isPartial i) (S.left i) with
    | ok c v l =>
      rw [hd] at hst hh
      obtain ⟨⟨c', h1, h3⟩, h4, h5, h6⟩ := hst
      have hc := h3 rfl
      subst hc
      simp only at hh
      have hst2 := (h2 v).committed.step ((h2 v).first o.inp ((hS.reach_isPartial h4).trans hL) ht)
      have hh2 := (h2 v).first_hard true o.inp ((hS.reach_isPartial h4).trans hL) ht
      rw [hS.reach_isPartial h4, h5] at hst2 hh2
      have fin : ∀ cm, cm = c' → ∃ e, (contRun f g true o.inp o.st (cm, v) t).res = .commitErr e := by
        intro cm hcm
        subst hcm
        simp only [contRun]
        cases he : F v (S.isPartial i) l with
        | hard =>
          obtain ⟨e, he⟩ := hh2 he
          rw [(h2 v).committed.other _ _ _ (by rw [he]; simp), he]
          exact ⟨e, rfl⟩
        | soft =>
          rw [he] at hst2 hh
          cases cm with
          | true =>
            obtain ⟨_, ⟨e, g1⟩, _⟩ := hst2
            rw [g1]
            exact ⟨_, rfl⟩
          | false => simp [Outcome.map, Outcome.after] at hh
        | ok => rw [he] at hh; simp [Outcome.map, Outcome.after] at hh
        | pend => rw [he] at hh; simp [Outcome.map, Outcome.after] at hh
      cases c' with
      | true => simp only [h1, okRes_true]; exact fin _ rfl
      | false => simp only [h1, okRes_false]; exact fin _ rfl
    | hard =>
      obtain ⟨e, he⟩ := hh1 hd
      simp only [he]
      exact ⟨e, rfl⟩
    | soft => rw [hd] at hh; simp at hh
    | pend => rw [hd] at hh; simp at hh
  · rintro ⟨s, v, t⟩ w u i hL hr' hu
    rw [hq]
    rcases hr' with ⟨hv, hr', ht⟩ | ⟨cm, y, w₂, hv, hf, hr', hs, hcm⟩
    · simp only at hv hr' ht
      subst hv
      refine run w false i s t hL (fun hw => ?_) (h.resume i hL hr' hu) ht
      obtain ⟨x, hx⟩ := hu
      rw [← hx]
      exact h.firm hr' hw _ x
    · simp only at hv hr' hs
      subst hv
      obtain ⟨c, hd, hc1, hc2⟩ := hf.now h.good hu (S.isPartial i)
      simp only [Den.bind, Den.map, hd]
      have hst := (h2 y).resume i hL hr' hu
      refine rest y _ w w₂ [] c cm false i i s t (.nil i) hst hs ?_ ?_ ?_ ?_ ?_
      · intro hw
        have hc := hc1 hw
        have := hc2 hc
        subst this
        exact ⟨hw, by rw [hc, hcm hw]⟩
      · intro hw hc
        have := hc2 hc
        subst this
        exact ⟨hw, hcm hw⟩
      · intro hw hc
        rw [hcm hw] at hc; cases hc
      · intro y' l _ hy'
        refine hf.more ?_
        rw [List.nil_append, ← hS.left_reads hy']
        exact hu
      · intro hr1 hc he
        rcases (hr hr1).2 with h6 | h6
        · exact h6
        · subst hc
          have := hc2 rfl
          subst this
          exact absurd he (h6 y _ _ _ hd)

theorem thenP_run (p : Parser S σ α) (f : α → Parser S τ β) (nInit : τ) :
    (thenP p f nInit).run = thenRun p f fun _ x => x := by
  have hid : ∀ r : ParseResult β S.Err, r.map (fun x => x) = r := fun r => by cases r <;> rfl
  funext m i s
  simp only [thenP, Parser.ofMode, thenRun, contRun, hid]
  rfl

theorem thenRef_run (p : Parser S σ α) (f : α → Parser S τ β) (nInit : τ) :
    (thenRef p f nInit).run = thenRun p f fun v x => (v, x) := rfl

theorem thenPartial_run (p : Parser S σ α) (f : α → Parser S τ β) (nInit : τ) :
    (thenPartial p (fun v => (f v, v)) nInit).run = thenRun p f fun _ x => x := by
  have hid : ∀ r : ParseResult β S.Err, r.map (fun x => x) = r := fun r => by cases r <;> rfl
  funext m i s
  simp only [thenPartial, Parser.ofMode, thenRun, contRun, hid]
  rfl

/-- The continuations can be resumed, and all of them can be started in the same states. -/
def ResumableAll (f : α → Parser S τ β) (F : α → Den S.Tok β) (k r : Bool) (nInit : τ) : Prop :=
  ∃ (Rdy : Bool → τ → Prop) (RepN : Bool → α → τ → List S.Tok → List S.Tok → Prop), (∀ live, Rdy live nInit) ∧
    (∀ live v, Resumes live (f v) (F v) k r (Rdy live) (RepN live v)) ∧ (∀ s, Rdy true s → Rdy false s) ∧
    ∀ v s w u, RepN true v s w u → RepN false v s w u

theorem resumable_thenRun (hF : S.Feedable) {p : Parser S σ α} {f : α → Parser S τ β} {g : α → β → γ} {nInit : τ}
    {q : Parser S (σ × Option (Bool × α) × τ) γ} (hq : q.run = thenRun p f g) (hqc : CommittedAs q)
    (hqi : q.init = (p.init, none, nInit)) {D : Den S.Tok α} {F : α → Den S.Tok β} {k r k₂ r₂ r' : Bool}
    (h : Resumable p D k r) (h2 : ResumableAll f F k₂ r₂ nInit)
    (hr : r' = true → r = true ∧ (k = true ∧ r₂ = true ∨ ∀ v, Den.Firm D (F v))) :
    Resumable q (D.bind fun v => (F v).map (g v)) (k && k₂) r' := by
  obtain ⟨Ready, Rep, h, m1, m2⟩ := h
  obtain ⟨Rdy, RepN, hn, h2, n1, n2⟩ := h2
  refine ⟨_, _, fun live => resumes_thenRun hF hq hqc hqi (h live) (h2 live) (hn live) hr, ?_, ?_⟩
  · rintro t ⟨h1, h2, h3⟩
    exact ⟨h1, m1 _ h2, n1 _ h3⟩
  · rintro t w u (⟨h1, h2, h3⟩ | ⟨c, x, w₂, h1, h2, h3, h4, h5⟩)
    · exact .inl ⟨h1, m2 _ _ _ h2, n1 _ h3⟩
    · exact .inr ⟨c, x, w₂, h1, h2, n2 _ _ _ _ h3, fun hk => m1 _ (h4 hk), h5⟩

theorem resumable_then (hF : S.Feedable) {p : Parser S σ α} {f : α → Parser S τ β} {nInit : τ}
    {D : Den S.Tok α} {F : α → Den S.Tok β} {k r k₂ r₂ r' : Bool} (h : Resumable p D k r)
    (h2 : ResumableAll f F k₂ r₂ nInit)
    (hr : r' = true → r = true ∧ (k = true ∧ r₂ = true ∨ ∀ v, Den.Firm D (F v))) :
    Resumable (thenP p f nInit) (D.bind F) (k && k₂) r' := by
  have := resumable_thenRun hF (thenP_run p f nInit) (committed_ofMode hF.lawful _ _ _ _ _) rfl h h2 hr
  simpa only [Den.map_id] using this

theorem resumable_thenRef (hF : S.Feedable) {p : Parser S σ α} {f : α → Parser S τ β} {nInit : τ}
    {D : Den S.Tok α} {F : α → Den S.Tok β} {k r k₂ r₂ r' : Bool} (h : Resumable p D k r)
    (h2 : ResumableAll f F k₂ r₂ nInit)
    (hr : r' = true → r = true ∧ (k = true ∧ r₂ = true ∨ ∀ v, Den.Firm D (F v))) :
    Resumable (thenRef p f nInit) (D.bind fun v => (F v).map fun x => (v, x)) (k && k₂) r' :=
  resumable_thenRun hF (thenRef_run p f nInit) (committed_ofMode hF.lawful _ _ _ _ _) rfl h h2 hr

theorem resumable_thenPartial (hF : S.Feedable) {p : Parser S σ α} {f : α → Parser S τ β} {nInit : τ}
    {D : Den S.Tok α} {F : α → Den S.Tok β} {k r k₂ r₂ r' : Bool} (h : Resumable p D k r)
    (h2 : ResumableAll f F k₂ r₂ nInit)
    (hr : r' = true → r = true ∧ (k = true ∧ r₂ = true ∨ ∀ v, Den.Firm D (F v))) :
    Resumable (thenPartial p (fun v => (f v, v)) nInit) (D.bind F) (k && k₂) r' := by
  have := resumable_thenRun hF (thenPartial_run p f nInit) (committed_ofMode hF.lawful _ _ _ _ _) rfl h h2 hr
  simpa only [Den.map_id] using this

end Verif
