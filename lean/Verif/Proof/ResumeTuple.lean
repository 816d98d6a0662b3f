import Verif.Proof.ResumeSeq

/-!
# Tuples and `then` can be resumed
-/

namespace Verif

variable {S : Strm} {σ τ υ α β γ : Type}

/-- The member steps `o`, started with `first_empty_parser = fe`, do what `W` says. -/
def SeqStep (ps : Seq S τ β) (W : Outcome S.Tok β) (A : τ → Prop) (Rep : τ → List S.Tok → List S.Tok → Prop)
    (w : List S.Tok) (fe : Nat) (i : S.Input) (o : SeqOut S τ) : Prop :=
  match W with
  | .ok c v r => o.fin = .done ∧ S.Reach i o.inp ∧ S.left o.inp = r ∧ (ps.take o.st).1 = some v ∧
      A (ps.take o.st).2 ∧ (w = [] → (o.firstEmpty ≠ 0 ↔ fe ≠ 0 ∨ c = true))
  | .pend => ∃ e x, o.fin = .commitErr e ∧ S.E.isEoi e = true ∧ S.Reads i x o.inp ∧ Rep o.st (w ++ x) (S.left o.inp)
  | .soft => w = [] ∧ (∃ e, o.fin = .fail e) ∧ S.Reach i o.inp ∧ o.firstEmpty = fe
  | .hard => True

/-- What `Resumes` becomes for the members of a tuple after the first. -/
structure SeqResumes (live : Bool) (ps : Seq S τ β) (D : Den S.Tok β) (k : Bool) (Ready : τ → Prop)
    (Rep : τ → List S.Tok → List S.Tok → Prop) : Prop where
  good : D.Good
  init : Ready ps.init
  firm : ∀ {t w u}, Rep t w u → w ≠ [] → ∀ b x, (D b (w ++ (u ++ x))).Firm
  first : ∀ {t} fe cur off i, S.isPartial i = live → Ready t →
    SeqStep ps (D (S.isPartial i) (S.left i)) (When k Ready) Rep [] fe i (ps.steps true fe cur off i t)
  first_hard : ∀ {t} fe cur off i, S.isPartial i = live → Ready t → D (S.isPartial i) (S.left i) = .hard →
    (∃ e, (ps.steps true fe cur off i t).fin = .commitErr e) ∨
    ((∃ e, (ps.steps true fe cur off i t).fin = .fail e) ∧ (ps.steps true fe cur off i t).firstEmpty ≠ 0)
  resume : ∀ {t w u} fe cur off i, S.isPartial i = live → Rep t w u → u <+: S.left i →
    SeqStep ps (D (S.isPartial i) (w ++ S.left i)) (When k Ready) Rep w fe i (ps.steps false fe cur off i t)

theorem seq_nil {live k : Bool} : SeqResumes (S := S) live Seq.nil (Den.pure ()) k (fun _ => True) (fun _ _ _ => False) where
  good := .pure ()
  init := trivial
  firm h := h.elim
  first fe cur off i _ _ := ⟨rfl, .refl i, rfl, rfl, fun _ => trivial, fun _ => by simp [Seq.steps]⟩
  first_hard fe cur off i _ _ h := by simp [Den.pure] at h
  resume _ _ _ _ _ h := h.elim

/-- What is known of the part of a tuple that is finished: it absorbed `w₁` of what was absorbed, and that
was decided with `z` left. -/
def Finished {T : Type} (D : Den T α) (x : α) (w w₂ u : List T) : Prop :=
  ∃ w₁ z c, w = w₁ ++ w₂ ∧ D true (w₁ ++ z) = .ok c x z ∧ z <+: w₂ ++ u

theorem Finished.now {T : Type} {D : Den T α} (h : D.Good) {x : α} {w w₂ u y : List T} (hf : Finished D x w w₂ u)
    (hu : u <+: y) (b : Bool) : ∃ c, D b (w ++ y) = .ok c x (w₂ ++ y) ∧ (w = [] → c = false) ∧
      (c = false → w = w₂) := by
  obtain ⟨w₁, z, c, rfl, h1, h2⟩ := hf
  have hz : z <+: w₂ ++ y := h2.trans (by
    obtain ⟨k, rfl⟩ := hu
    exact ⟨k, by simp⟩)
  refine ⟨c, ?_, ?_, ?_⟩
  · rw [List.append_assoc]
    exact h.stable_prefix h1 hz b
  · intro hw
    have := h.flag h1
    rw [List.append_eq_nil_iff] at hw
    simpa [hw.1] using this
  · intro hc
    have := h.flag h1
    subst hc
    cases w₁ with
    | nil => rfl
    | cons _ _ => simp at this

theorem Finished.more {T : Type} {D : Den T α} {x : α} {w w₂ u : List T} (hf : Finished D x w w₂ u) {y l : List T}
    (hu : u <+: y ++ l) : Finished D x (w ++ y) (w₂ ++ y) l := by
  obtain ⟨w₁, z, c, rfl, h1, h2⟩ := hf
  refine ⟨w₁, z, c, by simp, h1, h2.trans ?_⟩
  obtain ⟨k, hk⟩ := hu
  exact ⟨k, by rw [List.append_assoc, List.append_assoc, ← hk]⟩

theorem Outcome.after_cases {T : Type} {o : Outcome T α} {c : Bool} (P : Outcome T α → Prop)
    (hok : ∀ d v r, o = .ok d v r → P (.ok (c || d) v r)) (hp : o = .pend → P .pend)
    (hs : o = .soft → c = false → P .soft) (hh : P .hard) : P (o.after c) := by
  cases o with
  | ok d v r => exact hok d v r rfl
  | pend => exact hp rfl
  | soft =>
    cases c with
    | false => exact hs rfl rfl
    | true => exact hh
  | hard => exact hh

theorem seq_cons (hF : S.Feedable) {live : Bool} {p : Parser S σ α} {D : Den S.Tok α} {k r : Bool} {Ready : σ → Prop}
    {Rep : σ → List S.Tok → List S.Tok → Prop} {ps : Seq S τ β} {E : Den S.Tok β} {RdyS : τ → Prop}
    {RepS : τ → List S.Tok → List S.Tok → Prop} (h : Resumes live p D k r Ready Rep) (hps : SeqResumes live ps E k RdyS RepS) :
    SeqResumes live (Seq.cons p ps) (D.seq E) k (fun t => t.1.1 = none ∧ Ready t.1.2 ∧ RdyS t.2)
      (fun t w u => (t.1.1 = none ∧ Rep t.1.2 w u ∧ RdyS t.2) ∨
        ∃ x w₂, t.1.1 = some x ∧ Finished D x w w₂ u ∧ RepS t.2 w₂ u ∧ (k = true → Ready t.1.2)) := by
  have hS := hF.lawful
  -- a call of `p` in a state without value, followed by the other members
  have run : ∀ (w : List S.Tok) (m : Bool) (fe cur off : Nat) (i : S.Input) (s : σ) (t : τ), S.isPartial i = live →
      Step (D (S.isPartial i) (w ++ S.left i)) (When k Ready) (When r Ready) Rep w i (p.run m i s) → RdyS t →
      (w ≠ [] → (D (S.isPartial i) (w ++ S.left i)).Firm) →
      SeqStep (Seq.cons p ps) (D.seq E (S.isPartial i) (w ++ S.left i))
        (When k fun t => t.1.1 = none ∧ Ready t.1.2 ∧ RdyS t.2)
        (fun t w u => (t.1.1 = none ∧ Rep t.1.2 w u ∧ RdyS t.2) ∨
          ∃ x w₂, t.1.1 = some x ∧ Finished D x w w₂ u ∧ RepS t.2 w₂ u ∧ (k = true → Ready t.1.2))
        w fe i ((Seq.cons p ps).steps m fe cur off i ((none, s), t)) := by
    intro w m fe cur off i s t hL hs ht hfw
    simp only [Seq.steps, Option.isNone_none, Bool.or_true, if_true]
    generalize p.run m i s = o at hs
    simp only [Den.seq, Den.bind, Den.map]
    cases hd : D (S.isPartial i) (w ++ S.left i) with
    | ok c v r =>
      rw [hd] at hs
      obtain ⟨⟨c', h1, h2⟩, h3, h4, h5⟩ := hs
      -- the other members
      have hrest : ∀ fe', (w = [] → (fe' ≠ 0 ↔ fe ≠ 0 ∨ c = true)) →
          (w = [] → c = false → fe' = fe) → ∀ q : SeqOut S τ,
          q = ps.steps true fe' (cur + 1) (satAdd off p.count) o.inp t →
          SeqStep (Seq.cons p ps) (((E (S.isPartial i) r).map fun y => (v, y)).after c)
            (When k fun t => t.1.1 = none ∧ Ready t.1.2 ∧ RdyS t.2)
            (fun t w u => (t.1.1 = none ∧ Rep t.1.2 w u ∧ RdyS t.2) ∨
              ∃ x w₂, t.1.1 = some x ∧ Finished D x w w₂ u ∧ RepS t.2 w₂ u ∧ (k = true → Ready t.1.2))
            w fe i ⟨q.fin, q.firstEmpty, q.offset, q.inp, ((some v, o.st), q.st)⟩ := by
        intro fe' hfe hfe0 q hq
        have hst := hps.first fe' (cur + 1) (satAdd off p.count) o.inp ((hS.reach_isPartial h3).trans hL) ht
        rw [← hq, hS.reach_isPartial h3, h4] at hst
        refine Outcome.after_cases (P := fun W => SeqStep (Seq.cons p ps) W _ _ w fe i _) ?_ ?_ ?_ trivial
        · intro d y r' he'
          obtain ⟨y', he, rfl⟩ := Outcome.map_ok.1 he'
          rw [he] at hst
          obtain ⟨g1, g2, g3, g4, g5, g6⟩ := hst
          refine ⟨g1, h3.trans g2, g3, ?_, fun hk => ⟨rfl, h5 hk, g5 hk⟩, ?_⟩
          · simp only [Seq.take, g4]
          · intro hw
            simp only
            rw [g6 rfl, hfe hw]
            simp [or_assoc]
        · intro he
          have he := Outcome.map_pend.1 he
          rw [he] at hst
          obtain ⟨e, x, g1, g2, g3, g4⟩ := hst
          obtain ⟨y, hy⟩ := h3
          refine ⟨e, y ++ x, g1, g2, hy.trans g3, .inr ⟨v, x, rfl, ?_, by simpa using g4, h5⟩⟩
          refine ⟨w ++ y, r, c, by simp, ?_, ?_⟩
          · have hb : S.isPartial i = true := by
              cases hb : S.isPartial i with
              | true => rfl
              | false => rw [hb] at he; exact absurd he (hps.good.complete _)
            have := hS.left_reads hy
            rw [hb] at hd
            rw [List.append_assoc, ← h4, ← this, hd, h4]
          · rw [← h4, hS.left_reads g3]
            exact List.prefix_refl _
        · intro he hc
          have he := Outcome.map_soft.1 he
          subst hc
          rw [he] at hst
          obtain ⟨g1, g2, g3, g4⟩ := hst
          have hw : w = [] := by
            cases w with
            | nil => rfl
            | cons a l =>
              have := hfw (by simp)
              rw [hd] at this
              exact absurd rfl (this.2 v r)
          refine ⟨hw, g2, h3.trans g3, ?_⟩
          rw [← hfe0 hw rfl]
          exact g4
      cases c' with
      | true =>
        simp only [h1, okRes_true]
        refine hrest (cur + 1 + 1) (fun hw => by simp [← h2 hw]) (fun hw hc => ?_) _ rfl
        rw [← h2 hw] at hc; cases hc
      | false =>
        simp only [h1, okRes_false]
        exact hrest fe (fun hw => by simp [← h2 hw]) (fun _ _ => rfl) _ rfl
    | pend =>
      rw [hd] at hs
      obtain ⟨e, x, h1, h2, h3, h4⟩ := hs
      simp only [h1]
      exact ⟨e, x, rfl, h2, h3, .inl ⟨rfl, h4, ht⟩⟩
    | soft =>
      rw [hd] at hs
      obtain ⟨hw, ⟨e, h1⟩, h2, h3⟩ := hs
      simp only [h1, hS.reset_reach h2]
      exact ⟨hw, ⟨e, rfl⟩, .refl i, rfl⟩
    | hard => trivial
  constructor
  · exact h.good.seq hps.good
  · exact ⟨rfl, h.ready_init, hps.init⟩
  · rintro ⟨⟨v, s⟩, t⟩ w u hr hw b x
    rcases hr with ⟨_, hr, _⟩ | ⟨y, w₂, _, hf, hr, _⟩
    · have := h.firm hr hw b x
      simp only [Den.seq, Den.bind]
      cases hd : D b (w ++ (u ++ x)) with
      | ok c v r =>
        rw [hd] at this
        cases c with
        | true => exact Outcome.Firm.after_true _
        | false => exact absurd rfl (this.2 v r)
      | soft => exact absurd hd this.1
      | pend => simp [Outcome.Firm]
      | hard => simp [Outcome.Firm]
    · obtain ⟨c, hd, _, hc⟩ := hf.now h.good (List.prefix_append u x) b
      simp only [Den.seq, Den.bind, hd]
      cases c with
      | true => exact Outcome.Firm.after_true _
      | false =>
        have := hc rfl
        subst this
        exact ((hps.firm hr hw b x).map _).after _
  · rintro ⟨⟨v, s⟩, t⟩ fe cur off i hL ⟨hv, hs, ht⟩
    simp only at hv hs ht
    subst hv
    exact run [] true fe cur off i s t hL (h.first i hL hs) ht (fun hw => absurd rfl hw)
  · rintro ⟨⟨v, s⟩, t⟩ fe cur off i hL ⟨hv, hs, ht⟩ hh
    simp only at hv hs ht
    subst hv
    have hst := h.first i hL hs
    have hh1 := h.first_hard true i hL hs
    simp only [Seq.steps, Bool.true_or, if_true]
    simp only [Den.seq, Den.bind, Den.map] at hh
    generalize p.run true i s = o at hst hh1
    cases hd : D (S.isPartial i) (S.left i) with
    | ok c v r =>
      rw [hd] at hst hh
      obtain ⟨⟨c', h1, h2⟩, h3, h4, h5⟩ := hst
      have hc := h2 rfl
      subst hc
      simp only at hh
      have hst2 : ∀ fe cur off, _ := fun fe cur off => hps.first fe cur off o.inp ((hS.reach_isPartial h3).trans hL) ht
      have hh2 : ∀ fe cur off, _ := fun fe cur off => hps.first_hard fe cur off o.inp ((hS.reach_isPartial h3).trans hL) ht
      rw [hS.reach_isPartial h3, h4] at hst2 hh2
      cases he : E (S.isPartial i) r with
      | hard =>
        cases c' with
        | true => simp only [h1, okRes_true]; exact hh2 _ _ _ he
        | false => simp only [h1, okRes_false]; exact hh2 _ _ _ he
      | soft =>
        rw [he] at hst2
        cases c' with
        | true =>
          simp only [h1, okRes_true]
          obtain ⟨_, g1, _, g2⟩ := hst2 (cur + 1 + 1) (cur + 1) (satAdd off p.count)
          exact .inr ⟨g1, by rw [g2]; simp⟩
        | false => rw [he] at hh; simp [Outcome.map, Outcome.after] at hh
      | ok => rw [he] at hh; simp [Outcome.map, Outcome.after] at hh
      | pend => rw [he] at hh; simp [Outcome.map, Outcome.after] at hh
    | hard =>
      obtain ⟨e, he⟩ := hh1 hd
      simp only [he]
      exact .inl ⟨e, rfl⟩
    | soft => rw [hd] at hh; simp at hh
    | pend => rw [hd] at hh; simp at hh
  · rintro ⟨⟨v, s⟩, t⟩ w u fe cur off i hL hr hu
    rcases hr with ⟨hv, hr, ht⟩ | ⟨y, w₂, hv, hf, hr, hs⟩
    · simp only at hv hr ht
      subst hv
      exact run w false fe cur off i s t hL (h.resume i hL hr hu) ht (fun hw => by
        obtain ⟨x, hx⟩ := hu
        rw [← hx]
        exact h.firm hr hw _ x)
    · simp only at hv hr hs
      subst hv
      obtain ⟨c, hd, hc1, hc2⟩ := hf.now h.good hu (S.isPartial i)
      simp only [Seq.steps, Option.isNone_some, Bool.or_false, Bool.false_eq_true, if_false]
      simp only [Den.seq, Den.bind, Den.map, hd]
      have hst := hps.resume fe cur off i hL hr hu
      generalize ps.steps false fe cur off i t = q at hst
      refine Outcome.after_cases (P := fun W => SeqStep (Seq.cons p ps) W _ _ w fe i _) ?_ ?_ ?_ trivial
      · intro d y' r' he'
        obtain ⟨y', he, rfl⟩ := Outcome.map_ok.1 he'
        rw [he] at hst
        obtain ⟨g1, g2, g3, g4, g5, g6⟩ := hst
        refine ⟨g1, g2, g3, ?_, fun hk => ⟨rfl, hs hk, g5 hk⟩, ?_⟩
        · simp only [Seq.take, g4]
        · intro hw
          have hc := hc1 hw
          subst hc
          have := hc2 rfl
          subst this
          simpa using g6 hw
      · intro he
        have he := Outcome.map_pend.1 he
        rw [he] at hst
        obtain ⟨e, x, g1, g2, g3, g4⟩ := hst
        refine ⟨e, x, g1, g2, g3, .inr ⟨y, w₂ ++ x, rfl, hf.more ?_, g4, hs⟩⟩
        rw [← hS.left_reads g3]
        exact hu
      · intro he hc
        have he := Outcome.map_soft.1 he
        subst hc
        have := hc2 rfl
        subst this
        rw [he] at hst
        exact hst

theorem resumes_tuple (hF : S.Feedable) {live : Bool} {p : Parser S σ α} {D : Den S.Tok α} {k r r' : Bool} {Ready : σ → Prop}
    {Rep : σ → List S.Tok → List S.Tok → Prop} {ps : Seq S τ β} {E : Den S.Tok β} {RdyS : τ → Prop}
    {RepS : τ → List S.Tok → List S.Tok → Prop} (h : Resumes live p D k r Ready Rep) (hps : SeqResumes live ps E k RdyS RepS)
    (hr : r' = true → r = true ∧ Den.Firm D E) :
    Resumes live (tuple p ps) (D.seq E) k r' (fun st => st.value = none ∧ Ready st.head ∧ RdyS st.tail)
      (fun st w u => (st.value = none ∧ Rep st.head w u ∧ RdyS st.tail) ∨
        ∃ x w₂, st.value = some x ∧ Finished D x w w₂ u ∧ RepS st.tail w₂ u ∧ (k = true → Ready st.head)) := by
  have hS := hF.lawful
  -- the members after the head, once the head has a value
  have rest : ∀ (W : Outcome S.Tok β) (w w₂ y : List S.Tok) (c m : Bool) (fe : Nat) (i j : S.Input)
      (x : α) (hd : σ) (t : τ) (off : Nat), S.Reads i y j →
      SeqStep ps W (When k RdyS) RepS w₂ fe j (ps.steps m fe 0 off j t) → (k = true → Ready hd) →
      (w = [] → w₂ = [] ∧ (fe ≠ 0 ↔ c = true)) → (w₂ = [] → c = false → w = [] ∧ fe = 0) →
      (∀ y' l, W = .pend → S.Reads j y' l → Finished D x (w ++ (y ++ y')) (w₂ ++ y') (S.left l)) →
      (r' = true → c = false → W ≠ .soft) →
      Step ((W.map fun y => (x, y)).after c)
        (When k fun st : SeqSt σ τ α => st.value = none ∧ Ready st.head ∧ RdyS st.tail)
        (When r' fun st => st.value = none ∧ Ready st.head ∧ RdyS st.tail)
        (fun st w u => (st.value = none ∧ Rep st.head w u ∧ RdyS st.tail) ∨
          ∃ x w₂, st.value = some x ∧ Finished D x w w₂ u ∧ RepS st.tail w₂ u ∧ (k = true → Ready st.head))
        w i (seqRest p ps m fe j ⟨some x, hd, t, off⟩) := by
    intro W w w₂ y c m fe i j x hd t off hij hst hrd hw hfe hfin hsoft
    simp only [seqRest]
    generalize ps.steps m fe 0 off j t = q at hst
    refine Outcome.after_cases (P := fun W => Step W _ _ _ w i _) ?_ ?_ ?_ trivial
    · intro d y r' he
      obtain ⟨y', rfl, rfl⟩ := Outcome.map_ok.1 he
      obtain ⟨g1, g2, g3, g4, g5, g6⟩ := hst
      simp only [g1, seqFinish, g4]
      refine ⟨⟨decide (q.firstEmpty ≠ 0), ?_, ?_⟩, Strm.Reach.trans ⟨_, hij⟩ g2, g3,
        fun hk => ⟨rfl, hrd hk, g5 hk⟩⟩
      · by_cases h0 : q.firstEmpty ≠ 0
        · rw [if_pos h0, decide_eq_true h0]; rfl
        · rw [if_neg h0, decide_eq_false h0]; rfl
      · intro hw0
        obtain ⟨h1, h2⟩ := hw hw0
        have := g6 h1
        rw [h2] at this
        rw [Bool.eq_iff_iff, decide_eq_true_iff, this]
        simp
    · intro he
      have he := Outcome.map_pend.1 he
      subst he
      obtain ⟨e, y', g1, g2, g3, g4⟩ := hst
      simp only [g1]
      exact ⟨e, y ++ y', rfl, g2, hij.trans g3, .inr ⟨x, w₂ ++ y', rfl, hfin y' _ rfl g3, g4, hrd⟩⟩
    · intro he hc
      have he := Outcome.map_soft.1 he
      subst he
      obtain ⟨g1, ⟨e, g2⟩, g3, g5⟩ := hst
      obtain ⟨hw0, hfe0⟩ := hfe g1 hc
      simp only [g2, g5, hfe0, seqAddErrors, ne_eq, not_true_eq_false, if_false]
      exact ⟨hw0, ⟨_, rfl⟩, Strm.Reach.trans ⟨_, hij⟩ g3, fun hr' => absurd rfl (hsoft hr' hc)⟩
  -- a call of the head
  have run : ∀ (w : List S.Tok) (m : Bool) (i : S.Input) (hd : σ) (t : τ) (off : Nat), S.isPartial i = live →
      (w ≠ [] → (D (S.isPartial i) (w ++ S.left i)).Firm) →
      Step (D (S.isPartial i) (w ++ S.left i)) (When k Ready) (When r Ready) Rep w i (p.run m i hd) → RdyS t →
      Step (D.seq E (S.isPartial i) (w ++ S.left i))
        (When k fun st : SeqSt σ τ α => st.value = none ∧ Ready st.head ∧ RdyS st.tail)
        (When r' fun st => st.value = none ∧ Ready st.head ∧ RdyS st.tail)
        (fun st w u => (st.value = none ∧ Rep st.head w u ∧ RdyS st.tail) ∨
          ∃ x w₂, st.value = some x ∧ Finished D x w w₂ u ∧ RepS st.tail w₂ u ∧ (k = true → Ready st.head))
        w i (seqRun p ps m i ⟨none, hd, t, off⟩) := by
    intro w m i hd t off hL hfw hs ht
    simp only [seqRun, Option.isNone_none, Bool.or_true, if_true]
    generalize p.run m i hd = o at hs
    simp only [Den.seq, Den.bind, Den.map]
    cases hd : D (S.isPartial i) (w ++ S.left i) with
    | ok c v l =>
      rw [hd] at hs hfw
      obtain ⟨⟨c', h1, h2⟩, ⟨y, hy⟩, h4, h5⟩ := hs
      have hne : c = false → w = [] := fun hc => by
        cases w with
        | nil => rfl
        | cons a l => subst hc; exact absurd rfl ((hfw (by simp)).2 _ _)
      have hfin : ∀ y' l', E (S.isPartial i) l = .pend → S.Reads o.inp y' l' →
          Finished D v (w ++ (y ++ y')) ([] ++ y') (S.left l') := by
        intro y' l' he hy'
        refine ⟨w ++ y, l, c, by simp, ?_, ?_⟩
        · have hb : S.isPartial i = true := by
            cases hb : S.isPartial i with
            | true => rfl
            | false => rw [hb] at he; exact absurd he (hps.good.complete _)
          rw [hb] at hd
          rw [List.append_assoc, ← h4, ← hS.left_reads hy, hd, h4]
        · rw [← h4, hS.left_reads hy']
          exact List.prefix_refl _
      have hsoft : r' = true → c = false → E (S.isPartial i) l ≠ .soft := by
        intro hr' hc
        subst hc
        have := h.good.unread hd
        subst this
        exact (hr hr').2 _ _ _ hd
      have hst : ∀ fe off, SeqStep ps (E (S.isPartial i) l) (When k RdyS) RepS [] fe o.inp
          (ps.steps true fe 0 off o.inp t) := fun fe off => by
        have := hps.first fe 0 off o.inp ((hS.reach_isPartial ⟨y, hy⟩).trans hL) ht
        rwa [hS.reach_isPartial ⟨y, hy⟩, h4] at this
      cases c' with
      | true =>
        simp only [h1, okRes_true]
        refine rest _ w [] y c true 1 i o.inp v o.st t _ hy (hst _ _) h5 ?_ ?_ hfin hsoft
        · intro hw; simp [← h2 hw]
        · intro _ hc
          have := h2 (hne hc)
          rw [hc] at this; cases this
      | false =>
        simp only [h1, okRes_false]
        refine rest _ w [] y c true 0 i o.inp v o.st t _ hy (hst _ _) h5 ?_ ?_ hfin hsoft
        · intro hw; simp [← h2 hw]
        · intro _ hc; exact ⟨hne hc, rfl⟩
    | pend =>
      rw [hd] at hs
      obtain ⟨e, x, h1, h2, h3, h4⟩ := hs
      simp only [h1]
      exact ⟨e, x, rfl, h2, h3, .inl ⟨rfl, h4, ht⟩⟩
    | soft =>
      rw [hd] at hs
      obtain ⟨hw, ⟨e, h1⟩, h2, h3⟩ := hs
      simp only [h1]
      exact ⟨hw, ⟨e, rfl⟩, h2, fun hr' => ⟨rfl, h3 (hr hr').1, ht⟩⟩
    | hard => trivial
  constructor
  · exact h.good.seq hps.good
  · exact ⟨rfl, h.ready_init, hps.init⟩
  · rintro s ⟨hv, hs, ht⟩; exact .inl ⟨hv, h.ready_rep hs, ht⟩
  · rintro ⟨v, s, t, off⟩ w u hr hw b x
    rcases hr with ⟨_, hr, _⟩ | ⟨y, w₂, _, hf, hr, _⟩
    · have := h.firm hr hw b x
      simp only [Den.seq, Den.bind]
      cases hd : D b (w ++ (u ++ x)) with
      | ok c v r =>
        rw [hd] at this
        cases c with
        | true => exact Outcome.Firm.after_true _
        | false => exact absurd rfl (this.2 v r)
      | soft => exact absurd hd this.1
      | pend => simp [Outcome.Firm]
      | hard => simp [Outcome.Firm]
    · obtain ⟨c, hd, _, hc⟩ := hf.now h.good (List.prefix_append u x) b
      simp only [Den.seq, Den.bind, hd]
      cases c with
      | true => exact Outcome.Firm.after_true _
      | false =>
        have := hc rfl
        subst this
        exact ((hps.firm hr hw b x).map _).after _
  · exact committed_ofMode hS _ _ _ _ _
  · rintro ⟨v, s, t, off⟩ i hL ⟨hv, hs, ht⟩
    simp only at hv hs ht
    subst hv
    exact run [] true i s t off hL (fun hw => absurd rfl hw) (h.first i hL hs) ht
  · rintro ⟨v, s, t, off⟩ m i hL ⟨hv, hs, ht⟩ hh
    simp only at hv hs ht
    subst hv
    have hst := h.start m i hL hs
    have hh1 := h.first_hard m i hL hs
    simp only [tuple, Parser.ofMode, seqRun, Option.isNone_none, Bool.or_true, if_true]
    simp only [Den.seq, Den.bind, Den.map] at hh
    generalize p.run m i s = o at hst hh1
    cases hd : D (S.isPartial i) (S.left i) with
    | ok c v l =>
      rw [hd] at hst hh
      obtain ⟨⟨c', h1, h2⟩, h3, h4, h5⟩ := hst
      have hc := h2 rfl
      subst hc
      simp only at hh
      have hst2 : ∀ fe cur off, _ := fun fe cur off => hps.first fe cur off o.inp ((hS.reach_isPartial h3).trans hL) ht
      have hh2 : ∀ fe cur off, _ := fun fe cur off => hps.first_hard fe cur off o.inp ((hS.reach_isPartial h3).trans hL) ht
      rw [hS.reach_isPartial h3, h4] at hst2 hh2
      -- whichever way the members fail, the tuple has committed
      have fin : ∀ fe off' (st : SeqSt σ τ α), ((∃ e, (ps.steps true fe 0 off' o.inp t).fin = .commitErr e) ∨
          ((∃ e, (ps.steps true fe 0 off' o.inp t).fin = .fail e) ∧ (ps.steps true fe 0 off' o.inp t).firstEmpty ≠ 0)) →
          st.tail = t → st.offset = off' → ∃ e, (seqRest p ps true fe o.inp st).res = .commitErr e := by
        intro fe off' st hf e1 e2
        subst e1 e2
        simp only [seqRest]
        rcases hf with ⟨e, he⟩ | ⟨⟨e, he⟩, h0⟩
        · simp only [he]
          exact ⟨e, rfl⟩
        · simp only [he, seqAddErrors, h0, ne_eq, not_false_eq_true, if_true]
          split <;> exact ⟨_, rfl⟩
      cases he : E (S.isPartial i) l with
      | hard =>
        cases c' with
        | true => simp only [h1, okRes_true]; exact fin _ _ _ (hh2 _ _ _ he) rfl rfl
        | false => simp only [h1, okRes_false]; exact fin _ _ _ (hh2 _ _ _ he) rfl rfl
      | soft =>
        rw [he] at hst2
        cases c' with
        | true =>
          simp only [h1, okRes_true]
          refine fin _ _ _ (.inr ?_) rfl rfl
          obtain ⟨_, g1, _, g2⟩ := hst2 1 0 (satAdd p.count 1)
          exact ⟨g1, by rw [g2]; simp⟩
        | false => rw [he] at hh; simp [Outcome.map, Outcome.after] at hh
      | ok => rw [he] at hh; simp [Outcome.map, Outcome.after] at hh
      | pend => rw [he] at hh; simp [Outcome.map, Outcome.after] at hh
    | hard =>
      obtain ⟨e, he⟩ := hh1 hd
      simp only [he]
      exact ⟨e, rfl⟩
    | soft => rw [hd] at hh; simp at hh
    | pend => rw [hd] at hh; simp at hh
  · rintro ⟨v, s, t, off⟩ w u i hL hr' hu
    rcases hr' with ⟨hv, hr', ht⟩ | ⟨y, w₂, hv, hf, hr', hs⟩
    · simp only at hv hr' ht
      subst hv
      refine run w false i s t off hL (fun hw => ?_) (h.resume i hL hr' hu) ht
      obtain ⟨x, hx⟩ := hu
      rw [← hx]
      exact h.firm hr' hw _ x
    · simp only at hv hr' hs
      subst hv
      obtain ⟨c, hd, hc1, hc2⟩ := hf.now h.good hu (S.isPartial i)
      simp only [Den.seq, Den.bind, Den.map, hd]
      have hst := hps.resume 0 0 off i hL hr' hu
      have hrun : (tuple p ps).run false i ⟨some y, s, t, off⟩ = seqRest p ps false 0 i ⟨some y, s, t, off⟩ := by
        simp only [tuple, Parser.ofMode, seqRun, Option.isNone_some, Bool.or_false, Bool.false_eq_true, if_false]
      rw [hrun]
      refine rest _ w w₂ [] c false 0 i i y s t off (.nil i) hst hs ?_ ?_ ?_ ?_
      · intro hw
        have hc := hc1 hw
        have := hc2 hc
        subst this
        exact ⟨hw, by simp [hc]⟩
      · intro hw hc
        have := hc2 hc
        subst this
        exact ⟨hw, rfl⟩
      · intro y' l _ hy'
        refine hf.more ?_
        rw [List.nil_append, ← hS.left_reads hy']
        exact hu
      · intro hr1 hc
        subst hc
        have := hc2 rfl
        subst this
        exact (hr hr1).2 _ _ _ hd

/-- `SeqResumes` for all inputs. -/
def SeqResumable (ps : Seq S τ β) (D : Den S.Tok β) (k : Bool) : Prop :=
  ∃ (Ready : Bool → τ → Prop) (Rep : Bool → τ → List S.Tok → List S.Tok → Prop),
    (∀ live, SeqResumes live ps D k (Ready live) (Rep live)) ∧ (∀ s, Ready true s → Ready false s) ∧
    ∀ s w u, Rep true s w u → Rep false s w u

theorem seq_resumable_nil {k : Bool} : SeqResumable (S := S) Seq.nil (Den.pure ()) k :=
  ⟨fun _ _ => True, fun _ _ _ _ => False, fun _ => seq_nil, fun _ h => h, fun _ _ _ h => h⟩

theorem seq_resumable_cons (hF : S.Feedable) {p : Parser S σ α} {D : Den S.Tok α} {k r : Bool} {ps : Seq S τ β}
    {E : Den S.Tok β} (h : Resumable p D k r) (hps : SeqResumable ps E k) :
    SeqResumable (Seq.cons p ps) (D.seq E) k := by
  obtain ⟨Ready, Rep, h, m1, m2⟩ := h
  obtain ⟨RdyS, RepS, hps, s1, s2⟩ := hps
  refine ⟨_, _, fun live => seq_cons hF (h live) (hps live), ?_, ?_⟩
  · rintro t ⟨h1, h2, h3⟩
    exact ⟨h1, m1 _ h2, s1 _ h3⟩
  · rintro t w u (⟨h1, h2, h3⟩ | ⟨x, w₂, h1, h2, h3, h4⟩)
    · exact .inl ⟨h1, m2 _ _ _ h2, s1 _ h3⟩
    · exact .inr ⟨x, w₂, h1, h2, s2 _ _ _ h3, fun hk => m1 _ (h4 hk)⟩

theorem resumable_tuple (hF : S.Feedable) {p : Parser S σ α} {D : Den S.Tok α} {k r r' : Bool} {ps : Seq S τ β}
    {E : Den S.Tok β} (h : Resumable p D k r) (hps : SeqResumable ps E k)
    (hr : r' = true → r = true ∧ Den.Firm D E) : Resumable (tuple p ps) (D.seq E) k r' := by
  obtain ⟨Ready, Rep, h, m1, m2⟩ := h
  obtain ⟨RdyS, RepS, hps, s1, s2⟩ := hps
  refine ⟨_, _, fun live => resumes_tuple hF (h live) (hps live) hr, ?_, ?_⟩
  · rintro t ⟨h1, h2, h3⟩
    exact ⟨h1, m1 _ h2, s1 _ h3⟩
  · rintro t w u (⟨h1, h2, h3⟩ | ⟨x, w₂, h1, h2, h3, h4⟩)
    · exact .inl ⟨h1, m2 _ _ _ h2, s1 _ h3⟩
    · exact .inr ⟨x, w₂, h1, h2, s2 _ _ _ h3, fun hk => m1 _ (h4 hk)⟩

end Verif
