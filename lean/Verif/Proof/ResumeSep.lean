import Verif.Proof.ResumeRepeat
import Verif.Proof.ResumeThen

/-!
# `sep_end_by1` and `sep_end_by` can be resumed
-/

namespace Verif

variable {S : Strm} {σ τ υ α β γ : Type}

/-! ## `with`, with explicit states -/

theorem Resumes.same {live : Bool} {p q : Parser S σ α} {D : Den S.Tok α} {k r : Bool} {Ready : σ → Prop}
    {Rep : σ → List S.Tok → List S.Tok → Prop} (h : Resumes live p D k r Ready Rep) (hi : q.init = p.init)
    (hc : CommittedAs q) (hr : ∀ m i s, q.run m i s = p.run m i s) : Resumes live q D k r Ready Rep := by
  have := h.mapped (fun x => x) hi hc fun m i s => by rw [hr]; exact ⟨rfl, rfl, Mapped.id _⟩
  rwa [Den.map_id] at this

/-- States of `(p, q)` in which it can start anew. -/
def PairReady (Ready : σ → Prop) (RdyQ : τ → Prop) (st : SeqSt σ ((Option β × τ) × Unit) α) : Prop :=
  st.value = none ∧ Ready st.head ∧ st.tail.1.1 = none ∧ RdyQ st.tail.1.2 ∧ True

/-- States of `(p, q)` in which `w` was absorbed. -/
def PairRep (D : Den S.Tok α) (E : Den S.Tok β) (k : Bool) (Ready : σ → Prop)
    (Rep : σ → List S.Tok → List S.Tok → Prop) (RdyQ : τ → Prop) (RepQ : τ → List S.Tok → List S.Tok → Prop)
    (st : SeqSt σ ((Option β × τ) × Unit) α) (w u : List S.Tok) : Prop :=
  (st.value = none ∧ Rep st.head w u ∧ (st.tail.1.1 = none ∧ RdyQ st.tail.1.2 ∧ True)) ∨
    ∃ x w₂, st.value = some x ∧ Finished D x w w₂ u ∧
      ((st.tail.1.1 = none ∧ RepQ st.tail.1.2 w₂ u ∧ True) ∨
        ∃ y w₃, st.tail.1.1 = some y ∧ Finished E y w₂ w₃ u ∧ False ∧ (k = true → RdyQ st.tail.1.2)) ∧
      (k = true → Ready st.head)

theorem PairRep.mono {D : Den S.Tok α} {E : Den S.Tok β} {k : Bool} {Ready Ready' : σ → Prop}
    {Rep Rep' : σ → List S.Tok → List S.Tok → Prop} {RdyQ RdyQ' : τ → Prop}
    {RepQ RepQ' : τ → List S.Tok → List S.Tok → Prop} (h1 : ∀ s, Ready s → Ready' s)
    (h2 : ∀ s w u, Rep s w u → Rep' s w u) (h3 : ∀ s, RdyQ s → RdyQ' s) (h4 : ∀ s w u, RepQ s w u → RepQ' s w u)
    {st : SeqSt σ ((Option β × τ) × Unit) α} {w u : List S.Tok} (h : PairRep D E k Ready Rep RdyQ RepQ st w u) :
    PairRep D E k Ready' Rep' RdyQ' RepQ' st w u := by
  rcases h with ⟨g1, g2, g3, g4, g5⟩ | ⟨x, w₂, g1, g2, g3, g4⟩
  · exact .inl ⟨g1, h2 _ _ _ g2, g3, h3 _ g4, g5⟩
  · refine .inr ⟨x, w₂, g1, g2, ?_, fun e => h1 _ (g4 e)⟩
    rcases g3 with ⟨g5, g6, g7⟩ | ⟨y, w₃, g5, g6, g7, g8⟩
    · exact .inl ⟨g5, h4 _ _ _ g6, g7⟩
    · exact g7.elim

theorem resumes_pair (hF : S.Feedable) {live : Bool} {p : Parser S σ α} {q : Parser S τ β} {D : Den S.Tok α}
    {E : Den S.Tok β} {k r r₂ r' : Bool} {Ready : σ → Prop} {Rep : σ → List S.Tok → List S.Tok → Prop}
    {RdyQ : τ → Prop} {RepQ : τ → List S.Tok → List S.Tok → Prop} (h : Resumes live p D k r Ready Rep)
    (h2 : Resumes live q E k r₂ RdyQ RepQ) (hr : r' = true → r = true ∧ Den.Firm D (E.seq (Den.pure ()))) :
    Resumes live (pair p q) (D.seq (E.seq (Den.pure ()))) k r' (PairReady Ready RdyQ)
      (PairRep D E k Ready Rep RdyQ RepQ) :=
  resumes_tuple hF h (seq_cons hF h2 seq_nil) hr

theorem resumes_with (hF : S.Feedable) {live : Bool} {p : Parser S σ α} {q : Parser S τ β} {D : Den S.Tok α}
    {E : Den S.Tok β} {k r r₂ r' : Bool} {Ready : σ → Prop} {Rep : σ → List S.Tok → List S.Tok → Prop}
    {RdyQ : τ → Prop} {RepQ : τ → List S.Tok → List S.Tok → Prop} (h : Resumes live p D k r Ready Rep)
    (h2 : Resumes live q E k r₂ RdyQ RepQ) (hr : r' = true → r = true ∧ Den.Firm D E) :
    Resumes live («with» p q) (D.bind fun _ => E) k r' (PairReady Ready RdyQ)
      (PairRep (D.map fun _ => ()) E k Ready Rep RdyQ RepQ) := by
  have hi : Resumes live (ignore p) (D.map fun _ => ()) k r Ready Rep :=
    h.mapped _ rfl (committed_describing hF.lawful fun _ _ _ => rfl) fun _ _ _ => ⟨rfl, rfl, Mapped.map _ _⟩
  have ht := resumes_pair (r' := r') hF hi h2 fun e => ⟨(hr e).1, (hr e).2.pair _⟩
  have := ht.mapped (q := «with» p q) (fun x => x.2.1) rfl (committed_describing hF.lawful fun _ _ _ => rfl)
    fun m i s => ⟨rfl, rfl, Mapped.map _ _⟩
  rwa [Den.with_eq] at this

/-! ## `sep_end_by1` -/

/-- A separator and perhaps an element. -/
def Den.sepEnd {T : Type} (D : Den T α) (E : Den T β) : Den T (Option α) := E.bind fun _ => D.optional

theorem Den.sepEnd_consuming {T : Type} {D : Den T α} {E : Den T β} (hD : D.Good) (hc : E.Consuming) :
    (Den.sepEnd D E).Consuming := by
  intro b a c v r h
  simp only [Den.sepEnd, Den.bind] at h
  revert h
  cases he : E b a with
  | ok c' y z =>
    intro h
    obtain ⟨d, h, _⟩ := Outcome.after_ok.1 h
    obtain ⟨x, rfl, _⟩ := hD.optional.read h
    have := hc _ _ _ _ _ he
    simp only [List.length_append] at this
    omega
  | _ => intro h; cases h

theorem Den.sepEndN_eq {T : Type} (D : Den T α) (E : Den T β) (n : Nat) (b : Bool) (a : List T) :
    Den.sepEndN D E n b a = Den.loopN (Den.sepEnd D E) id n none b a := by
  induction n generalizing a with
  | zero => rfl
  | succ n ih =>
    rw [Den.loopN_succ _ _ _ (by simp)]
    simp only [Den.sepEndN, Den.sepEnd, Den.bind, Den.optional, Den.or, Den.map, Den.pure]
    cases E b a with
    | ok c _ r =>
      simp only
      cases D b r with
      | ok c' v r' => simp only [ih]; rfl
      | soft => simp [Outcome.map, Outcome.after]
      | _ => rfl
    | _ => rfl

theorem Den.sepEndBy1_eq {T : Type} (D : Den T α) (E : Den T β) : Den.sepEndBy1 D E =
    D.bind fun v => (Den.loop (Den.sepEnd D E) id none).map (v :: ·) := by
  simp only [Den.sepEndBy1, Den.sepEndN_eq]
  rfl

theorem Den.Good.sepEnd {T : Type} {D : Den T α} {E : Den T β} (hD : D.Good) (hE : E.Good) : (Den.sepEnd D E).Good :=
  hE.bind fun _ => hD.optional

theorem Den.Good.sepEndBy1 {T : Type} {D : Den T α} {E : Den T β} (hD : D.Good) (hE : E.Good) (hc : E.Consuming) :
    (Den.sepEndBy1 D E).Good := by
  rw [Den.sepEndBy1_eq]
  exact hD.bind fun _ => ((hD.sepEnd hE).loop id fun _ => Den.sepEnd_consuming hD hc).map _

theorem Den.optional_soft {T : Type} {D : Den T α} (b : Bool) (a : List T) : D.optional b a ≠ .soft := by
  simp only [Den.optional, Den.or, Den.map, Den.pure]
  cases D b a <;> simp [Outcome.map]

/-- The loop of `sep_end_by1`. -/
def sepGo (p : Parser S σ α) (sep : Parser S τ β) (m : Bool) (c : Commit Unit) (els : List α)
    (i : S.Input) (child : SepSt σ τ (Option α)) :
    Out S (Option (Commit Unit) × List α × SepSt σ τ (Option α)) (List α) :=
  let r := iterExtend («with» (boxed sep) (optional (boxed p))) id (S.size i + 2) none els (IterS.new m i child)
  let one := if r.2.committed then some (.commit ()) else some c
  let x := r.2.intoResultFast r.1
  ⟨ParseResult.combineCommit c fun _ => x.1, r.2.inp, (if x.1.isOk then none else one, x.2, r.2.st)⟩

theorem sepEndBy1_run (p : Parser S σ α) (sep : Parser S τ β) (m : Bool) (i : S.Input)
    (s : Option (Commit Unit) × List α × SepSt σ τ (Option α)) : (sepEndBy1 p sep).run m i s =
    (match s.1 with
      | some c => sepGo p sep m c s.2.1 i s.2.2
      | none =>
        match (p.run m i s.2.2.tail.1.2).res with
        | .commitOk v => sepGo p sep m (.commit ()) (s.2.1 ++ [v]) (p.run m i s.2.2.tail.1.2).inp
            (SepSt.setB s.2.2 (p.run m i s.2.2.tail.1.2).st)
        | .peekOk v => sepGo p sep m (.peek ()) (s.2.1 ++ [v]) (p.run m i s.2.2.tail.1.2).inp
            (SepSt.setB s.2.2 (p.run m i s.2.2.tail.1.2).st)
        | .commitErr e => ⟨.commitErr e, (p.run m i s.2.2.tail.1.2).inp,
            (none, s.2.1, SepSt.setB s.2.2 (p.run m i s.2.2.tail.1.2).st)⟩
        | .peekErr e => ⟨.peekErr e, (p.run m i s.2.2.tail.1.2).inp,
            (none, s.2.1, SepSt.setB s.2.2 (p.run m i s.2.2.tail.1.2).st)⟩
        | .abort a => ⟨.abort a, (p.run m i s.2.2.tail.1.2).inp,
            (none, s.2.1, SepSt.setB s.2.2 (p.run m i s.2.2.tail.1.2).st)⟩) := rfl

/-- What the loop of `sep_end_by1` does. -/
def GoStep (L : Den S.Tok (Option α)) (ReadyW : γ → Prop) (RepW : γ → List S.Tok → List S.Tok → Prop) (w : List S.Tok)
    (H : Prop) (c : Commit Unit) (els : List α) (i : S.Input) (W : Outcome S.Tok (List α))
    (o : Out S (Option (Commit Unit) × List α × γ) (List α)) : Prop :=
  match W with
  | .ok d vs l' => ∃ d', o.res = okRes d' (els ++ vs) ∧ (w = [] → d' = (decide (c = .commit ()) || d)) ∧
      S.Reach i o.inp ∧ S.left o.inp = l' ∧ o.st.1 = none ∧ o.st.2.1 = [] ∧ ReadyW o.st.2.2
  | .pend => ∃ e x vs w₂ c', o.res = .commitErr e ∧ S.E.isEoi e = true ∧ S.Reads i x o.inp ∧ o.st.1 = some c' ∧
      o.st.2.1 = els ++ vs ∧ Den.Runs L id (w ++ x ++ S.left o.inp) vs (w₂ ++ S.left o.inp) ∧
      RepW o.st.2.2 w₂ (S.left o.inp) ∧ (w = [] → x = [] → c' = c)
  | .soft => False
  | .hard => H → ∃ e, o.res = .commitErr e

theorem sepGo_step {p : Parser S σ α} {sep : Parser S τ β} {L : Den S.Tok (Option α)} {A : SepSt σ τ (Option α) → Prop}
    {RepW : SepSt σ τ (Option α) → List S.Tok → List S.Tok → Prop} {w : List S.Tok} {m : Bool} {H : Prop} {c : Commit Unit}
    {els : List α} {i : S.Input} {child : SepSt σ τ (Option α)} {W : Outcome S.Tok (List α)}
    (h : IterStep H L id W A RepW none w els (IterS.new m i child)
      (iterExtend («with» (boxed sep) (optional (boxed p))) id (S.size i + 2) none els (IterS.new m i child))) :
    GoStep L A RepW w H c els i W (sepGo p sep m c els i child) := by
  unfold sepGo
  generalize iterExtend («with» (boxed sep) (optional (boxed p))) id (S.size i + 2) none els (IterS.new m i child) = q at h
  simp only [IterS.new] at h
  cases W with
  | ok d vs l' =>
    obtain ⟨g1, g2, g3, g4, g5, g6⟩ := h
    simp only [intoResultFast_ok g1, g4]
    refine ⟨decide (c = .commit ()) || q.2.committed, ?_, fun hw => by rw [g5 hw]; simp, g2, g3, by simp [okRes_isOk], rfl, g6⟩
    cases c <;> cases q.2.committed <;> rfl
  | pend =>
    obtain ⟨e, x, vs, w₂, g1, g2, g3, g4, g5, g6, _, g8⟩ := h
    simp only [intoResultFast_err g1]
    refine ⟨e, x, vs, w₂, (if q.2.committed then .commit () else c), ?_, g2, g3, ?_, g4, g5, g6, fun hw hx => ?_⟩
    · cases c <;> rfl
    · simp only [ParseResult.isOk]
      cases q.2.committed <;> rfl
    · rw [g8 hw hx]; rfl
  | soft => exact h.elim
  | hard =>
    intro hm
    obtain ⟨e, he⟩ := h hm
    simp only [intoResultFast_err he]
    exact ⟨e, by cases c <;> rfl⟩

/-- States of `sep_end_by1` in which it can start anew. -/
def SepReady (Ready : σ → Prop) (RdyS : τ → Prop) (s : Option (Commit Unit) × List α × SepSt σ τ (Option α)) : Prop :=
  s.1 = none ∧ s.2.1 = [] ∧ PairReady RdyS Ready s.2.2

/-- States of `sep_end_by1` in which `w` was absorbed. -/
def SepRep (D : Den S.Tok α) (E : Den S.Tok β) (Ready : σ → Prop) (Rep : σ → List S.Tok → List S.Tok → Prop)
    (RdyS : τ → Prop) (RepS : τ → List S.Tok → List S.Tok → Prop)
    (s : Option (Commit Unit) × List α × SepSt σ τ (Option α)) (w u : List S.Tok) : Prop :=
  (s.1 = none ∧ s.2.1 = [] ∧ PairReady RdyS (fun t => Rep t w u) s.2.2) ∨
    ∃ c v vs w₂ c' r, s.1 = some c ∧ s.2.1 = v :: vs ∧ D true (w ++ u) = .ok c' v r ∧
      Den.Runs (Den.sepEnd D E) id r vs (w₂ ++ u) ∧
      PairRep (E.map fun _ => ()) D.optional true RdyS RepS Ready Rep s.2.2 w₂ u ∧ (w = [] → c = .peek ())

theorem resumes_sepEndBy1 (hF : S.Feedable) {live : Bool} {p : Parser S σ α} {sep : Parser S τ β} {D : Den S.Tok α}
    {E : Den S.Tok β} {rs : Bool} {Ready : σ → Prop} {Rep : σ → List S.Tok → List S.Tok → Prop}
    {RdyS : τ → Prop} {RepS : τ → List S.Tok → List S.Tok → Prop} (h : Resumes live p D true true Ready Rep)
    (hs : Resumes live sep E true rs RdyS RepS) (hc : E.Consuming) :
    Resumes live (sepEndBy1 p sep) (Den.sepEndBy1 D E) rs true (SepReady Ready RdyS) (SepRep D E Ready Rep RdyS RepS) := by
  have hS := hF.lawful
  have hbox : Resumes live (boxed p) D true true Ready Rep := h.same rfl (committed_ofMode hS _ _ _ _ _) fun _ _ _ => rfl
  have hboxs : Resumes live (boxed sep) E true rs RdyS RepS := hs.same rfl (committed_ofMode hS _ _ _ _ _) fun _ _ _ => rfl
  have hW : Resumes live («with» (boxed sep) (optional (boxed p))) (Den.sepEnd D E) true rs (PairReady RdyS Ready)
      (PairRep (E.map fun _ => ()) D.optional true RdyS RepS Ready Rep) :=
    resumes_with hF hboxs (resumes_optional hF hbox) fun e => ⟨e, fun b a _ _ h => absurd h (Den.optional_soft b a)⟩
  have hcW : (Den.sepEnd D E).Consuming := Den.sepEnd_consuming h.good hc
  -- the loop, anew
  have go : ∀ (m : Bool) (c : Commit Unit) (els : List α) (i : S.Input) (child : SepSt σ τ (Option α)),
      S.isPartial i = live → PairReady RdyS Ready child →
      GoStep (Den.sepEnd D E) (When rs (PairReady RdyS Ready)) (PairRep (E.map fun _ => ()) D.optional true RdyS RepS Ready Rep) []
        True c els i (Den.loop (Den.sepEnd D E) id none (S.isPartial i) (S.left i)) (sepGo p sep m c els i child) := by
    intro m c els i child hL hr
    apply sepGo_step
    have hsz := hS.size_left i
    exact iter_first hF hW True id (S.size i + 2) (fun _ => hcW) (it := IterS.new m i child) rfl hL hr
      (by simp only [Den.Enough, IterS.new]; omega)
  -- the first element and the rest
  have run : ∀ (w : List S.Tok) (m : Bool) (i : S.Input) (child : SepSt σ τ (Option α)), S.isPartial i = live →
      PairReady RdyS (fun _ => True) child →
      Step (D (S.isPartial i) (w ++ S.left i)) (When true Ready) (When true Ready) Rep w i (p.run m i child.tail.1.2) →
      Step (Den.sepEndBy1 D E (S.isPartial i) (w ++ S.left i)) (When rs (SepReady Ready RdyS)) (When true (SepReady Ready RdyS))
        (SepRep D E Ready Rep RdyS RepS) w i ((sepEndBy1 p sep).run m i (none, [], child)) := by
    rintro w m i child hL ⟨hc1, hc2, hc3, _, _⟩ hst
    rw [sepEndBy1_run]
    simp only [List.nil_append]
    generalize p.run m i child.tail.1.2 = o at hst
    cases hd : D (S.isPartial i) (w ++ S.left i) with
    | ok c v l =>
      rw [hd] at hst
      simp only [Den.sepEndBy1_eq, Den.bind, hd, Den.map]
      obtain ⟨⟨c', h1, h2⟩, ⟨y, hy⟩, h4, h5⟩ := hst
      have rest : Step (((Den.loop (Den.sepEnd D E) id none (S.isPartial i) l).map (v :: ·)).after c)
          (When rs (SepReady Ready RdyS)) (When true (SepReady Ready RdyS)) (SepRep D E Ready Rep RdyS RepS) w i
          (sepGo p sep m (if c' then .commit () else .peek ()) [v] o.inp (SepSt.setB child o.st)) := by
        have hg := go m (if c' then .commit () else .peek ()) [v] o.inp (SepSt.setB child o.st)
          ((hS.reach_isPartial ⟨y, hy⟩).trans hL) ⟨hc1, hc2, hc3, h5 rfl, trivial⟩
        generalize sepGo p sep m (if c' then .commit () else .peek ()) [v] o.inp (SepSt.setB child o.st) = q at hg
        rw [hS.reach_isPartial ⟨y, hy⟩, h4] at hg
        cases hlo : Den.loop (Den.sepEnd D E) id none (S.isPartial i) l with
        | ok d vs l' =>
          rw [hlo] at hg
          obtain ⟨d', g1, g2, g3, g4, g5, g6, g7⟩ := hg
          refine ⟨⟨d', g1, fun hw => ?_⟩, Strm.Reach.trans ⟨y, hy⟩ g3, g4, fun hr => ⟨g5, g6, g7 hr⟩⟩
          rw [g2 rfl, ← h2 hw]
          cases c' <;> rfl
        | pend =>
          rw [hlo] at hg
          obtain ⟨e, x, vs, w₂, c'', g1, g2, g3, g4, g5, g6, g7, g8⟩ := hg
          have hb : S.isPartial i = true := by
            cases hb : S.isPartial i with
            | true => rfl
            | false => rw [hb] at hlo; exact absurd hlo ((hW.good.loop id fun _ => hcW).complete _)
          refine ⟨e, y ++ x, g1, g2, hy.trans g3, .inr ⟨c'', v, vs, w₂, c, l, g4, g5, ?_, ?_, g7, ?_⟩⟩
          · rw [hb] at hd
            rw [← hd, hS.left_reads hy, hS.left_reads g3]
            simp
          · have e2 := hS.left_reads g3
            rw [h4] at e2
            rw [e2]
            simpa using g6
          · intro hw
            obtain ⟨hw, hyx⟩ := List.append_eq_nil_iff.1 hw
            obtain ⟨hy0, hx0⟩ := List.append_eq_nil_iff.1 hyx
            rw [g8 rfl hx0, h2 hw]
            subst hw hy0
            obtain ⟨z, e1, e2⟩ := h.good.read hd
            have e3 := hS.left_reads hy
            rw [h4] at e3
            simp only [List.nil_append] at e1 e3
            rw [e3] at e1
            have hz : z = [] := by simpa using e1
            rw [e2, hz]
            rfl
        | soft => exact absurd hlo (Den.loop_soft _ _ _ _)
        | hard => trivial
      cases c' with
      | true => simp only [h1, okRes_true]; exact rest
      | false => simp only [h1, okRes_false]; exact rest
    | pend =>
      rw [hd] at hst
      simp only [Den.sepEndBy1_eq, Den.bind, hd]
      obtain ⟨e, x, h1, h2, h3, h4⟩ := hst
      simp only [h1]
      exact ⟨e, x, rfl, h2, h3, .inl ⟨rfl, rfl, hc1, hc2, hc3, h4, trivial⟩⟩
    | soft =>
      rw [hd] at hst
      simp only [Den.sepEndBy1_eq, Den.bind, hd]
      obtain ⟨hw, ⟨e, h1⟩, h2, h3⟩ := hst
      simp only [h1]
      exact ⟨hw, ⟨e, rfl⟩, h2, fun hr => ⟨rfl, rfl, hc1, hc2, hc3, h3 rfl, trivial⟩⟩
    | hard =>
      simp only [Den.sepEndBy1_eq, Den.bind, hd]
      trivial
  constructor
  · exact h.good.sepEndBy1 hs.good hc
  · exact ⟨rfl, rfl, rfl, hs.ready_init, rfl, h.ready_init, trivial⟩
  · rintro s ⟨h1, h2, h3, h4, h5, h6, h7⟩
    exact .inl ⟨h1, h2, h3, h4, h5, h.ready_rep h6, h7⟩
  · rintro s w u hr hw b x
    rcases hr with ⟨_, _, _, _, _, hr, _⟩ | ⟨c, v, vs, w₂, c', r, _, _, hd, hr, hrep, _⟩
    · have hf := h.firm hr hw b x
      simp only [Den.sepEndBy1_eq, Den.bind]
      cases hd : D b (w ++ (u ++ x)) with
      | ok c v r =>
        rw [hd] at hf
        cases c with
        | false => exact absurd rfl (hf.2 v r)
        | true => exact Outcome.Firm.after_true _
      | soft => exact absurd hd hf.1
      | pend => simp [Outcome.Firm]
      | hard => simp [Outcome.Firm]
    · have hd' := h.good.stable_ok hd b x
      rw [List.append_assoc] at hd'
      simp only [Den.sepEndBy1_eq, Den.bind, hd']
      cases c' with
      | true => exact Outcome.Firm.after_true _
      | false =>
        obtain ⟨z, e1, e2⟩ := h.good.read hd
        have hz : z = [] := by cases z with
          | nil => rfl
          | cons _ _ => cases e2
        subst hz
        simp only [List.nil_append] at e1
        subst e1
        rw [List.append_assoc]
        exact ((hr.firm hW.good (fun _ => hcW) (by simp) hw b x fun hw2 => hW.firm hrep hw2 b x).map _).after _
  · exact committed_ofMode hS _ _ _ _ _
  · rintro ⟨one, els, child⟩ i hL ⟨h1, h2, h3, h4, h5, h6, h7⟩
    simp only at h1 h2 h3 h4 h5 h6
    subst h1 h2
    exact run [] true i child hL ⟨h3, h4, h5, trivial, trivial⟩ (h.first i hL h6)
  · rintro ⟨one, els, child⟩ m i hL ⟨h1, h2, h3, h4, h5, h6, h7⟩ hh
    simp only at h1 h2 h3 h4 h5 h6
    subst h1 h2
    have hst := h.start m i hL h6
    have hhd := h.first_hard m i hL h6
    rw [sepEndBy1_run]
    simp only [List.nil_append]
    generalize p.run m i child.tail.1.2 = o at hst hhd
    cases hd : D (S.isPartial i) (S.left i) with
    | ok c v l =>
      simp only [Den.sepEndBy1_eq, Den.bind, hd, Den.map] at hh
      rw [hd] at hst
      obtain ⟨⟨c', h1, h2⟩, hre, h8, h9⟩ := hst
      have rest : ∀ c, ∃ e, (sepGo p sep m c [v] o.inp (SepSt.setB child o.st)).res = .commitErr e := by
        intro c
        have hg := go m c [v] o.inp (SepSt.setB child o.st)
          ((hS.reach_isPartial hre).trans hL) ⟨h3, h4, h5, h9 rfl, trivial⟩
        rw [hS.reach_isPartial hre, h8] at hg
        cases hlo : Den.loop (Den.sepEnd D E) id none (S.isPartial i) l with
        | hard => rw [hlo] at hg; exact hg trivial
        | soft => exact absurd hlo (Den.loop_soft _ _ _ _)
        | _ => rw [hlo] at hh; cases hh
      cases c' with
      | true => simp only [h1, okRes_true]; exact rest _
      | false => simp only [h1, okRes_false]; exact rest _
    | hard =>
      obtain ⟨e, he⟩ := hhd hd
      simp only [he]
      exact ⟨e, rfl⟩
    | soft => simp only [Den.sepEndBy1_eq, Den.bind, hd] at hh; cases hh
    | pend => simp only [Den.sepEndBy1_eq, Den.bind, hd] at hh; cases hh
  · rintro ⟨one, els, child⟩ w u i hL hr hu
    rcases hr with ⟨h1, h2, h3, h4, h5, h6, h7⟩ | ⟨c, v, vs, w₂, c', r, h1, h2, hd, hr, hrep, hpk⟩
    · simp only at h1 h2 h3 h4 h5 h6
      subst h1 h2
      exact run w false i child hL ⟨h3, h4, h5, trivial, trivial⟩ (h.resume i hL h6 hu)
    · simp only at h1 h2 hrep
      subst h1 h2
      rw [sepEndBy1_run]
      dsimp only
      obtain ⟨x, hx⟩ := hu
      have hd' := h.good.stable_ok hd (S.isPartial i) x
      rw [List.append_assoc, hx] at hd'
      simp only [Den.sepEndBy1_eq, Den.bind, hd', Den.map]
      have hg := sepGo_step (c := c) (iter_resume hF hW id (S.size i + 1) (lim := none) (els := v :: vs) (it := IterS.new false i child)
        (fun _ => hcW) (by simp) rfl rfl hL hrep ⟨x, hx⟩
        (by have := hS.size_left i; simp only [Den.Enough, IterS.new, Option.map]; omega))
      change GoStep _ _ _ _ _ _ _ i _ _ at hg
      simp only [show (IterS.new false i child).inp = i from rfl] at hg
      have hlo := hr.loop hW.good (lim := none) (fun _ => hcW) (by simp) (S.isPartial i) x
      rw [List.append_assoc, hx] at hlo
      rw [hlo]
      have hb2 : w = [] → w₂ = [] ∧ c' = false ∧ (w₂ ++ u).length = r.length := by
        intro hw
        obtain ⟨z, e1, e2⟩ := h.good.read hd
        obtain ⟨z', e3⟩ := hr.read hW.good
        subst hw
        have := congrArg List.length e1
        have h3 := congrArg List.length e3
        simp only [List.nil_append, List.length_append] at this h3
        have hz : z = [] := List.length_eq_zero_iff.1 (by omega)
        have hw2 : w₂ = [] := List.length_eq_zero_iff.1 (by omega)
        subst hz hw2
        exact ⟨rfl, e2, by simp only [List.nil_append]; simp only [List.length_nil] at this h3; omega⟩
      generalize sepGo p sep false c (v :: vs) i child = q at hg
      simp only [Option.map_none]
      cases hl2 : Den.loop (Den.sepEnd D E) id none (S.isPartial i) (w₂ ++ S.left i) with
      | ok d ys l' =>
        rw [hl2] at hg
        obtain ⟨d', g1, g2, g3, g4, g5, g6, g7⟩ := hg
        refine ⟨⟨d', g1, fun hw => ?_⟩, g3, g4, fun hr => ⟨g5, g6, g7 hr⟩⟩
        obtain ⟨f1, f2, f3⟩ := hb2 hw
        rw [g2 f1, hpk hw, f2, f3]
        simp
      | pend =>
        rw [hl2] at hg
        obtain ⟨e, y, ys, w₃, c'', g1, g2, g3, g4, g5, g6, g7, g8⟩ := hg
        refine ⟨e, y, g1, g2, g3, .inr ⟨c'', v, vs ++ ys, w₃, c', r ++ x, g4, g5, ?_, ?_, g7, ?_⟩⟩
        · have := h.good.stable_ok hd true x
          rw [List.append_assoc, hx, hS.left_reads g3] at this
          simpa using this
        · have := hr.extend hW.good x
          rw [List.append_assoc, hx, hS.left_reads g3] at this
          refine this.append ?_
          simpa using g6
        · intro hw
          obtain ⟨hw, hy0⟩ := List.append_eq_nil_iff.1 hw
          rw [g8 (hb2 hw).1 hy0]
          exact hpk hw
      | soft => exact absurd hl2 (Den.loop_soft _ _ _ _)
      | hard => trivial

theorem resumable_sepEndBy1 (hF : S.Feedable) {p : Parser S σ α} {sep : Parser S τ β} {D : Den S.Tok α}
    {E : Den S.Tok β} {rs : Bool} (h : Resumable p D true true) (hs : Resumable sep E true rs) (hc : E.Consuming) :
    Resumable (sepEndBy1 p sep) (Den.sepEndBy1 D E) rs true := by
  obtain ⟨Ready, Rep, h, m1, m2⟩ := h
  obtain ⟨RdyS, RepS, hs, s1, s2⟩ := hs
  refine ⟨_, _, fun live => resumes_sepEndBy1 hF (h live) (hs live) hc, ?_, ?_⟩
  · rintro s ⟨h1, h2, h3, h4, h5, h6, h7⟩
    exact ⟨h1, h2, h3, s1 _ h4, h5, m1 _ h6, h7⟩
  · rintro s w u (⟨h1, h2, h3, h4, h5, h6, h7⟩ | ⟨c, v, vs, w₂, c', r, h1, h2, hd, hr, hrep, hpk⟩)
    · exact .inl ⟨h1, h2, h3, s1 _ h4, h5, m2 _ _ _ h6, h7⟩
    · exact .inr ⟨c, v, vs, w₂, c', r, h1, h2, hd, hr, hrep.mono s1 s2 m1 m2, hpk⟩

end Verif
