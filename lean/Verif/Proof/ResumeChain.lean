import Verif.Proof.ResumeSep

/-!
# `chainl1` can be resumed
-/

namespace Verif

variable {S : Strm} {σ τ υ α β γ : Type}

/-- Combine from the left. -/
def combine (l : α) (vs : List ((α → α → α) × α × Unit)) : α := vs.foldl (fun l v => v.1 l v.2.1) l

/-- An operator and an operand. -/
abbrev Den.opd {T : Type} (D : Den T α) (E : Den T (α → α → α)) : Den T ((α → α → α) × α × Unit) :=
  E.seq (D.seq (Den.pure ()))

theorem Den.opd_eq {T : Type} (D : Den T α) (E : Den T (α → α → α)) (b : Bool) (a : List T) : Den.opd D E b a =
    (match E b a with
    | .ok c op r =>
      match D b r with
      | .ok c' x r' => .ok (c || c') (op, x, ()) r'
      | .pend => .pend
      | .soft => if c then .hard else .soft
      | .hard => .hard
    | .pend => .pend
    | .soft => .soft
    | .hard => .hard) := by
  simp only [Den.opd, Den.seq, Den.bind, Den.map, Den.pure]
  cases E b a with
  | ok c op r =>
    simp only
    cases D b r <;> simp [Outcome.map, Outcome.after]
  | _ => rfl

theorem Den.opd_consuming {T : Type} {D : Den T α} {E : Den T (α → α → α)} (hD : D.Good) (hc : E.Consuming) :
    (Den.opd D E).Consuming := by
  intro b a c v r h
  rw [Den.opd_eq] at h
  cases he : E b a with
  | ok c' op z =>
    rw [he] at h
    have := hc _ _ _ _ _ he
    cases hd : D b z with
    | ok d x r' =>
      obtain ⟨y, rfl, _⟩ := hD.read hd
      simp only [hd, Outcome.ok.injEq] at h
      rw [← h.2.2]
      simp only [List.length_append] at this
      omega
    | soft => simp only [hd] at h; split at h <;> cases h
    | _ => simp only [hd] at h; cases h
  | _ => rw [he] at h; cases h

theorem Den.chainN_eq {T : Type} (D : Den T α) (E : Den T (α → α → α)) (n : Nat) (l : α) (b : Bool) (a : List T) :
    Den.chainN D E n l b a = (Den.loopN (Den.opd D E) some n none b a).map (combine l) := by
  induction n generalizing l a with
  | zero => rfl
  | succ n ih =>
    rw [Den.loopN_succ _ _ _ (by simp), Den.opd_eq]
    simp only [Den.chainN]
    cases E b a with
    | ok c op r =>
      simp only
      cases D b r with
      | ok c' x r' =>
        simp only [ih, Option.map_none]
        cases Den.loopN (Den.opd D E) some n none b r' with
        | soft => simp only [Outcome.map, Outcome.after]; split <;> rfl
        | _ => rfl
      | soft => cases c <;> rfl
      | _ => rfl
    | _ => rfl

theorem Den.chainl1_eq {T : Type} (D : Den T α) (E : Den T (α → α → α)) : Den.chainl1 D E =
    D.bind fun l => (Den.loop (Den.opd D E) some none).map (combine l) := by
  simp only [Den.chainl1, Den.chainN_eq]
  rfl

/-- What the loop of `chainl1` does. -/
def ChainStep (L : Den S.Tok ((α → α → α) × α × Unit)) (A : γ → Prop) (RepW : γ → List S.Tok → List S.Tok → Prop)
    (w : List S.Tok) (H : Prop) (l : α) (c : Commit Unit) (i : S.Input)
    (W : Outcome S.Tok (List ((α → α → α) × α × Unit))) (o : Out S (Option (α × Commit Unit) × γ) α) : Prop :=
  match W with
  | .ok d vs r => ∃ d', o.res = okRes d' (combine l vs) ∧ (w = [] → d' = (decide (c = .commit ()) || d)) ∧
      S.Reach i o.inp ∧ S.left o.inp = r ∧ o.st.1 = none ∧ A o.st.2
  | .pend => ∃ e x vs w₂ c', o.res = .commitErr e ∧ S.E.isEoi e = true ∧ S.Reads i x o.inp ∧
      o.st.1 = some (combine l vs, c') ∧ Den.Runs L some (w ++ x ++ S.left o.inp) vs (w₂ ++ S.left o.inp) ∧
      RepW o.st.2 w₂ (S.left o.inp) ∧ (w = [] → x = [] → c' = c)
  | .soft => False
  | .hard => H → ∃ e, o.res = .commitErr e

/-- One iteration and then the rest of the loop. -/
theorem chain_step (hF : S.Feedable) {live : Bool} {t : Parser S γ ((α → α → α) × α × Unit)}
    {L : Den S.Tok ((α → α → α) × α × Unit)} {r : Bool} {Ready : γ → Prop}
    {Rep : γ → List S.Tok → List S.Tok → Prop} (h : Resumes live t L true r Ready Rep) (hl : L.Consuming)
    {w : List S.Tok} {m : Bool} {l : α} {c : Commit Unit} {i : S.Input} {s : γ} {n : Nat}
    (hst : Step (L (S.isPartial i) (w ++ S.left i)) (When true Ready) (When r Ready) Rep w i (t.run m i s))
    {H : Prop} (hh : H → L (S.isPartial i) (w ++ S.left i) = .hard → ∃ e, (t.run m i s).res = .commitErr e)
    (rest : ∀ l' c' i' s', S.Reach i i' → Ready s' →
      (∀ d v, L (S.isPartial i) (w ++ S.left i) = .ok d v (S.left i') →
      ChainStep L (When r Ready) Rep [] H l' c' i' (Den.loop L some none (S.isPartial i') (S.left i'))
        (chainl1Loop t n true l' c' i' s'))) :
    ChainStep L (When r Ready) Rep w H l c i (Den.loop L some none (S.isPartial i) (w ++ S.left i))
      (chainl1Loop t (n + 1) m l c i s) := by
  have hS := hF.lawful
  rw [Den.loop_eq some (fun _ => hl) (by simp)]
  simp only [chainl1Loop]
  generalize t.run m i s = o at hst hh
  cases hd : L (S.isPartial i) (w ++ S.left i) with
  | ok d v z =>
    rw [hd] at hst rest
    obtain ⟨⟨d', h1, h2⟩, ⟨y, hy⟩, h4, h5⟩ := hst
    obtain ⟨op, x, u⟩ := v
    have hg := rest (op l x) (c.merge (if d' then .commit () else .peek ())) o.inp o.st ⟨y, hy⟩ (h5 rfl) d (op, x, u) (by rw [h4])
    have hrun : o.res.toStd = .ok (op, x, u) (if d' then .commit () else .peek ()) := by
      rw [h1]
      cases d' <;> rfl
    simp only [hrun]
    generalize chainl1Loop t n true (op l x) (c.merge (if d' then .commit () else .peek ())) o.inp o.st = q at hg
    rw [hS.reach_isPartial ⟨y, hy⟩, h4] at hg
    simp only [Option.map_none]
    cases hlo : Den.loop L some none (S.isPartial i) z with
    | ok d2 vs l' =>
      rw [hlo] at hg
      obtain ⟨e', g1, g2, g3, g4, g5, g6⟩ := hg
      refine ⟨e', g1, fun hw => ?_, Strm.Reach.trans ⟨y, hy⟩ g3, g4, g5, g6⟩
      rw [g2 rfl, ← h2 hw]
      cases c <;> cases d' <;> cases d2 <;> rfl
    | pend =>
      rw [hlo] at hg
      obtain ⟨e, x', vs, w₂, c', g1, g2, g3, g4, g5, g6, g7⟩ := hg
      have hb : S.isPartial i = true := by
        cases hb : S.isPartial i with
        | true => rfl
        | false =>
          rw [hb] at hlo
          exact absurd hlo ((h.good.loop some fun _ => hl).complete _)
      refine ⟨e, y ++ x', (op, x, u) :: vs, w₂, c', g1, g2, hy.trans g3, g4, ?_, g6, fun hw hx => ?_⟩
      · refine .cons (c := d) (v := (op, x, u)) (r := z) ?_ rfl ?_
        · rw [hb] at hd
          rw [← hd, hS.left_reads hy, hS.left_reads g3]
          simp
        · have e2 := hS.left_reads g3
          rw [h4] at e2
          rw [e2]
          simpa using g5
      · obtain ⟨hy0, hx0⟩ := List.append_eq_nil_iff.1 hx
        subst hw hy0
        have := hl _ _ _ _ _ hd
        have e1 := hS.left_reads hy
        rw [h4] at e1
        simp only [List.nil_append] at this e1
        rw [e1] at this
        omega
    | soft => exact absurd hlo (Den.loop_soft _ _ _ _)
    | hard =>
      rw [hlo] at hg
      exact hg
  | pend =>
    rw [hd] at hst
    obtain ⟨e, x, h1, h2, h3, h4⟩ := hst
    simp only [h1, ParseResult.toStd]
    exact ⟨e, x, [], w ++ x, c, rfl, h2, h3, rfl, .nil _, h4, fun _ _ => rfl⟩
  | soft =>
    rw [hd] at hst
    obtain ⟨hw, ⟨e, h1⟩, h2, h3⟩ := hst
    simp only [h1, ParseResult.toStd]
    rw [hS.tryReset_eq h2]
    refine ⟨decide (c = .commit ()), ?_, fun _ => by simp, .refl i, by rw [hw]; rfl, rfl, h3⟩
    cases c <;> rfl
  | hard =>
    intro hH
    obtain ⟨e, he⟩ := hh hH hd
    simp only [he, ParseResult.toStd]
    exact ⟨_, rfl⟩

theorem chain_first (hF : S.Feedable) {live : Bool} {t : Parser S γ ((α → α → α) × α × Unit)}
    {L : Den S.Tok ((α → α → α) × α × Unit)} {r : Bool} {Ready : γ → Prop}
    {Rep : γ → List S.Tok → List S.Tok → Prop} (h : Resumes live t L true r Ready Rep) (hl : L.Consuming) (H : Prop)
    (n : Nat) : ∀ {m : Bool} {l : α} {c : Commit Unit} {i : S.Input} {s : γ}, S.isPartial i = live → Ready s →
    (S.left i).length < n →
    ChainStep L (When r Ready) Rep [] H l c i (Den.loop L some none (S.isPartial i) (S.left i)) (chainl1Loop t n m l c i s) := by
  induction n with
  | zero => intro m l c i s _ _ hn; omega
  | succ n ih =>
    intro m l c i s hL hs hn
    refine chain_step hF h hl (w := []) (h.start _ i hL hs) (fun _ hd => h.first_hard _ i hL hs hd) ?_
    intro l' c' i' s' hre hs' d v hd
    refine ih ((hF.lawful.reach_isPartial hre).trans hL) hs' ?_
    have := hl _ _ _ _ _ hd
    simp only [List.nil_append] at this
    omega

theorem chain_resume (hF : S.Feedable) {live : Bool} {t : Parser S γ ((α → α → α) × α × Unit)}
    {L : Den S.Tok ((α → α → α) × α × Unit)} {r : Bool} {Ready : γ → Prop}
    {Rep : γ → List S.Tok → List S.Tok → Prop} (h : Resumes live t L true r Ready Rep) (hl : L.Consuming)
    {n : Nat} {l : α} {c : Commit Unit} {i : S.Input} {s : γ} {w u : List S.Tok} (hL : S.isPartial i = live) (hr : Rep s w u)
    (hu : u <+: S.left i) (hn : (S.left i).length < n) :
    ChainStep L (When r Ready) Rep w False l c i (Den.loop L some none (S.isPartial i) (w ++ S.left i))
      (chainl1Loop t (n + 1) false l c i s) := by
  refine chain_step hF h hl (h.resume i hL hr hu) (fun h => h.elim) ?_
  intro l' c' i' s' hre hs' d v hd
  refine chain_first hF h hl False n ((hF.lawful.reach_isPartial hre).trans hL) hs' ?_
  obtain ⟨x, hx⟩ := hre
  have := hF.lawful.left_reads hx
  rw [this] at hn
  simp only [List.length_append] at hn
  omega

/-! ## `chainl1` -/

theorem chainl1_run (p : Parser S σ α) (op : Parser S τ (α → α → α)) (m : Bool) (i : S.Input)
    (s : Option (α × Commit Unit) × ChainSt σ τ α) : (chainl1 p op).run m i s =
    (match s.1 with
      | some (l, c) => chainl1Loop (pair (boxed op) (boxed p)) (S.size i + 2) m l c i s.2
      | none =>
        match (p.run false i s.2.tail.1.2).res with
        | .commitOk v => chainl1Loop (pair (boxed op) (boxed p)) (S.size (p.run false i s.2.tail.1.2).inp + 2) true v (.commit ())
            (p.run false i s.2.tail.1.2).inp { s.2 with tail := ((s.2.tail.1.1, (p.run false i s.2.tail.1.2).st), ()) }
        | .peekOk v => chainl1Loop (pair (boxed op) (boxed p)) (S.size (p.run false i s.2.tail.1.2).inp + 2) true v (.peek ())
            (p.run false i s.2.tail.1.2).inp { s.2 with tail := ((s.2.tail.1.1, (p.run false i s.2.tail.1.2).st), ()) }
        | .commitErr e => ⟨.commitErr e, (p.run false i s.2.tail.1.2).inp,
            (none, { s.2 with tail := ((s.2.tail.1.1, (p.run false i s.2.tail.1.2).st), ()) })⟩
        | .peekErr e => ⟨.peekErr e, (p.run false i s.2.tail.1.2).inp,
            (none, { s.2 with tail := ((s.2.tail.1.1, (p.run false i s.2.tail.1.2).st), ()) })⟩
        | .abort a => ⟨.abort a, (p.run false i s.2.tail.1.2).inp,
            (none, { s.2 with tail := ((s.2.tail.1.1, (p.run false i s.2.tail.1.2).st), ()) })⟩) := rfl

/-- States of `chainl1` in which it can start anew. -/
def ChainReady (Ready : σ → Prop) (RdyO : τ → Prop) (s : Option (α × Commit Unit) × ChainSt σ τ α) : Prop :=
  s.1 = none ∧ PairReady RdyO Ready s.2

/-- States of `chainl1` in which `w` was absorbed. -/
def ChainRep (D : Den S.Tok α) (E : Den S.Tok (α → α → α)) (Ready : σ → Prop) (Rep : σ → List S.Tok → List S.Tok → Prop)
    (RdyO : τ → Prop) (RepO : τ → List S.Tok → List S.Tok → Prop)
    (s : Option (α × Commit Unit) × ChainSt σ τ α) (w u : List S.Tok) : Prop :=
  (s.1 = none ∧ PairReady RdyO (fun t => Rep t w u) s.2) ∨
    ∃ c v vs w₂ c' r, s.1 = some (combine v vs, c) ∧ D true (w ++ u) = .ok c' v r ∧
      Den.Runs (Den.opd D E) some r vs (w₂ ++ u) ∧
      PairRep E D true RdyO RepO Ready Rep s.2 w₂ u ∧ (w = [] → c = .peek ())

theorem Den.Good.chainl1 {T : Type} {D : Den T α} {E : Den T (α → α → α)} (hD : D.Good) (hE : E.Good) (hc : E.Consuming) :
    (Den.chainl1 D E).Good := by
  rw [Den.chainl1_eq]
  exact hD.bind fun _ => ((hE.bind fun _ => Den.Good.map (hD.bind fun _ => Den.Good.map (.pure ()) _) _).loop some
    fun _ => Den.opd_consuming hD hc).map _

theorem combine_append (l : α) (vs ws : List ((α → α → α) × α × Unit)) :
    combine l (vs ++ ws) = combine (combine l vs) ws := by
  simp [combine]

theorem resumes_chainl1 (hF : S.Feedable) {live : Bool} {p : Parser S σ α} {op : Parser S τ (α → α → α)} {D : Den S.Tok α}
    {E : Den S.Tok (α → α → α)} {rp ro : Bool} {Ready : σ → Prop} {Rep : σ → List S.Tok → List S.Tok → Prop}
    {RdyO : τ → Prop} {RepO : τ → List S.Tok → List S.Tok → Prop} (h : Resumes live p D true rp Ready Rep)
    (ho : Resumes live op E true ro RdyO RepO) (hc : E.Consuming) :
    Resumes live (chainl1 p op) (Den.chainl1 D E) ro rp (ChainReady Ready RdyO) (ChainRep D E Ready Rep RdyO RepO) := by
  have hS := hF.lawful
  have hbox : Resumes live (boxed p) D true rp Ready Rep := h.same rfl (committed_ofMode hS _ _ _ _ _) fun _ _ _ => rfl
  have hboxo : Resumes live (boxed op) E true ro RdyO RepO := ho.same rfl (committed_ofMode hS _ _ _ _ _) fun _ _ _ => rfl
  have hW : Resumes live (pair (boxed op) (boxed p)) (Den.opd D E) true ro (PairReady RdyO Ready)
      (PairRep E D true RdyO RepO Ready Rep) :=
    resumes_pair hF hboxo hbox fun e => ⟨e, fun b a _ h _ => by
      have := hc _ _ _ _ _ h
      omega⟩
  have hcW : (Den.opd D E).Consuming := Den.opd_consuming h.good hc
  -- the first operand and the rest
  have run : ∀ (w : List S.Tok) (m : Bool) (i : S.Input) (child : ChainSt σ τ α), S.isPartial i = live →
      PairReady RdyO (fun _ => True) child →
      Step (D (S.isPartial i) (w ++ S.left i)) (When true Ready) (When rp Ready) Rep w i (p.run false i child.tail.1.2) →
      Step (Den.chainl1 D E (S.isPartial i) (w ++ S.left i)) (When ro (ChainReady Ready RdyO)) (When rp (ChainReady Ready RdyO))
        (ChainRep D E Ready Rep RdyO RepO) w i ((chainl1 p op).run m i (none, child)) := by
    rintro w m i child hL ⟨hc1, hc2, hc3, _, _⟩ hst
    rw [chainl1_run]
    simp only
    generalize p.run false i child.tail.1.2 = o at hst
    cases hd : D (S.isPartial i) (w ++ S.left i) with
    | ok c v l =>
      rw [hd] at hst
      simp only [Den.chainl1_eq, Den.bind, hd, Den.map]
      obtain ⟨⟨c', h1, h2⟩, ⟨y, hy⟩, h4, h5⟩ := hst
      have rest : Step (((Den.loop (Den.opd D E) some none (S.isPartial i) l).map (combine v)).after c)
          (When ro (ChainReady Ready RdyO)) (When rp (ChainReady Ready RdyO)) (ChainRep D E Ready Rep RdyO RepO) w i
          (chainl1Loop (pair (boxed op) (boxed p)) (S.size o.inp + 2) true v (if c' then .commit () else .peek ()) o.inp
            { child with tail := ((child.tail.1.1, o.st), ()) }) := by
        have hg := chain_first hF hW hcW True (S.size o.inp + 2) (m := true) (l := v) (c := if c' then .commit () else .peek ())
          (i := o.inp) (s := { child with tail := ((child.tail.1.1, o.st), ()) })
          ((hS.reach_isPartial ⟨y, hy⟩).trans hL) ⟨hc1, hc2, hc3, h5 rfl, trivial⟩ (by have := hS.size_left o.inp; omega)
        generalize chainl1Loop (pair (boxed op) (boxed p)) (S.size o.inp + 2) true v (if c' then .commit () else .peek ()) o.inp
            { child with tail := ((child.tail.1.1, o.st), ()) } = q at hg
        rw [hS.reach_isPartial ⟨y, hy⟩, h4] at hg
        cases hlo : Den.loop (Den.opd D E) some none (S.isPartial i) l with
        | ok d vs l' =>
          rw [hlo] at hg
          obtain ⟨d', g1, g2, g3, g4, g5, g6⟩ := hg
          refine ⟨⟨d', g1, fun hw => ?_⟩, Strm.Reach.trans ⟨y, hy⟩ g3, g4, fun hr => ⟨g5, g6 hr⟩⟩
          rw [g2 rfl, ← h2 hw]
          cases c' <;> rfl
        | pend =>
          rw [hlo] at hg
          obtain ⟨e, x, vs, w₂, c'', g1, g2, g3, g4, g6, g7, g8⟩ := hg
          have hb : S.isPartial i = true := by
            cases hb : S.isPartial i with
            | true => rfl
            | false => rw [hb] at hlo; exact absurd hlo ((hW.good.loop some fun _ => hcW).complete _)
          refine ⟨e, y ++ x, g1, g2, hy.trans g3, .inr ⟨c'', v, vs, w₂, c, l, g4, ?_, ?_, g7, ?_⟩⟩
          · rw [hb] at hd
            rw [← hd, hS.left_reads hy, hS.left_reads g3]
            simp
          · have e2 := hS.left_reads g3
            rw [h4] at e2
            rw [e2]
            simpa using g6
          · intro hw
            obtain ⟨hw, hyx⟩ := List.append_eq_nil_iff.1 hw
            obtain ⟨hy0, hx0⟩ := List.append_eq_nil_iff.1 hyx
            rw [g8 rfl hx0, h2 hw]
            subst hw hy0
            obtain ⟨z, e1, e2⟩ := h.good.read hd
            have e3 := hS.left_reads hy
            rw [h4] at e3
            simp only [List.nil_append] at e1 e3
            rw [e3] at e1
            have hz : z = [] := by simpa using e1
            rw [e2, hz]
            rfl
        | soft => exact absurd hlo (Den.loop_soft _ _ _ _)
        | hard => trivial
      cases c' with
      | true => simp only [h1, okRes_true]; exact rest
      | false => simp only [h1, okRes_false]; exact rest
    | pend =>
      rw [hd] at hst
      simp only [Den.chainl1_eq, Den.bind, hd]
      obtain ⟨e, x, h1, h2, h3, h4⟩ := hst
      simp only [h1]
      exact ⟨e, x, rfl, h2, h3, .inl ⟨rfl, hc1, hc2, hc3, h4, trivial⟩⟩
    | soft =>
      rw [hd] at hst
      simp only [Den.chainl1_eq, Den.bind, hd]
      obtain ⟨hw, ⟨e, h1⟩, h2, h3⟩ := hst
      simp only [h1]
      exact ⟨hw, ⟨e, rfl⟩, h2, fun hr => ⟨rfl, hc1, hc2, hc3, h3 hr, trivial⟩⟩
    | hard =>
      simp only [Den.chainl1_eq, Den.bind, hd]
      trivial
  constructor
  · exact h.good.chainl1 ho.good hc
  · exact ⟨rfl, rfl, ho.ready_init, rfl, h.ready_init, trivial⟩
  · rintro s ⟨h1, h3, h4, h5, h6, h7⟩
    exact .inl ⟨h1, h3, h4, h5, h.ready_rep h6, h7⟩
  · rintro s w u hr hw b x
    rcases hr with ⟨_, _, _, _, hr, _⟩ | ⟨c, v, vs, w₂, c', r, _, hd, hr, hrep, _⟩
    · have hf := h.firm hr hw b x
      simp only [Den.chainl1_eq, Den.bind]
      cases hd : D b (w ++ (u ++ x)) with
      | ok c v r =>
        rw [hd] at hf
        cases c with
        | false => exact absurd rfl (hf.2 v r)
        | true => exact Outcome.Firm.after_true _
      | soft => exact absurd hd hf.1
      | pend => simp [Outcome.Firm]
      | hard => simp [Outcome.Firm]
    · have hd' := h.good.stable_ok hd b x
      rw [List.append_assoc] at hd'
      simp only [Den.chainl1_eq, Den.bind, hd']
      cases c' with
      | true => exact Outcome.Firm.after_true _
      | false =>
        obtain ⟨z, e1, e2⟩ := h.good.read hd
        have hz : z = [] := by cases z with
          | nil => rfl
          | cons _ _ => cases e2
        subst hz
        simp only [List.nil_append] at e1
        subst e1
        rw [List.append_assoc]
        exact ((hr.firm hW.good (fun _ => hcW) (by simp) hw b x fun hw2 => hW.firm hrep hw2 b x).map _).after _
  · exact committed_ofMode hS _ _ _ _ _
  · rintro ⟨one, child⟩ i hL ⟨h1, h3, h4, h5, h6, h7⟩
    simp only at h1 h3 h4 h5 h6
    subst h1
    exact run [] true i child hL ⟨h3, h4, h5, trivial, trivial⟩ (h.start false i hL h6)
  · rintro ⟨one, child⟩ m i hL ⟨h1, h3, h4, h5, h6, h7⟩ hh
    simp only at h1 h3 h4 h5 h6
    subst h1
    have hst := h.start false i hL h6
    have hhd := h.first_hard false i hL h6
    rw [chainl1_run]
    simp only
    generalize p.run false i child.tail.1.2 = o at hst hhd
    cases hd : D (S.isPartial i) (S.left i) with
    | ok c v l =>
      simp only [Den.chainl1_eq, Den.bind, hd, Den.map] at hh
      rw [hd] at hst
      obtain ⟨⟨c', h1, h2⟩, hre, h8, h9⟩ := hst
      have rest : ∀ c, ∃ e, (chainl1Loop (pair (boxed op) (boxed p)) (S.size o.inp + 2) true v c o.inp
          { child with tail := ((child.tail.1.1, o.st), ()) }).res = .commitErr e := by
        intro c
        have hg := chain_first hF hW hcW True (S.size o.inp + 2) (m := true) (l := v) (c := c)
          (i := o.inp) (s := { child with tail := ((child.tail.1.1, o.st), ()) })
          ((hS.reach_isPartial hre).trans hL) ⟨h3, h4, h5, h9 rfl, trivial⟩ (by have := hS.size_left o.inp; omega)
        rw [hS.reach_isPartial hre, h8] at hg
        cases hlo : Den.loop (Den.opd D E) some none (S.isPartial i) l with
        | hard => rw [hlo] at hg; exact hg trivial
        | soft => exact absurd hlo (Den.loop_soft _ _ _ _)
        | _ => rw [hlo] at hh; cases hh
      cases c' with
      | true => simp only [h1, okRes_true]; exact rest _
      | false => simp only [h1, okRes_false]; exact rest _
    | hard =>
      obtain ⟨e, he⟩ := hhd hd
      simp only [he]
      exact ⟨e, rfl⟩
    | soft => simp only [Den.chainl1_eq, Den.bind, hd] at hh; cases hh
    | pend => simp only [Den.chainl1_eq, Den.bind, hd] at hh; cases hh
  · rintro ⟨one, child⟩ w u i hL hr hu
    rcases hr with ⟨h1, h3, h4, h5, h6, h7⟩ | ⟨c, v, vs, w₂, c', r, h1, hd, hr, hrep, hpk⟩
    · simp only at h1 h3 h4 h5 h6
      subst h1
      exact run w false i child hL ⟨h3, h4, h5, trivial, trivial⟩ (h.resume i hL h6 hu)
    · simp only at h1 hrep
      subst h1
      rw [chainl1_run]
      dsimp only
      obtain ⟨x, hx⟩ := hu
      have hd' := h.good.stable_ok hd (S.isPartial i) x
      rw [List.append_assoc, hx] at hd'
      simp only [Den.chainl1_eq, Den.bind, hd', Den.map]
      have hg := chain_resume hF hW hcW (n := S.size i + 1) (l := combine v vs) (c := c) hL hrep ⟨x, hx⟩
        (by have := hS.size_left i; omega)
      have hlo := hr.loop hW.good (lim := none) (fun _ => hcW) (by simp) (S.isPartial i) x
      rw [List.append_assoc, hx] at hlo
      rw [hlo]
      have hb2 : w = [] → w₂ = [] ∧ c' = false ∧ (w₂ ++ u).length = r.length := by
        intro hw
        obtain ⟨z, e1, e2⟩ := h.good.read hd
        obtain ⟨z', e3⟩ := hr.read hW.good
        subst hw
        have := congrArg List.length e1
        have h3 := congrArg List.length e3
        simp only [List.nil_append, List.length_append] at this h3
        have hz : z = [] := List.length_eq_zero_iff.1 (by omega)
        have hw2 : w₂ = [] := List.length_eq_zero_iff.1 (by omega)
        subst hz hw2
        exact ⟨rfl, e2, by simp only [List.nil_append]; simp only [List.length_nil] at this h3; omega⟩
      simp only [show S.size i + 1 + 1 = S.size i + 2 from rfl] at hg
      generalize chainl1Loop (pair (boxed op) (boxed p)) (S.size i + 2) false (combine v vs) c i child = q at hg
      simp only [Option.map_none]
      cases hl2 : Den.loop (Den.opd D E) some none (S.isPartial i) (w₂ ++ S.left i) with
      | ok d ys l' =>
        rw [hl2] at hg
        obtain ⟨d', g1, g2, g3, g4, g5, g7⟩ := hg
        refine ⟨⟨d', ?_, fun hw => ?_⟩, g3, g4, fun hr => ⟨g5, g7 hr⟩⟩
        · rw [g1, combine_append]
        · obtain ⟨f1, f2, f3⟩ := hb2 hw
          rw [g2 f1, hpk hw, f2, f3]
          simp
      | pend =>
        rw [hl2] at hg
        obtain ⟨e, y, ys, w₃, c'', g1, g2, g3, g4, g6, g7, g8⟩ := hg
        rw [← combine_append] at g4
        refine ⟨e, y, g1, g2, g3, .inr ⟨c'', v, vs ++ ys, w₃, c', r ++ x, g4, ?_, ?_, g7, ?_⟩⟩
        · have := h.good.stable_ok hd true x
          rw [List.append_assoc, hx, hS.left_reads g3] at this
          simpa using this
        · have := hr.extend hW.good x
          rw [List.append_assoc, hx, hS.left_reads g3] at this
          refine this.append ?_
          simpa using g6
        · intro hw
          obtain ⟨hw, hy0⟩ := List.append_eq_nil_iff.1 hw
          rw [g8 (hb2 hw).1 hy0]
          exact hpk hw
      | soft => exact absurd hl2 (Den.loop_soft _ _ _ _)
      | hard => trivial

theorem resumable_chainl1 (hF : S.Feedable) {p : Parser S σ α} {op : Parser S τ (α → α → α)} {D : Den S.Tok α}
    {E : Den S.Tok (α → α → α)} {rp ro : Bool} (h : Resumable p D true rp) (ho : Resumable op E true ro) (hc : E.Consuming) :
    Resumable (chainl1 p op) (Den.chainl1 D E) ro rp := by
  obtain ⟨Ready, Rep, h, m1, m2⟩ := h
  obtain ⟨RdyO, RepO, ho, s1, s2⟩ := ho
  refine ⟨_, _, fun live => resumes_chainl1 hF (h live) (ho live) hc, ?_, ?_⟩
  · rintro s ⟨h1, h3, h4, h5, h6, h7⟩
    exact ⟨h1, h3, s1 _ h4, h5, m1 _ h6, h7⟩
  · rintro s w u (⟨h1, h3, h4, h5, h6, h7⟩ | ⟨c, v, vs, w₂, c', r, h1, hd, hr, hrep, hpk⟩)
    · exact .inl ⟨h1, h3, s1 _ h4, h5, m2 _ _ _ h6, h7⟩
    · exact .inr ⟨c, v, vs, w₂, c', r, h1, hd, hr, hrep.mono s1 s2 m1 m2, hpk⟩

end Verif
