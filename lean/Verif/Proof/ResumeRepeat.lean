import Verif.Proof.ResumeLoop

/-!
# `many`, `many1` and `count_min_max` can be resumed
-/

namespace Verif

variable {S : Strm} {σ τ υ α β γ : Type}

namespace Den
variable {T : Type}

theorem manyN_eq (D : Den T α) (n : Nat) (b : Bool) (a : List T) : manyN D n b a = loopN D some n none b a := by
  induction n generalizing a with
  | zero => rfl
  | succ n ih =>
    simp only [manyN, loopN_succ D some n (lim := none) (by simp)]
    cases D b a with
    | ok c v r => simp only [ih]; rfl
    | _ => rfl

theorem many_eq (D : Den T α) : many D = loop D some none := by
  funext b a
  exact manyN_eq D _ b a

/-- The outcome of the loop with a lower bound. -/
def _root_.Verif.Outcome.atLeast (lo : Nat) : Outcome T (List α) → Outcome T (List α)
  | .ok c vs r => if vs.length < lo then (if c then .hard else .soft) else .ok c vs r
  | .pend => .pend
  | .soft => .soft
  | .hard => .hard

theorem count_eq (D : Den T α) (hi : Nat) : ∀ (lo : Nat) (_ : lo ≤ hi) (b : Bool) (a : List T), count D lo hi b a =
    (loop D some (some hi) b a).atLeast lo := by
  induction hi with
  | zero =>
    intro lo hlo b a
    rw [count, loop_zero]
    simp only [Outcome.atLeast, List.length_nil]
    rw [if_neg (by omega)]
  | succ hi ih =>
    intro lo hlo b a
    rw [count, loop_eq some (by simp) (by simp)]
    cases hd : D b a with
    | ok c v r =>
      simp only [Option.map_some, Nat.add_sub_cancel]
      rw [ih (lo - 1) (by omega) b r]
      cases hl : loop D some (some hi) b r with
      | ok d vs r' =>
        simp only [Outcome.atLeast, Outcome.map, Outcome.after, List.length_cons]
        by_cases h : vs.length < lo - 1
        · have h' : vs.length + 1 < lo := by omega
          rw [if_pos h, if_pos h']
          cases c <;> cases d <;> rfl
        · have h' : ¬vs.length + 1 < lo := by omega
          rw [if_neg h, if_neg h']
      | _ => cases c <;> rfl
    | soft =>
      simp only [Outcome.atLeast, List.length_nil]
      by_cases h : lo = 0
      · subst h; simp
      · rw [if_neg h, if_pos (by omega)]; rfl
    | pend => rfl
    | hard => rfl

theorem Good.atLeast {D : Den T (List α)} (h : D.Good) (lo : Nat) : Good (fun b a => (D b a).atLeast lo) where
  stable a x b hp := by
    have hp' : D true a ≠ .pend := fun e => hp (by rw [e]; rfl)
    rw [h.stable a x b hp']
    cases D true a with
    | ok c vs r =>
      simp only [Outcome.extend, Outcome.atLeast]
      split
      · cases c <;> rfl
      · rfl
    | _ => rfl
  complete a := by
    have := h.complete a
    cases hd : D false a with
    | ok c vs r =>
      simp only [Outcome.atLeast]
      split
      · cases c <;> simp
      · simp
    | pend => exact absurd hd this
    | soft => simp [Outcome.atLeast]
    | hard => simp [Outcome.atLeast]
  read {b a c v r} e := by
    cases hd : D b a with
    | ok c vs r =>
      simp only [hd, Outcome.atLeast] at e
      split at e
      · cases c <;> simp at e
      · cases e; exact h.read hd
    | _ => simp [hd, Outcome.atLeast] at e

theorem Good.many {D : Den T α} (h : D.Good) (hc : D.Consuming) : (Den.many D).Good := by
  rw [many_eq]; exact h.loop some fun _ => hc

theorem Good.count {D : Den T α} (h : D.Good) {lo hi : Nat} (hlo : lo ≤ hi) : (Den.count D lo hi).Good := by
  have : Den.count D lo hi = fun b a => (Den.loop D some (some hi) b a).atLeast lo := by
    funext b a; exact count_eq D hi lo hlo b a
  rw [this]
  exact (h.loop some (by simp)).atLeast lo

theorem loop_soft {D : Den T α} (f : α → Option β) (lim : Option Nat) (b : Bool) (a : List T) :
    loop D f lim b a ≠ .soft := by
  unfold loop
  generalize (match lim with | none => a.length | some k => k) + 1 = n
  induction n generalizing lim a with
  | zero =>
    cases lim with
    | none => simp [loopN]
    | some k => cases k <;> simp [loopN]
  | succ n ih =>
    by_cases h0 : lim = some 0
    · subst h0; simp [loopN]
    rw [loopN_succ D f n h0]
    cases hd : D b a with
    | ok c v r =>
      simp only
      cases hf : f v with
      | none => simp
      | some y =>
        intro h
        exact ih _ _ (Outcome.map_soft.1 (Outcome.after_soft.1 h).1)
    | _ => simp

/-- The loop is firm where its parser is. -/
theorem loop_firm {D : Den T α} {f : α → Option β} {lim : Option Nat} (hl : lim = none → D.Consuming)
    (h0 : lim ≠ some 0) {b : Bool} {a : List T} (h : (D b a).Firm) : (loop D f lim b a).Firm := by
  rw [loop_eq f hl h0]
  cases hd : D b a with
  | ok c v r =>
    rw [hd] at h
    cases c with
    | false => exact absurd rfl (h.2 v r)
    | true =>
      simp only
      cases f v with
      | none => simp [Outcome.Firm]
      | some y => exact Outcome.Firm.after_true _
  | soft => exact absurd hd h.1
  | pend => simp [Outcome.Firm]
  | hard => simp [Outcome.Firm]

/-- The loop is firm after something was absorbed. -/
theorem Runs.firm {D : Den T α} {f : α → Option β} (h : D.Good) {lim : Option Nat} (hl : lim = none → D.Consuming)
    {w w₂ u : List T} {vs : List β} (hr : Runs D f (w ++ u) vs (w₂ ++ u)) (hn : ∀ k, lim = some k → vs.length < k)
    (hw : w ≠ []) (b : Bool) (x : List T) (hf : w₂ ≠ [] → (D b (w₂ ++ (u ++ x))).Firm) :
    (Den.loop D f lim b (w ++ (u ++ x))).Firm := by
  have := hr.loop h hl (fun k hk => Nat.le_of_lt (hn k hk)) b x
  rw [List.append_assoc, List.append_assoc] at this
  rw [this]
  by_cases hlt : (w₂ ++ u).length < (w ++ u).length
  · rw [decide_eq_true hlt]; exact Outcome.Firm.after_true _
  · obtain ⟨y, hy⟩ := hr.read h
    have hy0 : y = [] := by
      have := congrArg List.length hy
      simp only [List.length_append] at this hlt
      cases y with
      | nil => rfl
      | cons _ _ => simp only [List.length_cons] at this; omega
    subst hy0
    have : w = w₂ := List.append_cancel_right hy
    subst this
    refine ((loop_firm (f := f) ?_ ?_ (hf hw)).map _).after _
    · intro e
      cases lim with
      | none => exact hl rfl
      | some k => cases e
    · intro e
      cases lim with
      | none => simp at e
      | some k =>
        have := hn k rfl
        simp only [Option.map_some, Option.some.injEq] at e
        omega

theorem Runs.first {D : Den T α} {f : α → Option β} {a z : List T} {vs : List β} (hr : Runs D f a vs z) (hne : vs ≠ []) :
    ∃ c v r vs', D true a = .ok c v r ∧ Runs D f r vs' z := by
  cases hr with
  | nil => exact absurd rfl hne
  | cons hd _ hr => exact ⟨_, _, _, _, hd, hr⟩

theorem Runs.more {D : Den T α} {f : α → Option β} (h : D.Good) {w w₂ u : List T} {vs : List β}
    (hr : Runs D f (w ++ u) vs (w₂ ++ u)) {y : List T} (hu : u <+: y) : Runs D f (w ++ y) vs (w₂ ++ y) := by
  obtain ⟨x, rfl⟩ := hu
  have := hr.extend h x
  simpa using this

end Den

/-- The state of `many` in which `w` was absorbed. -/
def LoopRep (D : Den S.Tok α) (Rep : σ → List S.Tok → List S.Tok → Prop) (lim : Option Nat) (els : List α) (s : σ)
    (w u : List S.Tok) : Prop :=
  ∃ w₂, Den.Runs D some (w ++ u) els (w₂ ++ u) ∧ Rep s w₂ u ∧ ∀ k, lim = some k → els.length < k

/-- The loop of `many`, started from `LoopRep`. -/
theorem loopRep_run (hF : S.Feedable) {live : Bool} {p : Parser S σ α} {D : Den S.Tok α} {r : Bool} {Ready : σ → Prop}
    {Rep : σ → List S.Tok → List S.Tok → Prop} (h : Resumes live p D true r Ready Rep) {lim lim' : Option Nat}
    (hl : lim = none → D.Consuming) {els : List α} {it : IterS S σ} (hs : it.state = .ok) (hf : it.first = false)
    (hL : S.isPartial it.inp = live) {w u : List S.Tok} (hr : LoopRep D Rep lim els it.st w u) (hu : u <+: S.left it.inp) {n : Nat}
    (hlim : lim' = lim.map (· - els.length)) (hn : Den.Enough (lim'.map (· - 1)) (S.left it.inp) n) :
    let o := iterExtend p some (n + 1) lim' els it
    match Den.loop D some lim (S.isPartial it.inp) (w ++ S.left it.inp) with
    | .ok c vs r' => (o.2.state = .ok ∨ ∃ e, o.2.state = .peekErr e) ∧ S.Reach it.inp o.2.inp ∧
        S.left o.2.inp = r' ∧ o.1 = vs ∧ els.length ≤ vs.length ∧ (w = [] → o.2.committed = (it.committed || c)) ∧
        (r = true → Ready o.2.st)
    | .pend => ∃ e x, o.2.state = .commitErr e ∧ S.E.isEoi e = true ∧ S.Reads it.inp x o.2.inp ∧
        els.length ≤ o.1.length ∧ LoopRep D Rep lim o.1 o.2.st (w ++ x) (S.left o.2.inp)
    | .soft => False
    | .hard => True := by
  intro o
  obtain ⟨w₂, h1, h2, h3⟩ := hr
  have hlim0 : lim' ≠ some 0 := by
    intro e
    rw [hlim] at e
    cases lim with
    | none => simp at e
    | some k =>
      have := h3 k rfl
      simp only [Option.map_some, Option.some.injEq] at e
      omega
  have hl' : lim' = none → D.Consuming := fun e => hl (by rw [hlim] at e; cases lim <;> simp_all)
  have hst := iter_resume hF h some n hl' hlim0 (els := els) hs hf hL h2 hu hn
  change IterStep _ _ _ _ _ _ _ _ _ _ o at hst
  clear_value o
  have hm := h1.more h.good hu
  have := hm.loop h.good hl (fun k hk => Nat.le_of_lt (h3 k hk)) (S.isPartial it.inp) []
  simp only [List.append_nil] at this
  rw [this, ← hlim]
  cases hd : Den.loop D some lim' (S.isPartial it.inp) (w₂ ++ S.left it.inp) with
  | ok c vs r' =>
    rw [hd] at hst
    obtain ⟨g1, g2, g3, g4, g5, g6⟩ := hst
    refine ⟨g1, g2, g3, g4, by simp, fun hw => ?_, g6⟩
    subst hw
    have hw2 : w₂ = [] := by
      obtain ⟨y, hy⟩ := h1.read h.good
      have := congrArg List.length hy
      simp only [List.length_append, List.length_nil] at this
      cases w₂ with
      | nil => rfl
      | cons _ _ => simp only [List.length_cons] at this; omega
    subst hw2
    rw [g5 rfl]
    simp
  | pend =>
    rw [hd] at hst
    obtain ⟨e, x, vs, w₃, g1, g2, g3, g4, g5, g6, g7, _⟩ := hst
    refine ⟨e, x, g1, g2, g3, by simp [g4], w₃, ?_, g6, ?_⟩
    · rw [hF.lawful.left_reads g3] at hm
      rw [g4]
      refine .append ?_ g5
      simpa using hm
    · intro k hk
      have := g7 (k - els.length) (by rw [hlim, hk]; rfl)
      have := h3 k hk
      rw [g4]
      simp only [List.length_append]
      omega
  | soft => exact absurd hd (Den.loop_soft _ _ _ _)
  | hard => trivial

theorem resumes_many (hF : S.Feedable) {live : Bool} {p : Parser S σ α} {D : Den S.Tok α} {r : Bool} {Ready : σ → Prop}
    {Rep : σ → List S.Tok → List S.Tok → Prop} (h : Resumes live p D true r Ready Rep) (hc : D.Consuming) :
    Resumes live (many p) D.many r true (fun s => s.1 = [] ∧ Ready s.2)
      (fun s w u => LoopRep D Rep none s.1 s.2 w u) := by
  have hS := hF.lawful
  constructor
  · exact h.good.many hc
  · exact ⟨rfl, h.ready_init⟩
  · rintro ⟨els, s⟩ ⟨h1, h2⟩
    simp only at h1 h2
    subst h1
    exact ⟨[], .nil _, h.ready_rep h2, by simp⟩
  · rintro ⟨els, s⟩ w u ⟨w₂, h1, h2, h3⟩ hw b x
    rw [Den.many_eq]
    exact h1.firm h.good (fun _ => hc) (by simp) hw b x fun hw2 => h.firm h2 hw2 b x
  · exact committed_ofMode hS _ _ _ _ _
  · rintro ⟨els, s⟩ i hL ⟨h1, h2⟩
    simp only at h1 h2
    subst h1
    have hst := iter_first hF h True some (S.size i + 2) (lim := none) (fun _ => hc) (els := []) (it := IterS.new true i s)
      rfl hL h2 (by have := hS.size_left i; simp only [Den.Enough, IterS.new]; omega)
    rw [Den.many_eq]
    simp only [many, Parser.ofMode]
    generalize iterExtend p some (S.size i + 2) none [] (IterS.new true i s) = o at hst
    simp only [IterS.new] at hst
    cases hd : Den.loop D some none (S.isPartial i) (S.left i) with
    | ok c vs r' =>
      rw [hd] at hst
      obtain ⟨g1, g2, g3, g4, g5, g6⟩ := hst
      have g5 := g5 rfl
      have hx : o.2.intoResultFast o.1 = (okRes c vs, []) := by
        rw [g4]
        simp only [Bool.false_or] at g5
        rcases g1 with g1 | ⟨e, g1⟩ <;> simp only [IterS.intoResultFast, g1, g5, List.nil_append] <;>
          cases c <;> rfl
      rw [hx]
      exact ⟨⟨c, rfl, fun _ => rfl⟩, g2, g3, fun hr => ⟨rfl, g6 hr⟩⟩
    | pend =>
      rw [hd] at hst
      obtain ⟨e, x, vs, w₂, g1, g2, g3, g4, g5, g6, _⟩ := hst
      simp only [IterS.intoResultFast, g1]
      refine ⟨e, x, rfl, g2, g3, w₂, ?_, g6, by simp⟩
      rw [g4]
      simpa using g5
    | soft => exact absurd hd (Den.loop_soft _ _ _ _)
    | hard => trivial
  · rintro ⟨els, s⟩ m i hL ⟨h1, h2⟩ hh
    simp only at h1 h2
    subst h1
    have hst := iter_first hF h True some (S.size i + 2) (lim := none) (fun _ => hc) (els := []) (it := IterS.new m i s)
      rfl hL h2 (by have := hS.size_left i; simp only [Den.Enough, IterS.new]; omega)
    rw [Den.many_eq] at hh
    simp only [IterS.new] at hst
    rw [hh] at hst
    obtain ⟨e, he⟩ := hst trivial
    refine ⟨e, ?_⟩
    simp only [many, Parser.ofMode, IterS.new, IterS.intoResultFast, he]
  · rintro ⟨els, s⟩ w u i hL hr hu
    have hst := loopRep_run hF h (lim := none) (lim' := none) (fun _ => hc) (it := IterS.new false i s) (els := els)
      rfl rfl hL hr hu (n := S.size i + 1) rfl (by have := hS.size_left i; simp only [Den.Enough, Option.map, IterS.new]; omega)
    rw [Den.many_eq]
    simp only [many, Parser.ofMode]
    simp only [show S.size i + 1 + 1 = S.size i + 2 from rfl] at hst
    generalize iterExtend p some (S.size i + 2) none els (IterS.new false i s) = o at hst
    simp only [IterS.new] at hst
    cases hd : Den.loop D some none (S.isPartial i) (w ++ S.left i) with
    | ok c vs r' =>
      rw [hd] at hst
      obtain ⟨g1, g2, g3, g4, _, g5, g6⟩ := hst
      have hx : o.2.intoResultFast o.1 = (okRes o.2.committed vs, []) := by
        rw [g4]
        rcases g1 with g1 | ⟨e, g1⟩ <;> simp only [IterS.intoResultFast, g1] <;>
          cases o.2.committed <;> rfl
      rw [hx]
      exact ⟨⟨_, rfl, fun hw => by simpa using g5 hw⟩, g2, g3, fun hr => ⟨rfl, g6 hr⟩⟩
    | pend =>
      rw [hd] at hst
      obtain ⟨e, x, g1, g2, g3, _, g5⟩ := hst
      simp only [IterS.intoResultFast, g1]
      exact ⟨e, x, rfl, g2, g3, g5⟩
    | soft => exact absurd hd (Den.loop_soft _ _ _ _)
    | hard => trivial

/-! ## `many1` -/

theorem Den.many1_eq {T : Type} {D : Den T α} (hc : D.Consuming) {b : Bool} {a : List T} (h : D b a ≠ .soft) :
    Den.many1 D b a = Den.loop D some none b a := by
  rw [Den.loop_eq some (fun _ => hc) (by simp)]
  simp only [Den.many1, Den.bind, Den.map, Den.many_eq]
  cases hd : D b a with
  | soft => exact absurd hd h
  | _ => rfl

theorem Den.many1_soft {T : Type} {D : Den T α} {b : Bool} {a : List T} (h : D b a = .soft) :
    Den.many1 D b a = .soft := by
  simp only [Den.many1, Den.bind, h]

theorem Den.Good.many1 {T : Type} {D : Den T α} (h : D.Good) (hc : D.Consuming) : (Den.many1 D).Good :=
  h.bind fun _ => (h.many hc).map _

theorem intoResultFast_ok {it : IterS S σ} (h : it.state = .ok ∨ ∃ e, it.state = .peekErr e) (v : List α) :
    it.intoResultFast v = (okRes it.committed v, []) := by
  rcases h with g1 | ⟨e, g1⟩ <;> simp only [IterS.intoResultFast, g1] <;> cases it.committed <;> rfl

theorem intoResultFast_err {it : IterS S σ} {e : S.Err} (h : it.state = .commitErr e) (v : List α) :
    it.intoResultFast v = (.commitErr e, v) := by
  simp only [IterS.intoResultFast, h]

theorem resumes_many1 (hF : S.Feedable) {live : Bool} {p : Parser S σ α} {D : Den S.Tok α} {r : Bool} {Ready : σ → Prop}
    {Rep : σ → List S.Tok → List S.Tok → Prop} (h : Resumes live p D true r Ready Rep) (hc : D.Consuming) :
    Resumes live (many1 p) D.many1 r r (fun s => s.parsedOne = false ∧ s.elements = [] ∧ Ready s.child)
      (fun s w u => (s.parsedOne = false ∧ s.elements = [] ∧ Rep s.child w u) ∨
        (s.parsedOne = true ∧ s.elements ≠ [] ∧ LoopRep D Rep none s.elements s.child w u)) := by
  have hS := hF.lawful
  -- the first element and the rest
  have run : ∀ (w : List S.Tok) (m com : Bool) (i : S.Input) (s : σ), S.isPartial i = live →
      Step (D (S.isPartial i) (w ++ S.left i)) (When true Ready) (When r Ready) Rep w i (p.run m i s) →
      Step (D.many1 (S.isPartial i) (w ++ S.left i))
        (When r fun s : Many1St σ α => s.parsedOne = false ∧ s.elements = [] ∧ Ready s.child)
        (When r fun s : Many1St σ α => s.parsedOne = false ∧ s.elements = [] ∧ Ready s.child)
        (fun s w u => (s.parsedOne = false ∧ s.elements = [] ∧ Rep s.child w u) ∨
          (s.parsedOne = true ∧ s.elements ≠ [] ∧ LoopRep D Rep none s.elements s.child w u))
        w i ((many1 p).run m i ⟨false, com, [], s⟩) := by
    intro w m com i s hL hs
    simp only [many1, Parser.ofMode, Bool.not_false, Bool.or_true, if_true, List.nil_append]
    generalize p.run m i s = o at hs
    cases hd : D (S.isPartial i) (w ++ S.left i) with
    | ok c v l =>
      rw [Den.many1_eq hc (by rw [hd]; simp), Den.loop_eq some (fun _ => hc) (by simp)]
      rw [hd] at hs ⊢
      simp only [Option.map_none]
      obtain ⟨⟨c', h1, h2⟩, ⟨y, hy⟩, h4, h5⟩ := hs
      -- the rest
      have rest : ∀ c', (w = [] → c' = c) → Step (((Den.loop D some none (S.isPartial i) l).map (v :: ·)).after c)
          (When r fun s : Many1St σ α => s.parsedOne = false ∧ s.elements = [] ∧ Ready s.child)
          (When r fun s : Many1St σ α => s.parsedOne = false ∧ s.elements = [] ∧ Ready s.child)
          (fun s w u => (s.parsedOne = false ∧ s.elements = [] ∧ Rep s.child w u) ∨
            (s.parsedOne = true ∧ s.elements ≠ [] ∧ LoopRep D Rep none s.elements s.child w u))
          w i (many1Rest p true o.inp ⟨true, c', [v], o.st⟩) := by
        intro c' h2
        have hst := iter_first hF h True some (S.size o.inp + 2) (lim := none) (fun _ => hc) (els := [v])
          (it := ⟨o.inp, c', .ok, o.st, true⟩) rfl ((hS.reach_isPartial ⟨y, hy⟩).trans hL) (h5 rfl)
          (by have := hS.size_left o.inp; simp only [Den.Enough]; omega)
        simp only [many1Rest]
        generalize iterExtend p some (S.size o.inp + 2) none [v] ⟨o.inp, c', .ok, o.st, true⟩ = q at hst
        simp only [hS.reach_isPartial ⟨y, hy⟩, h4] at hst
        cases hlo : Den.loop D some none (S.isPartial i) l with
        | ok d vs l' =>
          rw [hlo] at hst
          obtain ⟨g1, g2, g3, g4, g5, g6⟩ := hst
          rw [intoResultFast_ok g1, g4]
          refine ⟨⟨q.2.committed, rfl, fun hw => ?_⟩, Strm.Reach.trans ⟨y, hy⟩ g2, g3, fun hr => ⟨?_, rfl, g6 hr⟩⟩
          · rw [g5 rfl, h2 hw]
          · simp only [okRes_isOk, if_true]
        | pend =>
          rw [hlo] at hst
          obtain ⟨e, x, vs, w₂, g1, g2, g3, g4, g5, g6, _⟩ := hst
          rw [intoResultFast_err g1, g4]
          refine ⟨e, y ++ x, rfl, g2, hy.trans g3, .inr ⟨rfl, by simp, w₂, ?_, g6, by simp⟩⟩
          have hb : S.isPartial i = true := by
            cases hb : S.isPartial i with
            | true => rfl
            | false => rw [hb] at hlo; exact absurd hlo ((h.good.loop some fun _ => hc).complete _)
          refine .cons (c := c) (v := v) (r := l) ?_ rfl ?_
          · rw [hb] at hd
            rw [← hd, hS.left_reads hy, hS.left_reads g3]
            simp
          · have e2 := hS.left_reads g3
            rw [h4] at e2
            rw [e2]
            simpa using g5
        | soft => exact absurd hlo (Den.loop_soft _ _ _ _)
        | hard => trivial
      cases c' with
      | true => simp only [h1, okRes_true]; exact rest true h2
      | false => simp only [h1, okRes_false]; exact rest false h2
    | pend =>
      rw [hd] at hs
      rw [Den.many1_eq hc (by rw [hd]; simp), Den.loop_eq some (fun _ => hc) (by simp)]
      obtain ⟨e, x, h1, h2, h3, h4⟩ := hs
      simp only [h1, hd]
      exact ⟨e, x, rfl, h2, h3, .inl ⟨rfl, rfl, h4⟩⟩
    | soft =>
      rw [hd] at hs
      rw [Den.many1_soft hd]
      obtain ⟨hw, ⟨e, h1⟩, h2, h3⟩ := hs
      simp only [h1]
      exact ⟨hw, ⟨e, rfl⟩, h2, fun hr => ⟨rfl, rfl, h3 hr⟩⟩
    | hard =>
      rw [Den.many1_eq hc (by rw [hd]; simp), Den.loop_eq some (fun _ => hc) (by simp), hd]
      trivial
  constructor
  · exact h.good.many1 hc
  · exact ⟨rfl, rfl, h.ready_init⟩
  · rintro s ⟨h1, h2, h3⟩
    exact .inl ⟨h1, h2, h.ready_rep h3⟩
  · rintro s w u hr hw b x
    rcases hr with ⟨_, _, hr⟩ | ⟨_, hne, w₂, h1, h2, h3⟩
    · have hf := h.firm hr hw b x
      rw [Den.many1_eq hc hf.1]
      exact Den.loop_firm (fun _ => hc) (by simp) hf
    · have : D b (w ++ (u ++ x)) ≠ .soft := by
        obtain ⟨_, _, _, _, hd, _⟩ := h1.first hne
        have := h.good.stable_ok hd b x
        rw [List.append_assoc] at this
        rw [this]; simp
      rw [Den.many1_eq hc this]
      exact h1.firm h.good (fun _ => hc) (by simp) hw b x fun hw2 => h.firm h2 hw2 b x
  · exact committed_ofMode hS _ _ _ _ _
  · rintro ⟨one, com, els, s⟩ i hL ⟨h1, h2, h3⟩
    simp only at h1 h2 h3
    subst h1 h2
    exact run [] true com i s hL (h.first i hL h3)
  · rintro ⟨one, com, els, s⟩ m i hL ⟨h1, h2, h3⟩ hh
    simp only at h1 h2 h3
    subst h1 h2
    have hst := h.start m i hL h3
    have hhd := h.first_hard m i hL h3
    simp only [many1, Parser.ofMode, Bool.not_false, Bool.or_true, if_true, List.nil_append]
    generalize p.run m i s = o at hst hhd
    cases hd : D (S.isPartial i) (S.left i) with
    | ok c v l =>
      rw [Den.many1_eq hc (by rw [hd]; simp), Den.loop_eq some (fun _ => hc) (by simp)] at hh
      rw [hd] at hst hh
      simp only [Option.map_none] at hh
      obtain ⟨⟨c', h1, h2⟩, h3, h4, h5⟩ := hst
      have rest : ∀ c', ∃ e, (many1Rest p true o.inp ⟨true, c', [v], o.st⟩).res = .commitErr e := by
        intro c'
        have hst := iter_first hF h True some (S.size o.inp + 2) (lim := none) (fun _ => hc) (els := [v])
          (it := ⟨o.inp, c', .ok, o.st, true⟩) rfl ((hS.reach_isPartial h3).trans hL) (h5 rfl)
          (by have := hS.size_left o.inp; simp only [Den.Enough]; omega)
        simp only [hS.reach_isPartial h3, h4] at hst
        have hlo : Den.loop D some none (S.isPartial i) l = .hard := by
          have := Den.loop_soft (D := D) some none (S.isPartial i) l
          cases hlo : Den.loop D some none (S.isPartial i) l with
          | hard => rfl
          | soft => exact absurd hlo this
          | _ => rw [hlo] at hh; cases hh
        rw [hlo] at hst
        obtain ⟨e, he⟩ := hst trivial
        simp only [many1Rest, intoResultFast_err he]
        exact ⟨e, rfl⟩
      cases c' with
      | true => simp only [h1, okRes_true]; exact rest true
      | false => simp only [h1, okRes_false]; exact rest false
    | hard =>
      obtain ⟨e, he⟩ := hhd hd
      simp only [he]
      exact ⟨e, rfl⟩
    | soft => rw [Den.many1_soft hd] at hh; cases hh
    | pend =>
      rw [Den.many1_eq hc (by rw [hd]; simp), Den.loop_eq some (fun _ => hc) (by simp), hd] at hh
      cases hh
  · rintro ⟨one, com, els, s⟩ w u i hL hr hu
    rcases hr with ⟨h1, h2, hr⟩ | ⟨h1, hne, hr⟩
    · simp only at h1 h2 hr
      subst h1 h2
      exact run w false com i s hL (h.resume i hL hr hu)
    · simp only at h1 hne hr
      subst h1
      have hsoft : D (S.isPartial i) (w ++ S.left i) ≠ .soft := by
        obtain ⟨w₂, h1, _⟩ := hr
        obtain ⟨_, _, _, _, hd, _⟩ := (h1.more h.good hu).first hne
        have := h.good.stable_ok hd (S.isPartial i) []
        rw [List.append_nil] at this
        rw [this]; simp
      have hw : w ≠ [] := by
        obtain ⟨w₂, h1, _⟩ := hr
        obtain ⟨_, _, _, _, hd, h2⟩ := h1.first hne
        obtain ⟨y, hy⟩ := h2.read h.good
        have := hc _ _ _ _ _ hd
        rw [hy] at this
        intro hw
        subst hw
        simp only [List.length_append, List.length_nil] at this
        omega
      have hst := loopRep_run hF h (lim := none) (lim' := none) (fun _ => hc) (it := ⟨i, com, .ok, s, false⟩) (els := els)
        rfl rfl hL hr hu (n := S.size i + 1) rfl (by have := hS.size_left i; simp only [Den.Enough, Option.map]; omega)
      rw [Den.many1_eq hc hsoft]
      have hrun : (many1 p).run false i ⟨true, com, els, s⟩ = many1Rest p false i ⟨true, com, els, s⟩ := rfl
      rw [hrun]
      simp only [many1Rest]
      simp only [show S.size i + 1 + 1 = S.size i + 2 from rfl] at hst
      generalize iterExtend p some (S.size i + 2) none els ⟨i, com, .ok, s, false⟩ = o at hst
      cases hd : Den.loop D some none (S.isPartial i) (w ++ S.left i) with
      | ok c vs r' =>
        rw [hd] at hst
        obtain ⟨g1, g2, g3, g4, _, g5, g6⟩ := hst
        rw [intoResultFast_ok g1, g4]
        refine ⟨⟨_, rfl, fun hw' => absurd hw' hw⟩, g2, g3, fun hr => ⟨?_, rfl, g6 hr⟩⟩
        simp only [okRes_isOk, if_true]
      | pend =>
        rw [hd] at hst
        obtain ⟨e, x, g1, g2, g3, g4, g5⟩ := hst
        rw [intoResultFast_err g1]
        refine ⟨e, x, rfl, g2, g3, .inr ⟨rfl, ?_, g5⟩⟩
        intro h0
        simp only at h0
        rw [h0] at g4
        cases els with
        | nil => exact hne rfl
        | cons _ _ => simp at g4
      | soft => exact absurd hd (Den.loop_soft _ _ _ _)
      | hard => trivial

/-! ## `count_min_max` -/

theorem Den.loop_unread {T : Type} {D : Den T α} (h : D.Good) (hc : D.Consuming) {lim : Option Nat} {b : Bool}
    {a : List T} {vs : List α} {r : List T} (hl : Den.loop D some lim b a = .ok false vs r) : vs = [] := by
  by_cases h0 : lim = some 0
  · subst h0
    rw [Den.loop_zero] at hl
    cases hl; rfl
  rw [Den.loop_eq some (fun _ => hc) h0] at hl
  cases hd : D b a with
  | ok c v l =>
    rw [hd] at hl
    obtain ⟨d, hl, hcd⟩ := Outcome.after_ok.1 hl
    obtain ⟨x, rfl, rfl⟩ := h.read hd
    have := hc _ _ _ _ _ hd
    cases x with
    | nil => simp at this
    | cons _ _ => simp at hcd
  | pend => rw [hd] at hl; cases hl
  | soft => rw [hd] at hl; cases hl; rfl
  | hard => rw [hd] at hl; cases hl

/-- The loop `o` has done what `W` says. -/
def LoopDone (D : Den S.Tok α) (W : Outcome S.Tok (List α)) (A : σ → Prop)
    (Rep : σ → List S.Tok → List S.Tok → Prop) (lim : Option Nat) (H : Prop) (w : List S.Tok) (n : Nat) (i : S.Input)
    (o : List α × IterS S σ) : Prop :=
  match W with
  | .ok c vs r' => (o.2.state = .ok ∨ ∃ e, o.2.state = .peekErr e) ∧ S.Reach i o.2.inp ∧
      S.left o.2.inp = r' ∧ o.1 = vs ∧ n ≤ vs.length ∧ (w = [] → o.2.committed = c) ∧ A o.2.st
  | .pend => ∃ e x, o.2.state = .commitErr e ∧ S.E.isEoi e = true ∧ S.Reads i x o.2.inp ∧
      n ≤ o.1.length ∧ LoopRep D Rep lim o.1 o.2.st (w ++ x) (S.left o.2.inp)
  | .soft => False
  | .hard => H → ∃ e, o.2.state = .commitErr e

theorem countMinMax_step (hF : S.Feedable) {live : Bool} {p : Parser S σ α} {D : Den S.Tok α} {r r' : Bool} {Ready : σ → Prop}
    {Rep : σ → List S.Tok → List S.Tok → Prop} (h : Resumes live p D true r Ready Rep) {lo hi : Nat}
    (hr' : r' = true → r = true ∧ D.Consuming) {m : Bool} {H : Prop} {i : S.Input} {s : CountSt σ α} {w : List S.Tok}
    (hcnt : s.count = s.elements.length) (hle : s.count ≤ hi)
    (hfirm : w ≠ [] → (Den.loop D some (some hi) (S.isPartial i) (w ++ S.left i)).Firm)
    (hd : LoopDone D (Den.loop D some (some hi) (S.isPartial i) (w ++ S.left i)) (When r Ready) Rep (some hi) H w
      s.elements.length i
      (iterExtend p some (hi - s.count + 1) (some (hi - s.count)) s.elements (IterS.new m i s.child))) :
    Step ((Den.loop D some (some hi) (S.isPartial i) (w ++ S.left i)).atLeast lo)
      (When r fun s : CountSt σ α => s.count = 0 ∧ s.elements = [] ∧ Ready s.child)
      (When r' fun s : CountSt σ α => s.count = 0 ∧ s.elements = [] ∧ Ready s.child)
      (fun s w u => s.count = s.elements.length ∧
        (hi = 0 ∧ w = [] ∧ s.elements = [] ∧ Ready s.child ∨ LoopRep D Rep (some hi) s.elements s.child w u))
      w i ((countMinMax lo hi p).run m i s) ∧
    (H → (Den.loop D some (some hi) (S.isPartial i) (w ++ S.left i)).atLeast lo = .hard → w = [] →
      ∃ e, ((countMinMax lo hi p).run m i s).res = .commitErr e) := by
  simp only [countMinMax, Parser.ofMode, Nat.not_lt.2 hle, if_false]
  generalize iterExtend p some (hi - s.count + 1) (some (hi - s.count)) s.elements (IterS.new m i s.child) = o at hd
  cases hl : Den.loop D some (some hi) (S.isPartial i) (w ++ S.left i) with
  | ok c vs l =>
    rw [hl] at hd hfirm
    obtain ⟨g1, g2, g3, g4, g5, g6, g7⟩ := hd
    have hcount : s.count + (o.1.length - s.elements.length) = vs.length := by rw [g4]; omega
    simp only [hcount, Outcome.atLeast]
    by_cases hlt : vs.length < lo
    · rw [if_pos hlt]
      simp only [if_pos hlt]
      cases c with
      | true =>
        refine ⟨trivial, fun _ _ hw => ?_⟩
        rcases g1 with g1 | ⟨e, g1⟩
        · simp only [IterS.fail, g1, g6 hw, if_true]; exact ⟨_, rfl⟩
        · simp only [IterS.fail, g1, g6 hw, if_true]; exact ⟨_, rfl⟩
      | false =>
        have hw : w = [] := by
          cases w with
          | nil => rfl
          | cons a t => exact absurd rfl ((hfirm (by simp)).2 _ _)
        refine ⟨⟨hw, ?_, g2, fun hr => ?_⟩, fun _ h => by cases h⟩
        · rcases g1 with g1 | ⟨e, g1⟩
          · simp only [IterS.fail, g1, g6 hw, Bool.false_eq_true, if_false]; exact ⟨_, rfl⟩
          · simp only [IterS.fail, g1, g6 hw, Bool.false_eq_true, if_false]; exact ⟨_, rfl⟩
        · obtain ⟨h1, h2⟩ := hr' hr
          have := Den.loop_unread h.good h2 hl
          subst this
          exact ⟨rfl, g4, g7 h1⟩
    · rw [if_neg hlt]
      simp only [if_neg hlt]
      rw [intoResultFast_ok g1, g4]
      refine ⟨⟨⟨_, rfl, g6⟩, g2, g3, fun hr => ⟨?_, rfl, g7 hr⟩⟩, fun _ h => by cases h⟩
      simp only [okRes_isOk, if_true]
  | pend =>
    rw [hl] at hd
    obtain ⟨e, x, g1, g2, g3, g4, g5⟩ := hd
    have hcount : s.count + (o.1.length - s.elements.length) = o.1.length := by omega
    simp only [hcount, Outcome.atLeast]
    refine ⟨?_, fun _ h => by cases h⟩
    by_cases hlt : o.1.length < lo
    · simp only [if_pos hlt]
      simp only [IterS.fail, g1]
      exact ⟨_, x, rfl, hF.add _ _ g2, g3, rfl, .inr g5⟩
    · simp only [if_neg hlt]
      rw [intoResultFast_err g1]
      refine ⟨e, x, rfl, g2, g3, ?_, .inr g5⟩
      simp [ParseResult.isOk]
  | soft => exact absurd hl (Den.loop_soft _ _ _ _)
  | hard =>
    rw [hl] at hd
    refine ⟨trivial, fun hm _ _ => ?_⟩
    obtain ⟨e, he⟩ := hd hm
    by_cases hlt : s.count + (o.1.length - s.elements.length) < lo
    · simp only [if_pos hlt, IterS.fail, he]; exact ⟨_, rfl⟩
    · simp only [if_neg hlt, intoResultFast_err he]; exact ⟨_, rfl⟩

theorem resumes_countMinMax (hF : S.Feedable) {live : Bool} {p : Parser S σ α} {D : Den S.Tok α} {r r' : Bool} {Ready : σ → Prop}
    {Rep : σ → List S.Tok → List S.Tok → Prop} (h : Resumes live p D true r Ready Rep) {lo hi : Nat} (hlo : lo ≤ hi)
    (hr' : r' = true → r = true ∧ D.Consuming) :
    Resumes live (countMinMax lo hi p) (D.count lo hi) r r'
      (fun s => s.count = 0 ∧ s.elements = [] ∧ Ready s.child)
      (fun s w u => s.count = s.elements.length ∧
        (hi = 0 ∧ w = [] ∧ s.elements = [] ∧ Ready s.child ∨ LoopRep D Rep (some hi) s.elements s.child w u)) := by
  have hS := hF.lawful
  have start : ∀ m i s, S.isPartial i = live → Ready s → LoopDone D (Den.loop D some (some hi) (S.isPartial i) ([] ++ S.left i)) (When r Ready)
      Rep (some hi) True [] 0 i (iterExtend p some (hi - 0 + 1) (some (hi - 0)) [] (IterS.new m i s)) := by
    intro m i s hL hs
    have hst := iter_first hF h True some (hi + 1) (lim := some hi) (by simp) (els := []) (it := IterS.new m i s)
      rfl hL hs (by simp [Den.Enough])
    simp only [Nat.sub_zero]
    generalize iterExtend p some (hi + 1) (some hi) [] (IterS.new m i s) = o at hst
    simp only [IterS.new] at hst
    simp only [List.nil_append]
    cases hd : Den.loop D some (some hi) (S.isPartial i) (S.left i) with
    | ok c vs l =>
      rw [hd] at hst
      obtain ⟨g1, g2, g3, g4, g5, g6⟩ := hst
      exact ⟨g1, g2, g3, g4, Nat.zero_le _, fun hw => by simpa using g5 hw, g6⟩
    | pend =>
      rw [hd] at hst
      obtain ⟨e, x, vs, w₂, g1, g2, g3, g4, g5, g6, g7⟩ := hst
      refine ⟨e, x, g1, g2, g3, Nat.zero_le _, w₂, ?_, g6, ?_⟩
      · rw [g4]; exact g5
      · rw [g4]; exact g7.1
    | soft => exact absurd hd (Den.loop_soft _ _ _ _)
    | hard => rw [hd] at hst; exact hst
  constructor
  · exact h.good.count hlo
  · exact ⟨rfl, rfl, h.ready_init⟩
  · rintro ⟨n, els, s⟩ ⟨h1, h2, h3⟩
    simp only at h1 h2 h3
    subst h1 h2
    refine ⟨rfl, ?_⟩
    cases hi with
    | zero => exact .inl ⟨rfl, rfl, rfl, h3⟩
    | succ hi => exact .inr ⟨[], .nil _, h.ready_rep h3, by simp⟩
  · rintro ⟨n, els, s⟩ w u ⟨_, hr⟩ hw b x
    rw [Den.count_eq D hi lo hlo]
    rcases hr with ⟨_, hr, _⟩ | ⟨w₂, h1, h2, h3⟩
    · exact absurd hr hw
    · have := h1.firm h.good (lim := some hi) (by simp) h3 hw b x fun hw2 => h.firm h2 hw2 b x
      cases hd : Den.loop D some (some hi) b (w ++ (u ++ x)) with
      | ok c vs l =>
        rw [hd] at this
        cases c with
        | false => exact absurd rfl (this.2 _ _)
        | true => simp only [Outcome.atLeast, if_true]; split <;> simp [Outcome.Firm]
      | soft => exact absurd hd this.1
      | pend => simp [Outcome.Firm, Outcome.atLeast]
      | hard => simp [Outcome.Firm, Outcome.atLeast]
  · exact committed_ofMode hS _ _ _ _ _
  · rintro ⟨n, els, s⟩ i hL ⟨h1, h2, h3⟩
    simp only at h1 h2 h3
    subst h1 h2
    rw [Den.count_eq D hi lo hlo]
    exact (countMinMax_step hF h hr' (s := ⟨0, [], s⟩) (w := []) rfl (Nat.zero_le _) (fun hw => absurd rfl hw)
      (start true i s hL h3)).1
  · rintro ⟨n, els, s⟩ m i hL ⟨h1, h2, h3⟩ hh
    simp only at h1 h2 h3
    subst h1 h2
    rw [Den.count_eq D hi lo hlo] at hh
    exact (countMinMax_step hF h hr' (s := ⟨0, [], s⟩) (w := []) rfl (Nat.zero_le _) (fun hw => absurd rfl hw)
      (start m i s hL h3)).2 trivial hh rfl
  · rintro ⟨n, els, s⟩ w u i hL ⟨hn, hr⟩ hu
    rw [Den.count_eq D hi lo hlo]
    simp only at hn hr
    rcases hr with ⟨h1, h2, h3, h4⟩ | hr
    · subst h1 h2 h3
      subst hn
      refine (countMinMax_step hF h hr' (H := False) (s := ⟨0, [], s⟩) (w := []) rfl (Nat.le_refl _) (fun hw => absurd rfl hw) ?_).1
      have : iterExtend p some (0 - 0 + 1) (some (0 - 0)) [] (IterS.new false i s) = ([], IterS.new false i s) := rfl
      simp only [this, Den.loop_zero]
      exact ⟨.inl rfl, .refl i, rfl, rfl, Nat.le_refl _, fun _ => rfl, fun _ => h4⟩
    · subst hn
      have hlen : els.length < hi := by
        obtain ⟨_, _, _, h3⟩ := hr
        exact h3 hi rfl
      refine (countMinMax_step hF h hr' (H := False) (s := ⟨els.length, els, s⟩) rfl (Nat.le_of_lt hlen) ?_ ?_).1
      · intro hw
        obtain ⟨w₂, h1, h2, h3⟩ := hr
        obtain ⟨x, hx⟩ := hu
        rw [← hx]
        exact h1.firm h.good (lim := some hi) (by simp) h3 hw _ x fun hw2 => h.firm h2 hw2 _ x
      · have hst := loopRep_run hF h (lim := some hi) (lim' := some (hi - els.length)) (by simp)
          (it := IterS.new false i s) (els := els) rfl rfl hL hr hu (n := hi - els.length) rfl ?_
        · simp only
          generalize iterExtend p some (hi - els.length + 1) (some (hi - els.length)) els (IterS.new false i s) = o at hst
          simp only [IterS.new] at hst
          cases hd : Den.loop D some (some hi) (S.isPartial i) (w ++ S.left i) with
          | ok c vs l =>
            rw [hd] at hst
            obtain ⟨g1, g2, g3, g4, g5, g6, g7⟩ := hst
            exact ⟨g1, g2, g3, g4, g5, fun hw => by simpa using g6 hw, g7⟩
          | pend => rw [hd] at hst; exact hst
          | soft => exact absurd hd (Den.loop_soft _ _ _ _)
          | hard => exact fun h => by cases h
        · simp only [Den.Enough, Option.map]; omega

theorem LoopRep.mono {D : Den S.Tok α} {Rep Rep' : σ → List S.Tok → List S.Tok → Prop}
    (m : ∀ s w u, Rep s w u → Rep' s w u) {lim : Option Nat} {els : List α} {s : σ} {w u : List S.Tok}
    (h : LoopRep D Rep lim els s w u) : LoopRep D Rep' lim els s w u := by
  obtain ⟨w₂, h1, h2, h3⟩ := h
  exact ⟨w₂, h1, m _ _ _ h2, h3⟩

theorem resumable_many (hF : S.Feedable) {p : Parser S σ α} {D : Den S.Tok α} {r : Bool} (h : Resumable p D true r)
    (hc : D.Consuming) : Resumable (many p) D.many r true := by
  obtain ⟨Ready, Rep, h, m1, m2⟩ := h
  exact ⟨_, _, fun live => resumes_many hF (h live) hc, fun s hs => ⟨hs.1, m1 _ hs.2⟩, fun s w u hs => hs.mono m2⟩

theorem resumable_many1 (hF : S.Feedable) {p : Parser S σ α} {D : Den S.Tok α} {r : Bool} (h : Resumable p D true r)
    (hc : D.Consuming) : Resumable (many1 p) D.many1 r r := by
  obtain ⟨Ready, Rep, h, m1, m2⟩ := h
  refine ⟨_, _, fun live => resumes_many1 hF (h live) hc, fun s hs => ⟨hs.1, hs.2.1, m1 _ hs.2.2⟩, ?_⟩
  rintro s w u (⟨h1, h2, h3⟩ | ⟨h1, h2, h3⟩)
  · exact .inl ⟨h1, h2, m2 _ _ _ h3⟩
  · exact .inr ⟨h1, h2, h3.mono m2⟩

theorem resumable_countMinMax (hF : S.Feedable) {p : Parser S σ α} {D : Den S.Tok α} {r r' : Bool}
    (h : Resumable p D true r) {lo hi : Nat} (hlo : lo ≤ hi) (hr' : r' = true → r = true ∧ D.Consuming) :
    Resumable (countMinMax lo hi p) (D.count lo hi) r r' := by
  obtain ⟨Ready, Rep, h, m1, m2⟩ := h
  refine ⟨_, _, fun live => resumes_countMinMax hF (h live) hlo hr', fun s hs => ⟨hs.1, hs.2.1, m1 _ hs.2.2⟩, ?_⟩
  rintro s w u ⟨h0, ⟨h1, h2, h3, h4⟩ | h1⟩
  · exact ⟨h0, .inl ⟨h1, h2, h3, m1 _ h4⟩⟩
  · exact ⟨h0, .inr (h1.mono m2)⟩

end Verif
