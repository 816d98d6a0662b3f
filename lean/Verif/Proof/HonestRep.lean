import Verif.Proof.HonestSeq

/-! # The commit status tells the truth: repetitions -/

namespace Verif

set_option linter.unusedSectionVars false
set_option linter.unusedVariables false

variable {S : Strm} {σ τ υ α β γ : Type} {h : Bool} {Q : σ → Prop} {C : τ → Prop}

/-! ## The iterator -/

/-- What a loop has established when it stops. -/
def IterS.Honest (h : Bool) (Q : σ → Prop) (i0 : S.Input) (it : IterS S σ) : Prop :=
  match it.state with
  | .ok => S.Since it.committed i0 it.inp ∧ Q it.st
  | .peekErr _ => S.Since it.committed i0 it.inp ∧ Q it.st
  | .commitErr _ => h = true → Q it.st
  | .abort _ => True

theorem iterExtend_honest (hS : S.Lawful) {p : Parser S σ α} (hm : Moves p) (hp : HonestIn h Q p)
    (f : α → Option β) (i0 : S.Input) : ∀ (n : Nat) (lim : Option Nat) (els : List β) (it : IterS S σ),
    it.state = .ok → it.first = true → S.Since it.committed i0 it.inp → Q it.st →
    (iterExtend p f n lim els it).2.Honest h Q i0 := by
  intro n
  induction n with
  | zero =>
    intro lim els it hok hf hs q
    have done : it.Honest h Q i0 := by
      unfold IterS.Honest
      rw [hok]
      exact ⟨hs, q⟩
    rcases lim with _ | _ | l
    · simp only [iterExtend]; trivial
    · simp only [iterExtend]; exact done
    · simp only [iterExtend]; trivial
  | succ n ih =>
    intro lim els it hok hf hs q
    have done : it.Honest h Q i0 := by
      unfold IterS.Honest
      rw [hok]
      exact ⟨hs, q⟩
    have step : (match iterNext p it with
        | (none, it') => (els, it')
        | (some x, it') =>
          match f x with
          | some y => iterExtend p f n (lim.map (· - 1)) (els ++ [y]) it'
          | none => (els, it')).2.Honest h Q i0 := by
      have h1 := hm.run true it.inp it.st
      have h2 := hp.run it.inp it.st q
      have h3 := hp.keep it.inp it.st q
      revert h1 h2 h3
      unfold iterNext
      simp only [hf]
      generalize p.run true it.inp it.st = o
      obtain ⟨r, j, t⟩ := o
      intro h1 h2 h3
      cases r with
      | commitOk v =>
        simp only
        cases f v with
        | none => simp only [IterS.Honest, hok]; exact ⟨hs.step h2, h3 rfl⟩
        | some y => exact ih _ _ _ hok rfl (hs.step h2) (h3 rfl)
      | peekOk v =>
        cases h2
        simp only
        cases f v with
        | none => simp only [IterS.Honest, hok]; exact ⟨hs, h3 rfl⟩
        | some y => exact ih _ _ _ hok rfl hs (h3 rfl)
      | peekErr e =>
        simp only [hS.reset_reach h1]
        exact ⟨hs, h3 rfl⟩
      | commitErr e => exact fun k => h3 k
      | abort a => trivial
    rcases lim with _ | _ | l
    · simp only [iterExtend]; exact step
    · simp only [iterExtend]; exact done
    · simp only [iterExtend]; exact step

theorem intoResultFast_tells {i0 : S.Input} {it : IterS S σ} (hi : it.Honest h Q i0) (v : List α) :
    S.Tells i0 (it.intoResultFast v).1 it.inp := by
  obtain ⟨j, c, s, t, f⟩ := it
  cases s with
  | ok => exact tells_ite hi.1 v
  | peekErr e => exact tells_ite hi.1 v
  | _ => trivial

theorem intoResultFast_holds {i0 : S.Input} {it : IterS S σ} (hi : it.Honest h Q i0) (v : List α)
    (hk : (it.intoResultFast v).1.kept h = true) : Q it.st := by
  obtain ⟨j, c, s, t, f⟩ := it
  cases s with
  | ok => exact hi.2
  | peekErr e => exact hi.2
  | commitErr e => exact hi hk
  | abort a => cases hk

theorem fail_tells {i0 : S.Input} {it : IterS S σ} (e : S.SErr) (j : S.Input) :
    S.Tells i0 (it.fail (α := α) e) j := by
  obtain ⟨j, c, s, t, f⟩ := it
  cases s <;> cases c <;> trivial

theorem fail_kept {i0 : S.Input} {it : IterS S σ} (hi : it.Honest h Q i0) (e : S.SErr)
    (hk : (it.fail (α := α) e).kept h = true) : Q it.st := by
  obtain ⟨j, c, s, t, f⟩ := it
  cases s with
  | ok => exact hi.2
  | peekErr e => exact hi.2
  | commitErr e => exact hi hk
  | abort a => cases hk

theorem honest_many (hS : S.Lawful) {p : Parser S σ α} (hm : Moves p) (hp : HonestIn h Q p) :
    HonestIn h (fun s => Q s.2) (many p) := by
  have key := fun i (s : List α × σ) q =>
    iterExtend_honest hS hm hp some i (S.size i + 2) none s.1 (IterS.new true i s.2) rfl rfl rfl q
  exact .ofMode hp.init (fun i s q => intoResultFast_tells (key i s q) _)
    (fun i s q k => intoResultFast_holds (key i s q) _ k)

theorem honest_many1 (hS : S.Lawful) {p : Parser S σ α} (hm : Moves p) (hp : HonestIn h Q p) :
    HonestIn h (fun s => Q s.child) (many1 p) := by
  have key := fun i0 i (s : Many1St σ α) (hs : S.Since s.committed i0 i) q =>
    iterExtend_honest hS hm hp some i0 (S.size i + 2) none s.elements ⟨i, s.committed, .ok, s.child, true⟩
      rfl rfl hs q
  refine .ofMode hp.init (fun i s q => ?_) (fun i s q => ?_)
  · have h2 := hp.run i s.child q
    have h3 := hp.keep i s.child q
    revert h2 h3
    simp only [Bool.true_or, if_true]
    generalize p.run true i s.child = o
    obtain ⟨r, j, t⟩ := o
    intro h2 h3
    cases r with
    | commitOk v => exact intoResultFast_tells (key i j ⟨true, true, s.elements ++ [v], t⟩ h2 (h3 rfl)) _
    | peekOk v => exact intoResultFast_tells (key i j ⟨true, false, s.elements ++ [v], t⟩ h2 (h3 rfl)) _
    | _ => trivial
  · have h2 := hp.run i s.child q
    have h3 := hp.keep i s.child q
    revert h2 h3
    simp only [Bool.true_or, if_true]
    generalize p.run true i s.child = o
    obtain ⟨r, j, t⟩ := o
    intro h2 h3
    cases r with
    | commitOk v => exact fun k => intoResultFast_holds (key i j ⟨true, true, s.elements ++ [v], t⟩ h2 (h3 rfl)) _ k
    | peekOk v => exact fun k => intoResultFast_holds (key i j ⟨true, false, s.elements ++ [v], t⟩ h2 (h3 rfl)) _ k
    | _ => exact h3

theorem honest_countMinMax (hS : S.Lawful) {p : Parser S σ α} (lo hi : Nat) (hm : Moves p)
    (hp : HonestIn h Q p) : HonestIn h (fun s => Q s.child) (countMinMax lo hi p) := by
  have key := fun i (s : CountSt σ α) q =>
    iterExtend_honest hS hm hp some i (hi - s.count + 1) (some (hi - s.count)) s.elements
      (IterS.new true i s.child) rfl rfl rfl q
  refine .ofMode hp.init (fun i s q => ?_) (fun i s q => ?_)
  · simp only
    split
    · trivial
    · split
      · exact fail_tells _ _
      · exact intoResultFast_tells (key i s q) _
  · simp only
    split
    · exact fun k => by cases k
    · split
      · exact fun k => fail_kept (key i s q) _ k
      · exact fun k => intoResultFast_holds (key i s q) _ k

theorem honest_count (hS : S.Lawful) {h' : Bool} {p : Parser S σ α} (n : Nat) (hm : Moves p)
    (hp : HonestIn h' Q p) : HonestIn h (fun _ => True) (count n p) :=
  honest_parserMacroUnit (honest_countMinMax hS 0 n hm hp).fresh

theorem honest_skipCount (hS : S.Lawful) {h' : Bool} {p : Parser S σ α} (n : Nat) (hm : Moves p)
    (hp : HonestIn h' Q p) (hmm : Moves (map p fun _ => ())) : HonestIn h (fun _ => True) (skipCount n p) :=
  (honest_parserMacro (honest_with (honest_count hS n hmm (honest_map hp _)) (honest_value ()))).congr
    fun s => ⟨fun _ => trivial, fun _ => ⟨trivial, trivial⟩⟩

theorem honest_skipCountMinMax (hS : S.Lawful) {p : Parser S σ α} (lo hi : Nat)
    (hmm : Moves (map p fun _ => ())) (hp : HonestIn h Q p) :
    HonestIn h (fun s => Q s.head.child) (skipCountMinMax lo hi p) :=
  (honest_parserMacro (honest_with (honest_countMinMax hS lo hi hmm (honest_map hp _)) (honest_value ()))).congr
    fun s => ⟨fun x => x.1, fun x => ⟨x, trivial⟩⟩

theorem honest_skipMany (hS : S.Lawful) {p : Parser S σ α} (hm : Moves (ignore p)) (hp : HonestIn h Q p) :
    HonestIn h (fun s => Q s.2) (skipMany p) :=
  honest_parserMacro (honest_ignore (honest_many hS hm (honest_ignore hp)))

theorem honest_skipMany1 (hS : S.Lawful) {p : Parser S σ α} (hm : Moves (ignore p)) (hp : HonestIn h Q p) :
    HonestIn h (fun s => Q s.child) (skipMany1 p) :=
  honest_parserMacro (honest_ignore (honest_many1 hS hm (honest_ignore hp)))

/-! ## Separated lists -/

theorem combineCommit_tells {c : Commit Unit} {i j k : S.Input} {r : ParseResult α S.Err}
    (hc : S.Since (!c.isPeek) i j) (hr : S.Tells j r k) :
    S.Tells i (ParseResult.combineCommit c fun _ => r) k := by
  cases c with
  | peek _ => cases hc; exact hr
  | commit _ =>
    cases r with
    | commitOk v => exact Strm.Since.step (c := true) hc hr
    | peekOk v => cases hr; exact hc
    | _ => trivial

theorem combineCommit_holds {c : Commit Unit} {r : ParseResult α S.Err}
    (hk : (ParseResult.combineCommit c fun _ => r).kept h = true) : r.kept h = true := by
  cases c with
  | peek _ => exact hk
  | commit _ => cases r <;> first | rfl | exact hk

theorem honest_sepBy1 (hS : S.Lawful) {p : Parser S σ α} {sep : Parser S τ β}
    (hmr : Moves («with» (boxed sep) (boxed p))) (hp : HonestIn h Q p) (hq : HonestIn h C sep) :
    HonestIn h (fun s => s.1 = none ∧ C s.2.2.head ∧ Q s.2.2.tail.1.2) (sepBy1 p sep) := by
  have hrest := honest_with (honest_boxed hq) (honest_boxed hp)
  have key := fun i (els : List α) (child : SepSt σ τ α) q =>
    iterExtend_honest hS hmr hrest some i (S.size i + 2) none els (IterS.new true i child) rfl rfl rfl q
  refine .ofMode ⟨rfl, hq.init, hp.init⟩ (fun i s q => ?_) (fun i s q => ?_)
  · obtain ⟨one, els, child⟩ := s
    obtain ⟨rfl, hc, hs⟩ := q
    have h2 := hp.run i _ hs
    have h3 := hp.keep i _ hs
    revert h2 h3
    simp only
    generalize p.run true i child.tail.1.2 = o
    obtain ⟨r, j, t⟩ := o
    intro h2 h3
    cases r with
    | commitOk v =>
      exact combineCommit_tells (c := .commit ()) h2
        (intoResultFast_tells (key j _ (SepSt.setB child t) ⟨hc, h3 rfl⟩) _)
    | peekOk v =>
      exact combineCommit_tells (c := .peek ()) h2
        (intoResultFast_tells (key j _ (SepSt.setB child t) ⟨hc, h3 rfl⟩) _)
    | _ => trivial
  · obtain ⟨one, els, child⟩ := s
    obtain ⟨rfl, hc, hs⟩ := q
    have h3 := hp.keep i _ hs
    revert h3
    simp only
    generalize p.run true i child.tail.1.2 = o
    obtain ⟨r, j, t⟩ := o
    intro h3
    cases r with
    | commitOk v =>
      simp only
      exact fun k => ⟨ite_self _, intoResultFast_holds (key j _ (SepSt.setB child t) ⟨hc, h3 rfl⟩) _
        (combineCommit_holds k)⟩
    | peekOk v =>
      simp only
      exact fun k => ⟨ite_self _, intoResultFast_holds (key j _ (SepSt.setB child t) ⟨hc, h3 rfl⟩) _
        (combineCommit_holds k)⟩
    | _ => exact fun k => ⟨rfl, hc, h3 k⟩

theorem kept_false {E : Type} {r : ParseResult α E} (hk : r.kept false = true) :
    r.isOk = true ∨ ∃ e, r = .peekErr e := by
  cases r with
  | commitOk v => exact .inl rfl
  | peekOk v => exact .inl rfl
  | peekErr e => exact .inr ⟨e, rfl⟩
  | commitErr e => cases hk
  | abort a => cases hk

theorem intoResultFast_not_peekErr (it : IterS S σ) (v : List α) (e : Tracked S.Err) :
    (it.intoResultFast v).1 ≠ .peekErr e := by
  obtain ⟨j, c, s, t, f⟩ := it
  cases s <;> cases c <;> exact fun h => by cases h

theorem honest_sepEndBy1 (hS : S.Lawful) {p : Parser S σ α} {sep : Parser S τ β}
    (hmo : Moves (boxed p)) (hmr : Moves («with» (boxed sep) (optional (boxed p))))
    (hp : HonestIn h Q p) (hq : HonestIn h C sep) :
    HonestIn false (fun s => s.1 = none ∧ C s.2.2.head ∧ Q s.2.2.tail.1.2) (sepEndBy1 p sep) := by
  have hp := hp.low
  have hq := hq.low
  have hrest := honest_with (honest_boxed hq) (honest_optional hS hmo (honest_boxed hp))
  have key := fun i (els : List α) (child : SepSt σ τ (Option α)) q =>
    iterExtend_honest hS hmr hrest id i (S.size i + 2) none els (IterS.new true i child) rfl rfl rfl q
  refine .ofMode ⟨rfl, hq.init, hp.init⟩ (fun i s q => ?_) (fun i s q => ?_)
  · obtain ⟨one, els, child⟩ := s
    obtain ⟨rfl, hc, hs⟩ := q
    have h2 := hp.run i _ hs
    have h3 := hp.keep i _ hs
    revert h2 h3
    simp only
    generalize p.run true i child.tail.1.2 = o
    obtain ⟨r, j, t⟩ := o
    intro h2 h3
    cases r with
    | commitOk v =>
      exact combineCommit_tells (c := .commit ()) h2
        (intoResultFast_tells (key j _ (SepSt.setB child t) ⟨hc, h3 rfl⟩) _)
    | peekOk v =>
      exact combineCommit_tells (c := .peek ()) h2
        (intoResultFast_tells (key j _ (SepSt.setB child t) ⟨hc, h3 rfl⟩) _)
    | _ => trivial
  · obtain ⟨one, els, child⟩ := s
    obtain ⟨rfl, hc, hs⟩ := q
    have h3 := hp.keep i _ hs
    revert h3
    simp only
    generalize p.run true i child.tail.1.2 = o
    obtain ⟨r, j, t⟩ := o
    intro h3
    have fin : ∀ (c : Commit Unit) (els : List α), ∀ k : (ParseResult.combineCommit c fun _ =>
        ((iterExtend («with» (boxed sep) (optional (boxed p))) id (S.size j + 2) none els
          (IterS.new true j (SepSt.setB child t))).2.intoResultFast (iterExtend («with» (boxed sep)
            (optional (boxed p))) id (S.size j + 2) none els (IterS.new true j (SepSt.setB child t))).1).1).kept
              false = true, ((iterExtend («with» (boxed sep) (optional (boxed p))) id (S.size j + 2) none els
          (IterS.new true j (SepSt.setB child t))).2.intoResultFast (iterExtend («with» (boxed sep)
            (optional (boxed p))) id (S.size j + 2) none els
              (IterS.new true j (SepSt.setB child t))).1).1.isOk = true := by
      intro c els k
      rcases kept_false (combineCommit_holds k) with h | ⟨e, h⟩
      · exact h
      · exact absurd h (intoResultFast_not_peekErr _ _ _)
    cases r with
    | commitOk v =>
      simp only
      exact fun k => ⟨if_pos (fin _ _ k), intoResultFast_holds (key j _ (SepSt.setB child t) ⟨hc, h3 rfl⟩) _
        (combineCommit_holds k)⟩
    | peekOk v =>
      simp only
      exact fun k => ⟨if_pos (fin _ _ k), intoResultFast_holds (key j _ (SepSt.setB child t) ⟨hc, h3 rfl⟩) _
        (combineCommit_holds k)⟩
    | _ => exact fun k => ⟨rfl, hc, h3 k⟩

theorem honest_emptyList : HonestIn h (fun _ => True) (emptyList S α) :=
  honest_fnParser _ fun _ => rfl

theorem honest_sepBy (hS : S.Lawful) {h' : Bool} {p : Parser S σ α} {sep : Parser S τ β}
    (hmr : Moves («with» (boxed (boxed sep)) (boxed (boxed p)))) (hm1 : Moves (sepBy1 (boxed p) (boxed sep)))
    (hme : Moves (emptyList S α)) (hp : HonestIn h' Q p) (hq : HonestIn h' C sep) :
    HonestIn h (fun _ => True) (sepBy p sep) := by
  have := honest_or (h := h) hS hm1 (honest_sepBy1 hS hmr (honest_boxed hp) (honest_boxed hq)).fresh hme
    (honest_emptyList (h := h)).fresh
  exact .ofMode trivial this.run this.keep

theorem honest_sepEndBy (hS : S.Lawful) {h' : Bool} {p : Parser S σ α} {sep : Parser S τ β}
    (hmo : Moves (boxed (boxed p))) (hmr : Moves («with» (boxed (boxed sep)) (optional (boxed (boxed p)))))
    (hm1 : Moves (sepEndBy1 (boxed p) (boxed sep)))
    (hme : Moves (emptyList S α)) (hp : HonestIn h' Q p) (hq : HonestIn h' C sep) :
    HonestIn h (fun _ => True) (sepEndBy p sep) := by
  have := honest_or (h := h) hS hm1 (honest_sepEndBy1 hS hmo hmr (honest_boxed hp) (honest_boxed hq)).fresh hme
    (honest_emptyList (h := h)).fresh
  exact .ofMode trivial this.run this.keep

/-! ## Operator chains -/

theorem merge_isPeek (c d : Commit Unit) : (!(c.merge d).isPeek) = (!c.isPeek || !d.isPeek) := by
  cases c <;> cases d <;> rfl

theorem toStd_since {i j : S.Input} {r : ParseResult α S.Err} (ht : S.Tells i r j) {v : α} {d : Commit Unit}
    (hr : r.toStd = .ok v d) : S.Since (!d.isPeek) i j := by
  cases r <;> cases hr <;> exact ht

theorem chainl1Loop_honest (hS : S.Lawful) {D : υ → Prop} {t : Parser S υ ((α → α → α) × α × Unit)}
    (hm : Moves t) (ht : HonestIn false D t) (i0 : S.Input) : ∀ (n : Nat) (l : α) (c : Commit Unit) (i : S.Input)
    (s : υ), S.Since (!c.isPeek) i0 i → D s →
    S.Tells i0 (chainl1Loop t n true l c i s).res (chainl1Loop t n true l c i s).inp ∧
    ((chainl1Loop t n true l c i s).res.kept false = true →
      (chainl1Loop t n true l c i s).st.1 = none ∧ D (chainl1Loop t n true l c i s).st.2) := by
  intro n
  induction n with
  | zero => exact fun l c i s _ _ => ⟨trivial, fun k => by cases k⟩
  | succ n ih =>
    intro l c i s hs d
    have h1 := hm.run true i s
    have h2 := ht.run i s d
    have h3 := ht.keep i s d
    revert h1 h2 h3
    simp only [chainl1Loop]
    generalize t.run true i s = o
    obtain ⟨r, j, s'⟩ := o
    intro h1 h2 h3
    cases r with
    | commitOk v =>
      obtain ⟨op, x, u⟩ := v
      refine ih _ _ j s' ?_ (h3 rfl)
      rw [merge_isPeek]
      exact hs.trans (d := true) h2
    | peekOk v =>
      obtain ⟨op, x, u⟩ := v
      refine ih _ _ j s' ?_ (h3 rfl)
      rw [merge_isPeek]
      exact hs.trans (d := false) h2
    | peekErr e =>
      simp only [ParseResult.toStd, hS.tryReset_eq h1]
      exact ⟨tells_ofStd hs l, fun _ => ⟨trivial, h3 rfl⟩⟩
    | commitErr e => exact ⟨trivial, fun k => by cases k⟩
    | abort a => exact ⟨trivial, fun k => by cases k⟩

theorem chainl1_pointwise (hS : S.Lawful) {p : Parser S σ α} {op : Parser S τ (α → α → α)}
    (hm : Moves (pair (boxed op) (boxed p))) (hp : HonestIn h Q p) (ho : HonestIn h C op) {m : Bool} {i : S.Input}
    {s : Option (α × Commit Unit) × ChainSt σ τ α} (hs : s.1 = none) (hc : C s.2.head) (hq : Q s.2.tail.1.2)
    (hb : p.run false i s.2.tail.1.2 = p.run true i s.2.tail.1.2) :
    S.Tells i ((chainl1 p op).run m i s).res ((chainl1 p op).run m i s).inp ∧
    (((chainl1 p op).run m i s).res.kept false = true →
      ((chainl1 p op).run m i s).st.1 = none ∧ C ((chainl1 p op).run m i s).st.2.head ∧
        Q ((chainl1 p op).run m i s).st.2.tail.1.2) := by
  have hp := hp.low
  have ho := ho.low
  have ht := (honest_tuple (honest_boxed ho) (honestSeq_cons (honest_boxed hp) honestSeq_nil)).congr
    (Q' := fun s : ChainSt σ τ α => C s.head ∧ Q s.tail.1.2)
    fun s => ⟨fun x => ⟨x.1, x.2.1⟩, fun x => ⟨x.1, x.2, trivial⟩⟩
  obtain ⟨l, child⟩ := s
  cases hs
  have h2 := hp.run i _ hq
  have h3 := hp.keep i _ hq
  rw [← hb] at h2 h3
  revert h2 h3
  simp only [chainl1, Parser.ofMode]
  generalize p.run false i child.tail.1.2 = o
  obtain ⟨r, j, t⟩ := o
  intro h2 h3
  cases r with
  | commitOk v => exact chainl1Loop_honest hS hm ht i _ v (.commit ()) j _ h2 ⟨hc, h3 rfl⟩
  | peekOk v => exact chainl1Loop_honest hS hm ht i _ v (.peek ()) j _ h2 ⟨hc, h3 rfl⟩
  | _ => exact ⟨trivial, fun k => ⟨rfl, hc, h3 k⟩⟩

theorem honest_chainl1 (hS : S.Lawful) {p : Parser S σ α} {op : Parser S τ (α → α → α)} (hb : ModeBlind p)
    (hm : Moves (pair (boxed op) (boxed p))) (hp : HonestIn h Q p) (ho : HonestIn h C op) :
    HonestIn false (fun s => s.1 = none ∧ C s.2.head ∧ Q s.2.tail.1.2) (chainl1 p op) :=
  .ofMode ⟨rfl, ho.init, hp.init⟩
    (fun i s q => (chainl1_pointwise hS hm hp ho q.1 q.2.1 q.2.2 (hb i _)).1)
    (fun i s q => (chainl1_pointwise hS hm hp ho q.1 q.2.1 q.2.2 (hb i _)).2)

theorem fresh_chainl1 (hS : S.Lawful) {p : Parser S σ α} {op : Parser S τ (α → α → α)} (hb : StartsAnew p)
    (hm : Moves (pair (boxed op) (boxed p))) (hp : HonestIn h Q p) (ho : HonestIn h C op) :
    HonestFresh (chainl1 p op) :=
  .ofMode fun i => (chainl1_pointwise (m := true) hS hm hp ho (s := (none, _)) rfl ho.init hp.init (hb i)).1

theorem chainr1_tells (hS : S.Lawful) {p : Parser S σ α} {op : Parser S τ (α → α → α)} (hmp : Moves p)
    (hmo : Moves op) (hp : HonestFresh p) (ho : HonestFresh op)
    (reach : ∀ n i, S.Reach i (chainr1Lazy p op n i).2) : ∀ n,
    (∀ i, S.Tells i (chainr1Lazy p op n i).1 (chainr1Lazy p op n i).2) ∧
    (∀ i0 l c i, S.Since (!c.isPeek) i0 i →
      S.Tells i0 (chainr1Loop p op n l c i).1 (chainr1Loop p op n l c i).2) := by
  intro n
  induction n with
  | zero => exact ⟨fun i => trivial, fun _ _ _ _ _ => trivial⟩
  | succ n ih =>
    refine ⟨fun i => ?_, fun i0 l c i hs => ?_⟩
    · have h2 := hp.lazy i
      revert h2
      simp only [chainr1Lazy]
      generalize p.lazy i = x
      obtain ⟨r, j⟩ := x
      intro h2
      cases r with
      | commitOk v => exact ih.2 i v (.commit ()) j h2
      | peekOk v => exact ih.2 i v (.peek ()) j h2
      | _ => trivial
    · have h1 := hmo.lazy i
      have h2 := ho.lazy i
      revert h1 h2
      simp only [chainr1Loop]
      generalize op.lazy i = x
      obtain ⟨r, j⟩ := x
      intro h1 h2
      have go : ∀ (f : α → α → α) (d : Commit Unit), S.Since (!d.isPeek) i j →
          S.Tells i0
            (match (chainr1Lazy p op n j).1.toStd with
              | .ok r rest => chainr1Loop p op n (f l r) ((c.merge d).merge rest) (chainr1Lazy p op n j).2
              | .err (.commit e) => (.commitErr e.error, (chainr1Lazy p op n j).2)
              | .err (.peek _) =>
                match S.reset (S.checkpoint j) (chainr1Lazy p op n j).2 with
                | (some e, k) => (.commitErr e, k)
                | (none, k) => (.ofStd (.ok l (c.merge d)), k)
              | .abort a => (.abort a, (chainr1Lazy p op n j).2)).1
            (match (chainr1Lazy p op n j).1.toStd with
              | .ok r rest => chainr1Loop p op n (f l r) ((c.merge d).merge rest) (chainr1Lazy p op n j).2
              | .err (.commit e) => (.commitErr e.error, (chainr1Lazy p op n j).2)
              | .err (.peek _) =>
                match S.reset (S.checkpoint j) (chainr1Lazy p op n j).2 with
                | (some e, k) => (.commitErr e, k)
                | (none, k) => (.ofStd (.ok l (c.merge d)), k)
              | .abort a => (.abort a, (chainr1Lazy p op n j).2)).2 := by
        intro f d hd
        have hcd : S.Since (!(c.merge d).isPeek) i0 j := by
          rw [merge_isPeek]
          exact hs.trans hd
        have h4 := reach n j
        have h5 := ih.1 j
        revert h4 h5
        generalize chainr1Lazy p op n j = y
        obtain ⟨r, k⟩ := y
        intro h4 h5
        cases r with
        | commitOk v =>
          refine ih.2 i0 _ _ k ?_
          rw [merge_isPeek]
          exact hcd.trans (d := true) h5
        | peekOk v =>
          refine ih.2 i0 _ _ k ?_
          rw [merge_isPeek]
          exact hcd.trans (d := false) h5
        | peekErr e =>
          simp only [ParseResult.toStd, hS.reset_reach h4]
          exact tells_ofStd hcd l
        | _ => trivial
      cases r with
      | commitOk f => exact go f (.commit ()) h2
      | peekOk f => exact go f (.peek ()) h2
      | peekErr e =>
        simp only [ParseResult.toStd, hS.reset_reach h1]
        exact tells_ofStd hs l
      | _ => trivial

theorem honest_chainr1 (hS : S.Lawful) {p : Parser S σ α} {op : Parser S τ (α → α → α)} (hmp : Moves p)
    (hmo : Moves op) (hp : HonestFresh p) (ho : HonestFresh op)
    (reach : ∀ n i, S.Reach i (chainr1Lazy p op n i).2) : HonestIn h (fun _ => True) (chainr1 p op) :=
  .ofLazy fun i => (chainr1_tells hS hmp hmo hp ho reach _).1 i

/-! ## Loops up to an end -/

theorem takeUntilLoop_tells (hS : S.Lawful) {e : Parser S σ α} (hm : Moves e) (hq : Quiet e) (i0 : S.Input) :
    ∀ (n : Nat) (c : Commit Unit) (i : S.Input) (els : List S.Tok) (s : σ), S.Since (!c.isPeek) i0 i →
    S.Tells i0 (takeUntilLoop e true n c i els s).res (takeUntilLoop e true n c i els s).inp := by
  intro n
  induction n with
  | zero => exact fun _ _ _ _ _ => trivial
  | succ n ih =>
    intro c i els s hs
    have h1 := hm.run true i s
    have h2 := hq i s
    revert h1 h2
    simp only [takeUntilLoop]
    generalize e.run true i s = o
    obtain ⟨r, j, s'⟩ := o
    intro h1 h2
    cases r with
    | commitOk v => exact absurd rfl (h2 v)
    | peekOk v =>
      simp only [ParseResult.toStd, hS.tryReset_eq h1]
      cases c <;> exact hs
    | peekErr x =>
      simp only [ParseResult.toStd, hS.tryReset_eq h1]
      cases hx : S.unconsP i with
      | mk r k =>
        cases r with
        | commitOk t => exact ih (.commit ()) k _ _ (hs.step (since_of_unconsP (.inl hx)))
        | peekOk t => exact ih (.commit ()) k _ _ (hs.step (since_of_unconsP (.inr hx)))
        | _ => trivial
    | commitErr x => simp only [ParseResult.toStd, hS.tryReset_eq h1]; trivial
    | abort a => trivial

theorem honest_takeUntil (hS : S.Lawful) {e : Parser S σ α} (hm : Moves e) (hq : Quiet e) :
    HonestIn h (fun _ => True) (takeUntil e) :=
  .ofMode trivial (fun i s _ => takeUntilLoop_tells hS hm hq i _ (.peek ()) i _ _ rfl) (fun _ _ _ _ => trivial)

theorem honest_skipUntil (hS : S.Lawful) {e : Parser S σ α} (hm : Moves e) (hq : Quiet e) :
    HonestIn h (fun _ => True) (skipUntil e) :=
  (honest_parserMacro (honest_with (honest_takeUntil hS hm hq) (honest_value ()))).congr
    fun s => ⟨fun _ => trivial, fun _ => ⟨trivial, trivial⟩⟩

theorem repeatUntilLoop_honest (hS : S.Lawful) {p : Parser S σ α} {e : Parser S τ β} (hp : HonestIn h Q p)
    (hm : Moves e) (hq : Quiet e) (i0 : S.Input) : ∀ (n : Nat) (c : Commit Unit) (i : S.Input)
    (s : RepeatSt σ τ α), S.Since (!c.isPeek) i0 i → Q s.parseSt →
    S.Tells i0 (repeatUntilLoop p e n true c i s).res (repeatUntilLoop p e n true c i s).inp ∧
    ((repeatUntilLoop p e n true c i s).res.kept h = true →
      Q (repeatUntilLoop p e n true c i s).st.parseSt) := by
  intro n
  induction n with
  | zero => exact fun _ _ _ _ _ => ⟨trivial, fun k => by cases k⟩
  | succ n ih =>
    intro c i s hs q
    unfold repeatUntilLoop
    by_cases hip : s.isParse = true
    · simp only [hip, if_true]
      have h2 := hp.run i _ q
      have h3 := hp.keep i _ q
      revert h2 h3
      generalize p.run true i s.parseSt = o
      obtain ⟨r, j, s'⟩ := o
      intro h2 h3
      cases r with
      | commitOk v =>
        refine ih _ j _ ?_ (h3 rfl)
        rw [merge_isPeek]
        exact hs.trans (d := true) h2
      | peekOk v =>
        refine ih _ j _ ?_ (h3 rfl)
        rw [merge_isPeek]
        exact hs.trans (d := false) h2
      | _ => exact ⟨trivial, h3⟩
    · simp only [hip]
      have h1 := hm.run true i s.endSt
      have h2 := hq i s.endSt
      revert h1 h2
      simp only [Bool.false_eq_true, if_false]
      generalize e.run true i s.endSt = o
      obtain ⟨r, j, s'⟩ := o
      intro h1 h2
      cases r with
      | commitOk v => exact absurd rfl (h2 v)
      | peekOk v =>
        simp only [ParseResult.toStd, hS.tryReset_eq h1]
        cases c
        · exact ⟨hs, fun _ => q⟩
        · exact ⟨hs, fun _ => q⟩
      | peekErr x =>
        simp only [ParseResult.toStd, hS.tryReset_eq h1]
        exact ih c i _ hs q
      | commitErr x =>
        simp only [ParseResult.toStd, hS.tryReset_eq h1]
        exact ⟨trivial, fun _ => q⟩
      | abort a => exact ⟨trivial, fun k => by cases k⟩

theorem honest_repeatUntil (hS : S.Lawful) {p : Parser S σ α} {e : Parser S τ β} (hp : HonestIn h Q p)
    (hm : Moves e) (hq : Quiet e) : HonestIn h (fun s => Q s.parseSt) (repeatUntil p e) :=
  .ofMode hp.init (fun i s q => (repeatUntilLoop_honest hS hp hm hq i _ (.peek ()) i s rfl q).1)
    (fun i s q => (repeatUntilLoop_honest hS hp hm hq i _ (.peek ()) i s rfl q).2)

theorem honest_repeatSkipUntil (hS : S.Lawful) {p : Parser S σ α} {e : Parser S τ β} (hp : HonestIn h Q p)
    (hm : Moves e) (hq : Quiet e) : HonestIn h (fun s => Q s.head.parseSt) (repeatSkipUntil p e) :=
  (honest_parserMacro (honest_with (honest_repeatUntil hS hp hm hq) (honest_value ()))).congr
    fun s => ⟨fun x => x.1, fun x => ⟨x, trivial⟩⟩

theorem escapedLoop_tells (hS : S.Lawful) [DecidableEq S.Tok] {p : Parser S σ α} (esc : S.Tok)
    {q : Parser S τ β} (hp : HonestFresh p) (hst : Stays p) (hq : HonestFresh q) (hc : Commits q)
    (hco : Coherent q) (i0 : S.Input) : ∀ (n : Nat) (c : Commit Unit) (i : S.Input), S.Since (!c.isPeek) i0 i →
    S.Tells i0 (escapedLoop p esc q n c i).1 (escapedLoop p esc q n c i).2 := by
  intro n
  induction n with
  | zero => exact fun _ _ _ => trivial
  | succ n ih =>
    intro c i hs
    have h2 := hp.lazy i
    have h3 := hst i
    revert h2 h3
    simp only [escapedLoop]
    generalize p.lazy i = x
    obtain ⟨r, j⟩ := x
    intro h2 h3
    have stop : ∀ k, S.Reach i k → S.Tells i0
        (match S.reset (S.checkpoint i) k with
          | (some e, l) => (ParseResult.commitErr e, l)
          | (none, l) => (if c.isPeek then .peekOk () else .commitOk (), l) : ParseResult Unit S.Err × S.Input).1
        (match S.reset (S.checkpoint i) k with
          | (some e, l) => (ParseResult.commitErr e, l)
          | (none, l) => (if c.isPeek then .peekOk () else .commitOk (), l) : ParseResult Unit S.Err × S.Input).2 := by
      intro k hk
      simp only [hS.reset_reach hk]
      cases c <;> exact hs
    cases r with
    | peekOk v => cases h2; exact ih c j hs
    | commitOk v => exact ih (.commit ()) j (hs.step h2)
    | commitErr e => trivial
    | abort a => trivial
    | peekErr e =>
      have := h3 e j rfl
      subst this
      have hu := unconsP_reach hS j
      have tok : ∀ t k, S.Since true j k → S.Reach j k → S.Tells i0
          (if t = esc then
            match (q.committed true k q.init).res with
            | .peekOk _ => escapedLoop p esc q n c (q.committed true k q.init).inp
            | .commitOk _ => escapedLoop p esc q n (.commit ()) (q.committed true k q.init).inp
            | .commitErr e => (.commitErr e, (q.committed true k q.init).inp)
            | .peekErr e => (.commitErr e.error, (q.committed true k q.init).inp)
            | .abort a => (.abort a, (q.committed true k q.init).inp)
          else
            match S.reset (S.checkpoint j) k with
            | (some e, l) => (ParseResult.commitErr e, l)
            | (none, l) => (if c.isPeek then .peekOk () else .commitOk (), l)).1
          (if t = esc then
            match (q.committed true k q.init).res with
            | .peekOk _ => escapedLoop p esc q n c (q.committed true k q.init).inp
            | .commitOk _ => escapedLoop p esc q n (.commit ()) (q.committed true k q.init).inp
            | .commitErr e => (.commitErr e, (q.committed true k q.init).inp)
            | .peekErr e => (.commitErr e.error, (q.committed true k q.init).inp)
            | .abort a => (.abort a, (q.committed true k q.init).inp)
          else
            match S.reset (S.checkpoint j) k with
            | (some e, l) => (ParseResult.commitErr e, l)
            | (none, l) => (if c.isPeek then .peekOk () else .commitOk (), l)).2 := by
        intro t k hk hr
        by_cases ht : t = esc
        · simp only [if_pos ht]
          have h5 := hq.committed k
          have h6 := hco.committed true k q.init
          have h7 := hc k
          have h8 : q.answer k = (q.run true k q.init).answer := rfl
          rw [h8, ← h6] at h7
          revert h5 h7
          generalize q.committed true k q.init = o
          obtain ⟨r, l, s'⟩ := o
          intro h5 h7
          cases r with
          | commitOk v => exact ih (.commit ()) l ((hs.step hk).step h5)
          | peekOk v =>
            have := h7 false v l rfl
            cases this
          | _ => trivial
        · simp only [if_neg ht]
          exact stop k hr
      simp only
      cases hx : S.unconsP j with
      | mk r k =>
        rw [hx] at hu
        cases r with
        | commitOk t => exact tok t k (since_of_unconsP (.inl hx)) hu
        | peekOk t => exact tok t k (since_of_unconsP (.inr hx)) hu
        | peekErr e => exact stop k hu
        | commitErr e => trivial
        | abort a => trivial

theorem honest_escaped (hS : S.Lawful) [DecidableEq S.Tok] {p : Parser S σ α} (esc : S.Tok)
    {q : Parser S τ β} (hp : HonestFresh p) (hst : Stays p) (hq : HonestFresh q) (hc : Commits q)
    (hco : Coherent q) : HonestIn h (fun _ => True) (escaped p esc q) :=
  .ofLazy fun i => escapedLoop_tells hS esc hp hst hq hc hco i _ (.peek ()) i rfl

theorem iterateLoop_honest {J : Type} {f : J → S.Input → Parser S σ α} (hf : ∀ x i, HonestIn false Q (f x i))
    (i0 : S.Input) : ∀ (xs : List J) (c : Bool) (buf : List α) (i : S.Input) (s : σ), S.Since c i0 i → Q s →
    S.Tells i0 (iterateLoop f xs true c buf i s).res (iterateLoop f xs true c buf i s).inp ∧
    ((iterateLoop f xs true c buf i s).res.kept false = true →
      (iterateLoop f xs true c buf i s).st.committed = false ∧ Q (iterateLoop f xs true c buf i s).st.next) := by
  intro xs
  induction xs with
  | nil => exact fun c buf i s hs q => ⟨tells_ite hs buf, fun _ => ⟨rfl, q⟩⟩
  | cons x xs ih =>
    intro c buf i s hs q
    have h2 := (hf x i).run i s q
    have h3 := (hf x i).keep i s q
    revert h2 h3
    simp only [iterateLoop]
    generalize (f x i).run true i s = o
    obtain ⟨r, j, s'⟩ := o
    intro h2 h3
    cases r with
    | commitOk v => exact ih true _ j s' (hs.step h2) (h3 rfl)
    | peekOk v => cases h2; exact ih c _ j s' hs (h3 rfl)
    | peekErr e =>
      simp only
      rcases S.reset (S.checkpoint i) j with ⟨a | e', k⟩
      · cases c
        · exact ⟨trivial, fun _ => ⟨rfl, h3 rfl⟩⟩
        · exact ⟨trivial, fun k => by cases k⟩
      · exact ⟨trivial, fun k => by cases k⟩
    | commitErr e => exact ⟨trivial, fun k => by cases k⟩
    | abort a => exact ⟨trivial, fun k => by cases k⟩

theorem honest_iterate {J : Type} (items : List J) {f : J → S.Input → Parser S σ α} (init : σ) (hi : Q init)
    (hf : ∀ x i, HonestIn h Q (f x i)) :
    HonestIn false (fun s => s.committed = false ∧ Q s.next) (iterate items f init) := by
  have key : ∀ i (s : IterateSt J σ α), s.committed = false ∧ Q s.next → _ := fun i s q =>
    iterateLoop_honest (fun x i => (hf x i).low) i items s.committed s.buf i s.next (by rw [q.1]; rfl) q.2
  exact .ofMode ⟨rfl, hi⟩ (fun i s q => (key i s q).1) (fun i s q => (key i s q).2)

end Verif
