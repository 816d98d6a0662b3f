import Verif.Props.BlameCount

/-!
# C58, C59: elements each followed by a separator, except perhaps the last
-/

namespace Verif

variable {S : Strm} {N σ τ α β : Type} {rules : N → Gram N S.Tok} {a b : Gram N S.Tok} {F : S.Tok → Prop}
  {Has : S.Err → S.SErr → Prop}

private theorem run_opt {sep : Sem S.Input Unit β} {p : Sem S.Input Unit α}
    {m : Sem S.Input S.Err (Option α)} (hm : (fun i => (m i).shape) = Ref.bind sep fun _ => Ref.optional p)
    {i : S.Input} {ys : List α} {c : Bool} {k : S.Input} (h : Ref.Run m i (ys.map some) c k) :
    Ref.Run (Ref.bind sep fun _ => p) i ys c k := by
  induction ys generalizing i c with
  | nil => cases h; exact .nil _
  | cons y ys ih =>
    cases h with
    | cons h1 h2 =>
      refine .cons ?_ (ih h2)
      have h3 := congrFun hm i
      simp only [h1, Answer.shape] at h3
      obtain ⟨c1, x, j, c2, h4, h5, rfl⟩ := bind_ok h3.symm
      unfold Ref.bind
      rw [h4]
      revert h5
      simp only [Ref.optional]
      cases p j <;> intro h <;> cases h
      rfl

private theorem rest_shape (hS : S.Lawful) {p : Parser S σ α} {sep : Parser S τ β} (hmp : Moves p) :
    (fun i => ((«with» (boxed sep) (optional (boxed p))).answer i).shape) =
      Ref.bind sep.shape fun _ => Ref.optional p.shape := by
  funext i
  have := C12_with (boxed sep) (optional (boxed p)) i
  rw [opt_shape hS (moves_boxed hS hmp)] at this
  exact this

/-- How `sep_end_by1` fails. -/
private theorem sepEndBy1_fails (hS : S.Lawful) {Cp : σ → Prop} {Cs : τ → Prop} {p : Parser S σ α} {s : Parser S τ β}
    (hmp : Moves p) (hms : Moves s) (hkp : Keeps false Cp p) (hks : Keeps false Cs s) (hc : Consuming p) (i : S.Input) :
    (∀ e, ((sepEndBy1 p s).run true i (sepEndBy1 p s).init).res = .peekErr e → (p.run true i p.init).res = .peekErr e) ∧
    ∀ e, ((sepEndBy1 p s).run true i (sepEndBy1 p s).init).res = .commitErr e → (p.run true i p.init).res = .commitErr e ∨
      ∃ b v j vs c k, p.answer i = .ok b v j ∧ Ref.Run (Ref.bind s.shape fun _ => p.shape) j vs c k ∧
        («with» (boxed s) (optional (boxed p))).answer k = .hard e := by
  have hmo := moves_optional hS (moves_boxed hS hmp)
  have hw := keeps_with (keeps_boxed hks) (keeps_optional hS (p := boxed p) hmp.run (keeps_boxed hkp))
  have hwm := moves_with hS (moves_boxed hS hms) hmo
  have hok := hkp.keep p.init hkp.init i
  have e := rest_shape hS (sep := s) hmp
  have key : ∀ (b : Commit Unit) (v : α) (j : S.Input) (st : σ), Cp st →
      (∀ e, (ParseResult.combineCommit b fun _ => (iterExtend («with» (boxed s) (optional (boxed p))) id (S.size j + 2) none [v]
            (IterS.new true j (SepSt.setB («with» (boxed s) (optional (boxed p))).init st))).2.intoResultFast
          (iterExtend («with» (boxed s) (optional (boxed p))) id (S.size j + 2) none [v]
            (IterS.new true j (SepSt.setB («with» (boxed s) (optional (boxed p))).init st))).1 |>.1) ≠ .peekErr e) ∧
      ∀ e, (ParseResult.combineCommit b fun _ => (iterExtend («with» (boxed s) (optional (boxed p))) id (S.size j + 2) none [v]
            (IterS.new true j (SepSt.setB («with» (boxed s) (optional (boxed p))).init st))).2.intoResultFast
          (iterExtend («with» (boxed s) (optional (boxed p))) id (S.size j + 2) none [v]
            (IterS.new true j (SepSt.setB («with» (boxed s) (optional (boxed p))).init st))).1 |>.1) = .commitErr e →
        ∃ vs c k, Ref.Run (Ref.bind s.shape fun _ => p.shape) j vs c k ∧
          («with» (boxed s) (optional (boxed p))).answer k = .hard e := by
    intro b v j st hst
    obtain ⟨vs, c, k, ys, h1, h2, h3, -, h5⟩ := iterExtend_ends hS hwm.run hw.reusableIn id (S.size j + 2)
      none [v] ⟨j, false, .ok, SepSt.setB («with» (boxed s) (optional (boxed p))).init st, true⟩
      (.inr ⟨by
        intro i c v j h hv
        have h' := congrFun e i
        simp only [h, Answer.shape] at h'
        obtain ⟨c1, x, k, c2, h1, h2, -⟩ := bind_ok h'.symm
        obtain ⟨ts, hts⟩ := reach_of_shape hms h1
        cases v with
        | none => exact absurd rfl hv
        | some v =>
          have h3 : p.shape k = .ok c2 v j := by
            revert h2
            simp only [Ref.optional]
            cases p.shape k <;> intro h <;> cases h
            rfl
          obtain ⟨u, us, hus⟩ := hc _ _ _ _ (of_shape_ok h3)
          have := hts.trans hus
          cases ts with
          | nil => exact ⟨_, _, this⟩
          | cons t ts => exact ⟨_, _, this⟩, by simp⟩) rfl ⟨hks.init, hst, trivial⟩
    simp only [List.map_id] at h2
    subst h2
    have hnew : IterS.new true j (SepSt.setB («with» (boxed s) (optional (boxed p))).init st) =
      ⟨j, false, .ok, SepSt.setB («with» (boxed s) (optional (boxed p))).init st, true⟩ := rfl
    rw [hnew]
    simp only [Bool.false_or] at h5
    revert h3 h5
    generalize iterExtend («with» (boxed s) (optional (boxed p))) id (S.size j + 2) none [v] _ = r
    obtain ⟨els, it⟩ := r
    intro h3 h5
    simp only at h3 h5
    subst h3
    cases h5 with
    | limit h => cases h
    | soft _ h => cases b <;> cases c <;> exact ⟨nofun, nofun⟩
    | hard _ h => cases b <;> exact ⟨nofun, fun e he => (by cases he; exact ⟨ys, c, k, run_opt e h1, h⟩)⟩
    | abort _ h => cases b <;> exact ⟨nofun, nofun⟩
    | @stop _ c' _ _ _ h hn => cases b <;> cases c <;> cases c' <;> exact ⟨nofun, nofun⟩
  revert hok key
  simp only [Parser.answer, sepEndBy1, Parser.ofMode]
  have e : («with» (boxed s) (optional (boxed p))).init.tail.1.2 = p.init := rfl
  rw [e]
  generalize p.run true i p.init = o
  obtain ⟨r, j, st⟩ := o
  intro hok key
  cases r with
  | commitOk v =>
    have h := key (.commit ()) v j st (hok rfl)
    refine ⟨fun e he => absurd he (h.1 e), fun e he => .inr ?_⟩
    obtain ⟨vs, c, k, h1, h2⟩ := h.2 e he
    exact ⟨true, v, j, vs, c, k, rfl, h1, h2⟩
  | peekOk v =>
    have h := key (.peek ()) v j st (hok rfl)
    refine ⟨fun e he => absurd he (h.1 e), fun e he => .inr ?_⟩
    obtain ⟨vs, c, k, h1, h2⟩ := h.2 e he
    exact ⟨false, v, j, vs, c, k, rfl, h1, h2⟩
  | commitErr e => exact ⟨fun e he => (by cases he), fun e he => .inl (by cases he; rfl)⟩
  | peekErr e => exact ⟨fun e he => (by cases he; rfl), fun e he => .inl (by cases he)⟩
  | abort a => exact ⟨fun e he => (by cases he), fun e he => .inl (by cases he)⟩

/-! ## The rest of the list, from the left -/

/-- What comes after the first element. -/
private abbrev tailOf (a b : Gram N S.Tok) : Gram N S.Tok := (b.seq a).star.seq b.opt

private theorem tail_left {w : List S.Tok} :
    (tailOf a b).Derives rules w ↔ (Gram.opt (b.seq (Gram.opt (a.seq (tailOf a b))))).Derives rules w := by
  constructor
  · intro h
    obtain ⟨x, y, rfl, h1, h2⟩ := Gram.derives_seq.1 h
    cases h1 with
    | stop =>
      rcases Gram.derives_alt.1 h2 with h2 | h2
      · have := Gram.Derives.seq h2 (Gram.Derives.right (a := a.seq (tailOf a b)) (Gram.Derives.empty (rules := rules)))
        rw [List.append_nil] at this
        exact .left this
      · cases h2; exact .right .empty
    | more h3 h4 =>
      obtain ⟨ub, ua, rfl, h5, h6⟩ := Gram.derives_seq.1 h3
      rw [List.append_assoc, List.append_assoc]
      exact .left (.seq h5 (.left (.seq h6 (.seq h4 h2))))
  · intro h
    rcases Gram.derives_alt.1 h with h | h
    · obtain ⟨ub, x, rfl, h1, h2⟩ := Gram.derives_seq.1 h
      rcases Gram.derives_alt.1 h2 with h2 | h2
      · obtain ⟨ua, y, rfl, h3, h4⟩ := Gram.derives_seq.1 h2
        obtain ⟨z, v, rfl, h5, h6⟩ := Gram.derives_seq.1 h4
        have := Gram.Derives.seq (Gram.Derives.more (Gram.Derives.seq h1 h3) h5) h6
        simpa [List.append_assoc] using this
      · cases h2
        rw [List.append_nil]
        exact .seq (u := []) .stop (.left h1)
    · cases h
      exact .seq (u := []) .stop (.right .empty)

private theorem tail_viable {w : List S.Tok} :
    (tailOf a b).Viable rules w ↔ (Gram.opt (b.seq (Gram.opt (a.seq (tailOf a b))))).Viable rules w :=
  exists_congr fun _ => tail_left

private theorem tail_beyond {w : List S.Tok} {l : S.Input}
    (h : S.Beyond rules (Gram.opt (b.seq (Gram.opt (a.seq (tailOf a b))))) w l) : S.Beyond rules (tailOf a b) w l :=
  fun t k hu hv => h t k hu (tail_viable.1 hv)

private theorem unfit_empty (i : S.Input) : S.Unfit rules .empty i := fun t j _ h => by cases h

private theorem first_tail {t : S.Tok} (hb : ¬ b.Null rules) (h : (tailOf a b).First rules t) : b.First rules t := by
  rcases Gram.first_seq.1 h with h | ⟨_, h⟩
  · rcases Gram.first_seq.1 (Gram.first_star.1 h) with h | h
    · exact h
    · exact absurd h.1 hb
  · rcases Gram.first_alt.1 h with h | h
    · exact h
    · cases h

private theorem tail_useful (ha : a.Useful rules) (hb : b.Useful rules) : (tailOf a b).Useful rules := ⟨⟨hb, ha⟩, ⟨hb, trivial⟩⟩

private theorem same_word (hS : S.Lawful) {i j : S.Input} {w w' : List S.Tok} (h : S.Reads i w j) (h' : S.Reads i w' j) : w = w' := by
  rcases reads_comparable h h' with ⟨cs, h7, h8⟩ | ⟨cs, h7, h8⟩ <;> have := hS.reads_size h8 <;>
    obtain rfl : cs = [] := List.length_eq_zero_iff.1 (by omega)
  · simpa using h7.symm
  · simpa using h7

section

variable {p : Parser S σ α} {s : Parser S τ β} (hS : S.Lawful)
  (hp : Blames Has rules a (fun t => b.First rules t ∨ F t) p) (hs : Blames Has rules b (fun t => a.First rules t ∨ F t) s)
  (ha : ¬ a.Null rules) (hb : ¬ b.Null rules)

include hp hb in
private theorem elem_accepts : Accepts rules a ((tailOf a b).Then rules F) p.shape :=
  (C56_weaken hp.toFollows fun _ h => h.imp (first_tail hb) (·.2)).2

include hs ha in
private theorem sep_accepts : Accepts rules b ((Gram.opt (a.seq (tailOf a b))).Then rules F) s.shape := by
  refine (C56_weaken hs.toFollows fun _ h => h.imp (fun h => ?_) (·.2)).2
  rcases Gram.first_alt.1 h with h | h
  · rcases Gram.first_seq.1 h with h | h
    · exact h
    · exact absurd h.1 ha
  · cases h

include hS hs ha in
/-- A separator, and then something beyond. -/
private theorem beyond_sep {i j l : S.Input} {c : Bool} {v : β} {u w : List S.Tok} (hpart : S.isPartial i = false)
    (hx : s.shape i = .ok c v j) (hr : S.Reads i u j) (hr' : S.Reads j w l)
    (h : S.Beyond rules (Gram.opt (a.seq (tailOf a b))) w l) : S.Beyond rules (tailOf a b) (u ++ w) l :=
  tail_beyond (beyond_alt (reads_append hr hr') (beyond_right hS (sep_accepts hs ha) hpart hx hr hr'
    (hs.stop i _ _ _ u hpart hx hr) h) (unfit_empty i)).1

include hS hp hb in
/-- An element, and then something beyond. -/
private theorem beyond_elem {i j l : S.Input} {c : Bool} {v : α} {u w : List S.Tok} (hpart : S.isPartial i = false)
    (hx : p.shape i = .ok c v j) (hr : S.Reads i u j) (hr' : S.Reads j w l)
    (h : S.Beyond rules (tailOf a b) w l) : S.Beyond rules (a.seq (tailOf a b)) (u ++ w) l :=
  beyond_right hS (elem_accepts hp hb) hpart hx hr hr' (hp.stop i _ _ _ u hpart hx hr) h

include hS hp hs ha hb in
private theorem beyond_rounds {i k : S.Input} {vs : List α} {c : Bool} (hr : Ref.Run (Ref.bind s.shape fun _ => p.shape) i vs c k)
    {l : S.Input} {w : List S.Tok} (hw : S.Reads k w l) (h : S.Beyond rules (tailOf a b) w l) (hpart : S.isPartial i = false) :
    ∃ u, S.Reads i u k ∧ S.Beyond rules (tailOf a b) (u ++ w) l ∧
      ((tailOf a b).Viable rules w → (tailOf a b).Viable rules (u ++ w)) := by
  induction hr with
  | nil i => exact ⟨[], .nil i, h, id⟩
  | @cons i j k c d v vs hx _ ih =>
    obtain ⟨c1, x, j', c2, h1, h2, -⟩ := bind_ok hx
    have hs1 := hs.predicts i
    rw [h1] at hs1
    obtain ⟨ub, g1, g2, _⟩ := hs1
    have hp1 := hp.predicts j'
    rw [h2] at hp1
    obtain ⟨ua, g3, g4, _⟩ := hp1
    have q1 := (hS.reads_isPartial g1).trans hpart
    obtain ⟨u, g5, g6, g7⟩ := ih hw ((hS.reads_isPartial g3).trans q1)
    refine ⟨ub ++ (ua ++ u), reads_append g1 (reads_append g3 g5), ?_, fun hv => ?_⟩
    · have := beyond_sep hS hs ha hpart h1 g1 (reads_append g3 (reads_append g5 hw))
        (beyond_alt (reads_append g3 (reads_append g5 hw)) (beyond_elem hS hp hb q1 h2 g3 (reads_append g5 hw) g6)
          (unfit_empty j')).1
      simpa [List.append_assoc] using this
    · have := tail_viable.2 (Gram.viable_alt.2 (.inl (Gram.viable_right g2 (Gram.viable_alt.2 (.inl
        (Gram.viable_right g4 (g7 hv)))))))
      simpa [List.append_assoc] using this

include hp hs in
private theorem rounds_viable {i k : S.Input} {vs : List α} {c : Bool} (hr : Ref.Run (Ref.bind s.shape fun _ => p.shape) i vs c k)
    {u : List S.Tok} (hu : S.Reads i u k) (hS : S.Lawful) {w : List S.Tok} (h : (tailOf a b).Viable rules w) :
    (tailOf a b).Viable rules (u ++ w) := by
  induction hr generalizing u with
  | nil i => rw [same_word hS hu (.nil i)]; exact h
  | @cons i j k c d v vs hx hrun ih =>
    obtain ⟨c1, x, j', c2, h1, h2, -⟩ := bind_ok hx
    have hs1 := hs.predicts i
    rw [h1] at hs1
    obtain ⟨ub, g1, g2, _⟩ := hs1
    have hp1 := hp.predicts j'
    rw [h2] at hp1
    obtain ⟨ua, g3, g4, _⟩ := hp1
    obtain ⟨u1, r1, _, _⟩ := predicts_run (predicts_bind hs.predicts fun _ => hp.predicts) hrun
    rw [same_word hS hu (reads_append g1 (reads_append g3 r1))]
    have := tail_viable.2 (Gram.viable_alt.2 (.inl (Gram.viable_right g2 (Gram.viable_alt.2 (.inl
      (Gram.viable_right g4 (ih r1)))))))
    simpa [List.append_assoc] using this

end

private theorem stuck_unique {i l l' : S.Input} {w w' : List S.Tok} (h1 : S.Reads i w l) (h2 : a.Viable rules w)
    (h3 : S.Beyond rules a w l) (h1' : S.Reads i w' l') (h2' : a.Viable rules w') (h3' : S.Beyond rules a w' l') : w = w' := by
  have key : ∀ {l l' : S.Input} {w w' : List S.Tok}, S.Beyond rules a w l → a.Viable rules w' →
      ∀ cs, w' = w ++ cs → S.Reads l cs l' → w = w' := by
    intro l l' w w' hb hv cs hw hr
    cases cs with
    | nil => simp [hw]
    | cons t ts =>
      obtain ⟨k, hk⟩ := reads_head hr
      obtain ⟨v, hv⟩ := hv
      exact absurd ⟨ts ++ v, by rw [hw] at hv; simpa using hv⟩ (hb t k hk)
  rcases reads_comparable h1 h1' with ⟨cs, h4, h5⟩ | ⟨cs, h4, h5⟩
  · exact key h3 h2' cs h4 h5
  · exact (key h3' h2 cs h4 h5).symm

private theorem same_place {i j j' : S.Input} {w : List S.Tok} (h : S.Reads i w j) (h' : S.Reads i w j') : j = j' := by
  induction h with
  | nil => exact (Strm.reads_nil.1 h').symm ▸ rfl
  | cons hu _ ih =>
    cases h' with
    | cons hu' h' => rw [hu] at hu'; cases hu'; exact ih h'

private theorem hard_answer {p : Parser S σ α} {i : S.Input} {x : Unit} (h : p.shape i = .hard x) : ∃ e, p.answer i = .hard e := by
  unfold Parser.shape at h
  cases hx : p.answer i with
  | hard e => exact ⟨e, rfl⟩
  | _ => rw [hx] at h; cases h

private theorem part_tail {w : List S.Tok} (h : (b.seq a.opt).Derives rules w) : (tailOf a b).Derives rules w := by
  obtain ⟨u, v, rfl, h1, h2⟩ := Gram.derives_seq.1 h
  rcases Gram.derives_alt.1 h2 with h2 | h2
  · have := Gram.Derives.seq (Gram.Derives.more (Gram.Derives.seq h1 h2) (Gram.Derives.stop (a := b.seq a)))
      (Gram.Derives.right (a := b) (Gram.Derives.empty (rules := rules)))
    simpa [List.append_assoc] using this
  · cases h2
    rw [List.append_nil]
    exact .seq (u := []) .stop (.left h1)

private theorem opt_next {t : S.Tok} (h : (Gram.opt a).Then rules F t) : a.First rules t ∨ F t := by
  refine h.imp (fun h => ?_) (·.2)
  rcases Gram.first_alt.1 h with h | h
  · exact h
  · cases h

/-- Where a separator and perhaps an element go wrong, so does the rest of the list. -/
private theorem rest_stuck (hS : S.Lawful) {p : Parser S σ α} {s : Parser S τ β} (hmp : Moves p)
    (hp : Blames Has rules a (fun t => b.First rules t ∨ F t) p) (hs : Blames Has rules b (fun t => a.First rules t ∨ F t) s)
    (ha : ¬ a.Null rules) (hb : ¬ b.Null rules) {k l : S.Input} {w : List S.Tok} {e : S.Err} (qk : S.isPartial k = false)
    (f1 : S.Reads k w l) (f3 : (b.seq a.opt).Viable rules w) (f4 : S.Beyond rules (b.seq a.opt) w l)
    (h2 : («with» (boxed s) (optional (boxed p))).answer k = .hard e) : S.Beyond rules (tailOf a b) w l := by
  have ek := congrFun (rest_shape hS (sep := s) hmp) k
  simp only [h2, Answer.shape, Ref.bind] at ek
  have hsk := hs.predicts k
  cases h3 : s.shape k with
  | soft => rw [h3] at ek; cases ek
  | abort x => rw [h3] at ek; cases ek
  | hard x =>
    have h5 : S.Beyond rules b w l := fun t k' hu' hv' => f4 t k' hu' (Gram.viable_left hv' ⟨hp.useful, trivial⟩)
    exact tail_beyond (beyond_alt f1 (beyond_left (sep_accepts hs ha) qk f1 (fun c v j h => by rw [h3] at h; cases h)
      (fun x h => by rw [h3] at h; cases h) h5) (unfit_empty k)).1
  | ok c' x k' =>
    rw [h3] at ek hsk
    obtain ⟨ub, e1, e2, _⟩ := hsk
    have qk' := (hS.reads_isPartial e1).trans qk
    have h4 : ∃ x, p.shape k' = .hard x := by
      revert ek
      simp only [Ref.optional]
      cases p.shape k' <;> cases c' <;> intro h <;> cases h <;> exact ⟨_, rfl⟩
    obtain ⟨x, h4⟩ := h4
    obtain ⟨e', h5⟩ := hard_answer h4
    obtain ⟨w', l', m1, m2, m3, m4⟩ := hp.hard k' e' qk' h5
    have n1 : S.Beyond rules (b.seq a.opt) (ub ++ w') l' := beyond_right hS (C56_weaken hs.toFollows fun _ => opt_next).2 qk h3 e1 m1
      (hs.stop k _ _ _ ub qk h3 e1) (beyond_alt m1 m4 (unfit_empty k')).1
    obtain rfl := stuck_unique f1 f3 f4 (reads_append e1 m1)
      (Gram.viable_right e2 (Gram.viable_alt.2 (.inl m3))) n1
    obtain rfl := same_place f1 (reads_append e1 m1)
    exact beyond_sep hS hs ha qk h3 e1 m1 (beyond_alt m1 (beyond_left (elem_accepts hp hb) qk' m1
      (fun c v j h => by rw [h4] at h; cases h) (fun x h => by rw [h4] at h; cases h) m4) (unfit_empty k')).1

/-- **C58.**  `sep_end_by1`. -/
theorem C58_sep_end_by1 (hS : S.Lawful) (hE : S.E.Naming Has) {Cp : σ → Prop} {Cs : τ → Prop} {p : Parser S σ α}
    {s : Parser S τ β} (hmp : Moves p) (hms : Moves s) (hkp : Keeps false Cp p) (hks : Keeps false Cs s)
    (hp : Blames Has rules a (fun t => b.First rules t ∨ F t) p) (hs : Blames Has rules b (fun t => a.First rules t ∨ F t) s)
    (ha : ¬ a.Null rules) (hb : ¬ b.Null rules) (hbF : Gram.Apart (b.First rules) F) (haF : Gram.Apart (a.First rules) F) :
    Blames Has rules (a.sepEndBy1 b) F (sepEndBy1 p s) := by
  have hc := follows_consuming hp.1.1 ha
  have hfail := sepEndBy1_fails hS hmp hms hkp hks hc
  have hrest : Blames Has rules (b.seq a.opt) F («with» (boxed s) (optional (boxed p))) :=
    C58_with hS hE (moves_boxed hS hms) (moves_optional hS (moves_boxed hS hmp))
      (C58_labels hE (C58_weaken hs fun _ => opt_next) (.static "")).2.2.2.1
      (C58_optional hS (moves_boxed hS hmp) (C58_labels hE (C58_weaken hp fun t h => .inr h) (.static "")).2.2.2.1 ha haF)
  have hu := tail_useful hp.useful hs.useful
  refine ⟨C56_sep_end_by1 hS hmp hms hkp hks hp.toFollows hs.toFollows ha hb hbF haF, ⟨hp.useful, hu⟩,
    fun i c v j w hpart hx hr => ?_, fun i e hpart hx => hp.soft i e hpart ((hfail i).1 e hx), fun i e hpart hx => ?_,
    hp.addError, adds_id⟩
  · have h := C10_sep_end_by1 hS hmp hms hkp hks hc i
    rw [hx] at h
    simp only [Ref.IsSepEndBy1] at h
    cases h0 : p.shape i with
    | soft => rw [h0] at h; cases h
    | hard e => rw [h0] at h; cases h
    | abort e => rw [h0] at h; cases h
    | ok c0 v0 j0 =>
      rw [h0] at h
      obtain ⟨vs, d, k, h1, h2⟩ := h
      have hpi := hp.predicts i
      rw [h0] at hpi
      obtain ⟨u0, g1, _⟩ := hpi
      have q0 := (hS.reads_isPartial g1).trans hpart
      have finish : ∀ {y : List S.Tok}, S.Reads k y j → S.Beyond rules (tailOf a b) y j → S.Beyond rules (a.seq (tailOf a b)) w j := by
        intro y hy hbe
        obtain ⟨u, f1, f2, _⟩ := beyond_rounds hS hp hs ha hb h1 hy hbe q0
        have f3 := beyond_elem hS hp hb hpart h0 g1 (reads_append f1 hy) f2
        rwa [same_word hS (reads_append g1 (reads_append f1 hy)) hr] at f3
      have hk := hs.predicts k
      cases h3 : s.shape k with
      | soft =>
        rw [h3] at h2 hk
        cases h2
        exact finish (.nil _) (beyond_nil fun t l hu ht => hk.1 t l hu (first_tail hb ht))
      | hard e => rw [h3] at h2; cases h2
      | abort e => rw [h3] at h2; cases h2
      | ok c' x k' =>
        rw [h3] at h2 hk
        obtain ⟨ub, f1, _⟩ := hk
        have hk' := hp.predicts k'
        obtain ⟨u1, r1, _, _⟩ := predicts_run (predicts_bind hs.predicts fun _ => hp.predicts) h1
        have qk := (hS.reads_isPartial r1).trans q0
        dsimp only at h2
        cases h4 : p.shape k' with
        | ok _ _ _ => rw [h4] at h2; exact h2.elim
        | hard e => rw [h4] at h2; cases h2
        | abort e => rw [h4] at h2; cases h2
        | soft =>
          rw [h4] at h2 hk'
          cases h2
          refine finish (y := ub ++ []) (reads_append f1 (.nil _)) (beyond_sep hS hs ha qk h3 f1 (.nil _) (beyond_nil
            fun t l hu ht => hk'.1 t l hu ?_))
          rcases Gram.first_alt.1 ht with ht | ht
          · rcases Gram.first_seq.1 ht with ht | ht
            · exact ht
            · exact absurd ht.1 ha
          · cases ht
  · rcases (hfail i).2 e (answer_of_hard.1 hx) with h | ⟨c0, v0, j0, vs, d, k, h0, h1, h2⟩
    · have h := answer_of_hard.2 h
      obtain ⟨w, l, h1, h2, h3, h4⟩ := hp.hard i e hpart h
      have h5 := shape_of_hard h
      exact ⟨w, l, h1, h2, Gram.viable_left h3 hu, beyond_left (elem_accepts hp hb) hpart h1
        (fun c v j h => by rw [h5] at h; cases h) (fun x h => by rw [h5] at h; cases h) h4⟩
    · have h0 : p.shape i = .ok c0 v0 j0 := by simp only [Parser.shape, h0, Answer.shape]
      have hpi := hp.predicts i
      rw [h0] at hpi
      obtain ⟨u0, g1, g2, _⟩ := hpi
      have q0 := (hS.reads_isPartial g1).trans hpart
      obtain ⟨u1, r1, _, _⟩ := predicts_run (predicts_bind hs.predicts fun _ => hp.predicts) h1
      have qk := (hS.reads_isPartial r1).trans q0
      obtain ⟨w, l, f1, f2, f3, f4⟩ := hrest.hard k e qk h2
      have hv : (tailOf a b).Viable rules w := f3.imp fun _ => part_tail
      have hbe := rest_stuck hS hmp hp hs ha hb qk f1 f3 f4 h2
      obtain ⟨u, t1, t2, t3⟩ := beyond_rounds hS hp hs ha hb h1 f1 hbe q0
      exact ⟨u0 ++ (u ++ w), l, reads_append g1 (reads_append t1 f1), f2, Gram.viable_right g2 (t3 hv),
        beyond_elem hS hp hb hpart h0 g1 (reads_append t1 f1) t2⟩

/-- **C58.**  `sep_end_by`. -/
theorem C58_sep_end_by (hS : S.Lawful) (hE : S.E.Naming Has) {Cp : σ → Prop} {Cs : τ → Prop} {p : Parser S σ α}
    {s : Parser S τ β} (hmp : Moves p) (hms : Moves s) (hkp : Keeps false Cp p) (hks : Keeps false Cs s)
    (hp : Blames Has rules a (fun t => b.First rules t ∨ F t) p) (hs : Blames Has rules b (fun t => a.First rules t ∨ F t) s)
    (ha : ¬ a.Null rules) (hb : ¬ b.Null rules) (hbF : Gram.Apart (b.First rules) F) (haF : Gram.Apart (a.First rules) F) :
    Blames Has rules (a.sepEndBy1 b).opt F (sepEndBy p s) := by
  have h1 := C58_sep_end_by1 hS hE (moves_boxed hS hmp) (moves_boxed hS hms) (keeps_boxed hkp) (keeps_boxed hks)
    (C58_labels hE hp (.static "")).2.2.2.1 (C58_labels hE hs (.static "")).2.2.2.1 ha hb hbF haF
  have hn : ¬ (a.sepEndBy1 b).Null rules := fun h => ha (Gram.null_seq.1 h).1
  have h2 := C58_or hS hE (moves_sepEndBy1 hS (moves_boxed hS hmp) (moves_boxed hS hms)) (moves_emptyList hS) h1
    (blames_emptyList (α := α)) hn (fun t _ h => by cases h) (fun _ t h => by
      rcases Gram.first_seq.1 h with h | h
      · exact haF t h
      · exact absurd h.1 ha)
  exact blames_res id h2 (fun i => (fun r : ParseResult (List α) S.Err => show r = r.map id by cases r <;> rfl) _)
    (fun _ => rfl) hp.addError adds_id

/-! ## What is listed as expected -/

variable {H : S.E.Hints} {M : Info S.Tok S.Rng → S.Tok → Prop}

/-- **C59.**  `sep_end_by1`. -/
theorem C59_sep_end_by1 (hS : S.Lawful) (hE : S.E.Naming Has) {Cp : σ → Prop} {Cs : τ → Prop} {p : Parser S σ α}
    {s : Parser S τ β} (hmp : Moves p) (hms : Moves s) (hkp : Keeps false Cp p) (hks : Keeps false Cs s)
    (hp : Tells Has H M rules a (fun t => b.First rules t ∨ F t) p)
    (hs : Tells Has H M rules b (fun t => a.First rules t ∨ F t) s)
    (ha : ¬ a.Null rules) (hb : ¬ b.Null rules) (hbF : Gram.Apart (b.First rules) F) (haF : Gram.Apart (a.First rules) F) :
    Tells Has H M rules (a.sepEndBy1 b) F (sepEndBy1 p s) := by
  have hc := follows_consuming hp.1.1.1 ha
  have hfail := sepEndBy1_fails hS hmp hms hkp hks hc
  have hrest : Tells Has H M rules (b.seq a.opt) F («with» (boxed s) (optional (boxed p))) :=
    C59_with hS hE (moves_boxed hS hms) (moves_optional hS (moves_boxed hS hmp))
      (C59_wrappers hE (C59_weaken hs fun _ => opt_next)).1 (fun h => absurd h hb)
      (C59_optional hS (moves_boxed hS hmp) (C59_wrappers hE (C59_weaken hp fun t h => .inr h)).1 ha haF) closes_optional
  have hu := tail_useful hp.useful hs.useful
  refine ⟨C58_sep_end_by1 hS hE hmp hms hkp hks hp.toBlames hs.toBlames ha hb hbF haF,
    fun t => ⟨(hp.extends_ t).1, notes_refl t⟩, fun t ht => notes_mono (hp.first t ht) fun _ h => awaits_left h hu,
    fun i e hpart hx => ?_, fun i e hpart hx => ?_, fun t w _ _ => notes_refl t⟩
  · obtain ⟨h1, h2⟩ := hp.softly i e hpart ((hfail i).1 e hx)
    exact ⟨fun x hx => awaits_left (h1 x hx) hu,
      fun t ht => ⟨notes_mono (h2 t ht).1 fun _ h => awaits_left h hu, (h2 t ht).2⟩⟩
  · rcases (hfail i).2 e (answer_of_hard.1 hx) with h | ⟨c0, v0, j0, vs, d, k, h0, h1, h2⟩
    · have h := answer_of_hard.2 h
      obtain ⟨w, l, h1, h3, h4, h6⟩ := hp.hardly i e hpart h
      have h5 := shape_of_hard h
      exact ⟨w, l, h1, Gram.viable_left h3 hu, beyond_left (elem_accepts hp.toBlames hb) hpart h1
        (fun c v j h => by rw [h5] at h; cases h) (fun x h => by rw [h5] at h; cases h) h4,
        fun x hx => awaits_left (h6 x hx) hu⟩
    · have h0 : p.shape i = .ok c0 v0 j0 := by simp only [Parser.shape, h0, Answer.shape]
      have hpi := hp.predicts i
      rw [h0] at hpi
      obtain ⟨u0, g1, g2, _⟩ := hpi
      have q0 := (hS.reads_isPartial g1).trans hpart
      obtain ⟨u1, r1, _, _⟩ := predicts_run (predicts_bind hs.predicts fun _ => hp.predicts) h1
      have qk := (hS.reads_isPartial r1).trans q0
      obtain ⟨w, l, f1, f3, f4, f5⟩ := hrest.hardly k e qk h2
      have hbe := rest_stuck hS hmp hp.toBlames hs.toBlames ha hb qk f1 f3 f4 h2
      obtain ⟨u, t1, t2, t3⟩ := beyond_rounds hS hp.toBlames hs.toBlames ha hb h1 f1 hbe q0
      refine ⟨u0 ++ (u ++ w), l, reads_append g1 (reads_append t1 f1),
        Gram.viable_right g2 (t3 (f3.imp fun _ => part_tail)),
        beyond_elem hS hp.toBlames hb hpart h0 g1 (reads_append t1 f1) t2, fun x hx => awaits_right g2 ?_⟩
      obtain ⟨t, y1, y2⟩ := f5 x hx
      exact ⟨t, y1, by rw [List.append_assoc]; exact rounds_viable hp.toBlames hs.toBlames h1 t1 hS (y2.imp fun _ => part_tail)⟩

/-- **C59.**  `sep_end_by`. -/
theorem C59_sep_end_by (hS : S.Lawful) (hE : S.E.Naming Has) {Cp : σ → Prop} {Cs : τ → Prop} {p : Parser S σ α}
    {s : Parser S τ β} (hmp : Moves p) (hms : Moves s) (hkp : Keeps false Cp p) (hks : Keeps false Cs s)
    (hp : Tells Has H M rules a (fun t => b.First rules t ∨ F t) p)
    (hs : Tells Has H M rules b (fun t => a.First rules t ∨ F t) s)
    (ha : ¬ a.Null rules) (hb : ¬ b.Null rules) (hbF : Gram.Apart (b.First rules) F) (haF : Gram.Apart (a.First rules) F) :
    Tells Has H M rules (a.sepEndBy1 b).opt F (sepEndBy p s) := by
  have h1 := C59_sep_end_by1 hS hE (moves_boxed hS hmp) (moves_boxed hS hms) (keeps_boxed hkp) (keeps_boxed hks)
    (C59_wrappers hE hp).1 (C59_wrappers hE hs).1 ha hb hbF haF
  have hn : ¬ (a.sepEndBy1 b).Null rules := fun h => ha (Gram.null_seq.1 h).1
  have h2 := C59_or hS hE (moves_sepEndBy1 hS (moves_boxed hS hmp) (moves_boxed hS hms)) (moves_emptyList hS) h1
    (tells_emptyList (α := α)) hn (fun t _ h => by cases h) (fun _ t h => by
      rcases Gram.first_seq.1 h with h | h
      · exact haF t h
      · exact absurd h.1 ha)
  have hu := tail_useful hp.useful hs.useful
  refine ⟨C58_sep_end_by hS hE hmp hms hkp hks hp.toBlames hs.toBlames ha hb hbF haF,
    fun t => ⟨(hp.extends_ t).1, notes_refl t⟩,
    fun t ht => notes_mono (hp.first t ht) fun _ h => awaits_alt_left (awaits_left h hu),
    fun i e hpart hx => ?_, fun i e hpart hx => h2.hardly i e hpart hx, fun t _ _ _ => notes_refl t⟩
  have h3 := h2.predicts i
  have h4 : (or (sepEndBy1 (boxed p) (boxed s)) (emptyList S α)).shape i = .soft := shape_of_err hx
  rw [h4] at h3
  exact absurd (Gram.derives_alt.2 (.inr .empty)) h3.2

/-! ## Examples -/

section Examples

open Hint

private theorem hS : Y.Lawful := source_lawful _ _

private theorem blames_ch (F : Char → Prop) (x : Char) : Blames SaysE lists (ch x) F (token Y x) :=
  (C58_one (S := Y) hS (Easy.naming cmpSource cmpSource_self) (source_plain _ _) (fun t => some t) ⟨'a', rfl⟩ (fun _ => true)
    ⟨'a', rfl⟩ x).2.2.1

/-- Statements each followed by a semicolon, except perhaps the last: `sep_end_by(char('x'), char(';'))`. -/
private theorem statements_blame :
    Blames SaysE lists ((ch 'x').sepEndBy1 (ch ';')).opt (fun _ => False) (sepEndBy (token Y 'x') (token Y ';')) :=
  C58_sep_end_by hS (Easy.naming cmpSource cmpSource_self) (moves_token hS _) (moves_token hS _) (keeps_unit (h := false) _)
    (keeps_unit (h := false) _) (blames_ch _ 'x') (blames_ch _ ';') Gram.null_one Gram.null_one (fun _ _ h => h) fun _ _ h => h

/-- Every text that is no such list. -/
example (text : List Char) (e : Easy.Errors Char (List Char) SourcePosition)
    (he : (skip (sepEndBy (token Y 'x') (token Y ';')) (eof Y)).parse (⟨0, text⟩, SourcePosition.start) = .err e) :
    ∃ good rest, text = good ++ rest ∧ ((ch 'x').sepEndBy1 (ch ';')).opt.Viable lists good ∧
      e.position = textPosition (· = '\n') good ∧
      match rest with
      | t :: _ => ¬ ((ch 'x').sepEndBy1 (ch ';')).opt.Viable lists (good ++ [t]) ∧ .unexpected (.token t) ∈ e.errors
      | [] => ¬ ((ch 'x').sepEndBy1 (ch ';')).opt.Derives lists good ∧ Easy.SaysEnd e :=
  C58_source _ cmpSource cmpSource_self (moves_sepEndBy hS (moves_token hS _) (moves_token hS _)) statements_blame text 0 he

example : Hint.reported (sepEndBy (token Y 'x') (token Y ';')) ['x', ';', ';'] =
    some (1, 3, [.unexpected (.token ';'), .expected (.static "end of input")]) := by decide +kernel
example : Hint.reported (sepEndBy (token Y 'x') (token Y ';')) ['x', ';', 'x', ';'] = none := by decide +kernel

private theorem hE : Y.E.Naming SaysE := Easy.naming cmpSource cmpSource_self

private theorem tells_ch (F : Char → Prop) (x : Char) :
    Tells SaysE (Easy.hints cmpSource) named lists (ch x) F (token Y x) :=
  (C59_one (S := Y) hS hE (source_plain _ _) (fun t => some t) ⟨'a', rfl⟩ (fun _ => true) ⟨'a', rfl⟩ x rfl).2.2.1

/-- At least one statement. -/
private theorem statements_tell : Tells SaysE (Easy.hints cmpSource) named lists ((ch 'x').sepEndBy1 (ch ';'))
    (fun _ => False) (sepEndBy1 (token Y 'x') (token Y ';')) :=
  C59_sep_end_by1 hS hE (moves_token hS _) (moves_token hS _) (keeps_unit (h := false) _) (keeps_unit (h := false) _)
    (tells_ch _ 'x') (tells_ch _ ';') Gram.null_one Gram.null_one (fun _ _ h => h) fun _ _ h => h

/-- Perhaps none. -/
example : Tells SaysE (Easy.hints cmpSource) named lists ((ch 'x').sepEndBy1 (ch ';')).opt
    (fun _ => False) (sepEndBy (token Y 'x') (token Y ';')) :=
  C59_sep_end_by hS hE (moves_token hS _) (moves_token hS _) (keeps_unit (h := false) _) (keeps_unit (h := false) _)
    (tells_ch _ 'x') (tells_ch _ ';') Gram.null_one Gram.null_one (fun _ _ h => h) fun _ _ h => h

/-- Every text that is no such list: what the error lists as expected can come there. -/
example (text : List Char) (e : Easy.Errors Char (List Char) SourcePosition)
    (he : (skip (sepEndBy1 (token Y 'x') (token Y ';')) (eof Y)).parse (⟨0, text⟩, SourcePosition.start) = .err e) :
    ∃ good rest, text = good ++ rest ∧ ((ch 'x').sepEndBy1 (ch ';')).Viable lists good ∧
      e.position = textPosition (· = '\n') good ∧ ∀ x, .expected x ∈ e.errors →
        (∃ t, named x t ∧ ((ch 'x').sepEndBy1 (ch ';')).Viable lists (good ++ [t])) ∨
          x = .static "end of input" ∧ ((ch 'x').sepEndBy1 (ch ';')).Derives lists good :=
  C59_source_partial _ cmpSource cmpSource_self (moves_sepEndBy1 hS (moves_token hS _) (moves_token hS _)) statements_tell
    (fun h => absurd (Gram.null_seq.1 h).1 Gram.null_one) text 0 he

example : Hint.reported (sepEndBy1 (token Y 'x') (token Y ';')) [';'] =
    some (1, 1, [.unexpected (.token ';'), .expected (.token 'x')]) := by decide +kernel

end Examples

end Verif
