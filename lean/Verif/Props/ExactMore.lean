import Verif.Props.Exact

/-!
# C63, C60: exactly which texts the remaining repetitions accept

`count_min_max`, `count`, `sep_end_by1` and `sep_end_by`.
-/

namespace Verif

variable {S : Strm} {σ τ α β : Type} {F G H : Option S.Tok → Prop} {L : Texts S.Tok α} {M : Texts S.Tok β}

private theorem back_of {p : Parser S σ α} (h : ∀ w v o, L w v o → Recovers (fun o' => o' = o) p w v) (w : List S.Tok) (v : α) :
    Recovers (fun o => L w v o) p w v := fun i k h1 h2 h3 => h w v _ h3 i k h1 h2 rfl

private theorem back_to {p : Parser S σ α} (h : Describes L p) {w u : List S.Tok} {v : α} {o : Option S.Tok} (hv : L w v (lead u o)) :
    Recovers (Before u fun o' => o' = o) p w v := C60_weaken (h.back w v) fun o' ⟨o'', h1, h2⟩ => by rw [h2, h1]; exact hv

private theorem pieces_back {p : Parser S σ α} (hp : Describes L p) {w : List S.Tok} {vs : List α} {o : Option S.Tok}
    (h : Texts.Many L w vs o) : Pieces (fun o' => o' = o) p.shape w vs := by
  induction h with
  | nil => exact .nil
  | cons h1 h2 _ ih => exact .cons h1 (back_to hp h2) ih

/-- What a row of successes consumed. -/
private theorem run_takes {m : Sem S.Input Unit α} (hm : Takes L m) (hL : ∀ v o, ¬ L [] v o) {i k : S.Input} {c : Bool}
    {vs : List α} (h : Ref.Run m i vs c k) : ∃ w, S.Reads i w k ∧ c = (!w.isEmpty) ∧ Texts.Many L w vs (S.ahead k) := by
  induction h with
  | nil i => exact ⟨[], .nil i, rfl, .nil⟩
  | cons h3 _ ih =>
    obtain ⟨u, g1, rfl, g3⟩ := ih
    obtain ⟨w, k1, rfl, k3⟩ := hm _ _ _ _ h3
    refine ⟨w ++ u, reads_append k1 g1, isEmpty_append_not w u, .cons ?_ (ahead_reads g1 ▸ k3) g3⟩
    rintro rfl
    exact hL _ _ k3

private theorem run_same {I : Type} {m : Sem I Unit α} {i : I} {vs vs' : List α} {c c' : Bool} {k k' : I}
    (h : Ref.Run m i vs c k) (h' : Ref.Run m i vs' c' k') (hk : ∀ c v j, m k ≠ .ok c v j) (hk' : ∀ c v j, m k' ≠ .ok c v j) :
    vs = vs' ∧ c = c' ∧ k = k' := by
  induction h generalizing vs' c' with
  | nil i =>
    cases h' with
    | nil => exact ⟨rfl, rfl, rfl⟩
    | cons h1 _ => exact absurd h1 (hk _ _ _)
  | cons h1 _ ih =>
    cases h' with
    | nil => exact absurd h1 (hk' _ _ _)
    | cons h2 h3 =>
      rw [h1] at h2
      cases h2
      obtain ⟨rfl, rfl, rfl⟩ := ih h3 hk
      exact ⟨rfl, rfl, rfl⟩

/-! ## Between `lo` and `hi` -/

/-- **C63.**  `count_min_max`: from `lo` to `hi` texts; if there are fewer than `hi`, something the parser declines follows. -/
theorem C63_is_count_min_max (hS : S.Lawful) {p : Parser S σ α} (hm : Moves p) (hr : Reusable p) {lo hi : Nat} (hlh : lo ≤ hi)
    (hp : Describes L p) (hg : FailsBy G p) (hL : ∀ v o, ¬ L [] v o) :
    Describes (fun w vs o => Texts.Many L w vs o ∧ lo ≤ vs.length ∧ vs.length ≤ hi ∧ (vs.length < hi → G o)) (countMinMax lo hi p) := by
  refine ⟨back_of fun w vs o h => C60_count_min_max hS hm hr (pieces_back hp h.1) h.2.1 h.2.2.1 fun hl =>
    C60_weaken_decline hg.back fun _ e => e ▸ h.2.2.2 hl, ?_⟩
  intro i c vs k h
  obtain ⟨ws, d, l, h1, h2, h3⟩ := C09_count_min_max hS hm hr lo hi hlh i
  rw [show (countMinMax lo hi p).shape i = _ from h] at h3
  obtain ⟨w, g1, rfl, g3⟩ := run_takes hp.only hL h1
  by_cases hl : ws.length = hi
  · rw [if_pos hl] at h3
    cases h3
    exact ⟨w, g1, rfl, g3, by omega, by omega, fun h => absurd hl (Nat.ne_of_lt h)⟩
  · rw [if_neg hl] at h3
    cases hx : p.shape l with
    | ok _ _ _ => rw [hx] at h3; exact h3.elim
    | hard e => rw [hx] at h3; cases h3
    | abort e => rw [hx] at h3; cases h3
    | soft =>
      rw [hx] at h3
      dsimp only at h3
      by_cases hlo : lo ≤ ws.length
      · rw [if_pos hlo] at h3
        cases h3
        exact ⟨w, g1, rfl, g3, hlo, h2, fun _ => hg.only _ hx⟩
      · rw [if_neg hlo] at h3
        revert h3
        split <;> intro h3 <;> cases h3

/-- **C63.**  It fails without commitment where none of them comes next though one is required. -/
theorem C63_is_count_min_max_fails (hS : S.Lawful) {p : Parser S σ α} (hm : Moves p) (hr : Reusable p) {lo hi : Nat} (hlh : lo ≤ hi)
    (hp : Describes L p) (hg : FailsBy G p) (hL : ∀ v o, ¬ L [] v o) :
    FailsBy (fun o => 0 < lo ∧ G o) (countMinMax lo hi p) := by
  constructor
  · intro i h1 ⟨h2, h3⟩
    obtain ⟨ws, d, l, h4, h5, h6⟩ := C09_count_min_max hS hm hr lo hi hlh i
    have hs : p.shape i = .soft := hg.back i h1 h3
    cases h4 with
    | cons h7 _ => rw [hs] at h7; cases h7
    | nil =>
      rw [if_neg (by simp; omega), hs] at h6
      dsimp only at h6
      rw [if_neg (by simp; omega)] at h6
      exact h6
  · intro i h
    obtain ⟨ws, d, l, h4, h5, h6⟩ := C09_count_min_max hS hm hr lo hi hlh i
    rw [show (countMinMax lo hi p).shape i = _ from h] at h6
    obtain ⟨w, g1, rfl, g3⟩ := run_takes hp.only hL h4
    by_cases hl : ws.length = hi
    · rw [if_pos hl] at h6
      cases h6
    · rw [if_neg hl] at h6
      cases hx : p.shape l with
      | ok _ _ _ => rw [hx] at h6; exact h6.elim
      | hard e => rw [hx] at h6; cases h6
      | abort e => rw [hx] at h6; cases h6
      | soft =>
        rw [hx] at h6
        dsimp only at h6
        by_cases hlo : lo ≤ ws.length
        · rw [if_pos hlo] at h6; cases h6
        · rw [if_neg hlo] at h6
          cases w with
          | cons t ts => cases h6
          | nil =>
            cases Strm.reads_nil.1 g1
            exact ⟨by omega, hg.only _ hx⟩

/-! ## Lists that may end with a separator -/

/-- What may come after the first element: separators and elements, up to where no separator comes next; or up to a last separator
after which no element comes. -/
def Texts.EndRest {T : Type} (L : Texts T α) (M : Texts T β) (noSep noElem : Option T → Prop) : Texts T (List α) := fun w vs o =>
  Texts.Many (M.bind fun _ => L) w vs o ∧ noSep o ∨
  ∃ u z x, w = u ++ z ∧ Texts.Many (M.bind fun _ => L) u vs (lead z o) ∧ M z x o ∧ noElem o

private theorem is_sepEnd (hS : S.Lawful) {p : Parser S σ α} {s : Parser S τ β} {q : Sem S.Input Unit (List α)}
    (hq : ∀ i, Ref.IsSepEndBy1 p.shape s.shape i (q i)) (hp : Describes L p) (hs : Describes M s) (hg : FailsBy G s)
    (hf : FailsBy H p) (hM : ∀ v o, ¬ M [] v o) :
    (∀ w vs, ReadsBack (fun o => (L.bind fun v => Texts.map (L.EndRest M G H) (v :: ·)) w vs o) q w vs) ∧
    Takes (L.bind fun v => Texts.map (L.EndRest M G H) (v :: ·)) q := by
  have hw : («with» s p).shape = Ref.bind s.shape fun _ => p.shape := funext (C12_with s p)
  constructor
  · intro w vs i k hi hr hL
    generalize hF : S.ahead k = o at hL
    obtain ⟨u, z, v, rfl, h1, vs, h2, rfl⟩ := hL
    obtain ⟨j, r1, r2⟩ := reads_split hr
    have hj : S.isPartial j = false := by rw [hS.reads_isPartial r1, hi]
    have h := hq i
    simp only [Ref.IsSepEndBy1] at h
    rw [show p.shape i = _ from back_to hp h1 i j hi r1 ⟨_, hF, ahead_reads r2⟩] at h
    obtain ⟨ws, d, l, h3, h4⟩ := h
    have hl : ∀ c v j, (Ref.bind s.shape fun _ => p.shape) l ≠ .ok c v j := by
      intro c x y hx
      simp only [Ref.bind] at hx
      revert h4 hx
      cases s.shape l with
      | ok c' _ k' =>
        dsimp only
        cases p.shape k' with
        | ok _ _ _ => intro h; exact h.elim
        | soft => intro _ h; revert h; cases c' <;> intro h <;> cases h
        | hard e => intro _ h; cases h
        | abort e => intro _ h; cases h
      | soft => intro _ h; cases h
      | hard e => intro _ h; cases h
      | abort e => intro _ h; cases h
    rcases h2 with ⟨h2, h5⟩ | ⟨z1, z2, x, rfl, h2, h5, h6⟩
    · have hk : S.isPartial k = false := by rw [hS.reads_isPartial r2, hj]
      have hrun := pieces_run hS (pieces_back (C63_is_with hS hs hp) h2) hj r2 hF
      rw [hw] at hrun
      have hsk : s.shape k = .soft := hg.back k hk (hF ▸ h5)
      obtain ⟨rfl, rfl, rfl⟩ := run_same hrun h3 (by
        intro c v j h
        simp only [Ref.bind, hsk] at h
        cases h) hl
      rw [hsk] at h4
      rw [isEmpty_append_not] at h4
      exact h4
    · obtain ⟨m, r3, r4⟩ := reads_split r2
      have hm' : S.isPartial m = false := by rw [hS.reads_isPartial r3, hj]
      have hk : S.isPartial k = false := by rw [hS.reads_isPartial r4, hm']
      have hrun := pieces_run hS (pieces_back (C63_is_with hS hs hp) h2) hj r3 (by rw [ahead_reads r4, hF])
      rw [hw] at hrun
      have hsm : s.shape m = .ok (!z2.isEmpty) x k := hs.back _ _ m k hm' r4 (hF ▸ h5)
      have hpk : p.shape k = .soft := hf.back k hk (hF ▸ h6)
      obtain ⟨rfl, rfl, rfl⟩ := run_same hrun h3 (by
        intro c v j h
        simp only [Ref.bind, hsm, hpk] at h
        revert h
        cases z2.isEmpty <;> intro h <;> cases h) hl
      simp only [hsm, hpk] at h4
      rw [isEmpty_append_not, isEmpty_append_not, List.append_assoc] at h4
      exact h4
  · intro i c vs k hi
    have h := hq i
    simp only [Ref.IsSepEndBy1] at h
    rw [hi] at h
    cases hx : p.shape i with
    | soft => rw [hx] at h; cases h
    | hard e => rw [hx] at h; cases h
    | abort e => rw [hx] at h; cases h
    | ok d v j =>
      rw [hx] at h
      obtain ⟨ws, d', l, h1, h2⟩ := h
      obtain ⟨u, k1, rfl, k3⟩ := hp.only _ _ _ _ hx
      obtain ⟨w, g1, rfl, g3⟩ := run_takes (takes_bind hs.only fun _ => hp.only) (bind_nonempty hM) h1
      cases hy : s.shape l with
      | hard e => rw [hy] at h2; cases h2
      | abort e => rw [hy] at h2; cases h2
      | soft =>
        rw [hy] at h2
        cases h2
        exact ⟨u ++ w, reads_append k1 g1, isEmpty_append_not u w, u, w, v, rfl, ahead_reads g1 ▸ k3, ws,
          .inl ⟨g3, hg.only _ hy⟩, rfl⟩
      | ok c' x l' =>
        rw [hy] at h2
        dsimp only at h2
        cases hz : p.shape l' with
        | ok _ _ _ => rw [hz] at h2; exact h2.elim
        | hard e => rw [hz] at h2; cases h2
        | abort e => rw [hz] at h2; cases h2
        | soft =>
          rw [hz] at h2
          cases h2
          obtain ⟨z, e1, rfl, e3⟩ := hs.only _ _ _ _ hy
          have r := reads_append g1 e1
          refine ⟨u ++ (w ++ z), reads_append k1 r, ?_, u, w ++ z, v, rfl, ahead_reads r ▸ k3, ws,
            .inr ⟨w, z, x, rfl, ahead_reads e1 ▸ g3, e3, hf.only _ hz⟩, rfl⟩
          rw [isEmpty_append_not, isEmpty_append_not, List.append_assoc]

private theorem sepEnd_leaves {p : Parser S σ α} {s : Parser S τ β} {q : Sem S.Input Unit (List α)}
    (hq : ∀ i, Ref.IsSepEndBy1 p.shape s.shape i (q i)) (i : S.Input) : q i = .soft ↔ p.shape i = .soft := by
  have h := hq i
  simp only [Ref.IsSepEndBy1] at h
  cases hx : p.shape i with
  | soft => rw [hx] at h; exact ⟨fun _ => rfl, fun _ => h⟩
  | hard e => rw [hx] at h; rw [h]; exact ⟨(by intro h; cases h), (by intro h; cases h)⟩
  | abort e => rw [hx] at h; rw [h]; exact ⟨(by intro h; cases h), (by intro h; cases h)⟩
  | ok d v j =>
    refine ⟨fun hi => ?_, fun h => by cases h⟩
    rw [hx, hi] at h
    obtain ⟨ws, d', l, h1, h2⟩ := h
    revert h2
    cases s.shape l with
    | soft => intro h; cases h
    | hard e => intro h; cases h
    | abort e => intro h; cases h
    | ok c' x l' =>
      dsimp only
      cases p.shape l' with
      | ok _ _ _ => intro h; exact h.elim
      | soft => intro h; cases h
      | hard e => intro h; cases h
      | abort e => intro h; cases h

/-- **C63.**  `sep_end_by1`: an element, and then separators and elements; the last separator may have no element after it. -/
theorem C63_is_sep_end_by1 (hS : S.Lawful) {Cp : σ → Prop} {Cs : τ → Prop} {p : Parser S σ α} {s : Parser S τ β}
    (hmp : Moves p) (hms : Moves s) (hkp : Keeps false Cp p) (hks : Keeps false Cs s) (hc : Consuming p)
    (hp : Describes L p) (hs : Describes M s) (hg : FailsBy G s) (hf : FailsBy H p) (hM : ∀ v o, ¬ M [] v o) :
    Describes (L.bind fun v => Texts.map (L.EndRest M G H) (v :: ·)) (sepEndBy1 p s) :=
  have h := is_sepEnd hS (C10_sep_end_by1 hS hmp hms hkp hks hc) hp hs hg hf hM
  ⟨h.1, h.2⟩

/-- **C63.**  `sep_end_by1` fails without commitment where its element does. -/
theorem C63_is_sep_end_by1_fails (hS : S.Lawful) {Cp : σ → Prop} {Cs : τ → Prop} {p : Parser S σ α} {s : Parser S τ β}
    (hmp : Moves p) (hms : Moves s) (hkp : Keeps false Cp p) (hks : Keeps false Cs s) (hc : Consuming p)
    (hf : FailsBy H p) : FailsBy H (sepEndBy1 p s) :=
  have h := sepEnd_leaves (C10_sep_end_by1 hS hmp hms hkp hks hc)
  ⟨fun i h1 h2 => (h i).2 (hf.back i h1 h2), fun i hi => hf.only i ((h i).1 hi)⟩

/-- **C63.**  `sep_end_by`: that, or nothing where no element comes next. -/
theorem C63_is_sep_end_by (hS : S.Lawful) {Cp : σ → Prop} {Cs : τ → Prop} {p : Parser S σ α} {s : Parser S τ β}
    (hmp : Moves p) (hms : Moves s) (hkp : Keeps false Cp p) (hks : Keeps false Cs s) (hc : Consuming p)
    (hp : Describes L p) (hs : Describes M s) (hg : FailsBy G s) (hf : FailsBy H p) (hM : ∀ v o, ¬ M [] v o) :
    Describes (fun w vs o => (L.bind fun v => Texts.map (L.EndRest M G H) (v :: ·)) w vs o ∨ H o ∧ w = [] ∧ vs = [])
      (sepEndBy p s) := by
  have hx := C10_sep_end_by hS hmp hms hkp hks hc
  obtain ⟨q, hx⟩ := Classical.skolem.1 hx
  have hq : ∀ i, Ref.IsSepEndBy1 p.shape s.shape i (q i) := fun i => (hx i).1
  have he : ∀ i, (sepEndBy p s).shape i = orSem q (Ref.value []) i := by
    intro i
    rw [(hx i).2, orSem]
    cases q i <;> rfl
  obtain ⟨h1, h2⟩ := is_sepEnd hS hq hp hs hg hf hM
  constructor
  · intro w vs i k hi hr hF
    rw [he, orSem]
    rcases hF with hF | ⟨hF, rfl, rfl⟩
    · rw [h1 w vs i k hi hr hF]
    · cases Strm.reads_nil.1 hr
      rw [(sepEnd_leaves hq i).2 (hf.back i hi hF)]
      rfl
  · refine takes_congr he (takes_mono (takes_or h2 (G := H) (fun i hi => hf.only i ((sepEnd_leaves hq i).1 hi)) (takes_value [])) ?_)
    rintro w vs o (h | ⟨h1, rfl, rfl⟩)
    · exact .inl h
    · exact .inr ⟨h1, rfl, rfl⟩

/-- **C63.**  It never fails without commitment. -/
theorem C63_is_sep_end_by_fails (hS : S.Lawful) {Cp : σ → Prop} {Cs : τ → Prop} {p : Parser S σ α} {s : Parser S τ β}
    (hmp : Moves p) (hms : Moves s) (hkp : Keeps false Cp p) (hks : Keeps false Cs s) (hc : Consuming p) :
    FailsBy (fun _ => False) (sepEndBy p s) := by
  refine ⟨fun _ _ h => h.elim, fun i hi => ?_⟩
  obtain ⟨b, _, h2⟩ := C10_sep_end_by hS hmp hms hkp hks hc i
  rw [show (sepEndBy p s).shape i = _ from hi] at h2
  cases b <;> cases h2

/-! ## Concrete cases -/

private abbrev B := sliceS Nat 1

private abbrev digit (t : Nat) : Option Nat := if t < 10 then some t else none

/-- Digits, with 12 between them and perhaps after the last. -/
private abbrev list := sepEndBy1 (satisfyMap B digit) (token B 12)

/-- Two or three digits. -/
private abbrev some23 := countMinMax 2 3 (satisfyMap B digit)

-- the hypotheses of the theorems are met, and their conclusions are not trivial
example : ∃ K, Describes K list ∧ ∃ G, FailsBy G list := by
  have hS := slice_lawful Nat 1
  have hd := C53_satisfy_map (S := B) hS digit
  have ht := C53_token (S := B) hS 12
  exact ⟨_, C63_is_sep_end_by1 hS (moves_satisfyMap (S := B) hS digit) (moves_token (S := B) hS 12) (keeps_unit _) (keeps_unit _)
      (consuming_satisfyMap (S := B) digit) (C63_is_one hd) (C63_is_one ht) (C63_is_one_fails ht) (C63_is_one_fails hd)
      (by rintro v o ⟨t, h, _⟩; cases h),
    _, C63_is_sep_end_by1_fails hS (moves_satisfyMap (S := B) hS digit) (moves_token (S := B) hS 12) (keeps_unit _) (keeps_unit _)
      (consuming_satisfyMap (S := B) digit) (C63_is_one_fails hd)⟩

example : ∃ K, Describes K some23 ∧ ∃ G, FailsBy G some23 := by
  have hS := slice_lawful Nat 1
  have hd := C53_satisfy_map (S := B) hS digit
  have hr : Reusable (satisfyMap B digit) := (keeps_unit (h := false) _).reusable
  have hL : ∀ (v : Nat) (o : Option B.Tok), ¬ ∃ t, [] = [t] ∧ digit t = some v := by rintro v o ⟨t, h, _⟩; cases h
  exact ⟨_, C63_is_count_min_max hS (moves_satisfyMap (S := B) hS digit) hr (by decide) (C63_is_one hd) (C63_is_one_fails hd) hL,
    _, C63_is_count_min_max_fails hS (moves_satisfyMap (S := B) hS digit) hr (by decide) (C63_is_one hd) (C63_is_one_fails hd) hL⟩

example : list.shape (⟨0, [1, 12, 2, 12, 13]⟩ : B.Input) = .ok true [1, 2] ⟨4, [13]⟩ := by rfl
example : list.shape (⟨0, [1, 12, 2, 13]⟩ : B.Input) = .ok true [1, 2] ⟨3, [13]⟩ := by rfl
example : (sepEndBy (satisfyMap B digit) (token B 12)).shape (⟨0, [12]⟩ : B.Input) = .ok false [] ⟨0, [12]⟩ := by rfl
example : some23.shape (⟨0, [1, 2, 3, 4]⟩ : B.Input) = .ok true [1, 2, 3] ⟨3, [4]⟩ := by rfl
example : some23.shape (⟨0, [1, 13]⟩ : B.Input) = .hard () := by rfl
example : some23.shape (⟨0, [13]⟩ : B.Input) = .soft := by rfl

end Verif
