import Verif.Proof.ResumeCore

/-!
# Resuming `take_while` and `take_while1`
-/

namespace Verif

variable {S : Strm} {σ τ α β : Type} {R : RangeOps S} {toks : S.Rng → List S.Tok} {wt : S.Tok → Nat}

/-! ## The denotations -/

section
variable {T : Type}

theorem takeWhile_all {f : T → Bool} {a : List T} (h : a.all f = true) : a.takeWhile f = a := by
  induction a with
  | nil => rfl
  | cons t ts ih =>
    simp only [List.all_cons, Bool.and_eq_true] at h
    simp [h.1, ih h.2]

theorem dropWhile_all {f : T → Bool} {a : List T} (h : a.all f = true) : a.dropWhile f = [] := by
  induction a with
  | nil => rfl
  | cons t ts ih =>
    simp only [List.all_cons, Bool.and_eq_true] at h
    simp [h.1, ih h.2]

theorem while_append {f : T → Bool} {a : List T} (h : a.all f = false) (x : List T) :
    (a ++ x).takeWhile f = a.takeWhile f ∧ (a ++ x).dropWhile f = a.dropWhile f ++ x ∧ (a ++ x).all f = false := by
  induction a with
  | nil => cases h
  | cons t ts ih =>
    simp only [List.all_cons] at h
    cases ht : f t with
    | false => simp [ht]
    | true =>
      rw [ht, Bool.true_and] at h
      obtain ⟨h1, h2, h3⟩ := ih h
      simp [ht, h1, h2] at h3 ⊢
      exact h3

theorem while_append_all {f : T → Bool} {a : List T} (h : a.all f = true) (x : List T) :
    (a ++ x).takeWhile f = a ++ x.takeWhile f ∧ (a ++ x).dropWhile f = x.dropWhile f ∧ (a ++ x).all f = x.all f := by
  induction a with
  | nil => simp
  | cons t ts ih =>
    simp only [List.all_cons, Bool.and_eq_true] at h
    obtain ⟨h1, h2, h3⟩ := ih h.2
    simp [h.1, h1, h2] at h3 ⊢
    exact h3

theorem Den.Good.span (f : T → Bool) (mk : List T → α) : (Den.span f mk).Good where
  stable a x b h := by
    cases ha : a.all f with
    | true => simp [Den.span, ha] at h
    | false =>
      obtain ⟨h1, h2, h3⟩ := while_append ha x
      simp [Den.span, ha, h1, h2, h3, Outcome.extend, -List.all_append, -List.all_eq_true, -List.all_eq_false]
  complete a := by simp [Den.span]
  read {b a c v r} h := by
    simp only [Den.span] at h
    split at h
    · cases h
    · cases h
      exact ⟨a.takeWhile f, (List.takeWhile_append_dropWhile).symm, rfl⟩

theorem Den.Good.span1 (f : T → Bool) (mk : List T → α) : (Den.span1 f mk).Good where
  stable a x b h := by
    cases ha : a.all f with
    | true => simp [Den.span1, ha] at h
    | false =>
      obtain ⟨h1, h2, h3⟩ := while_append ha x
      simp only [Den.span1, ha, h1, h2, h3, Bool.and_false, Bool.false_eq_true, if_false]
      split <;> rfl
  complete a := by
    simp only [Den.span1, Bool.false_and, Bool.false_eq_true, if_false]
    split <;> simp
  read {b a c v r} h := by
    simp only [Den.span1] at h
    split at h
    · cases h
    · split at h
      · cases h
      · rename_i h1
        cases h
        exact ⟨a.takeWhile f, (List.takeWhile_append_dropWhile).symm, by simp_all⟩

end

/-! ## The scans -/

theorem Strm.AtEnd.left {i : S.Input} (h : S.AtEnd i) : S.left i = [] := by
  obtain ⟨e, h⟩ := h
  cases hu : S.uncons i with
  | mk r j => rw [hu] at h; cases h; exact Strm.left_error hu

theorem atEnd_iff (hS : S.Lawful) {i : S.Input} : S.AtEnd i ↔ S.left i = [] :=
  ⟨Strm.AtEnd.left, fun h => by obtain ⟨e, he⟩ := hS.uncons_of_left_nil h; exact ⟨e, by rw [he]⟩⟩

theorem longest_left (hS : S.Lawful) {f : S.Tok → Bool} {i j : S.Input} {ts : List S.Tok}
    (h : S.LongestPrefix f i ts j) : (S.left i).takeWhile f = ts ∧ (S.left i).dropWhile f = S.left j ∧
      ((S.left i).all f = true ↔ S.left j = []) := by
  obtain ⟨h1, h2, h3⟩ := h
  have hl := hS.left_reads h1
  have ha : ts.all f = true := List.all_eq_true.2 h2
  obtain ⟨e1, e2, e3⟩ := while_append_all ha (S.left j)
  rw [hl, e1, e2, e3]
  rcases h3 with h3 | ⟨t, k, h3, h4⟩
  · rw [h3.left]; simp
  · rw [hS.left_cons h3]; simp [h4]

theorem unconsWhileP_cases (hF : S.Feedable) (hR : R.Lawful toks wt) (f : S.Tok → Bool) (i : S.Input) :
    ∃ r j x, S.Reads i (toks r) j ∧ (S.left i).takeWhile f = toks r ∧ (S.left i).dropWhile f = S.left j ∧
      R.unconsWhileP (pureP f) () i = ((x, ()), j) ∧
      if S.isPartial i && (S.left i).all f then
        ∃ e, x = .commitErr e ∧ S.E.isEoi e = true ∧ S.left i = toks r ∧ S.left j = []
      else x = okRes (!(toks r).isEmpty) r := by
  have hS := hF.lawful
  cases hw : R.unconsWhile (pureP f) () i with
  | mk x j =>
    obtain ⟨x, s'⟩ := x
    obtain ⟨r, rfl, hs⟩ := hR.while_scan hw
    have hp : S.isPartial j = S.isPartial i := hS.reads_isPartial hs.1
    obtain ⟨h1, h2, h3⟩ := longest_left hS (scan_longest hs)
    have hl : (if R.len r = 0 then ParseResult.peekOk r else .commitOk r : ParseResult S.Rng S.Err) =
        okRes (!(toks r).isEmpty) r := by
      rw [hR.len]
      by_cases hz : toks r = []
      · simp [hz, weight, okRes]
      · have := mt (weight_eq_zero hR.pos).1 hz
        simp [this, hz, okRes]
    refine ⟨r, j, (R.unconsWhileP (pureP f) () i).1.1, hs.1, h1, h2, ?_⟩
    simp only [RangeOps.unconsWhileP, hw, hp]
    cases hi : S.isPartial i with
    | false => exact ⟨rfl, hl⟩
    | true =>
      have heq := hS.inputAtEof_eq j
      cases hb : (S.inputAtEof j).1 with
      | true =>
        rw [hb] at heq
        have hz := ((inputAtEof_iff hS hF.ends j).1 hb).left
        simp only [heq, if_true]
        refine ⟨trivial, ?_⟩
        rw [h3.2 hz]
        refine ⟨_, rfl, hF.from_error _ _ hF.eoi, ?_, hz⟩
        rw [hS.left_reads hs.1, hz, List.append_nil]
      | false =>
        rw [hb] at heq
        simp only [heq, if_true]
        refine ⟨trivial, ?_⟩
        rw [if_neg, hl]
        intro hc
        rw [Bool.true_and] at hc
        rw [(inputAtEof_iff hS hF.ends j).2 ((atEnd_iff hS).2 (h3.1 hc))] at hb
        cases hb

theorem unconsWhile1P_cases (hF : S.Feedable) (hR : R.Lawful toks wt) (f : S.Tok → Bool) (i : S.Input) :
    ∃ r j x, S.Reads i (toks r) j ∧ (S.left i).takeWhile f = toks r ∧ (S.left i).dropWhile f = S.left j ∧
      R.unconsWhile1P (pureP f) () i = ((x, ()), j) ∧
      if S.isPartial i && (S.left i).all f then
        ∃ e, x = .commitErr e ∧ S.E.isEoi e = true ∧ S.left i = toks r ∧ S.left j = []
      else if (toks r).isEmpty then ∃ e, x = .peekErr e
      else x = .commitOk r := by
  have hS := hF.lawful
  cases hw : R.unconsWhile1 (pureP f) () i with
  | mk x j =>
    obtain ⟨x, s'⟩ := x
    rcases hR.while1_scan hw with ⟨r, rfl, hne, hs⟩ | ⟨err, rfl, rfl, hs⟩
    · have hp : S.isPartial j = S.isPartial i := hS.reads_isPartial hs.1
      obtain ⟨h1, h2, h3⟩ := longest_left hS (scan_longest hs)
      have hne' : (toks r).isEmpty = false := by simpa using hne
      refine ⟨r, j, (R.unconsWhile1P (pureP f) () i).1.1, hs.1, h1, h2, ?_⟩
      simp only [RangeOps.unconsWhile1P, hw, hp]
      cases hi : S.isPartial i with
      | false => exact ⟨rfl, by simp [hne]⟩
      | true =>
        have heq := hS.inputAtEof_eq j
        cases hb : (S.inputAtEof j).1 with
        | true =>
          rw [hb] at heq
          have hz := ((inputAtEof_iff hS hF.ends j).1 hb).left
          simp only [heq, if_true]
          refine ⟨trivial, ?_⟩
          rw [h3.2 hz]
          refine ⟨_, rfl, hF.from_error _ _ hF.eoi, ?_, hz⟩
          rw [hS.left_reads hs.1, hz, List.append_nil]
        | false =>
          rw [hb] at heq
          simp only [heq, if_true]
          refine ⟨trivial, ?_⟩
          rw [if_neg]
          · rw [hne']; trivial
          · intro hc
            rw [Bool.true_and] at hc
            rw [(inputAtEof_iff hS hF.ends j).2 ((atEnd_iff hS).2 (h3.1 hc))] at hb
            cases hb
    · obtain ⟨r, hr⟩ := hR.exists_range (Strm.Reads.nil j)
      obtain ⟨h1, h2, h3⟩ := longest_left hS (scan_longest hs)
      refine ⟨r, j, (R.unconsWhile1P (pureP f) () j).1.1, ?_, ?_, h2, ?_⟩
      · rw [hr]; exact hs.1
      · rw [hr]; exact h1
      · simp only [RangeOps.unconsWhile1P, hw, hr]
        cases hi : S.isPartial j with
        | false => exact ⟨rfl, by simp⟩
        | true =>
          have heq := hS.inputAtEof_eq j
          cases hb : (S.inputAtEof j).1 with
          | true =>
            rw [hb] at heq
            have hz := ((inputAtEof_iff hS hF.ends j).1 hb).left
            simp only [heq, if_true]
            refine ⟨trivial, ?_⟩
            rw [h3.2 hz]
            exact ⟨_, rfl, hF.from_error _ _ hF.eoi, hz, hz⟩
          | false =>
            rw [hb] at heq
            simp only [heq, if_true]
            refine ⟨trivial, ?_⟩
            rw [if_neg]
            · exact ⟨_, rfl⟩
            · intro hc
              rw [Bool.true_and] at hc
              rw [(inputAtEof_iff hS hF.ends j).2 ((atEnd_iff hS).2 (h3.1 hc))] at hb
              cases hb

/-! ## `parse_partial_range` -/

/-- The states of `take_while` and `take_while1`. -/
abbrev SpanRep (wt : S.Tok → Nat) (f : S.Tok → Bool) (live : Bool) (s : Nat) (w u : List S.Tok) : Prop :=
  w = [] ∧ (live = true → s = weight wt u ∧ u.all f = true)

theorem partialRange_resume (hF : S.Feedable) (hR : R.Lawful toks wt) (f : S.Tok → Bool)
    (first : S.Input → ParseResult S.Rng S.Err × S.Input) {i : S.Input} {u : List S.Tok} (hu : u <+: S.left i)
    (hu0 : u ≠ []) (hf : u.all f = true) (hp : S.isPartial i = true) :
    ∃ r j, S.Reads i (toks r) j ∧ (S.left i).takeWhile f = toks r ∧ (S.left i).dropWhile f = S.left j ∧ toks r ≠ [] ∧
      if (S.left i).all f then
        ∃ e, S.E.isEoi e = true ∧ partialRange R first
          (fun i => let r := R.unconsWhileP (pureP f) () i; (r.1.1, r.2)) false i (weight wt u) =
          ⟨.commitErr e, i, weight wt (S.left i)⟩
      else partialRange R first
          (fun i => let r := R.unconsWhileP (pureP f) () i; (r.1.1, r.2)) false i (weight wt u) =
          ⟨.commitOk r, j, 0⟩ := by
  have hS := hF.lawful
  obtain ⟨rest, hrest⟩ := hu
  obtain ⟨k, hk, hkl⟩ := hS.reads_of_left hrest.symm
  obtain ⟨r₀, hr₀, he₀⟩ := unconsRange_reads hR hk
  obtain ⟨r₁, j, x, h1, h2, h3, h4, h5⟩ := unconsWhileP_cases hF hR f k
  have hij : S.Reads i (u ++ toks r₁) j := hk.trans h1
  obtain ⟨e1, e2, e3⟩ := while_append_all hf (S.left k)
  have hli := hS.left_reads hk
  obtain ⟨r, hr⟩ := hR.exists_range hij
  have hw0 : weight wt u ≠ 0 := mt (weight_eq_zero hR.pos).1 hu0
  rw [hli, e1, e2, e3, h2, h3]
  refine ⟨r, j, by rw [hr]; exact hij, hr.symm, rfl, by rw [hr]; simp [hu0], ?_⟩
  rw [hS.reads_isPartial hk, hp, Bool.true_and] at h5
  simp only [partialRange, hp, Bool.not_true, Bool.false_eq_true, if_false, Bool.false_or, decide_eq_true_eq, hw0, he₀,
    h4]
  cases hall : (S.left k).all f with
  | true =>
    rw [hall, if_pos rfl] at h5
    obtain ⟨e, rfl, he, h6, h7⟩ := h5
    rw [if_pos rfl]
    refine ⟨e, he, ?_⟩
    simp only
    rw [hS.tryReset_eq ⟨_, hij⟩, hR.distance hij, h6]
  | false =>
    rw [hall] at h5
    simp only [Bool.false_eq_true, if_false] at h5 ⊢
    obtain ⟨r', h6, h7⟩ := retake_eq (σ := Unit) hS hR hij (weight wt u, ()) id
    have : r' = r := hR.inj (h6.trans hr.symm)
    subst this
    have hne : u ++ toks r₁ ≠ [] := by simp [hu0]
    subst h5
    cases hc : !(toks r₁).isEmpty <;> simp [okRes, h7, hne, Out.mapSt, -List.append_eq_nil_iff]

theorem resumes_takeWhile (hF : S.Feedable) (hR : R.Lawful toks wt) {mkR : List S.Tok → S.Rng}
    (hmk : ∀ r, mkR (toks r) = r) (f : S.Tok → Bool) (live : Bool) :
    Resumes live (takeWhile R f) (Den.span f mkR) true true (fun s => live = true → s = 0) (SpanRep wt f live) := by
  have hS := hF.lawful
  have start : ∀ m i s, S.isPartial i = live → (live = true → s = 0) →
      Step (Den.span f mkR (S.isPartial i) (S.left i)) (When true fun s => live = true → s = 0)
        (When true fun s => live = true → s = 0) (SpanRep wt f live) [] i ((takeWhile R f).run m i s) := by
    intro m i s hL hs
    obtain ⟨r, j, x, h1, h2, h3, h4, h5⟩ := unconsWhileP_cases hF hR f i
    simp only [takeWhile, Parser.ofMode, Den.span, h2, h3, hmk]
    cases live with
    | false =>
      rw [hL, Bool.false_and] at h5
      simp only [hL, Bool.false_and, Bool.false_eq_true, if_false] at h5 ⊢
      simp only [partialRange, hL, Bool.not_false, if_true, h4]
      exact ⟨⟨_, h5, fun _ => rfl⟩, ⟨_, h1⟩, rfl, fun _ h => by cases h⟩
    | true =>
      have := hs rfl
      subst this
      rw [hL, Bool.true_and] at h5
      simp only [hL, Bool.true_and]
      simp only [partialRange, hL, Bool.not_true, Bool.false_eq_true, if_false, decide_true, Bool.or_true, if_true, h4]
      cases hall : (S.left i).all f with
      | true =>
        rw [hall, if_pos rfl] at h5
        obtain ⟨e, rfl, he, h6, h7⟩ := h5
        simp only [if_true]
        rw [hS.tryReset_eq ⟨_, h1⟩, hR.distance h1]
        exact ⟨e, [], rfl, he, .nil i, rfl, fun _ => ⟨by rw [h6], hall⟩⟩
      | false =>
        rw [hall] at h5
        simp only [Bool.false_eq_true, if_false] at h5 ⊢
        subst h5
        cases hc : !(toks r).isEmpty
        · exact ⟨⟨_, rfl, fun _ => rfl⟩, ⟨_, h1⟩, rfl, fun _ _ => rfl⟩
        · exact ⟨⟨_, rfl, fun _ => rfl⟩, ⟨_, h1⟩, rfl, fun _ _ => rfl⟩
  refine ⟨.span f mkR, fun _ => rfl, fun hs => ⟨rfl, fun hl => ⟨hs hl, rfl⟩⟩, fun h hw => absurd h.1 hw,
    committed_ofMode hS _ _ _ _ _, fun i hL hs => start true i _ hL hs, ?_, ?_⟩
  · intro s m i _ _ h
    simp only [Den.span] at h
    split at h <;> cases h
  · rintro s w u i hL ⟨rfl, hr⟩ hu
    cases live with
    | false => exact start false i s hL (fun h => by cases h)
    | true =>
      obtain ⟨rfl, hf⟩ := hr rfl
      by_cases hu0 : u = []
      · subst hu0
        exact start false i _ hL (fun _ => rfl)
      · obtain ⟨r, j, h1, h2, h3, h4, h5⟩ := partialRange_resume hF hR f
          (fun i => let r := R.unconsWhileP (pureP f) () i; (r.1.1, r.2)) hu hu0 hf hL
        simp only [takeWhile, Parser.ofMode, Den.span, h2, h3, hmk, List.nil_append, hL, Bool.true_and]
        cases hall : (S.left i).all f with
        | true =>
          rw [hall, if_pos rfl] at h5
          obtain ⟨e, he, h5⟩ := h5
          rw [h5]
          exact ⟨e, [], rfl, he, .nil i, rfl, fun _ => ⟨rfl, hall⟩⟩
        | false =>
          rw [hall] at h5
          simp only [Bool.false_eq_true, if_false] at h5 ⊢
          rw [h5]
          exact ⟨⟨true, rfl, fun _ => by simp [h4]⟩, ⟨_, h1⟩, rfl, fun _ _ => rfl⟩

theorem resumes_takeWhile1 (hF : S.Feedable) (hR : R.Lawful toks wt) {mkR : List S.Tok → S.Rng}
    (hmk : ∀ r, mkR (toks r) = r) (f : S.Tok → Bool) (live : Bool) :
    Resumes live (takeWhile1 R f) (Den.span1 f mkR) true true (fun s => live = true → s = 0) (SpanRep wt f live) := by
  have hS := hF.lawful
  have start : ∀ m i s, S.isPartial i = live → (live = true → s = 0) →
      Step (Den.span1 f mkR (S.isPartial i) (S.left i)) (When true fun s => live = true → s = 0)
        (When true fun s => live = true → s = 0) (SpanRep wt f live) [] i ((takeWhile1 R f).run m i s) := by
    intro m i s hL hs
    obtain ⟨r, j, x, h1, h2, h3, h4, h5⟩ := unconsWhile1P_cases hF hR f i
    simp only [takeWhile1, Parser.ofMode, Den.span1, h2, h3, hmk]
    cases live with
    | false =>
      rw [hL, Bool.false_and] at h5
      simp only [hL, Bool.false_and, Bool.false_eq_true, if_false] at h5 ⊢
      simp only [partialRange, hL, Bool.not_false, if_true, h4]
      cases hz : (toks r).isEmpty with
      | true =>
        rw [hz, if_pos rfl] at h5
        exact ⟨rfl, h5, ⟨_, h1⟩, fun _ h => by cases h⟩
      | false =>
        rw [hz] at h5
        simp only [Bool.false_eq_true, if_false] at h5 ⊢
        exact ⟨⟨true, h5, fun _ => rfl⟩, ⟨_, h1⟩, rfl, fun _ h => by cases h⟩
    | true =>
      have := hs rfl
      subst this
      rw [hL, Bool.true_and] at h5
      simp only [hL, Bool.true_and]
      simp only [partialRange, hL, Bool.not_true, Bool.false_eq_true, if_false, decide_true, Bool.or_true, if_true, h4]
      cases hall : (S.left i).all f with
      | true =>
        rw [hall, if_pos rfl] at h5
        obtain ⟨e, rfl, he, h6, h7⟩ := h5
        simp only [if_true]
        rw [hS.tryReset_eq ⟨_, h1⟩, hR.distance h1]
        exact ⟨e, [], rfl, he, .nil i, rfl, fun _ => ⟨by rw [h6], hall⟩⟩
      | false =>
        rw [hall] at h5
        simp only [Bool.false_eq_true, if_false] at h5 ⊢
        cases hz : (toks r).isEmpty with
        | true =>
          rw [hz, if_pos rfl] at h5
          obtain ⟨e, rfl⟩ := h5
          exact ⟨rfl, ⟨_, rfl⟩, ⟨_, h1⟩, fun _ _ => rfl⟩
        | false =>
          rw [hz] at h5
          simp only [Bool.false_eq_true, if_false] at h5 ⊢
          subst h5
          exact ⟨⟨true, rfl, fun _ => rfl⟩, ⟨_, h1⟩, rfl, fun _ _ => rfl⟩
  refine ⟨.span1 f mkR, fun _ => rfl, fun hs => ⟨rfl, fun hl => ⟨hs hl, rfl⟩⟩, fun h hw => absurd h.1 hw,
    committed_ofMode hS _ _ _ _ _, fun i hL hs => start true i _ hL hs, ?_, ?_⟩
  · intro s m i _ _ h
    simp only [Den.span1] at h
    split at h
    · cases h
    · split at h <;> cases h
  · rintro s w u i hL ⟨rfl, hr⟩ hu
    cases live with
    | false => exact start false i s hL (fun h => by cases h)
    | true =>
      obtain ⟨rfl, hf⟩ := hr rfl
      by_cases hu0 : u = []
      · subst hu0
        exact start false i _ hL (fun _ => rfl)
      · obtain ⟨r, j, h1, h2, h3, h4, h5⟩ := partialRange_resume hF hR f
          (fun i => let r := R.unconsWhile1P (pureP f) () i; (r.1.1, r.2)) hu hu0 hf hL
        have h4' : (toks r).isEmpty = false := by simpa using h4
        simp only [takeWhile1, Parser.ofMode, Den.span1, h2, h3, hmk, List.nil_append, hL, Bool.true_and, h4']
        cases hall : (S.left i).all f with
        | true =>
          rw [hall, if_pos rfl] at h5
          obtain ⟨e, he, h5⟩ := h5
          rw [h5]
          exact ⟨e, [], rfl, he, .nil i, rfl, fun _ => ⟨rfl, hall⟩⟩
        | false =>
          rw [hall] at h5
          simp only [Bool.false_eq_true, if_false] at h5 ⊢
          rw [h5]
          exact ⟨⟨true, rfl, fun _ => rfl⟩, ⟨_, h1⟩, rfl, fun _ _ => rfl⟩

theorem resumable_takeWhile (hF : S.Feedable) (hR : R.Lawful toks wt) {mkR : List S.Tok → S.Rng}
    (hmk : ∀ r, mkR (toks r) = r) (f : S.Tok → Bool) : Resumable (takeWhile R f) (Den.span f mkR) true true :=
  ⟨_, _, fun live => resumes_takeWhile hF hR hmk f live, fun _ _ h => (by cases h),
    fun _ _ _ hs => ⟨hs.1, fun h => by cases h⟩⟩

theorem resumable_takeWhile1 (hF : S.Feedable) (hR : R.Lawful toks wt) {mkR : List S.Tok → S.Rng}
    (hmk : ∀ r, mkR (toks r) = r) (f : S.Tok → Bool) : Resumable (takeWhile1 R f) (Den.span1 f mkR) true true :=
  ⟨_, _, fun live => resumes_takeWhile1 hF hR hmk f live, fun _ _ h => (by cases h),
    fun _ _ _ hs => ⟨hs.1, fun h => by cases h⟩⟩

end Verif
