import Verif.Proof.ResumeRange

/-!
# Resuming `range`, `take`, the integer parsers and `take_until_*`
-/

namespace Verif

variable {S : Strm} {σ τ α β : Type} {R : RangeOps S} {toks : S.Rng → List S.Tok} {wt : S.Tok → Nat}

/-! ## The denotations -/

section
variable {T : Type}

theorem Den.Good.exactly (n : Nat) (f : List T → α) : (Den.exactly n f).Good where
  stable a x b h := by
    simp only [Den.exactly] at h ⊢
    by_cases hn : n ≤ a.length
    · rw [if_pos hn, if_pos (by simp; omega), List.take_append_of_le_length hn, List.drop_append_of_le_length hn]
      rfl
    · rw [if_neg hn] at h; exact absurd rfl h
  complete a := by
    simp only [Den.exactly, Den.short]
    split <;> simp
  read {b a c v r} h := by
    simp only [Den.exactly] at h
    by_cases hn : n ≤ a.length
    · rw [if_pos hn] at h
      cases h
      refine ⟨a.take n, (List.take_append_drop n a).symm, ?_⟩
      cases n with
      | zero => rfl
      | succ n =>
        cases a with
        | nil => simp at hn
        | cons t ts => rfl
    · rw [if_neg hn] at h
      cases b <;> cases h

theorem Den.Good.text [DecidableEq T] {ts : List T} (hts : ts ≠ []) (v : α) : (Den.text ts v).Good where
  stable a x b h := by
    simp only [Den.text] at h ⊢
    by_cases hn : ts.length ≤ a.length
    · rw [if_pos hn, if_pos (by simp; omega), List.take_append_of_le_length hn, List.drop_append_of_le_length hn]
      split <;> rfl
    · rw [if_neg hn] at h; exact absurd rfl h
  complete a := by
    simp only [Den.text, Den.short]
    split
    · split <;> simp
    · simp
  read {b a c v r} h := by
    simp only [Den.text] at h
    by_cases hn : ts.length ≤ a.length
    · rw [if_pos hn] at h
      by_cases ht : a.take ts.length = ts
      · rw [if_pos ht] at h
        cases h
        refine ⟨ts, ?_, ?_⟩
        · conv => lhs; rw [← List.take_append_drop ts.length a, ht]
        · simpa using hts
      · rw [if_neg ht] at h; cases h
    · rw [if_neg hn] at h
      cases b <;> cases h

/-- `split` looks for something: what it finds does not depend on what follows, and if it finds nothing, all
but the last `back` tokens need not be looked at again. -/
structure Splits (split : List T → Option (List T × List T)) (back : Nat) : Prop where
  sound : ∀ {a p q}, split a = some (p, q) → a = p ++ q
  stable : ∀ {a p q} x, split a = some (p, q) → split (a ++ x) = some (p, q ++ x)
  skip : ∀ {a} x {n}, split a = none → n ≤ a.length - back →
    split (a ++ x) = (split ((a ++ x).drop n)).map fun y => ((a ++ x).take n ++ y.1, y.2)

theorem Den.Good.upTo {split : List T → Option (List T × List T)} {back : Nat} (hs : Splits split back)
    (mk : List T → α) : (Den.upTo split mk).Good where
  stable a x b h := by
    simp only [Den.upTo] at h ⊢
    cases ha : split a with
    | none => rw [ha] at h; exact absurd rfl h
    | some y => obtain ⟨p, q⟩ := y; rw [hs.stable x ha]; rfl
  complete a := by
    simp only [Den.upTo]
    split
    · simp
    · split <;> simp_all
      split <;> simp
  read {b a c v r} h := by
    simp only [Den.upTo] at h
    cases ha : split a with
    | none =>
      rw [ha] at h
      simp only at h
      split at h
      · cases h
      · split at h <;> cases h
    | some y =>
      obtain ⟨p, q⟩ := y
      rw [ha] at h
      cases h
      exact ⟨p, hs.sound ha, rfl⟩

theorem Den.Good.upToSoft {split : List T → Option (List T × List T)} {back : Nat} (hs : Splits split back)
    (mk : List T → α) : (Den.upToSoft split mk).Good where
  stable a x b h := by
    simp only [Den.upToSoft] at h ⊢
    cases ha : split a with
    | none => rw [ha] at h; exact absurd rfl h
    | some y => obtain ⟨p, q⟩ := y; rw [hs.stable x ha]; rfl
  complete a := by
    simp only [Den.upToSoft, Den.short]
    split <;> simp
  read {b a c v r} h := by
    simp only [Den.upToSoft] at h
    cases ha : split a with
    | none => rw [ha] at h; cases b <;> cases h
    | some y =>
      obtain ⟨p, q⟩ := y
      rw [ha] at h
      cases h
      exact ⟨p, hs.sound ha, rfl⟩

theorem splits_cutAt (f : T → Bool) : Splits (Den.cutAt f) 0 where
  sound {a} := by
    induction a with
    | nil => intro p q h; cases h
    | cons t ts ih =>
      intro p q h
      simp only [Den.cutAt] at h
      split at h
      · cases h; rfl
      · obtain ⟨y, hy, he⟩ := Option.map_eq_some_iff.1 h
        cases he
        rw [ih hy]; rfl
  stable {a} := by
    induction a with
    | nil => intro p q x h; cases h
    | cons t ts ih =>
      intro p q x h
      simp only [Den.cutAt] at h
      simp only [List.cons_append, Den.cutAt]
      split at h
      · rename_i ht; cases h; rw [if_pos ht]; rfl
      · rename_i ht
        obtain ⟨y, hy, he⟩ := Option.map_eq_some_iff.1 h
        cases he
        rw [if_neg ht, ih x hy]; rfl
  skip {a} := by
    induction a with
    | nil =>
      intro x n _ hn
      have : n = 0 := by simpa using hn
      subst this
      simp
    | cons t ts ih =>
      intro x n h hn
      cases n with
      | zero => simp
      | succ n =>
        simp only [Den.cutAt] at h
        split at h
        · cases h
        · rename_i ht
          have h1 := Option.map_eq_none_iff.1 h
          simp only [List.cons_append, Den.cutAt, if_neg ht, List.drop_succ_cons, List.take_succ_cons]
          rw [ih x h1 (n := n) (by simp at hn ⊢; omega)]
          cases Den.cutAt f ((ts ++ x).drop n) <;> rfl

theorem splits_cut {U : Type} [DecidableEq U] (byte : T → U) (needle : List U) :
    Splits (Den.cut byte needle) (needle.length - 1) where
  sound {a} := by
    induction a with
    | nil => intro p q h; simp only [Den.cut] at h; split at h <;> cases h; rfl
    | cons t ts ih =>
      intro p q h
      simp only [Den.cut] at h
      split at h
      · cases h; rfl
      · obtain ⟨y, hy, he⟩ := Option.map_eq_some_iff.1 h
        cases he
        rw [ih hy]; rfl
  stable {a} := by
    induction a with
    | nil =>
      intro p q x h
      simp only [Den.cut] at h
      split at h <;> cases h
      rename_i hz
      subst hz
      cases x with
      | nil => simp [Den.cut]
      | cons t ts => simp [Den.cut]
    | cons t ts ih =>
      intro p q x h
      simp only [Den.cut] at h
      simp only [List.cons_append, Den.cut]
      split at h
      · rename_i ht
        cases h
        rw [if_pos]; · rfl
        refine ht.trans ?_
        simp
      · rename_i ht
        obtain ⟨y, hy, he⟩ := Option.map_eq_some_iff.1 h
        cases he
        rw [if_neg, ih x hy]; · rfl
        intro hp
        apply ht
        have hy' : needle.length ≤ ts.length := by
          clear ih ht hp h
          induction ts generalizing y with
          | nil => simp only [Den.cut] at hy; split at hy <;> simp_all
          | cons t ts ih =>
            simp only [Den.cut] at hy
            split at hy
            · rename_i hp; simpa using hp.length_le
            · obtain ⟨z, hz, _⟩ := Option.map_eq_some_iff.1 hy
              have := ih _ hz
              simp; omega
        rw [← List.cons_append, List.map_append] at hp
        exact List.prefix_of_prefix_length_le hp (List.prefix_append _ _) (by simp; omega)
  skip {a} := by
    induction a with
    | nil =>
      intro x n _ hn
      have : n = 0 := by simpa using hn
      subst this
      simp
    | cons t ts ih =>
      intro x n h hn
      cases n with
      | zero => simp
      | succ n =>
        simp only [Den.cut] at h
        split at h
        · cases h
        · rename_i ht
          have h1 := Option.map_eq_none_iff.1 h
          simp only [List.length_cons] at hn
          have hnot : ¬ needle <+: (t :: (ts ++ x)).map byte := by
            intro hp
            apply ht
            rw [← List.cons_append, List.map_append] at hp
            exact List.prefix_of_prefix_length_le hp (List.prefix_append _ _) (by simp; omega)
          simp only [List.cons_append, Den.cut, if_neg hnot, List.drop_succ_cons, List.take_succ_cons]
          rw [ih x h1 (n := n) (by omega)]
          cases Den.cut byte needle ((ts ++ x).drop n) <;> rfl

end

/-! ## Taking ranges -/

theorem weight_unit {T : Type} {wt : T → Nat} (h : ∀ t, wt t = 1) (ts : List T) : weight wt ts = ts.length := by
  induction ts with
  | nil => rfl
  | cons t ts ih => rw [weight_cons, h, ih, List.length_cons, Nat.add_comm]

theorem units_enough (hS : S.Lawful) (hU : R.Units toks wt) {n : Nat} {i : S.Input} (h : n ≤ (S.left i).length) :
    ∃ r j, R.unconsRange n i = (.ok r, j) ∧ S.Reads i (toks r) j ∧ toks r = (S.left i).take n ∧
      S.left j = (S.left i).drop n := by
  obtain ⟨j, h1, h2⟩ := hS.reads_of_left (List.take_append_drop n (S.left i)).symm
  obtain ⟨r, h3, h4⟩ := unconsRange_reads hU.lawful h1
  rw [weight_unit hU.unit, List.length_take, Nat.min_eq_left h] at h4
  exact ⟨r, j, h4, h3 ▸ h1, h3, h2⟩

theorem units_short (hS : S.Lawful) (hU : R.Units toks wt) {n : Nat} {i : S.Input} (h : (S.left i).length < n) :
    ∃ e, R.unconsRange n i = (.error e, i) ∧ S.E.isEoiS e = true := by
  cases hx : R.unconsRange n i with
  | mk x j =>
    cases x with
    | error e =>
      obtain ⟨rfl, _⟩ := hU.lawful.range_error hx
      exact ⟨e, rfl, hU.short hx⟩
    | ok r =>
      obtain ⟨h1, h2⟩ := hU.lawful.range_ok hx
      rw [hU.lawful.len, weight_unit hU.unit] at h2
      have := hS.left_reads h1
      rw [this, List.length_append] at h
      omega

theorem short_step (hF : S.Feedable) {i : S.Input} {e : S.SErr} (he : S.E.isEoiS e = true) {Rep : σ → List S.Tok → List S.Tok → Prop}
    {s : σ} {A F : σ → Prop} (hr : Rep s [] (S.left i)) (hf : F s) :
    Step (Den.short (S.isPartial i) : Outcome S.Tok α) A F Rep [] i (⟨S.wrapStreamError i e, i, s⟩ : Out S σ α) := by
  cases hp : S.isPartial i with
  | true =>
    obtain ⟨e', h1, h2⟩ := wrap_eoi (α := α) hF hp he
    rw [h1]
    exact ⟨e', [], rfl, h2, .nil i, hr⟩
  | false =>
    simp only [Strm.wrapStreamError, hp, Bool.false_eq_true, if_false]
    exact ⟨rfl, ⟨_, rfl⟩, .refl i, hf⟩

/-- `take` -/
theorem atomic_take (hF : S.Feedable) (hU : R.Units toks wt) {mkR : List S.Tok → S.Rng}
    (hmk : ∀ r, mkR (toks r) = r) (n : Nat) : Atomic (take R n) (Den.exactly n mkR) := by
  have hS := hF.lawful
  refine .mk (.exactly n mkR) (committed_ofLazy hS _ _ _ _ _) (fun m i s => ?_) (fun m i s h => ?_)
  · simp only [take, Parser.ofLazy, RangeOps.unconsRangeP, Den.exactly]
    by_cases hn : n ≤ (S.left i).length
    · obtain ⟨r, j, h1, h2, h3, h4⟩ := units_enough hS hU hn
      simp only [h1, if_pos hn]
      refine ⟨⟨n != 0, ?_, fun _ => rfl⟩, ⟨_, h2⟩, h4, trivial⟩
      rw [← h3, hmk]
      cases n <;> rfl
    · obtain ⟨e, h1, h2⟩ := units_short hS hU (Nat.lt_of_not_le hn)
      simp only [h1, if_neg hn]
      exact short_step hF h2 rfl trivial
  · simp only [Den.exactly, Den.short] at h
    split at h
    · cases h
    · split at h <;> cases h

/-- `range` -/
theorem atomic_range [DecidableEq S.Tok] [DecidableEq S.Rng] (hF : S.Feedable) (hU : R.Units toks wt) {r : S.Rng}
    (hr : toks r ≠ []) : Atomic (range R r) (Den.text (toks r) r) := by
  have hS := hF.lawful
  refine .mk (.text hr r) (committed_ofLazy hS _ _ _ _ _) (fun m i s => ?_) (fun m i s h => ?_)
  · simp only [range, Parser.ofLazy, Den.text]
    rw [hU.lawful.len, weight_unit hU.unit]
    by_cases hn : (toks r).length ≤ (S.left i).length
    · obtain ⟨r', j, h1, h2, h3, h4⟩ := units_enough hS hU hn
      simp only [h1, if_pos hn]
      by_cases he : r' = r
      · subst he
        rw [if_pos rfl, if_pos h3.symm]
        exact ⟨⟨true, rfl, fun _ => rfl⟩, ⟨_, h2⟩, h4, trivial⟩
      · rw [if_neg he, if_neg]
        · exact ⟨rfl, ⟨_, rfl⟩, ⟨_, h2⟩, trivial⟩
        · intro hx
          exact he (hU.lawful.inj (h3.trans hx))
    · obtain ⟨e, h1, h2⟩ := units_short hS hU (Nat.lt_of_not_le hn)
      simp only [h1, if_neg hn]
      exact short_step hF h2 rfl trivial
  · simp only [Den.text, Den.short] at h
    split at h
    · split at h <;> cases h
    · split at h <;> cases h

/-! ## Integers -/

theorem readN_left (hS : S.Lawful) (n : Nat) (buf : List S.Tok) (i : S.Input) :
    (∃ j, n ≤ (S.left i).length ∧ S.Reads i ((S.left i).take n) j ∧ S.left j = (S.left i).drop n ∧
      readN S n buf i = (.commitOk (buf ++ (S.left i).take n), j)) ∨
    ((S.left i).length < n ∧ ∃ j e, S.Reach i j ∧ S.uncons j = (.error e, j) ∧
      readN S n buf i = (S.wrapStreamError j e, j)) := by
  induction n generalizing buf i with
  | zero => exact .inl ⟨i, Nat.zero_le _, .nil i, rfl, by simp [readN]⟩
  | succ n ih =>
    cases hl : S.left i with
    | nil =>
      obtain ⟨e, hu⟩ := hS.uncons_of_left_nil hl
      refine .inr ⟨by simp, i, e, .refl i, hu, ?_⟩
      simp only [readN, Strm.unconsP, hu, Strm.wrapStreamError]
      cases S.isPartial i <;> rfl
    | cons t ts =>
      obtain ⟨j, hu, hj⟩ := hS.uncons_of_left hl
      simp only [readN, Strm.unconsP, hu]
      rcases ih (buf ++ [t]) j with ⟨k, h1, h2, h3, h4⟩ | ⟨h1, k, e, h2, h3, h4⟩
      · rw [hj] at h1 h2 h3 h4
        exact .inl ⟨k, by simpa using h1, .cons hu h2, h3, by rw [h4]; simp⟩
      · rw [hj] at h1
        exact .inr ⟨by simpa using h1, k, e, Strm.Reach.trans ⟨[t], .cons hu (.nil _)⟩ h2, h3, h4⟩

/-- The integer parsers -/
theorem atomic_intParser (hF : S.Feedable) {n : Nat} (hn0 : n ≠ 0) (conv : List S.Tok → α) :
    Atomic (intParser S n conv) (Den.exactly n conv) := by
  have hS := hF.lawful
  refine .mk (.exactly n conv) (committed_ofLazy hS _ _ _ _ _) (fun m i s => ?_) (fun m i s h => ?_)
  · simp only [intParser, fnParser, Parser.ofLazy, Den.exactly]
    rcases readN_left hS n [] i with ⟨j, h1, h2, h3, h4⟩ | ⟨h1, j, e, h2, h3, h4⟩
    · simp only [h4, if_pos h1]
      exact ⟨⟨true, rfl, fun _ => by simp [hn0]⟩, ⟨_, h2⟩, h3, trivial⟩
    · simp only [h4, if_neg (Nat.not_le.2 h1)]
      have hp : S.isPartial j = S.isPartial i := hS.reach_isPartial h2
      have hr := hS.reset_reach h2
      have he := hF.ends _ _ _ h3
      cases hpi : S.isPartial i with
      | true =>
        obtain ⟨e', g1, g2⟩ := wrap_eoi (α := List S.Tok) hF (hp.trans hpi) he
        simp only [g1, hr]
        exact ⟨e', [], rfl, g2, .nil i, rfl⟩
      | false =>
        simp only [Strm.wrapStreamError, hp, hpi, Bool.false_eq_true, if_false, hr]
        exact ⟨rfl, ⟨_, rfl⟩, .refl i, trivial⟩
  · simp only [Den.exactly, Den.short] at h
    split at h
    · cases h
    · split at h <;> cases h

/-! ## `take_fn` -/

/-- The states of the searching parsers. -/
abbrev SearchRep (split : List S.Tok → Option (List S.Tok × List S.Tok)) (back : Nat) (s : Nat) (w u : List S.Tok) : Prop :=
  w = [] ∧ (s = 0 ∨ s ≤ u.length - back ∧ split u = none)

theorem whole_left (hS : S.Lawful) (hR : R.Lawful toks wt) (i : S.Input) : toks (R.range i) = S.left i := by
  obtain ⟨j, h1, h2⟩ := hR.whole i
  rw [hS.left_reads h1, h2.left, List.append_nil]

theorem resumable_takeFn (hF : S.Feedable) (hU : R.Units toks wt) {mkR : List S.Tok → S.Rng}
    (hmk : ∀ r, mkR (toks r) = r) {split : List S.Tok → Option (List S.Tok × List S.Tok)} {back : Nat}
    (hs : Splits split back) {search : S.Rng → TakeRange}
    (hsearch : ∀ r, search r = match split (toks r) with
      | some (p, _) => .found p.length
      | none => .notFound ((toks r).length - back)) :
    Resumable (takeFn R search) (Den.upTo split mkR) true true := by
  have hS := hF.lawful
  -- a call that skips `o` tokens
  have step : ∀ (m : Bool) (i : S.Input) (st o : Nat), o = (if m then 0 else st) → o ≤ (S.left i).length →
      split (S.left i) = ((split ((S.left i).drop o)).map fun y => ((S.left i).take o ++ y.1, y.2)) →
      (Step (Den.upTo split mkR (S.isPartial i) (S.left i)) (When true (· = 0)) (When true (· = 0))
        (SearchRep split back) [] i ((takeFn R search).run m i st)) ∧
      (o = 0 → Den.upTo split mkR (S.isPartial i) (S.left i) = .hard →
        ∃ e, ((takeFn R search).run m i st).res = .commitErr e) := by
    intro m i st o ho hle hsplit
    obtain ⟨r₀, j, h1, h2, h3, h4⟩ := units_enough hS hU hle
    have hj : (if m then i else (R.unconsRange (if m then 0 else st) i).2) = j := by
      cases m with
      | true =>
        simp only [if_true] at ho ⊢
        subst ho
        rw [List.take_zero] at h3
        rw [h3] at h2
        exact (Strm.reads_nil.1 h2).symm
      | false =>
        simp only [Bool.false_eq_true, if_false] at ho ⊢
        rw [← ho, h1]
    rw [← ho] at hj
    simp only [takeFn, Parser.ofMode, ← ho, hj, hsearch, whole_left hS hU.lawful, h4]
    simp only [Den.upTo]
    rw [hsplit]
    cases hd : split ((S.left i).drop o) with
    | some y =>
      obtain ⟨p, q⟩ := y
      simp only [Option.map_some]
      rw [hS.tryReset_eq ⟨_, h2⟩]
      have hpq := hs.sound hd
      have hlen : o + p.length ≤ (S.left i).length := by
        have := congrArg List.length hpq
        rw [List.length_drop, List.length_append] at this
        omega
      obtain ⟨r, k, g1, g2, g3, g4⟩ := units_enough hS hU hlen
      have htake : (S.left i).take (o + p.length) = (S.left i).take o ++ p := by
        rw [List.take_add, hpq, List.take_left]
      have hdrop : (S.left i).drop (o + p.length) = q := by
        rw [← List.drop_drop, hpq, List.drop_left]
      rw [htake] at g3
      rw [hdrop] at g4
      simp only [RangeOps.unconsRangeP, g1]
      have hz : (if o + p.length = 0 then ParseResult.peekOk r else .commitOk r : ParseResult S.Rng S.Err) =
          okRes (!((S.left i).take o ++ p).isEmpty) r := by
        have hl : ((S.left i).take o ++ p).length = o + p.length := by
          rw [List.length_append, List.length_take, Nat.min_eq_left hle]
        by_cases hz : o + p.length = 0
        · rw [if_pos hz, List.length_eq_zero_iff.1 (hl.trans hz)]; rfl
        · rw [if_neg hz]
          cases hx : (S.left i).take o ++ p with
          | nil => rw [hx] at hl; exact absurd hl.symm hz
          | cons _ _ => rfl
      rw [hz, ← g3, hmk]
      simp only [okRes_isOk, if_true]
      exact ⟨⟨⟨_, rfl, fun _ => rfl⟩, ⟨_, g2⟩, g4, fun _ => rfl⟩, fun _ h => by cases h⟩
    | none =>
      simp only [Option.map_none, List.length_drop]
      obtain ⟨rk, k, g1, g2, g3, g4⟩ := units_enough (n := (S.left j).length) hS hU (i := j) (Nat.le_refl _)
      rw [hU.lawful.len, weight_unit hU.unit, whole_left hS hU.lawful, g1, hS.tryReset_eq ⟨_, h2.trans g2⟩]
      have hnone : split (S.left i) = none := by rw [hsplit, hd]; rfl
      cases hp : S.isPartial i with
      | true =>
        simp only [Bool.not_true, Bool.false_and, Bool.false_eq_true, if_false, if_true]
        refine ⟨⟨_, [], rfl, hF.from_error _ _ hF.eoi, .nil i, rfl, .inr ⟨by dsimp only; omega, hnone⟩⟩, fun _ h => by cases h⟩
      | false =>
        simp only [Bool.not_false, Bool.true_and, Bool.false_eq_true, if_false]
        cases hl : S.left i with
        | nil =>
          have hj0 : (S.left j).length = 0 := by rw [h4, hl]; simp
          simp only [hj0, List.isEmpty_nil, if_true, decide_true]
          exact ⟨⟨rfl, ⟨_, rfl⟩, .refl i, fun _ => by simp⟩, fun _ h => by cases h⟩
        | cons t ts =>
          simp only [List.isEmpty_cons, Bool.false_eq_true, if_false]
          refine ⟨trivial, fun hm _ => ?_⟩
          rw [h4, hl, hm]
          simp
  have start : ∀ i st, st = 0 → ∀ m, _ := fun i st hst m => step m i st 0 (by cases m <;> simp [hst]) (Nat.zero_le _)
    (by rw [List.drop_zero, List.take_zero]; cases split (S.left i) <;> rfl)
  refine ⟨fun _ s => s = 0, fun _ => SearchRep split back, fun live => ⟨.upTo hs mkR, rfl, fun h => ⟨rfl, .inl h⟩,
    fun h hw => absurd h.1 hw, committed_ofMode hS _ _ _ _ _, fun i _ h => (start i _ h true).1,
    fun m i _ h => (start i _ h m).2 rfl, ?_⟩, fun _ h => h, fun _ _ _ h => h⟩
  rintro s w u i _ ⟨rfl, hr⟩ hu
  rcases hr with hr | ⟨hr, hn⟩
  · exact (start i s hr false).1
  · obtain ⟨x, hx⟩ := hu
    refine (step false i s s rfl ?_ ?_).1
    · rw [← hx, List.length_append]; omega
    · rw [← hx]; exact hs.skip x hn hr

/-- The parser is handed the bytes of a range: `byte` of its tokens. -/
theorem cutAt_findIdx {T : Type} (f : T → Bool) (a : List T) :
    (Den.cutAt f a).map (fun y => y.1.length) = a.findIdx? f := by
  induction a with
  | nil => rfl
  | cons t ts ih =>
    simp only [Den.cutAt, List.findIdx?_cons]
    split
    · rfl
    · rw [← ih]; cases Den.cutAt f ts <;> rfl

theorem cut_memsliceLoop {T : Type} (byte : T → UInt8) (pre : UInt8) (suf : List UInt8) (a : List T) (n : Nat) :
    (Den.cut byte (pre :: suf) a).map (fun y => n + y.1.length) = memsliceLoop pre suf (a.map byte) n := by
  induction a generalizing n with
  | nil => rfl
  | cons t ts ih =>
    simp only [Den.cut, List.map_cons, memsliceLoop]
    by_cases h : (pre :: suf) <+: byte t :: ts.map byte
    · have h' := List.cons_prefix_cons.1 h
      rw [if_pos h, if_pos]
      · rfl
      · simp [h'.1, h'.2]
    · rw [if_neg h, if_neg]
      · rw [← ih]
        cases Den.cut byte (pre :: suf) ts with
        | none => rfl
        | some y => simp only [Option.map_some, List.length_cons]; congr 1; omega
      · intro hb
        apply h
        simp only [Bool.and_eq_true, decide_eq_true_eq, List.isPrefixOf_iff_prefix] at hb
        rw [hb.1]
        exact List.cons_prefix_cons.2 ⟨rfl, hb.2⟩

theorem cut_memslice {T : Type} (byte : T → UInt8) (needle : List UInt8) (a : List T) :
    (Den.cut byte needle a).map (fun y => y.1.length) = memslice needle (a.map byte) := by
  cases needle with
  | nil => cases a <;> simp [Den.cut, memslice]
  | cons pre suf =>
    have := cut_memsliceLoop byte pre suf a 0
    simpa [memslice] using this

/-- `take_until_byte` -/
theorem resumable_takeUntilByte (hF : S.Feedable) (hU : R.Units toks wt) {mkR : List S.Tok → S.Rng}
    (hmk : ∀ r, mkR (toks r) = r) {bytes : S.Rng → List UInt8} {byte : S.Tok → UInt8}
    (hb : ∀ r, bytes r = (toks r).map byte) (p : UInt8 → Bool) :
    Resumable (takeUntilByte R bytes p) (Den.upTo (Den.cutAt fun t => p (byte t)) mkR) true true := by
  refine resumable_parserMacro hF (resumable_takeFn hF hU hmk (splits_cutAt _) fun r => ?_)
  have h := cutAt_findIdx (fun t => p (byte t)) (toks r)
  have : memchr p (bytes r) = (toks r).findIdx? fun t => p (byte t) := by
    rw [memchr, hb, List.findIdx?_map]; rfl
  rw [this, ← h, hb]
  cases Den.cutAt (fun t => p (byte t)) (toks r) with
  | none => simp
  | some y => rfl

/-- `take_until_bytes` -/
theorem resumable_takeUntilBytes (hF : S.Feedable) (hU : R.Units toks wt) {mkR : List S.Tok → S.Rng}
    (hmk : ∀ r, mkR (toks r) = r) {bytes : S.Rng → List UInt8} {byte : S.Tok → UInt8}
    (hb : ∀ r, bytes r = (toks r).map byte) (needle : List UInt8) :
    Resumable (takeUntilBytes R bytes needle) (Den.upTo (Den.cut byte needle) mkR) true true := by
  refine resumable_parserMacro hF (resumable_takeFn hF hU hmk (splits_cut _ needle) fun r => ?_)
  have h := cut_memslice byte needle (toks r)
  rw [hb, ← h]
  cases Den.cut byte needle (toks r) with
  | none => simp
  | some y => rfl

/-! ## `take_until_range` -/

section
variable [DecidableEq S.Tok] [DecidableEq S.Rng]

theorem takeUntilRangeLoop_step (hF : S.Feedable) (hU : R.Units toks wt) {mkR : List S.Tok → S.Rng}
    (hmk : ∀ r, mkR (toks r) = r) (r : S.Rng) (i0 : S.Input) (n : Nat) (fe : Option (S.SErr × Nat)) (pre : List S.Tok)
    (i : S.Input) (st : Nat) (hpre : S.Reads i0 pre i) (hn : S.size i + 1 ≤ n)
    (hsplit : Den.cut id (toks r) (S.left i0) = (Den.cut id (toks r) (S.left i)).map fun y => (pre ++ y.1, y.2))
    (hst : st ≤ pre.length)
    (hnone : fe = none → pre.length ≤ (S.left i0).length - ((toks r).length - 1))
    (hsome : ∀ e d, fe = some (e, d) → S.E.isEoiS e = true ∧ d ≤ (S.left i0).length - ((toks r).length - 1)) :
    Step (Den.upToSoft (Den.cut id (toks r)) mkR (S.isPartial i0) (S.left i0)) (When true (· = 0)) (When false (· = 0))
      (SearchRep (Den.cut id (toks r)) ((toks r).length - 1)) [] i0
      (takeUntilRangeLoop R r (S.checkpoint i0) n fe i st) := by
  have hS := hF.lawful
  induction n generalizing fe pre i st with
  | zero => omega
  | succ n ih =>
    have hl0 := hS.left_reads hpre
    have hlen0 : (S.left i0).length = pre.length + (S.left i).length := by rw [hl0, List.length_append]
    unfold takeUntilRangeLoop
    simp only
    rw [hU.lawful.len, weight_unit hU.unit]
    by_cases hle : (toks r).length ≤ (S.left i).length
    · obtain ⟨r', j, h1, h2, h3, h4⟩ := units_enough hS hU hle
      simp only [h1]
      by_cases hr : r' = r
      · subst hr
        rw [if_pos rfl, hU.lawful.distance (hpre.trans h2), weight_unit hU.unit, List.length_append, Nat.add_sub_cancel,
          hS.tryReset_eq ⟨_, hpre.trans h2⟩]
        obtain ⟨q, g1, g2⟩ := unconsRange_reads hU.lawful hpre
        rw [weight_unit hU.unit] at g2
        simp only [g2]
        have hcut : Den.cut id (toks r') (S.left i) = some ([], S.left i) := by
          have hp : toks r' <+: S.left i := by rw [h3]; exact List.take_prefix _ _
          cases hl : S.left i with
          | nil =>
            rw [hl] at hp
            rw [List.prefix_nil.1 hp]
            rfl
          | cons t ts =>
            rw [hl] at hp
            simp only [Den.cut, List.map_id]
            rw [if_pos hp]
        rw [hcut] at hsplit
        simp only [Den.upToSoft, hsplit, Option.map_some, List.append_nil]
        rw [show mkR pre = q by rw [← g1, hmk]]
        cases pre with
        | nil =>
          exact ⟨⟨false, rfl, fun _ => rfl⟩, ⟨_, hpre⟩, rfl, fun _ => by simpa using hst⟩
        | cons t ts =>
          exact ⟨⟨true, rfl, fun _ => rfl⟩, ⟨_, hpre⟩, rfl, fun _ => rfl⟩
      · rw [if_neg hr, hS.tryReset_eq ⟨_, h2⟩]
        have hnp : ¬ toks r <+: S.left i := by
          intro hp
          apply hr
          apply hU.lawful.inj
          rw [h3]
          obtain ⟨x, hx⟩ := hp
          rw [← hx, List.take_left]
        cases hl : S.left i with
        | nil =>
          exfalso
          rw [hl] at hnp hle
          exact hnp (by rw [List.length_eq_zero_iff.1 (Nat.le_zero.1 hle)]; exact List.prefix_rfl)
        | cons t ts =>
          obtain ⟨k, hu, hk⟩ := hS.uncons_of_left hl
          simp only [hu]
          rw [hl] at hnp
          have hcut : Den.cut id (toks r) (t :: ts) = (Den.cut id (toks r) ts).map fun x => (t :: x.1, x.2) := by
            simp only [Den.cut, List.map_id]
            rw [if_neg hnp]
          refine ih fe (pre ++ [t]) k st (hpre.trans (.cons hu (.nil k))) ?_ ?_ ?_ ?_ hsome
          · have := hS.size hu; omega
          · rw [hsplit, hl, hcut, hk]
            cases Den.cut id (toks r) ts <;> simp
          · rw [List.length_append]; omega
          · intro _
            rw [List.length_append, List.length_singleton]
            have := congrArg List.length hl
            simp only [List.length_cons] at this
            omega
    · obtain ⟨e, h1, h2⟩ := units_short hS hU (Nat.lt_of_not_le hle)
      simp only [h1]
      rw [hS.tryReset_eq (.refl i)]
      -- `d` is the distance that is stored
      have next : ∀ e' d, S.E.isEoiS e' = true → d ≤ (S.left i0).length - ((toks r).length - 1) →
          Step (Den.upToSoft (Den.cut id (toks r)) mkR (S.isPartial i0) (S.left i0)) (When true (· = 0))
            (When false (· = 0)) (SearchRep (Den.cut id (toks r)) ((toks r).length - 1)) [] i0
            (match S.uncons i with
            | (.ok _, l) => takeUntilRangeLoop R r (S.checkpoint i0) n (some (e', d)) l st
            | (.error _, l) => S.tryReset (S.checkpoint i0) l st fun o => ⟨S.wrapStreamError o e', o, d⟩) := by
        intro e' d he' hd
        cases hl : S.left i with
        | nil =>
          obtain ⟨e'', hu⟩ := hS.uncons_of_left_nil hl
          simp only [hu]
          rw [hS.tryReset_eq ⟨_, hpre⟩]
          rw [hl] at hle hsplit
          have hcut : Den.cut id (toks r) [] = none := by
            simp only [Den.cut]
            rw [if_neg]
            intro h0
            rw [h0] at hle
            exact hle (Nat.le_refl _)
          rw [hcut, Option.map_none] at hsplit
          simp only [Den.upToSoft, hsplit]
          exact short_step hF he' ⟨rfl, .inr ⟨hd, hsplit⟩⟩ (fun h => by cases h)
        | cons t ts =>
          obtain ⟨k, hu, hk⟩ := hS.uncons_of_left hl
          simp only [hu]
          have hnp : ¬ toks r <+: t :: ts := fun hp => hle (by rw [hl]; exact hp.length_le)
          have hcut : Den.cut id (toks r) (t :: ts) = (Den.cut id (toks r) ts).map fun x => (t :: x.1, x.2) := by
            simp only [Den.cut, List.map_id]
            rw [if_neg hnp]
          refine ih _ (pre ++ [t]) k st (hpre.trans (.cons hu (.nil k))) ?_ ?_ ?_ (fun h => by cases h) ?_
          · have := hS.size hu; omega
          · rw [hsplit, hl, hcut, hk]
            cases Den.cut id (toks r) ts <;> simp
          · rw [List.length_append]; omega
          · intro e₁ d₁ h; cases h; exact ⟨he', hd⟩
      cases fe with
      | none =>
        refine next e _ h2 ?_
        rw [hU.lawful.distance hpre, weight_unit hU.unit]
        exact hnone rfl
      | some x => obtain ⟨g1, g2⟩ := hsome x.1 x.2 rfl; exact next x.1 x.2 g1 g2

/-- `take_until_range` -/
theorem resumable_takeUntilRange (hF : S.Feedable) (hU : R.Units toks wt) {mkR : List S.Tok → S.Rng}
    (hmk : ∀ r, mkR (toks r) = r) (r : S.Rng) :
    Resumable (takeUntilRange R r) (Den.upToSoft (Den.cut id (toks r)) mkR) true false := by
  have hS := hF.lawful
  have hsp := splits_cut (T := S.Tok) id (toks r)
  have step : ∀ (m : Bool) (i : S.Input) (s : Nat) (u : List S.Tok),
      SearchRep (Den.cut id (toks r)) ((toks r).length - 1) s [] u → u <+: S.left i →
      Step (Den.upToSoft (Den.cut id (toks r)) mkR (S.isPartial i) (S.left i)) (When true (· = 0)) (When false (· = 0))
        (SearchRep (Den.cut id (toks r)) ((toks r).length - 1)) [] i ((takeUntilRange R r).run m i s) := by
    rintro m i s u ⟨_, hr⟩ ⟨x, hx⟩
    have hs : s ≤ (S.left i).length - ((toks r).length - 1) := by
      rcases hr with rfl | ⟨hr, _⟩
      · exact Nat.zero_le _
      · rw [← hx, List.length_append]; omega
    obtain ⟨r₀, j, h1, h2, h3, h4⟩ := units_enough hS hU (i := i) (n := s) (by omega)
    have hsplit : Den.cut id (toks r) (S.left i) =
        (Den.cut id (toks r) (S.left j)).map fun y => (toks r₀ ++ y.1, y.2) := by
      rw [h4, h3]
      rcases hr with rfl | ⟨hr, hn⟩
      · simp
      · rw [← hx]; exact hsp.skip x hn hr
    have hrun : (takeUntilRange R r).run m i s = takeUntilRangeLoop R r (S.checkpoint i) (S.size j + 1) none j s := by
      simp only [takeUntilRange, Parser.ofMode, RangeOps.unconsRangeP, h1]
      by_cases h0 : s = 0 <;> simp [h0]
    rw [hrun]
    have hlen : (toks r₀).length = s := by rw [h3, List.length_take]; omega
    exact takeUntilRangeLoop_step hF hU hmk r i _ none (toks r₀) j s h2 (Nat.le_refl _) hsplit (by omega)
      (fun _ => by omega) (fun _ _ h => by cases h)
  refine ⟨fun _ s => s = 0, fun _ => SearchRep (Den.cut id (toks r)) ((toks r).length - 1), fun live =>
    ⟨.upToSoft hsp mkR, rfl, fun h => ⟨rfl, .inl h⟩, fun h hw => absurd h.1 hw, committed_ofMode hS _ _ _ _ _,
      fun i _ h => step true i _ [] ⟨rfl, .inl h⟩ List.nil_prefix, ?_, ?_⟩, fun _ h => h, fun _ _ _ h => h⟩
  · intro s m i _ _ h
    simp only [Den.upToSoft, Den.short] at h
    split at h
    · cases h
    · split at h <;> cases h
  · rintro s w u i _ ⟨rfl, hr⟩ hu
    exact step false i s u ⟨rfl, hr⟩ hu

end

end Verif
