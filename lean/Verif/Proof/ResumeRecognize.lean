import Verif.Proof.ResumeRange

/-!
# Resuming `recognize`
-/

namespace Verif

variable {S : Strm} {σ τ α β : Type} {R : RangeOps S} {toks : S.Rng → List S.Tok} {wt : S.Tok → Nat}

/-- The tokens consumed. -/
theorem take_consumed {T : Type} (x r : List T) : (x ++ r).take ((x ++ r).length - r.length) = x := by
  rw [List.length_append, Nat.add_sub_cancel, List.take_left]

theorem Den.Good.consumed {T : Type} {D : Den T α} (h : D.Good) (mk : List T → β) : (D.consumed mk).Good where
  stable a x b hp := by
    simp only [Den.consumed] at *
    cases hd : D true a with
    | ok c v r =>
      obtain ⟨y, rfl, _⟩ := h.read hd
      rw [h.stable_ok hd b x]
      simp only [Outcome.extend]
      rw [List.append_assoc, take_consumed, take_consumed]
    | pend => rw [hd] at hp; simp at hp
    | soft => rw [h.stable_soft hd b x]; rfl
    | hard => rw [h.stable a x b (by rw [hd]; simp), hd]; rfl
  complete a := by
    simp only [Den.consumed]
    cases hd : D false a with
    | ok c v r => simp
    | pend => exact absurd hd (h.complete a)
    | soft => simp
    | hard => simp
  read {b a c v r} e := by
    simp only [Den.consumed] at e
    cases hd : D b a with
    | ok c v r => rw [hd] at e; cases e; exact h.read hd
    | pend => rw [hd] at e; cases e
    | soft => rw [hd] at e; cases e
    | hard => rw [hd] at e; cases e

theorem consumed_firm {T : Type} {D : Den T α} {mk : List T → β} {b : Bool} {a : List T} (h : (D b a).Firm) :
    (D.consumed mk b a).Firm := by
  obtain ⟨h1, h2⟩ := h
  simp only [Den.consumed]
  cases hd : D b a with
  | ok c v r =>
    cases c with
    | false => exact absurd hd (h2 v r)
    | true => exact ⟨by simp, by simp⟩
  | pend => exact ⟨by simp, by simp⟩
  | soft => exact absurd hd h1
  | hard => exact ⟨by simp, by simp⟩

/-- The states of `recognize_with_value`. -/
abbrev RecognizeRep (wt : S.Tok → Nat) (Rep : σ → List S.Tok → List S.Tok → Prop) (s : Nat × σ) (w u : List S.Tok) : Prop :=
  w = [] ∧ ∃ wc uc, u = wc ++ uc ∧ s.1 = weight wt wc ∧ Rep s.2 wc uc

theorem resumes_recognizeWithValue (hF : S.Feedable) {live : Bool} (hR : R.Lawful toks wt) {mkR : List S.Tok → S.Rng}
    (hmk : ∀ r, mkR (toks r) = r) {p : Parser S σ α} {D : Den S.Tok α} {k r : Bool} {Ready : σ → Prop}
    {Rep : σ → List S.Tok → List S.Tok → Prop} (h : Resumes live p D k r Ready Rep) :
    Resumes live (recognizeWithValue R p) (D.consumed mkR) k r (fun s => s.1 = 0 ∧ Ready s.2) (RecognizeRep wt Rep) := by
  have hS := hF.lawful
  -- what follows the child's call
  have body : ∀ (m : Bool) (wc : List S.Tok) (i j : S.Input) (d : Nat) (s : σ), S.Reads i wc j → d = weight wt wc →
      Step (D (S.isPartial j) (wc ++ S.left j)) (When k Ready) (When r Ready) Rep wc j (p.run m j s) →
      Step (D.consumed mkR (S.isPartial j) (wc ++ S.left j)) (When k fun s => s.1 = 0 ∧ Ready s.2)
        (When r fun s => s.1 = 0 ∧ Ready s.2) (RecognizeRep wt Rep) [] i
        (match (p.run m j s).res with
        | .commitOk x => retake R (S.checkpoint i) (d, (p.run m j s).st) (p.run m j s).inp fun r => (r, x)
        | .peekOk x => retake R (S.checkpoint i) (d, (p.run m j s).st) (p.run m j s).inp fun r => (r, x)
        | .peekErr e => ⟨.peekErr e, (p.run m j s).inp, (d, (p.run m j s).st)⟩
        | .commitErr e =>
          S.tryReset (S.checkpoint i) (p.run m j s).inp (R.distance (p.run m j s).inp (S.checkpoint i), (p.run m j s).st)
            fun l => ⟨.commitErr e, l, (R.distance (p.run m j s).inp (S.checkpoint i), (p.run m j s).st)⟩
        | .abort a => ⟨.abort a, (p.run m j s).inp, (d, (p.run m j s).st)⟩) := by
    intro m wc i j d s hij hd hs
    revert hs
    generalize p.run m j s = o
    intro hs
    simp only [Den.consumed]
    cases hD : D (S.isPartial j) (wc ++ S.left j) with
    | ok c v z =>
      rw [hD] at hs
      obtain ⟨⟨c', h1, h2⟩, ⟨x, h3⟩, h4, h5⟩ := hs
      have h6 := hS.left_reads h3
      have h7 : wc ++ S.left j = (wc ++ x) ++ z := by rw [h6, h4, List.append_assoc]
      obtain ⟨rg, hr1, hr2⟩ := retake_eq hS hR (hij.trans h3) (d, o.st) fun r => (r, v)
      rw [h7] at hD ⊢
      simp only
      have hc := h.good.flag hD
      have e : mkR ((wc ++ x ++ z).take ((wc ++ x ++ z).length - z.length)) = rg := by
        rw [take_consumed, ← hr1, hmk]
      rw [e]
      have hres : (match o.res with
        | .commitOk x => retake R (S.checkpoint i) (d, o.st) o.inp fun r => (r, x)
        | .peekOk x => retake R (S.checkpoint i) (d, o.st) o.inp fun r => (r, x)
        | .peekErr e => (⟨.peekErr e, o.inp, (d, o.st)⟩ : Out S (Nat × σ) (S.Rng × α))
        | .commitErr e =>
          S.tryReset (S.checkpoint i) o.inp (R.distance o.inp (S.checkpoint i), o.st)
            fun l => ⟨.commitErr e, l, (R.distance o.inp (S.checkpoint i), o.st)⟩
        | .abort a => ⟨.abort a, o.inp, (d, o.st)⟩) = ⟨okRes c (rg, v), o.inp, (0, o.st)⟩ := by
        have : (retake R (S.checkpoint i) (d, o.st) o.inp fun r => (r, v)) = ⟨okRes c (rg, v), o.inp, (0, o.st)⟩ := by
          rw [hr2, hc]
          by_cases hz : wc ++ x = []
          · rw [hz]; rfl
          · rw [if_neg hz]
            have : (wc ++ x).isEmpty = false := by simpa using hz
            rw [this]; rfl
        rw [h1]
        cases c' <;> exact this
      rw [hres]
      exact ⟨⟨c, rfl, fun _ => rfl⟩, ⟨_, hij.trans h3⟩, h4, fun hk => ⟨rfl, h5 hk⟩⟩
    | pend =>
      rw [hD] at hs
      obtain ⟨e, x, h1, h2, h3, h4⟩ := hs
      have h6 := hS.left_reads h3
      simp only [h1]
      rw [hS.tryReset_eq ⟨_, hij.trans h3⟩, hR.distance (hij.trans h3)]
      refine ⟨e, [], rfl, h2, .nil i, rfl, wc ++ x, S.left o.inp, ?_, rfl, h4⟩
      rw [hS.left_reads (hij.trans h3)]
    | soft =>
      rw [hD] at hs
      obtain ⟨h1, ⟨e, h2⟩, h3, h4⟩ := hs
      subst h1
      simp only [h2]
      exact ⟨rfl, ⟨e, rfl⟩, Strm.Reach.trans ⟨_, hij⟩ h3, fun hr => ⟨hd, h4 hr⟩⟩
    | hard => trivial
  constructor
  · exact h.good.consumed _
  · exact ⟨rfl, h.ready_init⟩
  · rintro ⟨d, s⟩ ⟨h1, h2⟩
    exact ⟨rfl, [], [], rfl, h1, h.ready_rep h2⟩
  · intro s w u hr hw
    exact absurd hr.1 hw
  · exact committed_ofMode hS _ _ _ _ _
  · rintro ⟨d, s⟩ i hL ⟨h1, h2⟩
    have := body true [] i i d s (.nil i) h1 (h.first i hL h2)
    simp only [recognizeWithValue, Parser.ofMode, if_true]
    cases hr : (p.run true i s).res <;> rw [hr] at this <;> exact this
  · rintro ⟨d, s⟩ m i hL ⟨h1, h2⟩ hh
    simp only at h1
    subst h1
    simp only [Den.consumed] at hh
    have hd : D (S.isPartial i) (S.left i) = .hard := by
      revert hh
      cases D (S.isPartial i) (S.left i) <;> simp
    obtain ⟨e, he⟩ := h.first_hard m i hL h2 hd
    obtain ⟨r₀, _, h0⟩ := unconsRange_reads hR (.nil i)
    simp only [weight, List.map_nil, List.sum_nil] at h0
    simp only [recognizeWithValue, Parser.ofMode, h0, he, Strm.tryReset, ite_self]
    split
    · exact ⟨_, rfl⟩
    · exact ⟨_, rfl⟩
  · rintro ⟨d, s⟩ w u i hL ⟨rfl, wc, uc, rfl, hd, hr⟩ hu
    obtain ⟨z, hz⟩ := hu
    rw [List.append_assoc] at hz
    obtain ⟨j, hj, hjl⟩ := hS.reads_of_left hz.symm
    obtain ⟨r₀, _, h0⟩ := unconsRange_reads hR hj
    have hpj := hS.reads_isPartial hj
    have := body false wc i j d s hj hd (h.resume j (hpj.trans hL) hr ⟨z, hjl.symm⟩)
    rw [hpj, ← hS.left_reads hj] at this
    simp only at hd
    rw [← hd] at h0
    simp only [recognizeWithValue, Parser.ofMode, Bool.false_eq_true, if_false, h0, List.nil_append]
    cases hr : (p.run false j s).res <;> rw [hr] at this <;> exact this

theorem resumable_recognizeWithValue (hF : S.Feedable) (hR : R.Lawful toks wt) {mkR : List S.Tok → S.Rng}
    (hmk : ∀ r, mkR (toks r) = r) {p : Parser S σ α} {D : Den S.Tok α} {k r : Bool} (h : Resumable p D k r) :
    Resumable (recognizeWithValue R p) (D.consumed mkR) k r := by
  obtain ⟨Ready, Rep, h, m1, m2⟩ := h
  refine ⟨_, _, fun live => resumes_recognizeWithValue hF hR hmk (h live), fun s hs => ⟨hs.1, m1 _ hs.2⟩, ?_⟩
  rintro s w u ⟨h1, wc, uc, h2, h3, h4⟩
  exact ⟨h1, wc, uc, h2, h3, m2 _ _ _ h4⟩

theorem resumable_recognizeRange (hF : S.Feedable) (hR : R.Lawful toks wt) {mkR : List S.Tok → S.Rng}
    (hmk : ∀ r, mkR (toks r) = r) {p : Parser S σ α} {D : Den S.Tok α} {k r : Bool} (h : Resumable p D k r) :
    Resumable (recognizeRange R p) ((D.consumed mkR).map Prod.fst) k r :=
  resumable_parserMacro hF (resumable_map hF (resumable_recognizeWithValue hF hR hmk h) _)

/-! ## Into a collection of tokens -/

theorem replay_ends (hS : S.Lawful) (last : S.Pos) (n : Nat) (i : S.Input) (els : List S.Tok) (hn : S.size i < n) :
    (replay S last n i els).1 ≠ .diverged := by
  induction n generalizing i els with
  | zero => omega
  | succ n ih =>
    simp only [replay]
    split
    · simp
    · cases hu : S.uncons i with
      | mk r j =>
        cases r with
        | ok t => exact ih j _ (by have := hS.size hu; omega)
        | error e => simp

theorem resumes_recognize (hF : S.Feedable) {live : Bool} {p : Parser S σ α} {D : Den S.Tok α} {k r : Bool}
    {Ready : σ → Prop} {Rep : σ → List S.Tok → List S.Tok → Prop} (h : Resumes live p D k r Ready Rep) :
    Resumes live (recognize p) ((D.consumed id).map Prod.fst) k r (fun s => s.1 = [] ∧ Ready s.2)
      (fun s w u => s.1 = w ∧ Rep s.2 w u) := by
  have hS := hF.lawful
  have hp : S.Positioned := by
    intro i ts j hr he
    cases ts with
    | nil => rfl
    | cons t ts => exact absurd he.symm (hF.advances hr)
  have body : ∀ (m : Bool) (w : List S.Tok) (i : S.Input) (s : σ),
      Step (D (S.isPartial i) (w ++ S.left i)) (When k Ready) (When r Ready) Rep w i (p.run m i s) →
      Step ((D.consumed id).map Prod.fst (S.isPartial i) (w ++ S.left i)) (When k fun s => s.1 = [] ∧ Ready s.2)
        (When r fun s => s.1 = [] ∧ Ready s.2) (fun s w u => s.1 = w ∧ Rep s.2 w u) w i ((recognize p).run m i (w, s)) := by
    intro m w i s hs
    simp only [recognize, Parser.ofMode]
    revert hs
    generalize p.run m i s = o
    obtain ⟨res, j, s'⟩ := o
    intro hs
    have hrep : ∀ x, S.Reads i x j → replay S (S.position j) (S.size i + 1) i w = (.done, j, w ++ x) := by
      intro x hx
      have := hS.reads_size hx
      exact replay_eq hS hp hx _ (by omega) w
    simp only [Den.map, Den.consumed]
    cases hD : D (S.isPartial i) (w ++ S.left i) with
    | ok c v z =>
      rw [hD] at hs
      obtain ⟨⟨c', h1, h2⟩, ⟨x, h3⟩, h4, h5⟩ := hs
      simp only at h1 h3 h4 h5
      have h6 := hS.left_reads h3
      have h7 : w ++ S.left i = (w ++ x) ++ z := by rw [h6, h4, List.append_assoc]
      rw [h7]
      simp only
      rw [take_consumed]
      subst h1
      refine ⟨⟨c', ?_, h2⟩, ?_⟩
      · cases c' <;> simp only [okRes, Bool.false_eq_true, if_false, if_true] <;> rw [hS.tryReset_eq ⟨x, h3⟩, hrep x h3] <;> rfl
      · cases c' <;> simp only [okRes, Bool.false_eq_true, if_false, if_true] <;> rw [hS.tryReset_eq ⟨x, h3⟩, hrep x h3] <;>
          exact ⟨⟨x, h3⟩, h4, fun hk => ⟨rfl, h5 hk⟩⟩
    | pend =>
      rw [hD] at hs
      obtain ⟨e, x, h1, h2, h3, h4⟩ := hs
      simp only at h1 h3 h4
      subst h1
      simp only
      rw [hS.tryReset_eq ⟨x, h3⟩, hrep x h3]
      exact ⟨e, x, rfl, h2, h3, rfl, h4⟩
    | soft =>
      rw [hD] at hs
      obtain ⟨h1, ⟨e, h2⟩, h3, h4⟩ := hs
      simp only at h2 h3 h4
      subst h2
      exact ⟨h1, ⟨e, rfl⟩, h3, fun hr => ⟨h1, h4 hr⟩⟩
    | hard => trivial
  constructor
  · exact (h.good.consumed _).map _
  · exact ⟨rfl, h.ready_init⟩
  · rintro s ⟨h1, h2⟩
    exact ⟨h1, h.ready_rep h2⟩
  · intro s w u hr hw b x
    exact (consumed_firm (h.firm hr.2 hw b x)).map _
  · exact committed_ofMode hS _ _ _ _ _
  · rintro ⟨els, s⟩ i hL ⟨h1, h2⟩
    simp only at h1
    subst h1
    exact body true [] i s (h.first i hL h2)
  · rintro ⟨els, s⟩ m i hL ⟨h1, h2⟩ hh
    simp only [Den.map, Den.consumed] at hh
    have hd : D (S.isPartial i) (S.left i) = .hard := by
      revert hh
      cases D (S.isPartial i) (S.left i) <;> simp [Outcome.map]
    obtain ⟨e, he⟩ := h.first_hard m i hL h2 hd
    simp only [recognize, Parser.ofMode, he, Strm.tryReset]
    split
    · exact ⟨_, rfl⟩
    · have := replay_ends hS (S.position (p.run m i s).inp) (S.size (S.reset (S.checkpoint i) (p.run m i s).inp).2 + 1)
        (S.reset (S.checkpoint i) (p.run m i s).inp).2 els (by omega)
      rename_i j hj
      rw [hj] at this
      revert this
      generalize replay S _ _ _ _ = x
      obtain ⟨x, a, b⟩ := x
      cases x <;> simp
  · rintro ⟨els, s⟩ w u i hL ⟨h1, h2⟩ hu
    simp only at h1
    subst h1
    exact body false els i s (h.resume i hL h2 hu)

theorem resumable_recognize (hF : S.Feedable) {p : Parser S σ α} {D : Den S.Tok α} {k r : Bool} (h : Resumable p D k r) :
    Resumable (recognize p) ((D.consumed id).map Prod.fst) k r := by
  obtain ⟨Ready, Rep, h, m1, m2⟩ := h
  exact ⟨_, _, fun live => resumes_recognize hF (h live), fun s hs => ⟨hs.1, m1 _ hs.2⟩,
    fun s w u hs => ⟨hs.1, m2 _ _ _ hs.2⟩⟩

end Verif
